import Verif.Props.Options
import Verif.Props.LpMeaning

/-! C49 end to end: the features with `use_energy` in terms of the samples. -/

set_option linter.unusedSectionVars false

namespace Spafe
namespace Props
open Model XF Spec

/-- The power of frame `i` in the bins `0 … nfft/2`. -/
noncomputable def frameEnergy (a : Args) (coeff : ℝ) (sig : List ℝ) (l s i : ℕ) : ℝ :=
  ∑ k ∈ Finset.range (a.nfft / 2 + 1),
    framePower (windowWeight a.win.winType l) (emphasised a.preEmph coeff sig) l s a.nfft i k

/-- The logarithm of an energy, of machine epsilon when there is none. -/
noncomputable def energyLog (e : ℝ) : ℝ := Real.log (if e = 0 then 1 / 2 ^ 52 else e)

theorem halfEnergy_frame {a : Args} {fb : List (List ℝ)} {sig : List ℝ} {l s : ℕ} (h : Setup a fb sig l s) {i : ℕ}
    (hi : i < (sig.length - l) / s + 1) (coeff : ℝ) :
    halfEnergy a.nfft (List.zipWith (· * ·) ((List.range l).map (windowWeight a.win.winType l))
        (((emph a coeff sig).drop (i * s)).take l)) = frameEnergy a coeff sig l s i := by
  unfold halfEnergy frameEnergy framePower
  rw [Finset.sum_div]
  apply Finset.sum_congr rfl
  intro k _
  rw [dft_frame (W := windowWeight a.win.winType l) (Y := emphasised a.preEmph coeff sig) (by simp) (h.inside hi coeff)
    (fun j hj => getD_map_range_lt _ _ hj) (fun t ht => emph_getD' a coeff sig (by simpa using ht))]

/-- C49, all features: whenever the call succeeds, the first entry of row `i` is the log energy of the samples under
window `i`. -/
theorem C49_first_column (a : Args) (f : Feature) (coeff : ℝ) (hf : (f, coeff) ∈ energyCoeffs a)
    (hu : a.useEnergy = true) (hl : a.lifter = none) (hn : a.normalize = none)
    (fb : List (List ℝ)) (sig : List ℝ) (l s : ℕ) (hS : Setup a fb sig l s) (m : XMat) (h : f a sig = .ok m) :
    m.length = (sig.length - l) / s + 1 ∧ ∀ i < (sig.length - l) / s + 1,
      (m.getD i []).getD 0 0 = fin (energyLog (frameEnergy a coeff sig l s i)) := by
  obtain ⟨W, hW, h1, h2⟩ := C49_use_energy a f coeff hf hu hl hn sig m h
  rw [hS.front coeff] at hW
  injection hW with hW
  subst hW
  rw [List.length_map, List.length_range] at h1
  refine ⟨h1, fun i hi => ?_⟩
  rw [h2 i (by omega), getD_map_range_lt _ _ hi, halfEnergy_frame hS hi coeff]
  rfl

/-- C49, complete: with `use_energy` the rows of the features of C101 are the log energy of the frame followed by
coefficients `1, 2, …` of the DCT of the compressed band energies. -/
theorem C49_meaning (a : Args) (f : Feature) (coeff : ℝ) (G : ℝ → ℝ) (hf : (f, coeff, G) ∈ compressions a)
    (fb : List (List ℝ)) (sig : List ℝ) (l s : ℕ) (h : Setup a fb sig l s) (hc1 : 1 ≤ a.numCeps)
    (hd : a.dctType = 2) (hu : a.useEnergy = true) (hl : a.lifter = none) (hn : a.normalize = none) :
    ∃ m, f a sig = .ok m ∧ HasShape m ((sig.length - l) / s + 1) (min a.numCeps fb.length) ∧
      ∀ i k, i < (sig.length - l) / s + 1 → k < min a.numCeps fb.length → (m.getD i []).getD k nan =
        if k = 0 then fin (energyLog (frameEnergy a coeff sig l s i))
        else fin (dctII fb.length (fun n => G (bandEnergy fb (windowWeight a.win.winType l)
          (emphasised a.preEmph coeff sig) l s a.nfft i n)) k) := by
  have hcc : ¬ a.nfilts < a.numCeps := not_lt.mpr h.ceps
  have hS' : Setup { a with useEnergy := false } fb sig l s := ⟨h.1, h.2, h.3, h.4, h.5, h.6, h.7, h.8, h.9, h.10, h.11, h.12, h.13⟩
  have hf' : (f, coeff, G) ∈ compressions { a with useEnergy := false } := hf
  obtain ⟨m, h1, h2, h3⟩ := C101_meaning { a with useEnergy := false } f coeff G hf' fb sig l s hS' hd rfl hl hn
  have hfe : (f, coeff) ∈ energyCoeffs a ∧ f ∈ cepstralFeatures := by
    simp only [compressions, List.mem_cons, Prod.mk.injEq, List.not_mem_nil, or_false] at hf
    rcases hf with ⟨rfl, rfl, -⟩ | ⟨rfl, rfl, -⟩ | ⟨rfl, rfl, -⟩ | ⟨rfl, rfl, -⟩ | ⟨rfl, rfl, -⟩ | ⟨rfl, rfl, -⟩ <;>
      exact ⟨by simp [energyCoeffs], by simp [cepstralFeatures]⟩
  obtain ⟨hfe, hf8⟩ := hfe
  have hok : ∃ m', f a sig = .ok m' := by
    have key : ∀ (coeff : ℝ) (g : XF ℝ → XF ℝ),
        (f a sig = if a.nfilts < a.numCeps then .error (.parameterError ErrorMsgs.nfilts)
          else featCore a coeff (finMat fb) g sig) → ∃ m', f a sig = .ok m' := by
      intro coeff g he
      rw [he, if_neg hcc]
      refine ⟨_, (featCore_ok_iff' hn ..).mpr ⟨_, h.front coeff, h.nfft, finMat_cols h.cols, ?_, rfl⟩⟩
      have hr := h.rows
      have hlen : (finMat fb).length = fb.length := by simp [finMat]
      rw [TailOk, hd, hu, hl, hlen]
      exact ⟨by norm_num, by norm_num, hr, by norm_num, fun _ => by omega, by simp⟩
    have hb := h.bank
    simp only [compressions, List.mem_cons, Prod.mk.injEq, List.not_mem_nil, or_false] at hf
    rcases hf with ⟨rfl, -⟩ | ⟨rfl, -⟩ | ⟨rfl, -⟩ | ⟨rfl, -⟩ | ⟨rfl, -⟩ | ⟨rfl, -⟩
    · exact key _ _ (by rw [mfcc_eq, melBankOf, hb]; rfl)
    · exact key _ _ (by rw [imfcc_eq, hb]; rfl)
    · exact key _ _ (by rw [ngcc_eq, gammaBankOf, hb]; rfl)
    · exact key _ _ (by rw [lfcc_eq, hb]; rfl)
    · exact key _ _ (by rw [bfcc_eq, hb]; rfl)
    · exact key _ _ (by rw [gfcc_eq, gammaBankOf, hb]; rfl)
  obtain ⟨m', hm'⟩ := hok
  have hae : { a with useEnergy := true } = a := by rw [← hu]
  obtain ⟨m2, g1, g2, g3⟩ := C103_energy_column_only f hf8 a hl hn sig m' (by rw [hae]; exact hm')
  rw [h1] at g1
  injection g1 with g1
  subst g1
  obtain ⟨e1, e2⟩ := C49_first_column a f coeff hfe hu hl hn fb sig l s h m' hm'
  have hrow : ∀ i < (sig.length - l) / s + 1, (m'.getD i []).length = min a.numCeps fb.length := by
    intro i hi
    have hi' : i < m.length := by rw [h2.1]; exact hi
    rw [(g3 i hi').1]
    exact h2.2 _ (getD_mem _ hi')
  refine ⟨m', hm', ⟨e1, ?_⟩, fun i k hi hk => ?_⟩
  · intro r hr
    obtain ⟨i, hi, rfl⟩ := (mem_iff_getD [] _).mp hr
    exact hrow i (by omega)
  · have hi' : i < m.length := by rw [h2.1]; exact hi
    split_ifs with h0
    · subst h0
      rw [← e2 i hi]
      have hk' : 0 < (m'.getD i []).length := by rw [hrow i hi]; exact hk
      rw [List.getD_eq_getElem _ _ hk', List.getD_eq_getElem _ _ hk']
    · rw [(g3 i hi').2 k h0]
      exact h3 i k hi hk

example : ∃ m, mfcc { demo2 with useEnergy := true } [5, 1, 4] = .ok m ∧ HasShape m 2 2 ∧
    (m.getD 0 []).getD 0 nan = fin (energyLog (frameEnergy { demo2 with useEnergy := true } 0.97 [5, 1, 4] 2 1 0)) := by
  obtain ⟨m, h1, h2, h3⟩ := C49_meaning { demo2 with useEnergy := true } mfcc 0.97 logFloor
    (by simp [compressions, demo2]) [[1, 2], [3, 1]] [5, 1, 4] 2 1
    ⟨demo2_setup.1, demo2_setup.2, demo2_setup.3, demo2_setup.4, demo2_setup.5, demo2_setup.6, demo2_setup.7,
      demo2_setup.8, demo2_setup.9, demo2_setup.10, demo2_setup.11, demo2_setup.12, demo2_setup.13⟩ (by simp [demo2]) rfl rfl rfl rfl
  exact ⟨m, h1, h2, h3 0 0 (by norm_num) (by simp [demo2])⟩

end Props
end Spafe
