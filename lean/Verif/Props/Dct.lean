import Verif.Lemmas.Dct
import Verif.Props.Options

/-! C105: `dct_type`. -/

set_option linter.unusedSectionVars false

namespace Spafe
namespace Props
open Model XF Spec

theorem dctInverse_of {N t t' : ℕ} (h : (t, t') ∈ [(1, 1), (2, 3), (3, 2), (4, 4)]) (h1 : t = 1 → 2 ≤ N) :
    DctInverse N t t' := by
  simp only [List.mem_cons, Prod.mk.injEq, List.not_mem_nil, or_false] at h
  rcases h with ⟨rfl, rfl⟩ | ⟨rfl, rfl⟩ | ⟨rfl, rfl⟩ | ⟨rfl, rfl⟩
  · exact .one _ (h1 rfl)
  · exact .two _
  · exact .three _
  · exact .four _

/-- C105: types 1 and 4 undo themselves, types 2 and 3 undo each other. -/
theorem C105_dct_inverse (t t' : ℕ) (h : (t, t') ∈ [(1, 1), (2, 3), (3, 2), (4, 4)]) (x : List ℝ)
    (h1 : t = 1 → 2 ≤ x.length) : Np.dctRow t' (Np.dctRow t (x.map fin)) = x.map fin := by
  have hI := dctInverse_of (N := x.length) h h1
  rw [dctRow_fin, dctRow_fin]
  congr 1
  simp only [List.length_map, List.length_range]
  apply ext_getD 0 (by simp)
  intro n hn
  have hn : n < x.length := by simpa using hn
  rw [getD_map_range_lt _ _ hn, ← hI.inverse (fun n => x.getD n 0) hn]
  apply Finset.sum_congr rfl
  intro k hk
  rw [getD_map_range_lt _ _ (Finset.mem_range.mp hk)]

/-- C105: every type preserves the sum of squares. -/
theorem C105_dct_isometry (t : ℕ) (h : 1 ≤ t ∧ t ≤ 4) (x : List ℝ) (h1 : t = 1 → 2 ≤ x.length) :
    ∃ y : List ℝ, Np.dctRow t (x.map fin) = y.map fin ∧ y.length = x.length ∧
      (y.map (· ^ 2)).sum = (x.map (· ^ 2)).sum := by
  obtain ⟨t', ht⟩ : ∃ t', (t, t') ∈ [(1, 1), (2, 3), (3, 2), (4, 4)] := by
    rcases h with ⟨ha, hb⟩
    interval_cases t
    exacts [⟨1, by simp⟩, ⟨3, by simp⟩, ⟨2, by simp⟩, ⟨4, by simp⟩]
  have hI := (dctInverse_of (N := x.length) ht h1).isometry (fun n => x.getD n 0)
  refine ⟨_, dctRow_fin t x, by simp, ?_⟩
  rw [List.map_map, sum_map_range, sum_eq_sum_getD, List.length_map]
  refine Eq.trans ?_ (hI.trans ?_)
  · rfl
  · apply Finset.sum_congr rfl
    intro n hn
    rw [getD_map_lt _ x 0 _ (Finset.mem_range.mp hn)]

/-- The rows before the truncation, for every type. -/
theorem featCore_rows {a : Args} {fb : List (List ℝ)} {sig : List ℝ} {l s : ℕ} (h : Setup a fb sig l s)
    (hd : 1 ≤ a.dctType ∧ a.dctType ≤ 4) (hd1 : a.dctType = 1 → 2 ≤ fb.length)
    (hu : a.useEnergy = false) (hl : a.lifter = none) (hn : a.normalize = none) (coeff : ℝ)
    (g : XF ℝ → XF ℝ) (G : ℝ → ℝ) (hg : ∀ i n, i < (sig.length - l) / s + 1 → n < fb.length →
      g (fin (energyOf a coeff fb sig l s i n)) = fin (G (energyOf a coeff fb sig l s i n))) :
    featCore a coeff (finMat fb) g sig = .ok ((List.range ((sig.length - l) / s + 1)).map fun (i : ℕ) =>
      (Np.dctRow a.dctType (((List.range fb.length).map fun (n : ℕ) =>
        G (energyOf a coeff fb sig l s i n)).map fin)).take a.numCeps) := by
  rw [featCore_ok_iff' hn]
  refine ⟨_, h.front coeff, h.nfft, finMat_cols h.cols, ?_, ?_⟩
  · have hr := h.rows
    have hlen : (finMat fb).length = fb.length := by simp [finMat]
    rw [TailOk, hu, hl, hlen]
    refine ⟨hd.1, hd.2, hr, hd1, by simp, by simp⟩
  · rw [List.map_map]
    apply List.map_congr_left
    intro i hi
    have hi := List.mem_range.mp hi
    simp only [Function.comp, featRow, tailRow, hu, hl, Bool.false_eq_true, if_false]
    rw [h.specRow hi coeff]
    congr 2
    simp only [List.map_map]
    apply List.map_congr_left
    intro n hn
    exact (hg i n hi (List.mem_range.mp hn)).symm

/-- C105 for the features: with as many cepstra as filters, the inverse type turns every row back into the compressed
band energies of its frame. -/
theorem C105_features_reversible (a : Args) (f : Feature) (coeff : ℝ) (G : ℝ → ℝ) (hf : (f, coeff, G) ∈ compressions a)
    (fb : List (List ℝ)) (sig : List ℝ) (l s : ℕ) (h : Setup a fb sig l s)
    (t' : ℕ) (ht : (a.dctType, t') ∈ [(1, 1), (2, 3), (3, 2), (4, 4)]) (h1 : a.dctType = 1 → 2 ≤ fb.length)
    (hu : a.useEnergy = false) (hl : a.lifter = none) (hn : a.normalize = none) (hc : a.numCeps = fb.length) :
    ∃ m, f a sig = .ok m ∧ m.length = (sig.length - l) / s + 1 ∧ ∀ i < m.length,
      Np.dctRow t' (m.getD i []) = (List.range fb.length).map fun (n : ℕ) =>
        fin (G (bandEnergy fb (windowWeight a.win.winType l) (emphasised a.preEmph coeff sig) l s a.nfft i n)) := by
  have hd : 1 ≤ a.dctType ∧ a.dctType ≤ 4 := by
    simp only [List.mem_cons, Prod.mk.injEq, List.not_mem_nil, or_false] at ht
    omega
  have hc' : ¬ a.nfilts < a.numCeps := not_lt.mpr h.ceps
  have hE : ∀ c i n, 0 ≤ energyOf a c fb sig l s i n := fun c i n => bandEnergy_nonneg h.nonneg ..
  have key : ∀ g : XF ℝ → XF ℝ, f a sig = featCore a coeff (finMat fb) g sig →
      (∀ e, 0 ≤ e → g (fin e) = fin (G e)) → _ := fun g h2 h3 => by
    have h4 := featCore_rows h hd h1 hu hl hn coeff g G fun i n _ _ => h3 _ (hE _ _ _)
    refine (⟨_, h2.trans h4, by simp, fun i hi => ?_⟩ : ∃ m, f a sig = .ok m ∧ m.length = (sig.length - l) / s + 1 ∧
      ∀ i < m.length, Np.dctRow t' (m.getD i []) = (List.range fb.length).map fun (n : ℕ) =>
        fin (G (energyOf a coeff fb sig l s i n)))
    rw [getD_map_range_lt _ _ (by simpa using hi), List.take_of_length_le (by rw [dctRow_length]; simp [hc]),
      C105_dct_inverse _ _ ht _ (by simpa using h1), List.map_map]
    rfl
  simp only [compressions, List.mem_cons, Prod.mk.injEq, List.not_mem_nil, or_false] at hf
  rcases hf with ⟨rfl, rfl, rfl⟩ | ⟨rfl, rfl, rfl⟩ | ⟨rfl, rfl, rfl⟩ | ⟨rfl, rfl, rfl⟩ | ⟨rfl, rfl, rfl⟩ | ⟨rfl, rfl, rfl⟩
  · exact key logG (by rw [mfcc_eq, if_neg hc', melBankOf, h.bank]; rfl) fun e he => logG_eq he
  · exact key logG (by rw [imfcc_eq, if_neg hc', h.bank]; rfl) fun e he => logG_eq he
  · exact key logG (by rw [ngcc_eq, if_neg hc', gammaBankOf, h.bank]; rfl) fun e he => logG_eq he
  · exact key logG (by rw [lfcc_eq, if_neg hc', h.bank]; rfl) fun e he => logG_eq he
  · refine key (fun v => logG (intensityPowerLaw v)) (by rw [bfcc_eq, if_neg hc', h.bank]; rfl) fun e he => ?_
    rw [intensity_eq he, logG_eq (by unfold intensity; positivity)]
  · refine key (fun v => XF.pow v (1 / 3)) (by rw [gfcc_eq, if_neg hc', gammaBankOf, h.bank]; rfl) fun e he => ?_
    exact XF.pow_nonneg' he (by norm_num)

/-- C105: any other `dct_type` is a `ValueError` for a call that succeeds with type 2. -/
theorem C105_other_types_rejected (f : Feature) (hf : f ∈ cepstralFeatures) (a : Args) (t : ℕ) (ht : t = 0 ∨ 4 < t)
    (sig : List ℝ) (m : XMat) (h : f { a with dctType := 2 } sig = .ok m) :
    f { a with dctType := t } sig = .error .valueError := by
  have htail : ∀ ft x, cepstralTail { a with dctType := t } ft x = .error .valueError := by
    intro ft x
    unfold cepstralTail Np.dct
    simp only
    rw [if_pos (by omega)]
    rfl
  have hcore : ∀ coeff fb g m, featCore { a with dctType := 2 } coeff fb g sig = .ok m →
      featCore { a with dctType := t } coeff fb g sig = .error .valueError := by
    intro coeff fb g m hm
    unfold featCore at hm ⊢
    obtain ⟨p, hp, -⟩ := (bind_ok_iff ..).mp hm
    rw [show spectrogram { a with dctType := t } coeff fb sig = .ok p from hp, ok_bind]
    exact htail _ _
  have key : ∀ (b : Py XMat) (coeff : ℝ) (g : XF ℝ → XF ℝ),
      (f { a with dctType := 2 } sig = if a.nfilts < a.numCeps then .error (.parameterError ErrorMsgs.nfilts)
        else (b >>= fun fb => featCore { a with dctType := 2 } coeff fb g sig)) →
      (f { a with dctType := t } sig = if a.nfilts < a.numCeps then .error (.parameterError ErrorMsgs.nfilts)
        else (b >>= fun fb => featCore { a with dctType := t } coeff fb g sig)) →
      f { a with dctType := t } sig = .error .valueError := by
    intro b coeff g h1 h2
    rw [h1] at h
    rw [h2]
    split_ifs at h ⊢
    obtain ⟨fb, hfb, h⟩ := (bind_ok_iff ..).mp h
    rw [hfb, ok_bind, hcore _ _ _ _ h]
  simp only [cepstralFeatures, List.mem_cons, List.not_mem_nil, or_false] at hf
  rcases hf with rfl | rfl | rfl | rfl | rfl | rfl | rfl | rfl
  · exact key _ _ _ (mfcc_eq ..) (mfcc_eq ..)
  · exact key _ _ _ (imfcc_eq ..) (imfcc_eq ..)
  · exact key _ _ _ (lfcc_eq ..) (lfcc_eq ..)
  · exact key _ _ _ (bfcc_eq ..) (bfcc_eq ..)
  · exact key _ _ _ (gfcc_eq ..) (gfcc_eq ..)
  · exact key _ _ _ (ngcc_eq ..) (ngcc_eq ..)
  · exact key _ _ _ (msrcc_eq ..) (msrcc_eq ..)
  · unfold psrcc at h ⊢
    split_ifs at h ⊢ with hc
    obtain ⟨fb, hfb, h⟩ := (bind_ok_iff ..).mp h
    obtain ⟨W, hW, h⟩ := (bind_ok_iff ..).mp h
    obtain ⟨ft, hft, h⟩ := (bind_ok_iff ..).mp h
    obtain ⟨x, hx, h⟩ := (bind_ok_iff ..).mp h
    rw [show melBankOf { a with dctType := t } = .ok fb from hfb, ok_bind,
      show frontEnd { a with dctType := t } a.preEmphCoeff sig = .ok W from hW, ok_bind,
      show absFft a.nfft W = .ok ft from hft, ok_bind]
    refine Eq.trans (congrArg (· >>= _) hx) ?_
    exact htail _ _

/-- Types 1, 3, 4 on a concrete call, and type 5. -/
example : (∀ t ∈ [1, 3, 4], ∃ m, gfcc { demo2 with dctType := t } [5, 1, 4] = .ok m ∧ m.length = 2) ∧
    gfcc { demo2 with dctType := 5 } [5, 1, 4] = .error .valueError := by
  have hs : ∀ t, Setup { demo2 with dctType := t } [[1, 2], [3, 1]] [5, 1, 4] 2 1 := fun t =>
    ⟨demo2_setup.bank, demo2_setup.cols, demo2_setup.nonneg, demo2_setup.rows, demo2_setup.ceps, demo2_setup.nfft,
      demo2_setup.window, demo2_setup.hopLe, demo2_setup.len, demo2_setup.hop, demo2_setup.pos, demo2_setup.long,
      demo2_setup.samples⟩
  have key : ∀ t t', (t, t') ∈ [(1, 1), (2, 3), (3, 2), (4, 4)] →
      ∃ m, gfcc { demo2 with dctType := t } [5, 1, 4] = .ok m ∧ m.length = 2 := by
    intro t t' ht
    obtain ⟨m, h1, h2, -⟩ := C105_features_reversible { demo2 with dctType := t } gfcc 0.97 (fun e => e ^ (1 / 3 : ℝ))
      (by simp [compressions]) _ _ 2 1 (hs t) t' ht (by simp) rfl rfl rfl rfl
    exact ⟨m, h1, h2⟩
  refine ⟨?_, ?_⟩
  · intro t ht
    simp only [List.mem_cons, List.not_mem_nil, or_false] at ht
    rcases ht with rfl | rfl | rfl
    · exact key 1 1 (by simp)
    · exact key 3 2 (by simp)
    · exact key 4 4 (by simp)
  · obtain ⟨m, h1, -⟩ := key 2 3 (by simp)
    exact C105_other_types_rejected gfcc (by simp [cepstralFeatures]) demo2 5 (Or.inr (by norm_num)) _ m h1

end Props
end Spafe
