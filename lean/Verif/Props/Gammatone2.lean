import Verif.Spec.Gammatone
import Verif.Props.GammatoneFbanks

/-! C104: the gammatone bank is the normalised magnitude response of Slaney's filters. -/

set_option linter.unusedSectionVars false

namespace Spafe
namespace Props
open Model XF Spec

theorem sqrt_smax : Real.sqrt (3 + (2 : ℝ) ^ ((3 : ℝ) / 2)) = √2 + 1 := by
  have h : (2 : ℝ) ^ ((3 : ℝ) / 2) = 2 * √2 := by
    rw [show (3 : ℝ) / 2 = 1 + 1 / 2 by norm_num, Real.rpow_add (by norm_num), Real.rpow_one, Real.sqrt_eq_rpow]
  rw [h]
  have h2 : √2 ^ 2 = 2 := Real.sq_sqrt (by norm_num)
  rw [show 3 + 2 * √2 = (√2 + 1) ^ 2 by nlinarith]
  exact Real.sqrt_sq (by positivity)

theorem sqrt_smin : Real.sqrt (3 - (2 : ℝ) ^ ((3 : ℝ) / 2)) = √2 - 1 := by
  have h : (2 : ℝ) ^ ((3 : ℝ) / 2) = 2 * √2 := by
    rw [show (3 : ℝ) / 2 = 1 + 1 / 2 by norm_num, Real.rpow_add (by norm_num), Real.rpow_one, Real.sqrt_eq_rpow]
  rw [h]
  have h2 : √2 ^ 2 = 2 := Real.sq_sqrt (by norm_num)
  have h3 : 1 ≤ √2 := Real.one_le_sqrt.mpr (by norm_num)
  rw [show 3 - 2 * √2 = (√2 - 1) ^ 2 by nlinarith]
  exact Real.sqrt_sq (by linarith)

theorem gammaA_eq (fs fc b : ℝ) : gammaA fc b (1 / fs) 0 = gtZero fs fc b (√2 + 1) ∧
    gammaA fc b (1 / fs) 1 = gtZero fs fc b (-(√2 + 1)) ∧ gammaA fc b (1 / fs) 2 = gtZero fs fc b (√2 - 1) ∧
    gammaA fc b (1 / fs) 3 = gtZero fs fc b (-(√2 - 1)) := by
  unfold gammaA gtZero
  simp only [sqrt_smax, sqrt_smin]
  have e1 : 2 * fc * Real.pi * (1 / fs) = 2 * Real.pi * fc / fs := by ring
  have e2 : Real.exp (-b / fs) = (Real.exp (b * (1 / fs)))⁻¹ := by rw [← Real.exp_neg]; congr 1; ring
  rw [e1, e2]
  refine ⟨?_, ?_, ?_, ?_⟩ <;> ring

theorem gammaPole_eq (fs fc b : ℝ) : gammaPole b (2 * fc * Real.pi * (1 / fs)) (1 / fs) = gtPole fs fc b := by
  unfold gammaPole gtPole
  rw [Complex.exp_add, mul_comm, Complex.ofReal_exp, div_eq_mul_inv, ← Complex.exp_neg, mul_comm]
  push_cast
  congr 2 <;> ring

theorem gammaB_eq (fc : ℝ) (order : ℕ) : gammaB fc order = gtDecay fc order := by
  unfold gammaB gammaErb gtDecay earQ minBW
  ring

/-- The unnormalised entry is a gain times the response. -/
theorem gammaEntry_eq (nfft : ℕ) (fs : ℝ) (order : ℕ) (fc : ℝ) (k : ℕ) :
    gammaEntry nfft fs order fc k =
      (1 / fs) ^ 4 / gammaGain fc (gammaB fc order) (2 * fc * Real.pi * (1 / fs)) (1 / fs) *
        gtResponse fs fc (gtDecay fc order) (2 * Real.pi * k / nfft) := by
  have hu : gammaU nfft k = Complex.exp ((2 * Real.pi * k / nfft : ℝ) * Complex.I) := by
    unfold gammaU; congr 1; push_cast; ring
  unfold gammaEntry gtResponse
  simp only
  obtain ⟨h0, h1, h2, h3⟩ := gammaA_eq fs fc (gammaB fc order)
  rw [h0, h1, h2, h3, gammaPole_eq, hu, ← gammaB_eq]
  ring

variable {fs low high : ℝ} {hf : Option ℝ} {scale : String} {w : ℕ → ℕ → ℝ} {ap : String}

/-- C104: entry `(j, k)` is the scale factor times the response of filter `j` at bin `k`, divided by its largest value
over the bins. In particular the gain computed by `compute_gain` cancels. -/
theorem C104_gammatone_formula (hs : Scale scale w) (he : EffHigh fs hf high) (h0 : 0 ≤ low) (h1 : low < high)
    (h2 : high ≤ fs / 2) {n nfft order : ℕ} (hn : 3 ≤ nfft) (ho : 1 ≤ order) :
    ∃ bank cs, gammatoneFilterBanks n nfft fs low hf scale order ap = .ok (bank, cs) ∧ ∀ j, j < n →
      ∃ M, 0 < M ∧ IsGreatest {v | ∃ k, k < nfft / 2 + 1 ∧ v = gtResponse fs (gtCentre low high n j)
          (gtDecay (gtCentre low high n j) order) (2 * Real.pi * k / nfft)} M ∧
        ∀ k, k < nfft / 2 + 1 → (bank.getD j []).getD k nan = fin (w n j * (gtResponse fs (gtCentre low high n j)
          (gtDecay (gtCentre low high n j) order) (2 * Real.pi * k / nfft) / M)) := by
  refine ⟨_, _, gammatone_eq hs he h0 h1 h2 (by omega) ho, fun j hj => ?_⟩
  have hfs : 0 < fs := by linarith
  have hjl : j < (generateCenterFrequencies low high n).length := by rw [gcf_length]; exact hj
  rw [getD_zipWith_lt _ _ _ _ [] 0 (by simpa [gcf_length] using hj) (by simpa using hj), getD_map_range_lt _ _ hj,
    getD_map_lt _ _ 0 _ hjl]
  have hfc := (gcf_mem_range h0 h1 hj).1
  have hcen : (generateCenterFrequencies low high n).getD j 0 = gtCentre low high n j := gcf_getD h0 h1 hj
  rw [hcen] at hfc ⊢
  generalize gtCentre low high n j = fc at hfc
  have hfc : 0 ≤ fc := h0.trans hfc
  have hex : ∃ v ∈ gammaRow nfft fs order fc, 0 < v :=
    ⟨_, List.mem_map.mpr ⟨1, List.mem_range.mpr (by omega), rfl⟩, gammaEntry_pos hn hfs hfc order⟩
  obtain ⟨M, hMpos, hMem, hMax, heq⟩ := normRow_eq hex
  rw [heq]
  have hlen : (gammaRow nfft fs order fc).length = nfft / 2 + 1 := gammaRow_length _ _ _ _
  have hT : 0 < 1 / fs := by positivity
  have hG := gammaGain_pos (fc := fc) hT (gammaB_pos (order := order) hfc)
  set G := (1 / fs) ^ 4 / gammaGain fc (gammaB fc order) (2 * fc * Real.pi * (1 / fs)) (1 / fs) with hGdef
  have hGpos : 0 < G := by positivity
  have hent : ∀ k, k < nfft / 2 + 1 → (gammaRow nfft fs order fc).getD k 0 =
      G * gtResponse fs fc (gtDecay fc order) (2 * Real.pi * k / nfft) := by
    intro k hk
    unfold gammaRow
    rw [getD_map_range_lt _ _ hk, gammaEntry_eq]
  refine ⟨M / G, by positivity, ⟨?_, ?_⟩, ?_⟩
  · obtain ⟨k, hk, hkM⟩ := (mem_iff_getD 0 M).mp hMem
    rw [hlen] at hk
    refine ⟨k, hk, ?_⟩
    rw [hent k hk] at hkM
    rw [← hkM]; field_simp
  · rintro v ⟨k, hk, rfl⟩
    have := hMax _ (getD_mem (i := k) 0 (by rw [hlen]; exact hk))
    rw [hent k hk] at this
    rw [le_div_iff₀ hGpos]; linarith
  · intro k hk
    rw [getD_map_lt _ _ (fin 0) _ (by rw [List.length_map, hlen]; exact hk),
      getD_map_lt _ _ 0 _ (by rw [hlen]; exact hk), fin_mul, hent k hk]
    congr 1
    field_simp

/-- The default bank of `gfcc`: 24 filters between 0 and 8000 Hz. -/
example : ∃ bank cs, gammatoneFilterBanks 24 512 16000 0 none "constant" 4 "Glasberg" = .ok (bank, cs) ∧ ∀ j, j < 24 →
    ∃ M, 0 < M ∧ ∀ k, k < 257 → (bank.getD j []).getD k nan = fin (1 * (gtResponse 16000 (gtCentre 0 8000 24 j)
      (gtDecay (gtCentre 0 8000 24 j) 4) (2 * Real.pi * k / (512 : ℕ)) / M)) := by
  obtain ⟨bank, cs, h, hp⟩ := C104_gammatone_formula (fs := 16000) (low := 0) (high := 8000) (hf := none)
    (ap := "Glasberg") (n := 24) (nfft := 512) (order := 4) .constant
    (by have := EffHigh.none (fs := 16000); norm_num at this; exact this) (le_refl _) (by norm_num) (by norm_num)
    (by norm_num) (by norm_num)
  refine ⟨bank, cs, h, fun j hj => ?_⟩
  obtain ⟨M, h1, -, h2⟩ := hp j hj
  exact ⟨M, h1, h2⟩

end Props
end Spafe
