import Verif.Lemmas.GammatoneFbanks

/-! Properties C24, C25, C35, C36: `spafe/fbanks/gammatone_fbanks.py`. -/

set_option linter.unusedSectionVars false

namespace Spafe
namespace Props
open XF Spec Model

/-- C24 (gammatone): `ParameterError` exactly for the documented reasons, low frequency first. -/
theorem C24_gammatone_validation (n nfft : ℕ) (fs low high : ℝ) (hf : Option ℝ) (sc : String) (order : ℕ) (ap : String)
    (he : EffHigh fs hf high) (m : String) :
    gammatoneFilterBanks n nfft fs low hf sc order ap = .error (.parameterError m) ↔
      (low < 0 ∧ m = "minimal frequency cannot be less than zero.") ∨
      (0 ≤ low ∧ fs / 2 < high ∧ m = "maximum frequency cannot be greater than half sampling frequency.") := by
  unfold gammatoneFilterBanks
  simp only [effHigh_eq he]
  by_cases h0 : low < 0
  · simp only [h0, if_true, true_and, not_le.mpr h0, false_and, or_false]
    constructor
    · intro h; injection h with h; injection h with h; exact h.symm
    · rintro rfl; rfl
  by_cases h1 : high > fs / 2
  · simp only [h0, h1, if_true, if_false, true_and, not_lt.mp h0, false_and, false_or]
    constructor
    · intro h; injection h with h; injection h with h; exact h.symm
    · rintro rfl; rfl
  · simp only [h0, h1, if_false, false_and, and_false, or_false, iff_false]
    split_ifs
    · simp
    · simp
    · simp
    · simp
    · exact ((noParam_scale _ _).bind fun _ => NoParam.ok _ : NoParam _) m

/-- C25 (gammatone): shape of the result of every successful call. -/
theorem C25_gammatone_shape {n nfft : ℕ} {fs low : ℝ} {hf : Option ℝ} {sc : String} {order : ℕ} {ap : String}
    {bank : XMat} {cs : List (Option (XF ℝ))} (h : gammatoneFilterBanks n nfft fs low hf sc order ap = .ok (bank, cs)) :
    bank.length = n ∧ (∀ row ∈ bank, row.length = nfft / 2 + 1) ∧ cs.length = n := by
  unfold gammatoneFilterBanks at h
  simp only at h
  split_ifs at h
  cases h2 : (scaleFbank sc n : Py (List ℝ)) with
  | error e => rw [h2] at h; cases h
  | ok s =>
    rw [h2, ok_bind] at h
    injection h with h; injection h with ha hb; subst ha; subst hb
    have hs : s.length = n := by
      unfold scaleFbank at h2
      split_ifs at h2 <;> injection h2 with h2 <;> rw [← h2] <;> simp
    refine ⟨by simp [gcf_length, hs], ?_, by simp [gcf_length]⟩
    intro row hrow
    obtain ⟨i, hi, rfl⟩ := List.mem_iff_getElem.mp hrow
    simp [normRow, gammaRow_length]

section
variable {scale ap : String} {w : ℕ → ℕ → ℝ} {fs low high : ℝ} {hf : Option ℝ}

theorem gammatone_eq (hs : Scale scale w) (he : EffHigh fs hf high) (h0 : 0 ≤ low) (h1 : low < high)
    (h2 : high ≤ fs / 2) {n nfft order : ℕ} (hn : 1 ≤ nfft) (ho : 1 ≤ order) :
    gammatoneFilterBanks n nfft fs low hf scale order ap =
      .ok (List.zipWith (fun r (s : ℝ) => r.map (· * fin s))
          ((generateCenterFrequencies low high n).map fun fc => normRow (gammaRow nfft fs order fc))
          ((List.range n).map fun (j : ℕ) => w n j),
        (generateCenterFrequencies low high n).map fun f => hz2erb (fin f) ap) := by
  unfold gammatoneFilterBanks
  simp only [effHigh_eq he]
  rw [if_neg (by linarith), if_neg (by linarith), if_neg (by linarith), if_neg (by linarith), if_neg (by omega),
    if_neg (by omega), scale_ok hs]
  rfl

/-- C35: all entries are finite and non-negative, row `j` is at most its scale factor and reaches it: with constant
scale the maximum of each row is exactly 1. -/
theorem C35_peak (hs : Scale scale w) (he : EffHigh fs hf high) (h0 : 0 ≤ low) (h1 : low < high)
    (h2 : high ≤ fs / 2) {n nfft order : ℕ} (hn : 3 ≤ nfft) (ho : 1 ≤ order) :
    ∃ bank cs, gammatoneFilterBanks n nfft fs low hf scale order ap = .ok (bank, cs) ∧
      ∀ j, j < n →
        (∀ k, k < nfft / 2 + 1 → ∃ v : ℝ, (bank.getD j []).getD k (fin 0) = fin v ∧ 0 ≤ v ∧ v ≤ w n j) ∧
        ∃ k, k < nfft / 2 + 1 ∧ (bank.getD j []).getD k (fin 0) = fin (w n j) := by
  refine ⟨_, _, gammatone_eq hs he h0 h1 h2 (by omega) ho, fun j hj => ?_⟩
  have hfs : 0 < fs := by linarith
  have hjl : j < (generateCenterFrequencies low high n).length := by rw [gcf_length]; exact hj
  rw [getD_zipWith_lt _ _ _ _ [] 0 (by simpa [gcf_length] using hj) (by simpa using hj), getD_map_range_lt _ _ hj,
    getD_map_lt _ _ 0 _ hjl]
  have hfc := (gcf_mem_range h0 h1 hj).1
  generalize (generateCenterFrequencies low high n).getD j 0 = fc at hfc
  have hfc : 0 ≤ fc := h0.trans hfc
  have hex : ∃ v ∈ gammaRow nfft fs order fc, 0 < v :=
    ⟨_, List.mem_map.mpr ⟨1, List.mem_range.mpr (by omega), rfl⟩, gammaEntry_pos hn hfs hfc order⟩
  obtain ⟨M, hMpos, hMem, hMax, heq⟩ := normRow_eq hex
  rw [heq]
  obtain ⟨w0, w1⟩ := scale_range hs hj
  have hlen : (gammaRow nfft fs order fc).length = nfft / 2 + 1 := gammaRow_length _ _ _ _
  have hval : ∀ k, k < nfft / 2 + 1 → ((List.map (fun v => fin (v / M)) (gammaRow nfft fs order fc)).map
      (· * fin (w n j))).getD k (fin 0) = fin ((gammaRow nfft fs order fc).getD k 0 / M * w n j) := by
    intro k hk
    rw [getD_map_lt _ _ (fin 0) _ (by rw [List.length_map, hlen]; exact hk),
      getD_map_lt _ _ 0 _ (by rw [hlen]; exact hk), fin_mul]
  constructor
  · intro k hk
    refine ⟨_, hval k hk, ?_, ?_⟩
    · have : 0 ≤ (gammaRow nfft fs order fc).getD k 0 := by
        unfold gammaRow; rw [getD_map_range_lt _ _ hk]; exact gammaEntry_nonneg _ hfs _ _ _
      positivity
    · have : (gammaRow nfft fs order fc).getD k 0 / M ≤ 1 := by
        rw [div_le_one hMpos]; exact hMax _ (getD_mem _ (by rw [hlen]; exact hk))
      nlinarith
  · obtain ⟨k, hk, hkM⟩ := (mem_iff_getD 0 M).mp hMem
    refine ⟨k, by rw [← hlen]; exact hk, ?_⟩
    rw [hval k (by rw [← hlen]; exact hk), hkM, div_self hMpos.ne', one_mul]

/-- C35: the formula never divides by zero: for every non-negative centre frequency the gain and the pole
distances are non-zero at every bin. -/
theorem C35_no_division_by_zero (hfs : 0 < fs) {fc : ℝ} (hfc : 0 ≤ fc) (order nfft k : ℕ) :
    gammaGain fc (gammaB fc order) (2 * fc * Real.pi * (1 / fs)) (1 / fs) ≠ 0 ∧
    ‖(gammaU nfft k - gammaPole (gammaB fc order) (2 * fc * Real.pi * (1 / fs)) (1 / fs)) *
      (gammaU nfft k - (starRingEnd ℂ) (gammaPole (gammaB fc order) (2 * fc * Real.pi * (1 / fs)) (1 / fs)))‖ ≠ 0 := by
  have hT : 0 < 1 / fs := by positivity
  have hb := gammaB_pos (order := order) hfc
  exact ⟨(gammaGain_pos hT hb).ne', (gammaDen_pos (mul_pos hb hT) nfft k).ne'⟩

example : ∃ bank cs, gammatoneFilterBanks 24 512 16000 0 none "constant" 4 "Glasberg" = .ok (bank, cs) ∧
    ∀ j, j < 24 → ∃ k, k < 257 ∧ (bank.getD j []).getD k (fin 0) = fin 1 := by
  obtain ⟨bank, cs, h, hp⟩ := C35_peak (fs := 16000) (low := 0) (hf := none) (ap := "Glasberg") (n := 24) (nfft := 512)
    (order := 4) .constant .none (le_refl _) (by norm_num) (le_refl _) (by norm_num) (by norm_num)
  exact ⟨bank, cs, h, fun j hj => (hp j hj).2⟩

/-- C36: the returned centres are ERB values of frequencies which start exactly at `low`, increase strictly, stay
below `high`, and are in geometric progression once shifted by `EarQ * minBW = 9.26449 * 24.7`. -/
theorem C36_centres (hs : Scale scale w) (he : EffHigh fs hf high) (h0 : 0 ≤ low) (h1 : low < high)
    (h2 : high ≤ fs / 2) {n nfft order : ℕ} (hn : 1 ≤ nfft) (ho : 1 ≤ order) :
    ∃ bank cs, ∃ fc : ℕ → ℝ, gammatoneFilterBanks n nfft fs low hf scale order "Glasberg" = .ok (bank, cs) ∧
      cs.length = n ∧
      (∀ j, j < n → cs.getD j none =
        some (fin (1000 * Real.log 10 / (24.7 * 4.37) * Real.logb 10 (1 + fc j * 0.00437)))) ∧
      (0 < n → fc 0 = low) ∧ (∀ j, j < n → low ≤ fc j ∧ fc j < high) ∧
      (∀ i j, i < j → j < n → fc i < fc j) ∧
      ∀ j, j + 1 < n → (fc (j + 1) + 9.26449 * 24.7) / (fc j + 9.26449 * 24.7) =
        ((high + 9.26449 * 24.7) / (low + 9.26449 * 24.7)) ^ (1 / (n : ℝ)) := by
  refine ⟨_, _, fun j => (generateCenterFrequencies low high n).getD j 0,
    gammatone_eq hs he h0 h1 h2 hn ho, by simp [gcf_length], ?_, ?_, ?_, ?_, ?_⟩
  · intro j hj
    rw [getD_map_lt _ _ 0 _ (by rw [gcf_length]; exact hj), hz2erb_fin (h0.trans (gcf_mem_range h0 h1 hj).1)]
    rfl
  · intro hn0
    simp only
    rw [gcf_getD h0 h1 hn0]; simp
  · intro j hj; exact gcf_mem_range h0 h1 hj
  · intro i j hij hj; exact gcf_strictMono h0 h1 hij hj
  · intro j hj
    simp only
    rw [gcf_getD h0 h1 hj, gcf_getD h0 h1 (by omega : j < n)]
    have hc : 0 < earQ * minBW := mul_pos earQ_pos minBW_pos
    have hc' : (9.26449 * 24.7 : ℝ) = earQ * minBW := rfl
    rw [hc']
    generalize earQ * minBW = c at *
    have hl : 0 < low + c := by linarith
    have hh : 0 < high + c := by linarith
    have hr : 0 < (high + c) / (low + c) := by positivity
    rw [sub_add_cancel, sub_add_cancel]
    have : (((j + 1 : ℕ) : ℝ)) / n = (j : ℝ) / n + 1 / n := by push_cast; ring
    rw [this, Real.rpow_add hr]
    have : 0 < ((high + c) / (low + c)) ^ ((j:ℝ) / n) := Real.rpow_pos_of_pos hr _
    field_simp

end

end Props
end Spafe
