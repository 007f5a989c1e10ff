import Verif.Lemmas.Spfeats
import Verif.Lemmas.Fourier

/-! Properties C72–C76 and C94–C96: the spectral descriptors of `spfeats.py`. -/

set_option linter.unusedSectionVars false

namespace Spafe
namespace Props
open Model XF

/-- A two-bin spectrum used in the examples. -/
def twoBins : List ℂ := [1, 1]

theorem twoBins_nonzero : ∃ z ∈ twoBins, z ≠ 0 := ⟨1, by simp [twoBins], one_ne_zero⟩

/-- C72: the centroid of any order is the magnitude-weighted mean of the powers of the bin frequencies
`min(k, n - k) * fs / n`. -/
theorem C72_meaning (fs : ℝ) (hfs : 0 < fs) (s : List ℂ) (hs : ∃ z ∈ s, z ≠ 0) (i : ℕ) :
    spectralCentroid fs s i = .ok (fin (Spec.barycenter fs s i)) := centroid_eq fs hfs s hs i

/-- C72: the centroid of a non-zero spectrum lies in `[0, fs/2]`, the one of order `i` in `[0, (fs/2)^i]`. -/
theorem C72_range (fs : ℝ) (hfs : 0 < fs) (s : List ℂ) (hs : ∃ z ∈ s, z ≠ 0) (i : ℕ) :
    ∃ c : ℝ, spectralCentroid fs s i = .ok (fin c) ∧ 0 ≤ c ∧ c ≤ (fs / 2) ^ i :=
  ⟨_, centroid_eq fs hfs s hs i, barycenter_mem fs hfs s hs i⟩

/-- C72: the centroid ignores the gain of the spectrum, for every spectrum, rate and order. -/
theorem C72_gain (fs : ℝ) (s : List ℂ) (i : ℕ) (c : ℂ) (hc : c ≠ 0) :
    spectralCentroid fs (s.map (c * ·)) i = spectralCentroid fs s i := centroid_scale fs s i c hc

/-- C72: a spectrum with a single non-zero bin has that bin's frequency as its centroid. -/
theorem C72_single_bin (fs : ℝ) (hfs : 0 < fs) (s : List ℂ) (k : ℕ) (hk : k < s.length) (h : s.getD k 0 ≠ 0)
    (h0 : ∀ j < s.length, j ≠ k → s.getD j 0 = 0) :
    spectralCentroid fs s 1 = .ok (fin (min (k : ℝ) ((s.length : ℝ) - k) * fs / s.length)) := by
  rw [centroid_eq fs hfs s ⟨_, getD_mem 0 hk, h⟩, Spec.barycenter, Spec.total,
    Finset.sum_eq_single_of_mem k (Finset.mem_range.mpr hk)
      (fun j hj hjk => by rw [Spec.mag, h0 j (Finset.mem_range.mp hj) hjk, norm_zero, zero_mul]),
    Finset.sum_eq_single_of_mem k (Finset.mem_range.mpr hk)
      (fun j hj hjk => by rw [Spec.mag, h0 j (Finset.mem_range.mp hj) hjk, norm_zero]),
    mul_div_cancel_left₀ _ (show Spec.mag s k ≠ 0 from (norm_pos_iff.mpr h).ne'), pow_one, Spec.binFreq]

/-- C72: the centroid of an all-zero spectrum is NaN; `fs = 0` and an empty spectrum raise `ZeroDivisionError`. -/
theorem C72_degenerate (fs : ℝ) (s : List ℂ) (i : ℕ) :
    ((fs = 0 ∨ s = []) → spectralCentroid fs s i = .error .zeroDivisionError) ∧
    (0 < fs → s ≠ [] → (∀ z ∈ s, z = 0) → spectralCentroid fs s i = .ok nan) := by
  refine ⟨fun h => ?_, fun hfs hs h0 => ?_⟩
  · rw [spectralCentroid, absFreqs, if_pos (by simpa using h), error_bind]
  · rw [centroid_raw fs hfs s (List.length_pos_iff.mpr hs), (total_eq_zero_iff s).mpr h0,
      Finset.sum_eq_zero (fun k hk => ?_), zero_div_zero]
    rw [Spec.mag, h0 _ (getD_mem 0 (Finset.mem_range.mp hk)), norm_zero, zero_mul]

/-- The centroid of two equal bins at 8 kHz is 2 kHz. -/
example : spectralCentroid 8000 twoBins 1 = .ok (fin 2000) := by
  rw [C72_meaning 8000 (by norm_num) _ twoBins_nonzero]
  simp only [Spec.barycenter, Spec.total, Spec.mag, Spec.binFreq, twoBins, List.length_cons, List.length_nil,
    Finset.sum_range_succ, Finset.sum_range_zero]
  norm_num

/-- C73: the flatness of a non-zero spectrum is the geometric mean over the arithmetic mean of the magnitudes. -/
theorem C73_meaning (s : List ℂ) (hs : ∃ z ∈ s, z ≠ 0) : spectralFlatness s = fin (Spec.flatness s) :=
  flatness_eq s hs

/-- C73: flatness lies in `[0, 1]`, is 1 exactly when all magnitudes agree and 0 exactly when some bin is 0. -/
theorem C73_range (s : List ℂ) (hs : ∃ z ∈ s, z ≠ 0) :
    ∃ f : ℝ, spectralFlatness s = fin f ∧ 0 ≤ f ∧ f ≤ 1 ∧
      (f = 1 ↔ ∀ a ∈ s, ∀ b ∈ s, ‖a‖ = ‖b‖) ∧ (f = 0 ↔ (0 : ℂ) ∈ s) := by
  have hn : (0 : ℝ) < s.length := by exact_mod_cast length_pos_of_ex hs
  obtain ⟨h0, h1, h2⟩ := amgm s hs
  refine ⟨_, flatness_eq s hs, h0, h1, ?_, ?_⟩
  · rw [h2]
    constructor
    · intro h a ha b hb
      obtain ⟨i, hi, rfl⟩ := (mem_iff_getD 0 a).mp ha
      obtain ⟨j, hj, rfl⟩ := (mem_iff_getD 0 b).mp hb
      exact (h i hi).trans (h j hj).symm
    · intro h k hk
      have hj : ∀ j ∈ Finset.range s.length, Spec.mag s j = Spec.mag s k := fun j hj =>
        h _ (getD_mem 0 (Finset.mem_range.mp hj)) _ (getD_mem 0 hk)
      rw [eq_div_iff hn.ne', Spec.total, Finset.sum_congr rfl hj]
      simp [mul_comm]
  · have ht := (total_pos_iff s).mpr hs
    rw [Spec.flatness, div_eq_zero_iff, or_iff_left (by positivity),
      Real.rpow_eq_zero (Finset.prod_nonneg fun _ _ => mag_nonneg _ _) (by positivity), Finset.prod_eq_zero_iff,
      mem_iff_getD 0]
    simp [Spec.mag]

/-- C73: flatness ignores gain, for every spectrum. -/
theorem C73_gain (s : List ℂ) (c : ℂ) (hc : c ≠ 0) : spectralFlatness (s.map (c * ·)) = spectralFlatness s := by
  by_cases hs : ∃ z ∈ s, z ≠ 0
  · rw [flatness_eq s hs, flatness_eq _ (by
      obtain ⟨z, hz, h⟩ := hs
      exact ⟨c * z, List.mem_map_of_mem hz, mul_ne_zero hc h⟩), flatness_scale c hc s hs]
  · push Not at hs
    rw [map_zero_eq c s hs]

/-- Two equal bins are perfectly flat; a zero bin makes the flatness 0. -/
example : spectralFlatness twoBins = fin 1 := by
  obtain ⟨f, hf, -, -, h1, -⟩ := C73_range twoBins twoBins_nonzero
  rw [hf, h1.mpr (by simp [twoBins])]

example : spectralFlatness [1, 0] = fin 0 := by
  obtain ⟨f, hf, -, -, -, h0⟩ := C73_range [1, 0] ⟨1, by simp, one_ne_zero⟩
  rw [hf, h0.mpr (by simp)]

/-- C74: the flux is the `p`-norm of the steps between neighbouring magnitudes; `p = 0` raises. -/
theorem C74_meaning (s : List ℂ) (p : ℕ) :
    (p ≠ 0 → spectralFlux s p = .ok (Spec.flux s p)) ∧ spectralFlux s 0 = .error .zeroDivisionError :=
  ⟨flux_eq s p, by simp [spectralFlux]⟩

/-- C74: the flux is non-negative, and 0 exactly for spectra of constant magnitude. -/
theorem C74_nonneg_zero_iff (s : List ℂ) (p : ℕ) (hp : p ≠ 0) :
    ∃ f : ℝ, spectralFlux s p = .ok f ∧ 0 ≤ f ∧ (f = 0 ↔ ∀ a ∈ s, ∀ b ∈ s, ‖a‖ = ‖b‖) := by
  refine ⟨_, flux_eq s p hp, Real.rpow_nonneg (flux_sum_nonneg s p) _, ?_⟩
  rw [flux_zero_iff s p hp]
  constructor
  · intro h a ha b hb
    obtain ⟨i, hi, rfl⟩ := (mem_iff_getD 0 a).mp ha
    obtain ⟨j, hj, rfl⟩ := (mem_iff_getD 0 b).mp hb
    exact (h i hi).trans (h j hj).symm
  · intro h k hk
    exact h _ (getD_mem 0 hk) _ (getD_mem 0 (by omega))

/-- C74: multiplying the spectrum with `c` multiplies the flux with `|c|`. -/
theorem C74_scale (s : List ℂ) (p : ℕ) (hp : p ≠ 0) (c : ℂ) :
    ∃ f : ℝ, spectralFlux s p = .ok f ∧ spectralFlux (s.map (c * ·)) p = .ok (‖c‖ * f) :=
  ⟨_, flux_eq s p hp, by rw [flux_eq _ p hp, flux_scale c s p hp]⟩

/-- One step of height 3 has flux 3. -/
example : spectralFlux [1, 4] 1 = .ok 3 := by
  rw [(C74_meaning _ 1).1 one_ne_zero]
  simp [Spec.flux, Spec.mag]; norm_num

/-- C75, violated: the entropy of the spectrum `[2, 2]` is `-4`. -/
theorem C75_violated :
    spectralEntropy [2, 2] = fin (-4) ∧
    ¬ ∀ s : List ℂ, (∀ z ∈ s, z ≠ 0) → 2 ≤ s.length → ∃ h : ℝ, spectralEntropy s = fin h ∧ 0 ≤ h ∧ h ≤ 1 := by
  have key : spectralEntropy [2, 2] = fin (-4) := by
    have h2 : Real.log 2 ≠ 0 := (Real.log_pos one_lt_two).ne'
    rw [spectralEntropy, entropy_sum_pos _ (by simp [magSpec])]
    simp only [magSpec, List.map_cons, List.map_nil, List.length_cons, List.length_nil, List.sum_cons, List.sum_nil]
    rw [log_pos (by norm_num), fin_mul, fin_div _ _ (by norm_num), fin_inj]
    norm_num
    field_simp
    norm_num
  refine ⟨key, fun h => ?_⟩
  obtain ⟨v, hv, h0, -⟩ := h [2, 2] (by simp) (by simp)
  rw [key, fin_inj] at hv
  linarith

/-- C75, violated: a single zero bin makes the entropy NaN, although `0 log 0 = 0`. -/
theorem C75_zero_bin (s : List ℂ) (h : (0 : ℂ) ∈ s) : spectralEntropy s = nan := by
  rw [spectralEntropy, sum_nan_of_mem]
  · simp
  · rw [List.mem_map]
    exact ⟨0, List.mem_map.mpr ⟨0, h, norm_zero⟩, fin_mul_log_zero⟩

/-- C75, the part that holds: for two or more non-zero magnitudes that sum to 1 the entropy lies in `[0, 1]`, with 1
exactly for the uniform spectrum. Missing: spectra that are not normalised beforehand, and zero bins. -/
theorem C75_range_partial (s : List ℂ) (hs : ∀ z ∈ s, z ≠ 0) (h2 : 2 ≤ s.length)
    (hsum : (s.map fun z => ‖z‖).sum = 1) :
    ∃ h : ℝ, spectralEntropy s = fin h ∧ 0 ≤ h ∧ h ≤ 1 ∧ (h = 1 ↔ ∀ z ∈ s, ‖z‖ = 1 / s.length) := by
  have hn : (1 : ℝ) < s.length := by exact_mod_cast h2
  have hlog := Real.log_pos hn
  have ht : Spec.total s = 1 := by rw [← magSpec_sum]; exact hsum
  have hp : ∀ k < s.length, 0 < Spec.mag s k := fun k hk => norm_pos_iff.mpr (hs _ (getD_mem 0 hk))
  have he : spectralEntropy s =
      fin (-(∑ k ∈ Finset.range s.length, Spec.mag s k * Real.log (Spec.mag s k)) / Real.log s.length) := by
    rw [spectralEntropy, entropy_sum_pos, log_pos (by linarith), fin_mul, fin_div _ _ hlog.ne', neg_one_mul]
    · congr 3
      rw [sum_eq_sum_getD, List.length_map, magSpec_length]
      refine Finset.sum_congr rfl fun k hk => ?_
      have hk := Finset.mem_range.mp hk
      rw [getD_map_lt _ _ 0 _ (by rwa [magSpec_length]), magSpec_getD s hk]
    · intro x hx
      obtain ⟨z, hz, rfl⟩ := List.mem_map.mp hx
      exact norm_pos_iff.mpr (hs z hz)
  -- Gibbs' inequality against the uniform distribution
  have hterm : ∀ k ∈ Finset.range s.length,
      -(Spec.mag s k * Real.log (Spec.mag s k)) - Spec.mag s k * Real.log s.length ≤
        1 / s.length - Spec.mag s k := by
    intro k hk
    have hm := hp k (Finset.mem_range.mp hk)
    have := Real.log_le_sub_one_of_pos (show 0 < 1 / (s.length * Spec.mag s k) by positivity)
    rw [one_div, Real.log_inv, Real.log_mul (by positivity) hm.ne'] at this
    have := mul_le_mul_of_nonneg_left this hm.le
    have e : Spec.mag s k * ((s.length * Spec.mag s k)⁻¹ - 1) = 1 / s.length - Spec.mag s k := by
      field_simp
    linarith
  have hL : ∑ k ∈ Finset.range s.length,
      (-(Spec.mag s k * Real.log (Spec.mag s k)) - Spec.mag s k * Real.log s.length) =
        -(∑ k ∈ Finset.range s.length, Spec.mag s k * Real.log (Spec.mag s k)) - Real.log s.length := by
    rw [Finset.sum_sub_distrib, Finset.sum_neg_distrib, ← Finset.sum_mul, ← Spec.total, ht, one_mul]
  have hR : ∑ k ∈ Finset.range s.length, (1 / (s.length : ℝ) - Spec.mag s k) = 0 := by
    rw [Finset.sum_sub_distrib, ← Spec.total, ht]
    simp only [Finset.sum_const, Finset.card_range, nsmul_eq_mul]
    field_simp; ring
  refine ⟨_, he, div_nonneg ?_ hlog.le, ?_, ?_⟩
  · rw [← Finset.sum_neg_distrib]
    refine Finset.sum_nonneg fun k hk => ?_
    have hm := hp k (Finset.mem_range.mp hk)
    have h1 : Spec.mag s k ≤ 1 := by
      rw [← ht]
      exact Finset.single_le_sum (f := Spec.mag s) (fun j _ => mag_nonneg s j) hk
    have := mul_nonneg hm.le (neg_nonneg.mpr (Real.log_nonpos hm.le h1))
    linarith
  · rw [div_le_one hlog]
    have := Finset.sum_le_sum hterm
    rw [hL, hR] at this
    linarith
  · rw [div_eq_one_iff_eq hlog.ne']
    constructor
    · intro h z hz
      obtain ⟨k, hk, rfl⟩ := (mem_iff_getD 0 z).mp hz
      by_contra hne
      have hm := hp k hk
      have hne' : 1 / (s.length * Spec.mag s k) ≠ 1 := by
        intro h1
        rw [div_eq_one_iff_eq (by positivity)] at h1
        exact hne (by rw [← Spec.mag, eq_div_iff (by positivity), mul_comm]; exact h1.symm)
      have := Real.log_lt_sub_one_of_pos (show 0 < 1 / (s.length * Spec.mag s k) by positivity) hne'
      rw [one_div, Real.log_inv, Real.log_mul (by positivity) hm.ne'] at this
      have := mul_lt_mul_of_pos_left this hm
      have e : Spec.mag s k * ((s.length * Spec.mag s k)⁻¹ - 1) = 1 / s.length - Spec.mag s k := by
        field_simp
      have hlt := Finset.sum_lt_sum hterm ⟨k, Finset.mem_range.mpr hk, by linarith⟩
      rw [hL, hR, h] at hlt
      linarith
    · intro h
      have : ∀ k ∈ Finset.range s.length, Spec.mag s k * Real.log (Spec.mag s k) =
          -(1 / s.length * Real.log s.length) := fun k hk => by
        rw [Spec.mag, h _ (getD_mem 0 (Finset.mem_range.mp hk)), one_div, Real.log_inv]; ring
      rw [Finset.sum_congr rfl this]
      simp only [Finset.sum_const, Finset.card_range, nsmul_eq_mul]
      field_simp

example : ∃ h : ℝ, spectralEntropy [1 / 2, 1 / 2] = fin h ∧ h = 1 := by
  obtain ⟨h, hh, -, -, h1⟩ := C75_range_partial [1 / 2, 1 / 2] (by simp) (by simp) (by simp; norm_num)
  exact ⟨h, hh, h1.mpr (by simp)⟩

/-- The steps of a successful `extract_feats`. -/
theorem extractFeats_ok_iff (sig : List ℝ) (fs : ℝ) (nfft : ℕ) (f : SpectralFeats)
    (h : extractFeats sig fs nfft = .ok f) :
    ∃ s, rfft sig nfft = .ok s ∧ spectralCentroid fs s 1 = .ok f.centroid ∧
      spectralSkewness fs s = .ok f.skewness ∧ spectralKurtosis fs s = .ok f.kurtosis ∧
      f.entropy = spectralEntropy s ∧ spectralSpread fs s = .ok f.spread ∧ f.flatness = spectralFlatness s ∧
      f.rolloff = spectralRolloffSwapped fs s ∧ spectralFlux s 2 = .ok f.flux ∧ f.mean = cMean s ∧
      f.rms = (cMean (s.map fun z => z ^ 2)) ^ (1 / 2 : ℂ) ∧ f.std = √(cVar s) ∧ f.variance = cVar s := by
  unfold extractFeats at h
  obtain ⟨s, hs, h⟩ := (bind_ok_iff _ _ _).mp h
  obtain ⟨a, ha, h⟩ := (bind_ok_iff _ _ _).mp h
  obtain ⟨b, hb, h⟩ := (bind_ok_iff _ _ _).mp h
  obtain ⟨c, hc, h⟩ := (bind_ok_iff _ _ _).mp h
  obtain ⟨d, hd, h⟩ := (bind_ok_iff _ _ _).mp h
  obtain ⟨e, he, h⟩ := (bind_ok_iff _ _ _).mp h
  injection h with h
  subst h
  exact ⟨s, hs, ha, hb, hc, rfl, hd, rfl, rfl, he, rfl, rfl, rfl, rfl⟩

theorem rfft_length (sig : List ℝ) (nfft : ℕ) (s : List ℂ) (h : rfft sig nfft = .ok s) :
    s.length = nfft / 2 + 1 := by
  unfold rfft at h
  split_ifs at h
  injection h with h
  rw [← h]; simp

theorem spread_raw (fs : ℝ) (hfs : 0 < fs) (s : List ℂ) (hs : ∃ z ∈ s, z ≠ 0) :
    spectralSpread fs s = .ok ((List.range s.length).map fun (k : ℕ) =>
      fin (√((∑ j ∈ Finset.range s.length, (Spec.binFreq fs s.length j - Spec.barycenter fs s 1)) ^ 2 * Spec.mag s k /
        Spec.total s))) := by
  have ht := (total_pos_iff s).mpr hs
  rw [spectralSpread, absFreqs_ok fs hfs (length_pos_of_ex hs), ok_bind, centroid_eq fs hfs s hs, ok_bind]
  have hsum : (((Np.fftfreq s.length fs).map fun f => |f|).map
      fun f => fin f - fin (Spec.barycenter fs s 1)).sum =
      fin (∑ j ∈ Finset.range s.length, (Spec.binFreq fs s.length j - Spec.barycenter fs s 1)) := by
    have e : (((Np.fftfreq s.length fs).map fun f => |f|).map fun f => fin f - fin (Spec.barycenter fs s 1)) =
        (((Np.fftfreq s.length fs).map fun f => |f|).map fun f => f - Spec.barycenter fs s 1).map fin := by
      rw [List.map_map (g := fin)]; exact List.map_congr_left fun x _ => fin_sub _ _
    rw [e, list_sum_fin, sum_eq_sum_getD]
    congr 1
    rw [List.length_map, List.length_map, fftfreq_length]
    refine Finset.sum_congr rfl fun k hk => ?_
    have hk := Finset.mem_range.mp hk
    rw [getD_map_lt _ _ 0 _ (by simpa [fftfreq_length] using hk), abs_fftfreq_getD fs hfs hk]
  simp only [hsum, powNat_fin, fin_mul, magSpec_sum]
  congr 1
  refine ext_getD nan (by simp [magSpec_length]) fun k hk => ?_
  rw [List.length_map, magSpec_length] at hk
  rw [getD_map_lt _ _ 0 _ (by rwa [magSpec_length]), magSpec_getD s hk, getD_map_range_lt _ _ hk,
    fin_div _ _ ht.ne', XF.sqrt, if_pos (div_nonneg (mul_nonneg (sq_nonneg _) (mag_nonneg _ _)) ht.le)]

/-- C76, violated: for every signal `extract_feats` returns, the `spectral_spread` and `spectral_rolloff` entries are
arrays with one entry per FFT bin (257 for the default `nfft = 512`), not numbers. -/
theorem C76_arrays (sig : List ℝ) (fs : ℝ) (nfft : ℕ) (f : SpectralFeats) (h : extractFeats sig fs nfft = .ok f) :
    f.spread.length = nfft / 2 + 1 ∧ f.rolloff.length = nfft / 2 + 1 := by
  obtain ⟨s, hs, -, -, -, -, hd, -, he, -⟩ := extractFeats_ok_iff sig fs nfft f h
  have hl := rfft_length sig nfft s hs
  constructor
  · unfold spectralSpread at hd
    obtain ⟨a, -, hd⟩ := (bind_ok_iff _ _ _).mp hd
    obtain ⟨b, -, hd⟩ := (bind_ok_iff _ _ _).mp hd
    injection hd with hd
    rw [← hd, List.length_map, magSpec_length, hl]
  · rw [he, spectralRolloffSwapped, List.length_map, hl]

/-- C76, violated: the arguments of `spectral_rolloff` are swapped, so the entry is the spectrum times `|fs|`. -/
theorem C76_rolloff_swapped (sig : List ℝ) (fs : ℝ) (nfft : ℕ) (f : SpectralFeats)
    (h : extractFeats sig fs nfft = .ok f) (k : ℕ) (hk : k < nfft / 2 + 1) :
    f.rolloff.getD k 0 = Np.dft sig nfft k * ((|fs| : ℝ) : ℂ) := by
  obtain ⟨s, hs, -, -, -, -, -, -, he, -⟩ := extractFeats_ok_iff sig fs nfft f h
  unfold rfft at hs
  split_ifs at hs
  injection hs with hs
  rw [he, spectralRolloffSwapped, ← hs, getD_map_lt _ _ 0 _ (by simpa using hk), getD_map_range_lt _ _ hk]

/-- C76, violated: two equal bins have documented spread `fs / 4`, but every entry of `spectral_spread` is 0, because
the deviations are summed before they are squared. -/
theorem C76_spread_violated (fs : ℝ) (hfs : 0 < fs) :
    spectralSpread fs twoBins = .ok [fin 0, fin 0] ∧ Spec.spread fs twoBins = fs / 4 := by
  have e : Spec.barycenter fs twoBins 1 = fs / 4 := by
    simp only [Spec.barycenter, Spec.total, Spec.mag, Spec.binFreq, twoBins, List.length_cons, List.length_nil,
      Finset.sum_range_succ, Finset.sum_range_zero]
    norm_num; ring
  constructor
  · rw [spread_raw fs hfs _ twoBins_nonzero, e]
    have h0 : ∑ j ∈ Finset.range twoBins.length, (Spec.binFreq fs twoBins.length j - fs / 4) = 0 := by
      simp only [Spec.binFreq, twoBins, List.length_cons, List.length_nil,
        Finset.sum_range_succ, Finset.sum_range_zero]
      norm_num; ring
    rw [h0]
    simp [twoBins, List.range_succ]
  · rw [Spec.spread, e]
    simp only [Spec.total, Spec.mag, Spec.binFreq, twoBins, List.length_cons, List.length_nil,
      Finset.sum_range_succ, Finset.sum_range_zero]
    norm_num
    rw [show (fs / 4) ^ 2 + (fs / 2 - fs / 4) ^ 2 = 2 * (fs / 4) ^ 2 by ring, Real.sqrt_mul (by norm_num),
      mul_div_cancel_left₀ _ (by positivity), Real.sqrt_sq (by linarith)]

/-- C76, violated: `spectral_rolloff` is not the bin below which 85 % of the magnitude lies: it grows with the gain. -/
theorem C76_rolloff_violated (s : List ℂ) (k : ℝ) (c : ℂ) :
    spectralRolloff (s.map (c * ·)) k = ‖c‖ * spectralRolloff s k ∧ spectralRolloff [4] 0.85 = 3.4 := by
  constructor
  · rw [spectralRolloff, magSpec_sum, total_scale, spectralRolloff, magSpec_sum]; ring
  · simp [spectralRolloff, magSpec]; norm_num

/-- C76, the part that holds: a direct call `spectral_rolloff(spectrum, k)` with `0 ≤ k ≤ 1` is one number between 0
and the total magnitude, namely `k` times the total. Missing: the bin at which the cumulative magnitude passes it. -/
theorem C76_rolloff_partial (s : List ℂ) (k : ℝ) (h0 : 0 ≤ k) (h1 : k ≤ 1) :
    spectralRolloff s k = k * Spec.total s ∧ 0 ≤ spectralRolloff s k ∧ spectralRolloff s k ≤ Spec.total s := by
  have ht := total_nonneg s
  rw [spectralRolloff, magSpec_sum]
  exact ⟨rfl, mul_nonneg h0 ht, by nlinarith⟩

/-! ### C94: the bin frequencies of `extract_feats` -/

/-- C94, violated everywhere: for every `nfft ≥ 3`, if the one-sided spectrum of the signal has its only non-zero bin
at `k ≥ 1`, then the reported centroid is not the frequency `k * fs / nfft` of that bin. -/
theorem C94_every_bin_wrong (sig : List ℝ) (fs : ℝ) (hfs : 0 < fs) (nfft k : ℕ) (hn : 3 ≤ nfft) (hk1 : 1 ≤ k)
    (hk : k ≤ nfft / 2) (hne : Np.dft sig nfft k ≠ 0)
    (h0 : ∀ j ≤ nfft / 2, j ≠ k → Np.dft sig nfft j = 0) (f : SpectralFeats)
    (h : extractFeats sig fs nfft = .ok f) :
    f.centroid = fin (min (k : ℝ) ((nfft / 2 + 1 : ℕ) - k) * fs / (nfft / 2 + 1 : ℕ)) ∧
      f.centroid ≠ fin (k * fs / nfft) := by
  obtain ⟨s, hs, hc, -⟩ := extractFeats_ok_iff sig fs nfft f h
  have hl := rfft_length sig nfft s hs
  have hs' : s = (List.range (nfft / 2 + 1)).map fun (k : ℕ) => Np.dft sig nfft k := by
    unfold rfft at hs
    split_ifs at hs
    injection hs with hs
    exact hs.symm
  have hg : ∀ j ≤ nfft / 2, s.getD j 0 = Np.dft sig nfft j := fun j hj => by
    rw [hs', getD_map_range_lt _ _ (by omega)]
  rw [C72_single_bin fs hfs s k (by omega) (by rw [hg k hk]; exact hne)
    (fun j hj hjk => by rw [hg j (by omega)]; exact h0 j (by omega) hjk), hl] at hc
  injection hc with hc
  refine ⟨hc.symm, ?_⟩
  rw [← hc, Ne, fin_inj]
  intro he
  have hN : (0 : ℝ) < (nfft / 2 + 1 : ℕ) := by positivity
  have hn' : (0 : ℝ) < nfft := by exact_mod_cast (by omega : 0 < nfft)
  rw [div_eq_div_iff hN.ne' hn'.ne'] at he
  have he' : min (k : ℝ) ((nfft / 2 + 1 : ℕ) - k) * nfft = k * (nfft / 2 + 1 : ℕ) := by
    have : (min (k : ℝ) ((nfft / 2 + 1 : ℕ) - k) * nfft) * fs = (k * (nfft / 2 + 1 : ℕ)) * fs := by linarith
    exact mul_right_cancel₀ hfs.ne' this
  rcases min_choice (k : ℝ) ((nfft / 2 + 1 : ℕ) - k) with hm | hm
  · rw [hm] at he'
    have hk0 : (k : ℝ) ≠ 0 := by exact_mod_cast (by omega : k ≠ 0)
    have := mul_left_cancel₀ hk0 he'
    have : nfft = nfft / 2 + 1 := by exact_mod_cast this
    omega
  · rw [hm] at he'
    have hz : (((nfft / 2 + 1 : ℕ) : ℤ) - k) * nfft = k * (nfft / 2 + 1 : ℕ) := by
      have : ((((nfft / 2 + 1 : ℕ) : ℤ) - k) * nfft : ℝ) = ((k * (nfft / 2 + 1 : ℕ) : ℤ) : ℝ) := by
        push_cast; push_cast at he'; exact he'
      exact_mod_cast this
    rcases Nat.even_or_odd' nfft with ⟨m, hm | hm⟩
    · have hN : nfft / 2 + 1 = m + 1 := by omega
      rw [hN, hm] at hz
      push_cast at hz
      have hd : (3 * m + 1 : ℤ) ∣ 4 := ⟨6 * m + 4 - 9 * k, by nlinarith⟩
      have := Int.le_of_dvd (by norm_num) hd
      omega
    · have hN : nfft / 2 + 1 = m + 1 := by omega
      rw [hN, hm] at hz
      push_cast at hz
      have hd : (3 * m + 2 : ℤ) ∣ 1 := ⟨6 * m + 5 - 9 * k, by nlinarith⟩
      have := Int.le_of_dvd (by norm_num) hd
      omega

/-- C94, the part that holds: the reported centroid is at least within `[0, fs/2]` for every signal whose spectrum is
not all zero, and a signal with only its 0 Hz bin non-zero is given centroid 0. Missing: the right frequencies. -/
theorem C94_range_partial (sig : List ℝ) (fs : ℝ) (hfs : 0 < fs) (nfft : ℕ) (f : SpectralFeats)
    (h : extractFeats sig fs nfft = .ok f) (hne : ∃ k ≤ nfft / 2, Np.dft sig nfft k ≠ 0) :
    (∃ c : ℝ, f.centroid = fin c ∧ 0 ≤ c ∧ c ≤ fs / 2) ∧
      ((∀ k ≤ nfft / 2, k ≠ 0 → Np.dft sig nfft k = 0) → f.centroid = fin 0) := by
  obtain ⟨s, hs, hc, -⟩ := extractFeats_ok_iff sig fs nfft f h
  have hl := rfft_length sig nfft s hs
  have hs' : s = (List.range (nfft / 2 + 1)).map fun (k : ℕ) => Np.dft sig nfft k := by
    unfold rfft at hs
    split_ifs at hs
    injection hs with hs
    exact hs.symm
  have hg : ∀ j ≤ nfft / 2, s.getD j 0 = Np.dft sig nfft j := fun j hj => by
    rw [hs', getD_map_range_lt _ _ (by omega)]
  obtain ⟨k, hk, hk0⟩ := hne
  constructor
  · obtain ⟨c, hc', h0, h1⟩ := C72_range fs hfs s
      ⟨s.getD k 0, getD_mem 0 (by omega), by rw [hg k hk]; exact hk0⟩ 1
    rw [hc'] at hc
    injection hc with hc
    exact ⟨c, hc.symm, h0, by simpa using h1⟩
  · intro hz
    have hk00 : k = 0 := by
      by_contra h; exact hk0 (hz k hk h)
    subst hk00
    rw [C72_single_bin fs hfs s 0 (by omega) (by rw [hg 0 hk]; exact hk0)
      (fun j hj hjk => by rw [hg j (by omega)]; exact hz j (by omega) hjk)] at hc
    injection hc with hc
    rw [← hc, fin_inj]
    simp

/-- The Nyquist tone `1, -1, 1, -1` meets the hypotheses of `C94_every_bin_wrong`: its centroid comes out as `fs / 3`
instead of `fs / 2`. -/
theorem nyquist_dft : Np.dft [1, -1, 1, -1] 4 0 = 0 ∧ Np.dft [1, -1, 1, -1] 4 1 = 0 ∧ Np.dft [1, -1, 1, -1] 4 2 = 4 := by
  have h1 : Complex.exp (-(2 * Real.pi * Complex.I * 1 / 4)) = -Complex.I := by
    rw [show -(2 * Real.pi * Complex.I * 1 / 4) = -((Real.pi / 2 : ℂ) * Complex.I) by ring, Complex.exp_neg,
      Complex.exp_pi_div_two_mul_I, Complex.inv_I]
  have e : ∀ m : ℕ, Complex.exp (-(2 * Real.pi * Complex.I * m / 4)) = (-Complex.I) ^ m := fun m => by
    rw [← h1, ← Complex.exp_nat_mul]; congr 1; ring
  have hd : ∀ k : ℕ, Np.dft [1, -1, 1, -1] 4 k =
      1 - (-Complex.I) ^ k + (-Complex.I) ^ (2 * k) - (-Complex.I) ^ (3 * k) := fun k => by
    unfold Np.dft Np.dftC
    simp only [Finset.sum_range_succ, Finset.sum_range_zero]
    have ek : ∀ j : ℕ, Complex.exp (-(2 * Real.pi * Complex.I * ((j : ℂ) * k) / (4 : ℕ))) = (-Complex.I) ^ (j * k) :=
      fun j => by rw [← e]; push_cast; rfl
    rw [ek 0, ek 1, ek 2, ek 3]
    simp
    ring
  have hI2 : (-Complex.I) ^ 2 = -1 := by rw [neg_sq, Complex.I_sq]
  refine ⟨?_, ?_, ?_⟩
  · rw [hd]; norm_num
  · rw [hd, show 3 * 1 = 2 + 1 from rfl, pow_succ (-Complex.I) 2, mul_one, pow_one, hI2]; ring
  · rw [hd, show 3 * 2 = 2 * 3 from rfl, pow_mul, pow_mul, hI2]; norm_num

example (fs : ℝ) (hfs : 0 < fs) (f : SpectralFeats) (h : extractFeats [1, -1, 1, -1] fs 4 = .ok f) :
    f.centroid = fin (min 2 (3 - 2) * fs / 3) ∧ f.centroid ≠ fin (2 * fs / 4) := by
  have := C94_every_bin_wrong [1, -1, 1, -1] fs hfs 4 2 (by norm_num) (by norm_num) (by norm_num)
    (by rw [nyquist_dft.2.2]; norm_num)
    (fun j hj hj2 => by
      obtain rfl | rfl : j = 0 ∨ j = 1 := by omega
      exacts [nyquist_dft.1, nyquist_dft.2.1]) f h
  simpa using this

/-! ### C95: skewness and kurtosis -/

/-- C95: if some bin other than bin 0 is non-zero, skewness and kurtosis are the third and fourth central moments
divided by `μ₂³` and `μ₂⁴`, and the kurtosis is not negative. -/
theorem C95_meaning (fs : ℝ) (hfs : 0 < fs) (s : List ℂ) (k : ℕ) (hk : k < s.length) (hk0 : k ≠ 0)
    (h : s.getD k 0 ≠ 0) :
    spectralSkewness fs s = .ok (fin (Spec.centralMoment 3 fs s)) ∧
      spectralKurtosis fs s = .ok (fin (Spec.centralMoment 4 fs s)) ∧ 0 ≤ Spec.centralMoment 4 fs s := by
  have hs : ∃ z ∈ s, z ≠ 0 := ⟨_, getD_mem 0 hk, h⟩
  have ht := (total_pos_iff s).mpr hs
  have hb : 0 < Spec.barycenter fs s 2 := by
    refine div_pos (Finset.sum_pos' (fun j _ => mul_nonneg (mag_nonneg _ _) (sq_nonneg _))
      ⟨k, Finset.mem_range.mpr hk, mul_pos (norm_pos_iff.mpr h) (pow_pos ?_ 2)⟩) ht
    have h1 : (0 : ℝ) < k := by exact_mod_cast Nat.pos_of_ne_zero hk0
    have h2 : (k : ℝ) < s.length := by exact_mod_cast hk
    have h3 : 0 < min (k : ℝ) ((s.length : ℝ) - k) := lt_min h1 (by linarith)
    have h4 : (0 : ℝ) < s.length := by linarith
    unfold Spec.binFreq
    positivity
  refine ⟨?_, ?_, ?_⟩
  · rw [spectralSkewness, moment_raw 3 fs hfs s hs, fin_div _ _ (by positivity), Spec.centralMoment]
  · rw [spectralKurtosis, moment_raw 4 fs hfs s hs, fin_div _ _ (by positivity), Spec.centralMoment]
  · refine div_nonneg (Finset.sum_nonneg fun j _ => mul_nonneg (mag_nonneg _ _) ?_) (by positivity)
    exact Even.pow_nonneg (by decide) _

/-- C95: skewness and kurtosis ignore the gain of the spectrum. -/
theorem C95_gain (fs : ℝ) (s : List ℂ) (c : ℂ) (hc : c ≠ 0) :
    spectralSkewness fs (s.map (c * ·)) = spectralSkewness fs s ∧
      spectralKurtosis fs (s.map (c * ·)) = spectralKurtosis fs s := by
  have key : ∀ p, 0 < p → spectralMoment p fs (s.map (c * ·)) = spectralMoment p fs s := by
    intro p hp
    by_cases hz : ∀ z ∈ s, z = 0
    · rw [map_zero_eq c s hz]
    push Not at hz
    unfold spectralMoment
    rw [centroid_scale fs s 1 c hc, centroid_scale fs s 2 c hc, List.length_map, magSpec_scale]
    have hn := norm_pos_iff.mpr hc
    have ht := (total_pos_iff s).mpr hz
    by_cases hf : fs = 0
    · rw [spectralCentroid, absFreqs, if_pos (Or.inl hf)]; rfl
    have hfr : absFreqs fs s.length = .ok ((Np.fftfreq s.length fs).map fun f => |f|) := by
      rw [absFreqs, if_neg]
      rintro (h | h)
      · exact hf h
      · exact absurd h (length_pos_of_ex hz).ne'
    have hcen : ∀ i, ∃ m, spectralCentroid fs s i = .ok (fin m) := fun i => by
      rw [spectralCentroid, hfr, ok_bind, magSpec_sum, fin_div _ _ ht.ne']
      exact ⟨_, rfl⟩
    obtain ⟨m1, h1⟩ := hcen 1
    obtain ⟨m2, h2⟩ := hcen 2
    rw [h1, h2, hfr]
    simp only [ok_bind, fin_sub, powNat_fin, fin_mul]
    rw [zip_fin_sum (fun m f => m * (f - m1) ^ p), zip_fin_sum (fun m f => m * (f - m1) ^ p),
      zip_mul_sum ‖c‖ (fun f => (f - m1) ^ p), List.sum_map_mul_left, List.map_id', magSpec_sum, mul_assoc]
    by_cases hm2 : 0 ≤ m2
    · rw [div_scale _ _ _ hn (mul_nonneg ht.le (pow_nonneg hm2 _))]
    · have : Spec.total s * m2 ^ p ≠ 0 := mul_ne_zero ht.ne' (pow_ne_zero _ (by intro h; exact hm2 h.ge))
      rw [fin_div _ _ this, fin_div _ _ (mul_ne_zero hn.ne' this), mul_div_mul_left _ _ hn.ne']
  exact ⟨key 3 (by norm_num), key 4 (by norm_num)⟩

/-- C95: a spectrum with nothing but bin 0 (a constant signal), or nothing at all, has NaN skewness and kurtosis. -/
theorem C95_nan (fs : ℝ) (hfs : 0 < fs) (s : List ℂ) (hne : s ≠ []) (h : ∀ k < s.length, k ≠ 0 → s.getD k 0 = 0) :
    spectralSkewness fs s = .ok nan ∧ spectralKurtosis fs s = .ok nan := by
  have hl : 0 < s.length := List.length_pos_iff.mpr hne
  have key : ∀ p, 0 < p → spectralMoment p fs s = .ok nan := by
    intro p hp
    by_cases hz : ∀ z ∈ s, z = 0
    · have hc : ∀ i, spectralCentroid fs s i = .ok nan := fun i => (C72_degenerate fs s i).2 hfs hne hz
      have hpn : ∀ p, 0 < p → powNat (nan : XF ℝ) p = nan := fun p hp => by
        obtain ⟨q, rfl⟩ : ∃ q, p = q + 1 := ⟨p - 1, by omega⟩
        simp [powNat]
      rw [spectralMoment, hc, ok_bind, hc, ok_bind, absFreqs_ok fs hfs hl, ok_bind, hpn p hp]
      simp
    · push Not at hz
      have hb : ∀ i, 0 < i → Spec.barycenter fs s i = 0 := fun i hi => by
        rw [Spec.barycenter, Finset.sum_eq_zero, zero_div]
        intro k hk
        by_cases hk0 : k = 0
        · have : Spec.binFreq fs s.length 0 = 0 := by simp [Spec.binFreq]
          rw [hk0, this, zero_pow hi.ne', mul_zero]
        · rw [Spec.mag, h k (Finset.mem_range.mp hk) hk0, norm_zero, zero_mul]
      rw [moment_raw p fs hfs s hz, hb 1 one_pos, hb 2 two_pos, zero_pow hp.ne', mul_zero, Finset.sum_eq_zero,
        zero_div_zero]
      intro k hk
      by_cases hk0 : k = 0
      · have : Spec.binFreq fs s.length 0 = 0 := by simp [Spec.binFreq]
        rw [hk0, this, sub_zero, zero_pow hp.ne', mul_zero]
      · rw [Spec.mag, h k (Finset.mem_range.mp hk) hk0, norm_zero, zero_mul]
  exact ⟨key 3 (by norm_num), key 4 (by norm_num)⟩

example : 0 ≤ Spec.centralMoment 4 8000 twoBins :=
  (C95_meaning 8000 (by norm_num) twoBins 1 (by simp [twoBins]) one_ne_zero (by simp [twoBins])).2.2

/-! ### C96: mean, RMS, standard deviation and variance of the spectrum -/

theorem sum_norm_sub_sq (s : List ℂ) (μ : ℂ) :
    (s.map fun z => ‖z - μ‖ ^ 2).sum =
      (s.map fun z => ‖z‖ ^ 2).sum + s.length * ‖μ‖ ^ 2 - 2 * (s.sum * (starRingEnd ℂ) μ).re := by
  induction s with
  | nil => simp
  | cons z s ih =>
    simp only [List.map_cons, List.sum_cons, ih, List.length_cons]
    rw [Complex.sq_norm, Complex.normSq_sub, ← Complex.sq_norm, ← Complex.sq_norm, add_mul, Complex.add_re]
    push_cast
    ring

theorem rfft_ne_nil (sig : List ℝ) (nfft : ℕ) (s : List ℂ) (h : rfft sig nfft = .ok s) : s ≠ [] := by
  have := rfft_length sig nfft s h
  intro h; rw [h] at this; simp at this

/-- C96: the variance entry is the mean squared magnitude minus the squared magnitude of the mean entry, it is not
negative, 0 exactly when all bins agree, and the square of the standard deviation entry. -/
theorem C96_variance (sig : List ℝ) (fs : ℝ) (nfft : ℕ) (f : SpectralFeats) (h : extractFeats sig fs nfft = .ok f) :
    f.variance = (∑ k ∈ Finset.range (nfft / 2 + 1), ‖Np.dft sig nfft k‖ ^ 2) / (nfft / 2 + 1 : ℕ) - ‖f.mean‖ ^ 2 ∧
      0 ≤ f.variance ∧ f.std ^ 2 = f.variance ∧ 0 ≤ f.std ∧
      (f.variance = 0 ↔ ∀ k ≤ nfft / 2, Np.dft sig nfft k = f.mean) ∧
      f.mean = (∑ k ∈ Finset.range (nfft / 2 + 1), Np.dft sig nfft k) / (nfft / 2 + 1 : ℕ) := by
  obtain ⟨s, hs, -, -, -, -, -, -, -, -, hm, -, hsd, hv⟩ := extractFeats_ok_iff sig fs nfft f h
  have hl := rfft_length sig nfft s hs
  have hs' : s = (List.range (nfft / 2 + 1)).map fun (k : ℕ) => Np.dft sig nfft k := by
    unfold rfft at hs
    split_ifs at hs
    injection hs with hs
    exact hs.symm
  have hN : (0 : ℝ) < (nfft / 2 + 1 : ℕ) := by positivity
  have hNc : ((nfft / 2 + 1 : ℕ) : ℂ) ≠ 0 := by exact_mod_cast hN.ne'
  have hnn : 0 ≤ cVar s := by
    refine div_nonneg (List.sum_nonneg ?_) (Nat.cast_nonneg _)
    intro x hx
    obtain ⟨z, -, rfl⟩ := List.mem_map.mp hx
    positivity
  have hmul : s.sum = (nfft / 2 + 1 : ℕ) * f.mean := by rw [hm, cMean, hl, mul_div_cancel₀ _ hNc]
  refine ⟨?_, hv ▸ hnn, ?_, hsd ▸ Real.sqrt_nonneg _, ?_, ?_⟩
  · have e : (s.map fun z => ‖z‖ ^ 2).sum = ∑ k ∈ Finset.range (nfft / 2 + 1), ‖Np.dft sig nfft k‖ ^ 2 := by
      rw [hs', List.map_map, ← sum_map_range]; rfl
    rw [hv, cVar, ← hm, sum_norm_sub_sq, e, hl, hmul, mul_assoc, Complex.mul_conj, ← Complex.ofReal_natCast,
      ← Complex.ofReal_mul, Complex.ofReal_re, ← Complex.sq_norm]
    field_simp
    ring
  · rw [hsd, hv, Real.sq_sqrt hnn]
  · rw [hv, cVar, hl, div_eq_zero_iff, or_iff_left hN.ne', ← hm]
    have e : (s.map fun z => ‖z - f.mean‖ ^ 2).sum =
        ∑ k ∈ Finset.range (nfft / 2 + 1), ‖Np.dft sig nfft k - f.mean‖ ^ 2 := by
      rw [hs', List.map_map, ← sum_map_range]; rfl
    rw [e, Finset.sum_eq_zero_iff_of_nonneg (fun _ _ => by positivity)]
    constructor
    · intro h k hk
      have := h k (Finset.mem_range.mpr (by omega))
      rwa [sq_eq_zero_iff, norm_eq_zero, sub_eq_zero] at this
    · intro h k hk
      rw [h k (by have := Finset.mem_range.mp hk; omega), sub_self, norm_zero]; norm_num
  · rw [hm, cMean, hl, hs', sum_map_range]

/-- C96, violated: the RMS entry squares the complex bins instead of their magnitudes. For the delayed impulse
`[0, 1]` with `nfft = 4` all magnitudes are 1, yet the square of the RMS entry is `1/3`. -/
theorem C96_rms_violated (fs : ℝ) (f : SpectralFeats) (h : extractFeats [0, 1] fs 4 = .ok f) :
    (∀ k ≤ 2, ‖Np.dft [0, 1] 4 k‖ = 1) ∧ f.rms ^ 2 = 1 / 3 := by
  have h1 : Complex.exp (-(2 * Real.pi * Complex.I * 1 / 4)) = -Complex.I := by
    rw [show -(2 * Real.pi * Complex.I * 1 / 4) = -((Real.pi / 2 : ℂ) * Complex.I) by ring, Complex.exp_neg,
      Complex.exp_pi_div_two_mul_I, Complex.inv_I]
  have hd : ∀ k : ℕ, Np.dft [0, 1] 4 k = (-Complex.I) ^ k := fun k => by
    unfold Np.dft Np.dftC
    simp only [Finset.sum_range_succ, Finset.sum_range_zero]
    simp
    rw [← h1, ← Complex.exp_nat_mul]; congr 1; ring
  refine ⟨fun k _ => by rw [hd]; simp, ?_⟩
  obtain ⟨s, hs, -, -, -, -, -, -, -, -, -, hr, -⟩ := extractFeats_ok_iff _ fs 4 f h
  have hs' : s = [1, -Complex.I, -1] := by
    unfold rfft at hs
    rw [if_neg (by norm_num)] at hs
    injection hs with hs
    rw [← hs]
    simp [List.range_succ, hd]
  rw [hr, hs', one_div, Complex.cpow_ofNat_inv_pow]
  simp [cMean]

/-- C96, the part that holds: when all bins of the spectrum are real (symmetric signals), the RMS entry is the root of
the mean squared magnitude. Missing: all other signals, see `C96_rms_violated`. -/
theorem C96_rms_partial (sig : List ℝ) (fs : ℝ) (nfft : ℕ) (f : SpectralFeats) (h : extractFeats sig fs nfft = .ok f)
    (hr : ∀ k ≤ nfft / 2, (Np.dft sig nfft k).im = 0) :
    f.rms = ((√((∑ k ∈ Finset.range (nfft / 2 + 1), ‖Np.dft sig nfft k‖ ^ 2) / (nfft / 2 + 1 : ℕ)) : ℝ) : ℂ) := by
  obtain ⟨s, hs, -, -, -, -, -, -, -, -, -, hrms, -⟩ := extractFeats_ok_iff sig fs nfft f h
  have hs' : s = (List.range (nfft / 2 + 1)).map fun (k : ℕ) => Np.dft sig nfft k := by
    unfold rfft at hs
    split_ifs at hs
    injection hs with hs
    exact hs.symm
  have e : cMean (s.map fun z => z ^ 2) =
      (((∑ k ∈ Finset.range (nfft / 2 + 1), ‖Np.dft sig nfft k‖ ^ 2) / (nfft / 2 + 1 : ℕ) : ℝ) : ℂ) := by
    rw [cMean, hs', List.map_map, sum_map_range]
    simp only [List.length_map, List.length_range]
    push_cast
    congr 1
    refine Finset.sum_congr rfl fun k hk => ?_
    have him := hr k (by have := Finset.mem_range.mp hk; omega)
    have : Np.dft sig nfft k = ((Np.dft sig nfft k).re : ℂ) := Complex.ext rfl (by simp [him])
    rw [Function.comp_apply, this, Complex.norm_real]
    norm_cast
    rw [Real.norm_eq_abs, sq_abs]
  have hnn : 0 ≤ (∑ k ∈ Finset.range (nfft / 2 + 1), ‖Np.dft sig nfft k‖ ^ 2) / (nfft / 2 + 1 : ℕ) :=
    div_nonneg (Finset.sum_nonneg fun _ _ => by positivity) (Nat.cast_nonneg _)
  rw [hrms, e, Real.sqrt_eq_rpow, Complex.ofReal_cpow hnn]
  norm_num

/-- `extract_feats` succeeds for every signal once `fs ≠ 0` and `nfft ≥ 1`. -/
theorem C76_defined (sig : List ℝ) (fs : ℝ) (hfs : fs ≠ 0) (nfft : ℕ) (hn : nfft ≠ 0) :
    ∃ f, extractFeats sig fs nfft = .ok f := by
  unfold extractFeats
  rw [rfft, if_neg hn, ok_bind]
  generalize hs : ((List.range (nfft / 2 + 1)).map fun (k : ℕ) => Np.dft sig nfft k) = s
  have hl : s.length ≠ 0 := by rw [← hs]; simp
  have hfr : absFreqs fs s.length = .ok ((Np.fftfreq s.length fs).map fun f => |f|) := by
    rw [absFreqs, if_neg]
    rintro (h | h) <;> contradiction
  have hc : ∀ i, ∃ c, spectralCentroid fs s i = .ok c := fun i => by
    rw [spectralCentroid, hfr, ok_bind]; exact ⟨_, rfl⟩
  obtain ⟨c1, h1⟩ := hc 1
  obtain ⟨c2, h2⟩ := hc 2
  simp only [spectralSkewness, spectralKurtosis, spectralMoment, spectralSpread, spectralFlux, h1, h2, hfr, ok_bind,
    if_neg two_ne_zero]
  exact ⟨_, rfl⟩

example : ∃ f, extractFeats [0, 1] 8000 4 = .ok f ∧ f.rms ^ 2 = 1 / 3 := by
  obtain ⟨f, h⟩ := C76_defined [0, 1] 8000 (by norm_num) 4 (by norm_num)
  exact ⟨f, h, (C96_rms_violated 8000 f h).2⟩

end Props
end Spafe
