import Verif.Lemmas.CqtTone
import Verif.Props.Cqt
import Verif.Props.Meaning
import Mathlib.Analysis.Complex.ExponentialBounds

/-! C143: the constant-Q transform of a pure tone. -/

set_option linter.unusedSectionVars false

namespace Spafe
namespace Props
open Model Spec Real

/-- What the spectral threshold can add or remove, for a tone of amplitude 1 in a frame of `n` samples. -/
noncomputable def thresholdError (thr : ℝ) (n : ℕ) : ℝ := thr * (2 + 2 / π * (1 + Real.log n))

/-- C143: for all parameters, let a frame hold a tone of amplitude `A` and frequency `f`, let `g` be a frequency of the
transform and `N` its window length. Away from the tone the entry of `g` is at most
`|A| ((1/|sin(π(f-g)/fs)| + 1/|sin(π(f+g)/fs)|) / (2N) + E)`, next to it, when `π N |f-g| / fs ≤ x ≤ π`, at least
`|A| ((sin x / x · Σw - 1/|sin(π(f+g)/fs)|) / (2N) - E)`, with `E = thr (2 + 2/π (1 + log nfft))`. -/
theorem C143_response (frames : List (List ℝ)) {fs low : ℝ} {high : Option ℝ} {nfft O B : ℕ} {t : String} {thr f0 q : ℝ}
    (hfs : 0 < fs) (hq : 0 < q) (hB : B ≠ 0) (hf0 : 0 < f0) (ht : WindowName t) (hthr : 0 ≤ thr)
    (hne : admissible f0 O B low (effHigh high fs) fs q nfft ≠ []) :
    ∃ m, computeCqt frames fs low high nfft O B t thr f0 q = .ok m ∧
      ∀ k i, k < (admissible f0 O B low (effHigh high fs) fs q nfft).length → i < frames.length →
      ∀ g : ℝ, g = (admissible f0 O B low (effHigh high fs) fs q nfft).getD k 0 →
      ∀ N : ℕ, (N : ℤ) = ⌈q / (2 ^ (1 / (B : ℝ)) - 1) * fs / g⌉ → 2 ≤ N →
      ∀ f A φ : ℝ, (∀ j < nfft, (frames.getD i []).getD j 0 = A * cos (2 * π * f * j / fs + φ)) →
      sin (π * (f + g) / fs) ≠ 0 →
        (sin (π * (f - g) / fs) ≠ 0 → ‖(m.getD k []).getD i 0‖ ≤
          |A| * ((1 / |sin (π * (f - g) / fs)| + 1 / |sin (π * (f + g) / fs)|) / (2 * N) + thresholdError thr nfft)) ∧
        (∀ x, 0 < x → π * N * |f - g| / fs ≤ x → x ≤ π →
          |A| * ((sin x / x * (∑ j ∈ Finset.range N, windowWeight t N j) - 1 / |sin (π * (f + g) / fs)|) / (2 * N) -
            thresholdError thr nfft) ≤ ‖(m.getD k []).getD i 0‖) := by
  refine ⟨_, computeCqt_ok frames hfs hq hB hf0 hne _ (fun n => C14_window_formula t ht n), fun k i hk hi g hg N hN hN2 f A φ hx hm => ?_⟩
  rw [getD_map_lt _ _ 0 _ hk, getD_map_lt _ frames [] _ hi, ← hg]
  have hf := getD_mem 0 hk
  rw [← hg] at hf
  have h3 : winLen fs q B g ≤ nfft := of_decide_eq_true (List.mem_filter.mp hf).2
  have hN' : winLen fs q B g = (N : ℤ) := hN.symm
  rw [hN'] at h3 ⊢
  rw [Int.toNat_natCast]
  obtain ⟨w, hw⟩ : ∃ w, w = (List.range N).map (windowWeight t N) := ⟨_, rfl⟩
  rw [← hw]
  have hnfft : nfft ≠ 0 := by omega
  have hNn : N ≤ nfft := by exact_mod_cast h3
  obtain ⟨e, he⟩ : ∃ e, e = cqtEntry nfft (kernelRow nfft thr (cqtAtom nfft fs g N w)) (frames.getD i []) := ⟨_, rfl⟩
  rw [← he]
  have hN0 : (0 : ℝ) < N := by exact_mod_cast (by omega : 0 < N)
  have hA := abs_nonneg A
  -- the threshold
  have herr : ‖e - cqCoeff nfft fs g N (fun j => w.getD j 0) (fun j => (frames.getD i []).getD j 0)‖ ≤
      |A| * thresholdError thr nfft := by
    rw [he, ← cqtAtom_sum nfft fs g N hNn]
    refine (cqtEntry_near' hnfft hthr _ _).trans ?_
    have h := tone_dft_sum hfs.ne' (Nat.pos_of_ne_zero hnfft) hx
    have hn : (0 : ℝ) < nfft := by exact_mod_cast Nat.pos_of_ne_zero hnfft
    have h2 : (∑ k ∈ Finset.range nfft, ‖Np.dft (frames.getD i []) nfft k‖) / nfft ≤ |A| * (2 + 2 / π * (1 + Real.log nfft)) := by
      rw [div_le_iff₀ hn]; refine h.trans (le_of_eq ?_); ring
    refine (mul_le_mul_of_nonneg_left h2 hthr).trans (le_of_eq ?_)
    unfold thresholdError; ring
  -- the coefficient
  obtain ⟨u, v, hu, hv, hc⟩ := cqCoeff_tone (w := fun j => w.getD j 0) (x := fun j => (frames.getD i []).getD j 0) (g := g)
    hfs.ne' hNn (by omega) hx
  have hW : ∀ θ, windowTransform (fun j => w.getD j 0) N θ = windowTransform (windowWeight t N) N θ := by
    intro θ
    unfold windowTransform
    refine Finset.sum_congr rfl fun j hj => ?_
    beta_reduce
    rw [hw, getD_map_range_lt _ _ (Finset.mem_range.mp hj)]
  rw [hW, hW] at hc
  rw [hc] at herr
  obtain ⟨W1, hW1⟩ : ∃ W1, W1 = windowTransform (windowWeight t N) N (2 * (π * ((f - g) / fs))) := ⟨_, rfl⟩
  obtain ⟨W2, hW2⟩ : ∃ W2, W2 = windowTransform (windowWeight t N) N (-(2 * (π * ((f + g) / fs)))) := ⟨_, rfl⟩
  have hmir : ‖W2‖ ≤ 1 / |sin (π * (f + g) / fs)| := by
    have h := windowTransform_le t hN2 (θ := -(2 * (π * ((f + g) / fs))))
      (by rw [neg_div, mul_div_cancel_left₀ _ two_ne_zero, sin_neg, ← mul_div_assoc]; exact neg_ne_zero.mpr hm)
    rwa [neg_div, mul_div_cancel_left₀ _ two_ne_zero, sin_neg, abs_neg, ← hW2, ← mul_div_assoc] at h
  rw [← hW1, ← hW2] at herr
  have hnorm : ‖((A / (2 * N) : ℝ) : ℂ) * (u * W1 + v * W2)‖ = |A| * (‖u * W1 + v * W2‖ / (2 * N)) := by
    rw [norm_mul, Complex.norm_real, Real.norm_eq_abs, abs_div, abs_of_pos (show (0 : ℝ) < 2 * N by positivity)]
    ring
  refine ⟨fun hs => ?_, fun x hx0 hxl hxp => ?_⟩
  · have h1 : ‖W1‖ ≤ 1 / |sin (π * (f - g) / fs)| := by
      have h := windowTransform_le t hN2 (θ := 2 * (π * ((f - g) / fs)))
        (by rw [mul_div_cancel_left₀ _ two_ne_zero, ← mul_div_assoc]; exact hs)
      rwa [mul_div_cancel_left₀ _ two_ne_zero, ← hW1, ← mul_div_assoc] at h
    have h2 : ‖u * W1 + v * W2‖ ≤ 1 / |sin (π * (f - g) / fs)| + 1 / |sin (π * (f + g) / fs)| := by
      refine (norm_add_le _ _).trans ?_
      rw [norm_mul, norm_mul, hu, hv, one_mul, one_mul]
      exact add_le_add h1 hmir
    have h3 : ‖e‖ ≤ ‖((A / (2 * N) : ℝ) : ℂ) * (u * W1 + v * W2)‖ + |A| * thresholdError thr nfft := by
      have := norm_le_norm_add_norm_sub' e (((A / (2 * N) : ℝ) : ℂ) * (u * W1 + v * W2))
      linarith
    rw [hnorm] at h3
    refine h3.trans ?_
    rw [mul_add]
    gcongr
  · have h1 : sin x / x * ∑ j ∈ Finset.range N, windowWeight t N j ≤ ‖W1‖ := by
      rw [hW1]
      refine windowTransform_ge t hN2 hx0 ?_ hxp
      refine le_trans (le_of_eq ?_) hxl
      rw [abs_mul, abs_two, abs_mul, abs_of_pos pi_pos, abs_div, abs_of_pos hfs]
      ring
    have h2 : sin x / x * (∑ j ∈ Finset.range N, windowWeight t N j) - 1 / |sin (π * (f + g) / fs)| ≤ ‖u * W1 + v * W2‖ := by
      have h := norm_sub_le_norm_add (u * W1) (v * W2)
      rw [norm_mul, norm_mul, hu, hv, one_mul, one_mul] at h
      linarith
    have h3 : ‖((A / (2 * N) : ℝ) : ℂ) * (u * W1 + v * W2)‖ - |A| * thresholdError thr nfft ≤ ‖e‖ := by
      have := norm_le_norm_add_norm_sub e (((A / (2 * N) : ℝ) : ℂ) * (u * W1 + v * W2))
      linarith
    rw [hnorm] at h3
    refine le_trans ?_ h3
    rw [mul_sub]
    gcongr

/-- The quality factor of the default grid, 24 frequencies per octave, is about 34.1. -/
theorem default_quality : 34.1 < 1 / ((2 : ℝ) ^ (1 / ((24 : ℕ) : ℝ)) - 1) ∧ 1 / ((2 : ℝ) ^ (1 / ((24 : ℕ) : ℝ)) - 1) < 34.14 := by
  have h1 := one_add_lt_rpow (B := 24) (x := 0.0293) (by norm_num) (by norm_num) (by norm_num)
  have h2 := rpow_lt_one_add (B := 24) (x := 0.02931) (by norm_num) (by norm_num) (by norm_num)
  obtain ⟨g, hg⟩ : ∃ g : ℝ, g = 2 ^ (1 / ((24 : ℕ) : ℝ)) := ⟨_, rfl⟩
  rw [← hg] at h1 h2 ⊢
  have h0 : 0 < g - 1 := by linarith
  constructor
  · rw [lt_div_iff₀ h0]; linarith
  · rw [div_lt_iff₀ h0]; linarith

theorem default_threshold : thresholdError 0.005 512 < 0.0331 := by
  unfold thresholdError
  have hl : Real.log ((512 : ℕ) : ℝ) = 9 * Real.log 2 := by
    rw [show ((512 : ℕ) : ℝ) = 2 ^ 9 by norm_num, Real.log_pow]; norm_num
  rw [hl]
  have h2 := Real.log_two_lt_d9
  have h3 := Real.log_two_gt_d9
  have hp : 2 / π < 0.6367 := by
    rw [div_lt_iff₀ pi_pos]; linarith [pi_gt_d4]
  have hp0 : 0 < 2 / π := by positivity
  nlinarith

/-- The frequencies of the transform with the default arguments. -/
theorem default_range {g : ℝ} (hg : g ∈ admissible 120 7 24 0 (effHigh none 16000) 16000 1 512) : 1065 ≤ g ∧ g ≤ 8000 := by
  obtain ⟨i, -, hgi, -, h2, h3⟩ := mem_admissible.mp hg
  have hg0 : 0 < g := by rw [hgi]; positivity
  refine ⟨?_, by norm_num [effHigh] at h2; exact h2⟩
  have hq := default_quality.1
  rw [Int.ceil_le] at h3
  push_cast at h3 hq
  rw [div_le_iff₀ hg0] at h3
  linarith

theorem default_bounds (frames : List (List ℝ)) :
    ∃ m, computeCqt frames 16000 0 none 512 7 24 "hamming" 0.005 120 1 = .ok m ∧
      ∀ k i, k < (admissible 120 7 24 0 (effHigh none 16000) 16000 1 512).length → i < frames.length →
      ∀ g : ℝ, g = (admissible 120 7 24 0 (effHigh none 16000) 16000 1 512).getD k 0 →
      ∀ f A φ μ : ℝ, (∀ j < 512, (frames.getD i []).getD j 0 = A * cos (2 * π * f * j / 16000 + φ)) →
      0 < f → f ≤ 6000 → 0 < μ → μ * g ≤ (f + g) * (1 - (f + g) / 16000) →
        (∀ c, 0 < c → c ≤ 1 → c * g ≤ |f - g| → ‖(m.getD k []).getD i 0‖ ≤
          |A| * (1 / (214 * (c * (1 - c / 2))) + 1 / (214 * μ) + 0.0331)) ∧
        (∀ x, 0 < x → π * (34.14 / g + 1 / 16000) * |f - g| ≤ x → x ≤ π →
          |A| * (sin x / x * 0.2666 - 1 / (214 * μ) - 0.0331) ≤ ‖(m.getD k []).getD i 0‖) := by
  obtain ⟨m, hm, h⟩ := C143_response frames (fs := 16000) (low := 0) (high := none) (nfft := 512) (O := 7) (B := 24)
    (t := "hamming") (thr := 0.005) (f0 := 120) (q := 1) (by norm_num) (by norm_num) (by norm_num) (by norm_num)
    (by simp [WindowName]) (by norm_num) default_admissible
  refine ⟨m, hm, fun k i hk hi g hg f A φ μ hx hf0 hf1 hμ hμg => ?_⟩
  obtain ⟨hg0, hg1⟩ := default_range (g := g) (by rw [hg]; exact getD_mem 0 hk)
  have hgp : 0 < g := by linarith
  obtain ⟨hq0, hq1⟩ := default_quality
  obtain ⟨Q, hQ⟩ : ∃ Q : ℝ, Q = 1 / (2 ^ (1 / ((24 : ℕ) : ℝ)) - 1) := ⟨_, rfl⟩
  rw [← hQ] at hq0 hq1
  obtain ⟨N, hN⟩ : ∃ N : ℕ, (N : ℤ) = ⌈Q * 16000 / g⌉ := by
    refine ⟨⌈Q * 16000 / g⌉.toNat, Int.toNat_of_nonneg (Int.ceil_nonneg ?_)⟩
    have : 0 < Q := by linarith
    positivity
  have hN1 : Q * 16000 / g ≤ N := by
    have := Int.le_ceil (Q * 16000 / g)
    rw [← hN] at this
    exact_mod_cast this
  have hN2 : (N : ℝ) ≤ Q * 16000 / g + 1 := by
    have := (Int.ceil_lt_add_one (Q * 16000 / g)).le
    rw [← hN] at this
    exact_mod_cast this
  have hN1' : Q * 16000 ≤ N * g := by rwa [div_le_iff₀ hgp] at hN1
  have hN68 : (68 : ℝ) ≤ N := by
    by_contra hc
    push Not at hc
    nlinarith
  have hN68' : 68 ≤ N := by exact_mod_cast hN68
  have hpi := pi_gt_d2
  have hQpi : 107 ≤ π * Q := by nlinarith
  -- the mirror image
  have hmir : 107 * μ ≤ N * |sin (π * (f + g) / 16000)| := by
    have h1 := sin_ge_parabola (x := (f + g) / 16000) (by positivity) (by rw [div_le_one (by norm_num)]; linarith)
    rw [← mul_div_assoc] at h1
    have h2 : π * (μ * g / 16000) ≤ π * ((f + g) / 16000 * (1 - (f + g) / 16000)) := by
      apply mul_le_mul_of_nonneg_left _ pi_pos.le
      linarith
    calc 107 * μ ≤ π * Q * μ := by gcongr
      _ = Q * 16000 * (π * (μ / 16000)) := by ring
      _ ≤ N * g * (π * (μ / 16000)) := by gcongr
      _ = N * (π * (μ * g / 16000)) := by ring
      _ ≤ N * sin (π * (f + g) / 16000) := by
        apply mul_le_mul_of_nonneg_left _ (by linarith); linarith
      _ ≤ _ := by gcongr; exact le_abs_self _
  have hmir0 : 0 < |sin (π * (f + g) / 16000)| := by
    by_contra hc
    have : |sin (π * (f + g) / 16000)| = 0 := le_antisymm (not_lt.mp hc) (abs_nonneg _)
    rw [this] at hmir
    linarith
  have hmir2 : 1 / |sin (π * (f + g) / 16000)| / (2 * N) ≤ 1 / (214 * μ) := by
    rw [div_div]
    apply one_div_le_one_div_of_le (by positivity)
    linarith
  obtain ⟨hfar, hnear⟩ := h k i hk hi g hg N (by rw [hN, hQ]) (by omega) f A φ hx (abs_pos.mp hmir0)
  have hE := default_threshold
  refine ⟨fun c hc hc1 hcg => ?_, fun x hx0 hxl hxp => ?_⟩
  · have hd : c * g / 16000 ≤ |(f - g) / 16000| := by
      rw [abs_div, abs_of_pos (by norm_num : (0 : ℝ) < 16000)]
      apply div_le_div_of_nonneg_right hcg (by norm_num)
    have hd2 : |(f - g) / 16000| ≤ 1 / 2 := by
      rw [abs_div, abs_of_pos (by norm_num : (0 : ℝ) < 16000), div_le_iff₀ (by norm_num), abs_le]
      constructor <;> linarith
    have hd3 : c * g / 16000 ≤ c / 2 := by nlinarith
    obtain ⟨h1, h2⟩ := abs_sin_ge (x := (f - g) / 16000) (d := c * g / 16000) (by positivity) hd hd2
    rw [← mul_div_assoc π (f - g)] at h2
    have h3 := sin_ge_parabola (x := c * g / 16000) (by positivity) (by linarith)
    have h4 : 107 * (c * (1 - c / 2)) ≤ N * |sin (π * (f - g) / 16000)| := by
      have hc3 : 0 ≤ 1 - c / 2 := by linarith
      calc 107 * (c * (1 - c / 2)) ≤ π * Q * (c * (1 - c / 2)) := by gcongr
        _ = Q * 16000 * (π * (c / 16000) * (1 - c / 2)) := by ring
        _ ≤ N * g * (π * (c / 16000) * (1 - c / 2)) := by gcongr
        _ = N * (π * (c * g / 16000 * (1 - c / 2))) := by ring
        _ ≤ N * (π * (c * g / 16000 * (1 - c * g / 16000))) := by gcongr
        _ ≤ N * sin (π * (c * g / 16000)) := by gcongr
        _ ≤ _ := by gcongr
    have h5 : 1 / |sin (π * (f - g) / 16000)| / (2 * N) ≤ 1 / (214 * (c * (1 - c / 2))) := by
      rw [div_div]
      have : 0 < c * (1 - c / 2) := mul_pos hc (by linarith)
      apply one_div_le_one_div_of_le (by positivity)
      linarith
    refine (hfar (abs_pos.mp (h1.trans_le h2))).trans ?_
    apply mul_le_mul_of_nonneg_left _ (abs_nonneg A)
    rw [add_div]
    linarith
  · have hw := hamming_sum (n := N - 1) (by omega)
    rw [show N - 1 + 1 = N by omega, show ((N - 1 : ℕ) : ℝ) + 1 = N by rw [Nat.cast_sub (by omega)]; simp] at hw
    have hxl' : π * N * |f - g| / 16000 ≤ x := by
      refine le_trans ?_ hxl
      have hn : (N : ℝ) ≤ 34.14 * 16000 / g + 1 := by
        refine hN2.trans ?_
        gcongr
      calc π * N * |f - g| / 16000 ≤ π * (34.14 * 16000 / g + 1) * |f - g| / 16000 := by gcongr
        _ = _ := by field_simp
    refine le_trans ?_ (hnear x hx0 hxl' hxp)
    apply mul_le_mul_of_nonneg_left _ (abs_nonneg A)
    have hs : 0 ≤ sin x / x := div_nonneg (sin_nonneg_of_nonneg_of_le_pi hx0.le hxp) hx0.le
    have h6 : sin x / x * 0.2666 ≤ sin x / x * (∑ j ∈ Finset.range N, windowWeight "hamming" N j) / (2 * N) := by
      rw [mul_div_assoc]
      apply mul_le_mul_of_nonneg_left _ hs
      rw [hw, le_div_iff₀ (by positivity)]
      linarith
    rw [sub_div]
    linarith

/-- A frequency of the default grid is close to every frequency between 1100 and 5000 Hz. -/
theorem default_nearest {f : ℝ} (h0 : 1100 ≤ f) (h1 : f ≤ 5000) :
    ∃ k < (admissible 120 7 24 0 (effHigh none 16000) 16000 1 512).length,
      |f - (admissible 120 7 24 0 (effHigh none 16000) 16000 1 512).getD k 0| ≤
        0.01466 * (admissible 120 7 24 0 (effHigh none 16000) 16000 1 512).getD k 0 := by
  have r1 := one_add_lt_rpow (B := 24) (x := 0.0293) (by norm_num) (by norm_num) (by norm_num)
  have r2 := rpow_lt_one_add (B := 24) (x := 0.02931) (by norm_num) (by norm_num) (by norm_num)
  obtain ⟨hq0, hq1⟩ := default_quality
  obtain ⟨ρ, hρ⟩ : ∃ ρ : ℝ, ρ = 2 ^ (1 / ((24 : ℕ) : ℝ)) := ⟨_, rfl⟩
  rw [← hρ] at r1 r2
  have hρ1 : 1 < ρ := by linarith
  have hpow : ∀ i : ℕ, (2 : ℝ) ^ ((i : ℝ) / (24 : ℕ)) = ρ ^ i := by
    intro i
    rw [hρ, ← Real.rpow_natCast, ← Real.rpow_mul (by norm_num)]
    congr 1; ring
  have hρ24 : ρ ^ 24 = 2 := by
    rw [← hpow]; norm_num
  -- the grid points are admissible
  have hadm : ∀ i : ℕ, 1066.9 ≤ 120 * ρ ^ i → 120 * ρ ^ i ≤ 5200 → 120 * ρ ^ i ∈ admissible 120 7 24 0 (effHigh none 16000) 16000 1 512 := by
    intro i hi1 hi2
    refine mem_admissible.mpr ⟨i, ?_, by rw [hpow], by linarith, by norm_num [effHigh]; linarith, ?_⟩
    · by_contra hc
      push Not at hc
      have : ρ ^ (7 * 24) ≤ ρ ^ i := pow_le_pow_right₀ hρ1.le hc
      rw [mul_comm, pow_mul, hρ24] at this
      linarith
    · rw [Int.ceil_le, div_le_iff₀ (by linarith)]
      push_cast at hq1 ⊢
      linarith
  -- the last grid point not above f
  have hex : ∃ i : ℕ, f < 120 * ρ ^ i := by
    obtain ⟨i, hi⟩ := pow_unbounded_of_one_lt (f / 120) hρ1
    exact ⟨i, by linarith⟩
  obtain ⟨j, hj, hmin⟩ : ∃ j : ℕ, f < 120 * ρ ^ j ∧ ∀ i < j, ¬ f < 120 * ρ ^ i := by
    classical
    exact ⟨Nat.find hex, Nat.find_spec hex, fun i hi => Nat.find_min hex hi⟩
  have hj0 : j ≠ 0 := by
    rintro rfl
    norm_num at hj
    linarith
  obtain ⟨i, rfl⟩ : ∃ i, j = i + 1 := ⟨j - 1, by omega⟩
  have hi := not_lt.mp (hmin i (by omega))
  rw [pow_succ] at hj
  obtain ⟨g, hg⟩ : ∃ g : ℝ, g = 120 * ρ ^ i := ⟨_, rfl⟩
  rw [← hg] at hi
  rw [← mul_assoc, ← hg] at hj
  rcases le_or_gt (f - g) ((ρ - 1) * g / 2) with hc | hc
  · obtain ⟨k, hk, he⟩ := (mem_iff_getD 0 _).mp (hadm i (by rw [← hg]; nlinarith) (by rw [← hg]; linarith))
    refine ⟨k, hk, ?_⟩
    rw [he, ← hg, abs_of_nonneg (by linarith)]
    nlinarith
  · have e : 120 * ρ ^ (i + 1) = g * ρ := by rw [hg]; ring
    obtain ⟨k, hk, he⟩ := (mem_iff_getD 0 _).mp (hadm (i + 1) (by rw [e]; linarith) (by rw [e]; nlinarith))
    refine ⟨k, hk, ?_⟩
    rw [he, e, abs_of_neg (by linarith)]
    nlinarith

/-- C143, for the default arguments: a frame holding a tone between 1100 and 5000 Hz, of any amplitude and phase, is
strongest at a frequency of the transform within 1/15 (about a semitone) of the tone. -/
theorem C143_default (frames : List (List ℝ)) :
    ∃ m, computeCqt frames 16000 0 none 512 7 24 "hamming" 0.005 120 1 = .ok m ∧
      ∀ i < frames.length, ∀ f A φ : ℝ, A ≠ 0 → 1100 ≤ f → f ≤ 5000 →
      (∀ j < 512, (frames.getD i []).getD j 0 = A * cos (2 * π * f * j / 16000 + φ)) →
      ∀ k < m.length, (∀ k' < m.length, ‖(m.getD k' []).getD i 0‖ ≤ ‖(m.getD k []).getD i 0‖) →
        |f - (admissible 120 7 24 0 8000 16000 1 512).getD k 0| <
          (admissible 120 7 24 0 8000 16000 1 512).getD k 0 / 15 := by
  have hF : effHigh none 16000 = 8000 := by norm_num [effHigh]
  obtain ⟨m, hm, h⟩ := default_bounds frames
  have hs := (C68_shape frames (by norm_num) (by norm_num) (by norm_num) (by norm_num) m hm).1
  refine ⟨m, hm, fun i hi f A φ hA hf0 hf1 hx k hk hbest => ?_⟩
  obtain ⟨k', hk', hnear⟩ := default_nearest hf0 hf1
  by_contra hc
  push Not at hc
  have hb := hbest k' (by rw [hs]; exact hk')
  have hAp := abs_pos.mpr hA
  -- the row found
  have hk2 : k < (admissible 120 7 24 0 (effHigh none 16000) 16000 1 512).length := by rw [← hs]; exact hk
  obtain ⟨g, hg⟩ : ∃ g, g = (admissible 120 7 24 0 (effHigh none 16000) 16000 1 512).getD k 0 := ⟨_, rfl⟩
  rw [← hF, ← hg] at hc
  obtain ⟨hg0, hg1⟩ := default_range (g := g) (by rw [hg]; exact getD_mem 0 hk2)
  have hfar := (h k i hk2 hi g hg f A φ 0.3 hx (by linarith) (by linarith) (by norm_num) (by nlinarith)).1 (1 / 15)
    (by norm_num) (by norm_num) (by linarith)
  -- the row next to the tone
  obtain ⟨g', hg'⟩ : ∃ g', g' = (admissible 120 7 24 0 (effHigh none 16000) 16000 1 512).getD k' 0 := ⟨_, rfl⟩
  rw [← hg'] at hnear
  obtain ⟨hg0', hg1'⟩ := default_range (g := g') (by rw [hg']; exact getD_mem 0 hk')
  obtain ⟨n1, n2⟩ := abs_le.mp hnear
  have hxx : π * (34.14 / g' + 1 / 16000) * |f - g'| ≤ π * 0.51 := by
    rw [mul_assoc]
    apply mul_le_mul_of_nonneg_left _ pi_pos.le
    have hp : (34.14 / g' + 1 / 16000) * |f - g'| ≤ (34.14 / g' + 1 / 16000) * (0.01466 * g') := by gcongr
    refine hp.trans ?_
    have : (34.14 / g' + 1 / 16000) * (0.01466 * g') = 34.14 * 0.01466 + 0.01466 * g' / 16000 := by field_simp
    rw [this]
    linarith
  have hpk := (h k' i hk' hi g' hg' f A φ 0.7 hx (by linarith) (by linarith) (by norm_num) (by nlinarith)).2 (π * 0.51)
    (by positivity) hxx (by nlinarith [pi_pos])
  have hsin : 0.623 ≤ sin (π * 0.51) / (π * 0.51) := by
    rw [le_div_iff₀ (by positivity)]
    have h1 : sin (π * 0.51) = cos (π * 0.01) := by
      rw [← cos_pi_div_two_sub, ← cos_neg]; congr 1; ring
    rw [h1]
    have h2 := one_sub_sq_div_two_le_cos (x := π * 0.01)
    have h3 := pi_lt_d4
    have h4 := pi_pos
    nlinarith
  have hlt : |A| * (1 / (214 * (1 / 15 * (1 - 1 / 15 / 2))) + 1 / (214 * 0.3) + 0.0331) <
      |A| * (sin (π * 0.51) / (π * 0.51) * 0.2666 - 1 / (214 * 0.7) - 0.0331) := by
    apply mul_lt_mul_of_pos_left _ hAp
    norm_num
    norm_num at hsin
    linarith
  linarith

/-- C143, for the default arguments: a tone of one of the frequencies of the transform, up to 6000 Hz, is strongest in
its own row, strictly. -/
theorem C143_own_row (frames : List (List ℝ)) :
    ∃ m, computeCqt frames 16000 0 none 512 7 24 "hamming" 0.005 120 1 = .ok m ∧
      ∀ i < frames.length, ∀ k < m.length, ∀ f A φ : ℝ, A ≠ 0 → f = (admissible 120 7 24 0 8000 16000 1 512).getD k 0 → f ≤ 6000 →
      (∀ j < 512, (frames.getD i []).getD j 0 = A * cos (2 * π * f * j / 16000 + φ)) →
      ∀ k' < m.length, k' ≠ k → ‖(m.getD k' []).getD i 0‖ < ‖(m.getD k []).getD i 0‖ := by
  have hF : effHigh none 16000 = 8000 := by norm_num [effHigh]
  obtain ⟨m, hm, h⟩ := default_bounds frames
  have hs := (C68_shape frames (by norm_num) (by norm_num) (by norm_num) (by norm_num) m hm).1
  refine ⟨m, hm, fun i hi k hk f A φ hA hf hf1 hx k' hk' hne => ?_⟩
  have hAp := abs_pos.mpr hA
  rw [← hF] at hf
  rw [hs] at hk hk'
  obtain ⟨hf0, -⟩ := default_range (g := f) (by rw [hf]; exact getD_mem 0 hk)
  obtain ⟨g, hg⟩ : ∃ g, g = (admissible 120 7 24 0 (effHigh none 16000) 16000 1 512).getD k' 0 := ⟨_, rfl⟩
  obtain ⟨hg0, hg1⟩ := default_range (g := g) (by rw [hg]; exact getD_mem 0 hk')
  have hsep : 0.0284 * g ≤ |f - g| := by
    have hfg : f ≠ g := by
      intro hfg
      have hp : (admissible 120 7 24 0 (effHigh none 16000) 16000 1 512).Pairwise (· < ·) :=
        ((grid_sorted (by norm_num) 7 24).filter _).filter _
      rw [hf, hg, List.getD_eq_getElem _ _ hk, List.getD_eq_getElem _ _ hk'] at hfg
      rcases Nat.lt_or_gt_of_ne hne with h1 | h1
      · exact absurd hfg (List.pairwise_iff_getElem.mp hp _ _ hk' hk h1).ne'
      · exact absurd hfg (List.pairwise_iff_getElem.mp hp _ _ hk hk' h1).ne
    obtain ⟨a, -, ha, -⟩ := mem_admissible.mp (show f ∈ admissible 120 7 24 0 (effHigh none 16000) 16000 1 512 by
      rw [hf]; exact getD_mem 0 hk)
    obtain ⟨b, -, hb, -⟩ := mem_admissible.mp (show g ∈ admissible 120 7 24 0 (effHigh none 16000) 16000 1 512 by
      rw [hg]; exact getD_mem 0 hk')
    have r1 := one_add_lt_rpow (B := 24) (x := 0.0293) (by norm_num) (by norm_num) (by norm_num)
    obtain ⟨ρ, hρ⟩ : ∃ ρ : ℝ, ρ = 2 ^ (1 / ((24 : ℕ) : ℝ)) := ⟨_, rfl⟩
    rw [← hρ] at r1
    have hpow : ∀ i : ℕ, (2 : ℝ) ^ ((i : ℝ) / (24 : ℕ)) = ρ ^ i := by
      intro i
      rw [hρ, ← Real.rpow_natCast, ← Real.rpow_mul (by norm_num)]
      congr 1; ring
    rw [hpow] at ha hb
    have key : ∀ (p r : ℕ), p < r → ρ * (120 * ρ ^ p) ≤ 120 * ρ ^ r := by
      intro p r hpr
      have := pow_le_pow_right₀ (show 1 ≤ ρ by linarith) (show p + 1 ≤ r by omega)
      rw [pow_succ] at this
      linarith
    rcases Nat.lt_trichotomy a b with hab | hab | hab
    · have := key a b hab
      rw [← ha, ← hb] at this
      rw [abs_sub_comm]
      refine le_trans ?_ (le_abs_self _)
      nlinarith
    · exact absurd (by rw [ha, hb, hab]) hfg
    · have := key b a hab
      rw [← ha, ← hb] at this
      refine le_trans ?_ (le_abs_self _)
      nlinarith
  have hfar := (h k' i hk' hi g hg f A φ 0.2125 hx (by linarith) (by linarith) (by norm_num) (by nlinarith)).1 0.0284
    (by norm_num) (by norm_num) hsep
  have hpk := (h k i hk hi f hf f A φ 0.5 hx (by linarith) (by linarith) (by norm_num) (by nlinarith)).2 0.01
    (by norm_num) (by rw [sub_self, abs_zero, mul_zero]; norm_num) (by linarith [pi_gt_three])
  have hsin := sin_gt_sub_cube (x := 0.01) (by norm_num)
  have hlt : |A| * (1 / (214 * (0.0284 * (1 - 0.0284 / 2))) + 1 / (214 * 0.2125) + 0.0331) <
      |A| * (sin 0.01 / 0.01 * 0.2666 - 1 / (214 * 0.5) - 0.0331) := by
    apply mul_lt_mul_of_pos_left _ hAp
    norm_num at hsin ⊢
    linarith
  linarith

/-- 1920 Hz is a frequency of the default transform. -/
theorem grid_1920 : (1920 : ℝ) ∈ admissible 120 7 24 0 8000 16000 1 512 := by
  have h16 : (2 : ℝ) ^ (((96 : ℕ) : ℝ) / (24 : ℕ)) = 16 := by
    rw [show ((96 : ℕ) : ℝ) / (24 : ℕ) = ((4 : ℕ) : ℝ) by norm_num, Real.rpow_natCast]; norm_num
  refine mem_admissible.mpr ⟨96, by norm_num, by rw [h16]; norm_num, by norm_num, by norm_num, ?_⟩
  have hq := default_quality.2
  rw [Int.ceil_le, div_le_iff₀ (by norm_num)]
  push_cast at hq ⊢
  linarith

/-- A concrete case of C143: two frames, of tones of 1920 Hz and 3000 Hz. The first is strongest in the row of 1920 Hz
and in no other, the second at a frequency between 2800 and 3215 Hz. -/
example : ∃ m, computeCqt [(List.range 512).map fun (t : ℕ) => 5 * cos (2 * π * 1920 * t / 16000 + 1),
      (List.range 512).map fun (t : ℕ) => -cos (2 * π * 3000 * t / 16000)] 16000 0 none 512 7 24 "hamming" 0.005 120 1 = .ok m ∧
    (∃ k < m.length, (admissible 120 7 24 0 8000 16000 1 512).getD k 0 = 1920 ∧
      ∀ k' < m.length, k' ≠ k → ‖(m.getD k' []).getD 0 0‖ < ‖(m.getD k []).getD 0 0‖) ∧
    ∀ k < m.length, (∀ k' < m.length, ‖(m.getD k' []).getD 1 0‖ ≤ ‖(m.getD k []).getD 1 0‖) →
      2800 < (admissible 120 7 24 0 8000 16000 1 512).getD k 0 ∧ (admissible 120 7 24 0 8000 16000 1 512).getD k 0 < 3215 := by
  obtain ⟨frames, hfr⟩ : ∃ frames : List (List ℝ), frames = [(List.range 512).map fun (t : ℕ) => 5 * cos (2 * π * 1920 * t / 16000 + 1),
      (List.range 512).map fun (t : ℕ) => -cos (2 * π * 3000 * t / 16000)] := ⟨_, rfl⟩
  rw [← hfr]
  obtain ⟨m, hm, h1⟩ := C143_own_row frames
  obtain ⟨m', hm', h2⟩ := C143_default frames
  rw [hm] at hm'
  injection hm' with hm'
  subst hm'
  have hs := (C68_shape frames (by norm_num) (by norm_num) (by norm_num) (by norm_num) m hm).1
  rw [show effHigh none 16000 = 8000 by norm_num [effHigh]] at hs
  refine ⟨m, hm, ?_, fun k hk hb => ?_⟩
  · obtain ⟨k, hk, he⟩ := (mem_iff_getD 0 _).mp grid_1920
    refine ⟨k, by rw [hs]; exact hk, he, ?_⟩
    refine h1 0 (by rw [hfr]; simp) k (by rw [hs]; exact hk) 1920 5 1 (by norm_num) he.symm (by norm_num) fun j hj => ?_
    rw [hfr, List.getD_cons_zero, getD_map_range_lt _ _ hj]
  · have h := h2 1 (by rw [hfr]; simp) 3000 (-1) 0 (by norm_num) (by norm_num) (by norm_num) (fun j hj => by
      rw [hfr, List.getD_cons_succ, List.getD_cons_zero, getD_map_range_lt _ _ hj]; simp) k hk hb
    obtain ⟨h3, h4⟩ := abs_lt.mp h
    constructor <;> linarith

end Props
end Spafe
