import Verif.Props.Envelope
import Mathlib.Analysis.SpecialFunctions.Integrability.LogMeromorphic
import Verif.Lemmas.LpcSpectrum
import Verif.Lemmas.Szego

/-! C177: the prediction gain of `lpc` is bounded by the flatness of the spectrum. -/

set_option linter.unusedSectionVars false

namespace Spafe
namespace Props
open Model XF Spec Real

theorem fourierPower_delayPoly {x : List ℝ} (hx : x ≠ []) (θ : ℝ) :
    fourierPower x θ = ‖delayPoly (fun n => x.getD n 0) (x.length - 1) (circleMap 0 1 θ)‖ ^ 2 := by
  have hl := List.length_pos_iff.mpr hx
  rw [← Complex.norm_conj, ← arResponse_eq, lpResponse, fourierPower, Nat.sub_add_cancel hl]

/-- The logarithm of a power spectrum is integrable, zeros included. -/
theorem integrable_log_fourierPower {x : List ℝ} (hx : x ≠ []) :
    IntervalIntegrable (fun θ => log (fourierPower x θ)) MeasureTheory.volume 0 (2 * π) := by
  have hm : MeromorphicOn (delayPoly (fun n => x.getD n 0) (x.length - 1)) (Metric.sphere 0 |1|) := fun z _ =>
    ((differentiable_delayPoly _ _).analyticAt z).meromorphicAt
  have h : IntervalIntegrable (fun θ => log ‖delayPoly (fun n => x.getD n 0) (x.length - 1) (circleMap 0 1 θ)‖)
      MeasureTheory.volume 0 (2 * π) := hm.circleIntegrable_log_norm
  have h2 := h.const_mul 2
  refine h2.congr fun θ _ => ?_
  rw [fourierPower_delayPoly hx, log_pow]
  norm_num

/-- The frame as a polynomial in the delay. -/
noncomputable def framePoly (x : List ℝ) : Polynomial ℂ :=
  ∑ n ∈ Finset.range x.length, Polynomial.C (x.getD n 0 : ℂ) * Polynomial.X ^ n

theorem framePoly_ne_zero {x : List ℝ} (hx : NotSilent x) : framePoly x ≠ 0 := by
  obtain ⟨v, hv, hv0⟩ := hx
  obtain ⟨i, hi, rfl⟩ := List.mem_iff_getElem.mp hv
  intro h
  have hc : (framePoly x).coeff i = x.getD i 0 := by
    simp only [framePoly, Polynomial.finset_sum_coeff, Polynomial.coeff_C_mul, Polynomial.coeff_X_pow]
    rw [Finset.sum_eq_single i]
    · simp
    · intro j _ hj; simp [Ne.symm hj]
    · intro hc; exact absurd (Finset.mem_range.mpr hi) hc
  rw [h, Polynomial.coeff_zero, List.getD_eq_getElem _ _ hi] at hc
  exact hv0 (by exact_mod_cast hc.symm)

theorem framePoly_eval {x : List ℝ} (hx : x ≠ []) (z : ℂ) :
    (framePoly x).eval z = delayPoly (fun n => x.getD n 0) (x.length - 1) z := by
  have hl := List.length_pos_iff.mpr hx
  simp only [framePoly, Polynomial.eval_finset_sum, Polynomial.eval_mul, Polynomial.eval_C, Polynomial.eval_pow,
    Polynomial.eval_X, delayPoly]
  rw [Nat.sub_add_cancel hl]

/-- A power spectrum has finitely many zeros. -/
theorem fourierPower_ae_pos {x : List ℝ} (hx : NotSilent x) :
    ∀ᵐ θ ∂(MeasureTheory.volume.restrict (Set.Ioc 0 (2 * π))), 0 < fourierPower x θ := by
  have hx0 := notSilent_ne_nil hx
  have hl := List.length_pos_iff.mpr hx0
  obtain ⟨q, hq, he⟩ : ∃ q : Polynomial ℂ, q ≠ 0 ∧
      ∀ z, q.eval z = delayPoly (fun n => x.getD n 0) (x.length - 1) z :=
    ⟨framePoly x, framePoly_ne_zero hx, framePoly_eval hx0⟩
  have hfin : (Set.Ioc 0 (2 * π) ∩ {θ | fourierPower x θ = 0}).Finite := by
    have hinj : Set.InjOn (circleMap 0 1) (Set.Ioc 0 (2 * π)) := by
      have := injOn_circleMap_of_abs_sub_le (c := 0) (R := 1) (a := 0) (b := 2 * π) one_ne_zero (by
        rw [zero_sub, abs_neg, abs_of_pos (by positivity)])
      rwa [Set.uIoc_of_le (by positivity)] at this
    refine Set.Finite.of_finite_image (f := circleMap 0 1) (Set.Finite.subset q.roots.toFinset.finite_toSet ?_)
      (hinj.mono Set.inter_subset_left)
    rintro _ ⟨θ, ⟨-, hθ⟩, rfl⟩
    have h0 : fourierPower x θ = 0 := hθ
    rw [fourierPower_delayPoly hx0, pow_eq_zero_iff two_ne_zero, norm_eq_zero, ← he] at h0
    exact Finset.mem_coe.mpr (Multiset.mem_toFinset.mpr ((Polynomial.mem_roots hq).mpr h0))
  rw [MeasureTheory.ae_restrict_iff' measurableSet_Ioc]
  have hnull := hfin.measure_zero MeasureTheory.volume
  rw [MeasureTheory.ae_iff]
  refine MeasureTheory.measure_mono_null (fun θ hθ => ?_) hnull
  simp only [Set.mem_setOf_eq, Classical.not_imp, not_lt] at hθ
  exact ⟨hθ.1, le_antisymm hθ.2 (by unfold fourierPower; positivity)⟩

/-- C177: for every stable filter, in particular the one returned by `lpc`, the error is at least the geometric mean of the
power spectrum. -/
theorem C177_any_filter (x : List ℝ) (hx : NotSilent x) (p : ℕ) (b : ℕ → ℝ) (h0 : b 0 = 1)
    (hr : ∀ z : ℂ, ∑ k ∈ Finset.range (p + 1), (b k : ℂ) * z ^ (p - k) = 0 → ‖z‖ < 1) :
    exp (meanOver fun θ => log (fourierPower x θ)) ≤ predError x p b := by
  have hx0 := notSilent_ne_nil hx
  have hE : 0 < predError x p b := predError_pos hx _ _
  rw [← Real.le_log_iff_exp_le hE]
  set E := predError x p b with hEdef
  have hint := integrable_log_fourierPower hx0
  have hne := response_ne_zero h0 hr
  have hcr := continuous_response b p
  have hcx := continuous_fourierPower x
  have hlc : Continuous fun θ => log ‖lpResponse b p θ‖ :=
    Continuous.log (by fun_prop) fun θ => norm_ne_zero_iff.mpr (hne θ)
  -- almost everywhere the logarithm is below its tangent
  have hle : ∫ θ in (0)..(2 * π), log (fourierPower x θ) ≤
      ∫ θ in (0)..(2 * π), (fourierPower x θ * ‖lpResponse b p θ‖ ^ 2 / E - 1 + log E - 2 * log ‖lpResponse b p θ‖) := by
    rw [intervalIntegral.integral_of_le (by positivity), intervalIntegral.integral_of_le (by positivity)]
    refine MeasureTheory.integral_mono_ae ?_ ?_ ?_
    · exact (intervalIntegrable_iff_integrableOn_Ioc_of_le (by positivity)).mp hint
    · refine (intervalIntegrable_iff_integrableOn_Ioc_of_le (by positivity)).mp (Continuous.intervalIntegrable ?_ _ _)
      fun_prop
    · filter_upwards [fourierPower_ae_pos hx] with θ hθ
      have hA : 0 < ‖lpResponse b p θ‖ := norm_pos_iff.mpr (hne θ)
      have h1 := Real.log_le_sub_one_of_pos (show 0 < fourierPower x θ * ‖lpResponse b p θ‖ ^ 2 / E by positivity)
      rw [log_div (by positivity) hE.ne', log_mul hθ.ne' (by positivity), log_pow] at h1
      push_cast at h1
      linarith
  have hmean := predError_spectrum x p b h0
  rw [← hEdef] at hmean
  have hlog := meanOver_log_response h0 hr
  unfold meanOver at hmean hlog ⊢
  have h2pi : (0 : ℝ) < 2 * π := by positivity
  rw [div_le_iff₀ h2pi]
  refine hle.trans (le_of_eq ?_)
  rw [intervalIntegral.integral_sub (Continuous.intervalIntegrable (by fun_prop) _ _)
      (Continuous.intervalIntegrable (by fun_prop) _ _),
    intervalIntegral.integral_add (Continuous.intervalIntegrable (by fun_prop) _ _) (by simp),
    intervalIntegral.integral_sub (Continuous.intervalIntegrable (by fun_prop) _ _) (by simp),
    intervalIntegral.integral_div, intervalIntegral.integral_const_mul]
  rw [div_eq_zero_iff] at hlog
  rcases hlog with hlog | hlog
  · rw [hlog, intervalIntegral.integral_const, intervalIntegral.integral_const]
    rw [eq_div_iff h2pi.ne'] at hmean
    rw [← hmean]
    simp only [smul_eq_mul]
    field_simp
    ring
  · exact absurd hlog h2pi.ne'

/-- C177: the minimal prediction error lies between the geometric and the arithmetic mean of the power spectrum of the
frame, so the prediction gain `r(0) / E` is at most the inverse of the spectral flatness. -/
theorem C177_prediction_gain (x : List ℝ) (p : ℕ) (a : List ℝ) (e : ℝ) (h : lpcHelper x p = .ok (a, e)) :
    exp (meanOver fun θ => log (fourierPower x θ)) ≤ predError x p (fun k => a.getD k 0) ∧
    predError x p (fun k => a.getD k 0) ≤ meanOver (fourierPower x) ∧
    autoCorr x 0 / predError x p (fun k => a.getD k 0) ≤
      meanOver (fourierPower x) / exp (meanOver fun θ => log (fourierPower x θ)) := by
  obtain ⟨h0, hs, hE⟩ := helper_facts h
  have hx := (helper_cases h).2
  have h1 := C177_any_filter x hx p (fun k => a.getD k 0) h0 hs
  have hr : meanOver (fourierPower x) = autoCorr x 0 := by
    have := C146_autocorrelation x 0
    simpa using this
  have h2 := (C60_minimal_error x p a e h (fun _ => 0)).1
  have h3 : predError x p (fun _ => 0) = autoCorr x 0 := by
    unfold predError
    simp_rw [predErrorAt_natCast]
    simp only [zero_mul, Finset.sum_const_zero, add_zero, sq]
    rw [sum_sh_mul' (Nat.zero_le p) (Nat.zero_le p)]
    simp
  refine ⟨h1, by rw [hr, ← h3]; exact h2, ?_⟩
  rw [hr]
  apply div_le_div_of_nonneg_left _ (exp_pos _) h1
  rw [← h3]
  exact Finset.sum_nonneg fun _ _ => sq_nonneg _

theorem geometric_mean_eq {x : List ℝ} (hx : NotSilent x) :
    exp (meanOver fun θ => log (fourierPower x θ)) = (framePoly x).mahlerMeasure ^ 2 := by
  have hx0 := notSilent_ne_nil hx
  rw [Polynomial.mahlerMeasure_def_of_ne_zero (framePoly_ne_zero hx), ← exp_nat_mul]
  congr 1
  unfold meanOver
  have : ∀ θ, log (fourierPower x θ) = 2 * log ‖(framePoly x).eval (circleMap 0 1 θ)‖ := by
    intro θ
    rw [fourierPower_delayPoly hx0, ← framePoly_eval hx0, log_pow]
    norm_num
  simp only [this, intervalIntegral.integral_const_mul]
  push_cast
  ring

/-- Real coefficients from complex ones. -/
theorem delayPoly_re (B : Polynomial ℂ) {p : ℕ} (hp : B.natDegree ≤ p) (z : ℂ) :
    delayPoly (fun k => (B.coeff k).re) p z = (B.eval z + (starRingEnd ℂ) (B.eval ((starRingEnd ℂ) z))) / 2 := by
  rw [Polynomial.eval_eq_sum_range' (Nat.lt_succ_of_le hp), Polynomial.eval_eq_sum_range' (Nat.lt_succ_of_le hp), map_sum,
    ← Finset.sum_add_distrib, Finset.sum_div, delayPoly]
  refine Finset.sum_congr rfl fun k _ => ?_
  rw [map_mul, map_pow, Complex.conj_conj, Complex.re_eq_add_conj]
  ring

/-- C177: as the order grows, the minimal prediction error tends to the geometric mean of the power spectrum. -/
theorem C177_limit (x : List ℝ) (ε : ℝ) (hε : 0 < ε) : ∃ p0, ∀ p, p0 ≤ p → ∀ a e, lpcHelper x p = .ok (a, e) →
    |predError x p (fun k => a.getD k 0) - exp (meanOver fun θ => log (fourierPower x θ))| ≤ ε := by
  by_cases hx : NotSilent x
  swap
  · exact ⟨0, fun p _ a e h => absurd (helper_cases h).2 hx⟩
  have hx0 := notSilent_ne_nil hx
  set q := framePoly x with hq
  -- accuracy on the circle
  obtain ⟨δ, hδ, hδ2⟩ : ∃ δ : ℝ, 0 < δ ∧ (q.mahlerMeasure * (1 + δ) ^ q.natDegree) ^ 2 ≤ q.mahlerMeasure ^ 2 + ε := by
    have hc : Continuous fun δ : ℝ => (q.mahlerMeasure * (1 + δ) ^ q.natDegree) ^ 2 := by fun_prop
    have ht := hc.tendsto 0
    simp only [add_zero, one_pow, mul_one] at ht
    have hev := ht.eventually (gt_mem_nhds (show q.mahlerMeasure ^ 2 < q.mahlerMeasure ^ 2 + ε by linarith))
    obtain ⟨r, hr, hball⟩ := Metric.eventually_nhds_iff.mp hev
    refine ⟨r / 2, by positivity, (hball ?_).le⟩
    rw [dist_zero_right, Real.norm_eq_abs, abs_of_pos (by positivity)]
    linarith
  obtain ⟨B, hB0, hB⟩ := mahler_factor q hδ
  refine ⟨B.natDegree, fun p hp a e ha => ?_⟩
  have hlow := (C177_prediction_gain x p a e ha).1
  rw [abs_of_nonneg (by linarith)]
  have hmin := (C60_minimal_error x p a e ha fun k => (B.coeff k).re).1
  have hb0 : (fun k => (B.coeff k).re) 0 = 1 := by simp [hB0]
  have hmain : predError x p (fun k => (B.coeff k).re) ≤ q.mahlerMeasure ^ 2 + ε := by
    rw [predError_spectrum x p _ hb0, ← meanOver_const (q.mahlerMeasure ^ 2 + ε)]
    have hc1 := continuous_fourierPower x
    have hc2 := continuous_response (fun k => (B.coeff k).re) p
    refine meanOver_mono (by fun_prop) continuous_const fun θ => le_trans ?_ hδ2
    set z := circleMap 0 1 θ with hz
    have hz1 : ‖z‖ = 1 := by simp [hz]
    have hz2 : ‖(starRingEnd ℂ) z‖ = 1 := by rw [Complex.norm_conj, hz1]
    have hqc : ‖q.eval ((starRingEnd ℂ) z)‖ = ‖q.eval z‖ := by
      have : q.eval ((starRingEnd ℂ) z) = (starRingEnd ℂ) (q.eval z) := by
        rw [hq, framePoly_eval hx0, framePoly_eval hx0, delayPoly, delayPoly, map_sum]
        exact Finset.sum_congr rfl fun k _ => by rw [map_mul, map_pow, Complex.conj_ofReal]
      rw [this, Complex.norm_conj]
    have h1 := hB z hz1
    have h2 := hB _ hz2
    rw [hqc] at h2
    rw [fourierPower_delayPoly hx0, ← framePoly_eval hx0, arResponse_eq, Complex.norm_conj, delayPoly_re B hp, ← mul_pow]
    refine pow_le_pow_left₀ (by positivity) ?_ 2
    rw [norm_div, Complex.norm_ofNat]
    have h3 := norm_add_le (B.eval z) ((starRingEnd ℂ) (B.eval ((starRingEnd ℂ) z)))
    rw [Complex.norm_conj] at h3
    have h4 := mul_le_mul_of_nonneg_left h3 (norm_nonneg (q.eval z))
    rw [mul_add] at h4
    rw [← hq, ← hz, mul_div_assoc']
    linarith
  rw [geometric_mean_eq hx, ← hq]
  linarith

/-- The frame `[1, 1]`: the spectrum has a zero, the geometric mean is 1, and order 1 reaches `3/2`. -/
theorem predictionGain_demo : exp (meanOver fun θ => log (fourierPower [1, 1] θ)) = 1 ∧
    ∃ a e, lpcHelper [1, 1] 1 = .ok (a, e) ∧ predError [1, 1] 1 (fun k => a.getD k 0) = 3 / 2 := by
  constructor
  · have hx : NotSilent ([1, 1] : List ℝ) := ⟨1, by simp, one_ne_zero⟩
    rw [geometric_mean_eq hx]
    have : framePoly [1, 1] = Polynomial.X + Polynomial.C 1 := by
      simp [framePoly, Finset.sum_range_succ, add_comm]
    rw [this, Polynomial.mahlerMeasure_X_add_C]
    simp
  · obtain ⟨a, e, h, -, h2⟩ := C63_violated
    exact ⟨a, e, h, h2⟩

end Props
end Spafe
