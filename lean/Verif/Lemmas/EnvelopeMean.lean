import Verif.Lemmas.Envelope
import Verif.Lemmas.Lpc
import Mathlib.Analysis.SpecialFunctions.Integrals.Basic

/-! Means over all frequencies: of cosines, of power spectra and of all-pole spectra. -/

set_option linter.unusedSectionVars false

namespace Spafe
namespace Props
open Spec Real

theorem meanOver_congr {f g : ℝ → ℝ} (h : ∀ θ, f θ = g θ) : meanOver f = meanOver g := by
  rw [show f = g from funext h]

theorem meanOver_sum {ι : Type} (s : Finset ι) {f : ι → ℝ → ℝ} (hf : ∀ i ∈ s, Continuous (f i)) :
    meanOver (fun θ => ∑ i ∈ s, f i θ) = ∑ i ∈ s, meanOver (f i) := by
  unfold meanOver
  rw [intervalIntegral.integral_finsetSum fun i hi => (hf i hi).intervalIntegrable _ _, Finset.sum_div]

theorem meanOver_const_mul (c : ℝ) (f : ℝ → ℝ) : meanOver (fun θ => c * f θ) = c * meanOver f := by
  unfold meanOver
  rw [intervalIntegral.integral_const_mul, mul_div_assoc]

theorem meanOver_const (c : ℝ) : meanOver (fun _ => c) = c := by
  unfold meanOver
  rw [intervalIntegral.integral_const, smul_eq_mul, sub_zero]
  field_simp

theorem meanOver_cos (n : ℤ) : meanOver (fun θ => cos (n * θ)) = if n = 0 then 1 else 0 := by
  split_ifs with h
  · subst h
    have : (fun θ : ℝ => cos (((0 : ℤ) : ℝ) * θ)) = fun _ => (1 : ℝ) := by funext θ; simp
    rw [this, meanOver_const]
  · have hn : (n : ℝ) ≠ 0 := by exact_mod_cast h
    unfold meanOver
    rw [intervalIntegral.integral_comp_mul_left (fun θ => cos θ) hn, integral_cos, mul_zero, sin_zero,
      show (n : ℝ) * (2 * π) = ((2 * n : ℤ) : ℝ) * π by push_cast; ring, sin_int_mul_pi]
    simp

theorem meanOver_cos_mul (n m : ℤ) : meanOver (fun θ => cos (n * θ) * cos (m * θ)) =
    ((if n = m then 1 else 0) + (if n = -m then 1 else 0)) / 2 := by
  have e : ∀ θ : ℝ, cos (n * θ) * cos (m * θ) =
      ∑ i : Bool, (1 / 2) * cos (((if i then n - m else n + m : ℤ) : ℝ) * θ) := by
    intro θ
    rw [Fintype.sum_bool]
    have h1 := cos_sub (n * θ) (m * θ)
    have h2 := cos_add (n * θ) (m * θ)
    simp only [if_true, Bool.false_eq_true, if_false]
    push_cast
    rw [sub_mul, add_mul, h1, h2]
    ring
  rw [meanOver_congr e, meanOver_sum Finset.univ (fun i _ => by fun_prop)]
  rw [Fintype.sum_bool, meanOver_const_mul, meanOver_const_mul, meanOver_cos, meanOver_cos]
  simp only [if_true, Bool.false_eq_true, if_false, sub_eq_zero, add_eq_zero_iff_eq_neg]
  ring

/-- The squared magnitude of a trigonometric sum. -/
theorem normSq_trig (c : ℕ → ℝ) (s : Finset ℕ) (θ : ℝ) :
    ‖∑ k ∈ s, (c k : ℂ) * Complex.exp (-(k * θ * Complex.I))‖ ^ 2 =
      ∑ i ∈ s, ∑ j ∈ s, c i * c j * cos (((i : ℤ) - (j : ℤ) : ℤ) * θ) := by
  have e : ∀ k : ℕ, Complex.exp (-(k * θ * Complex.I)) = ⟨cos (k * θ), -sin (k * θ)⟩ := by
    intro k
    rw [show -((k : ℂ) * θ * Complex.I) = ((-(k * θ) : ℝ) : ℂ) * Complex.I by push_cast; ring]
    apply Complex.ext
    · rw [Complex.exp_ofReal_mul_I_re, cos_neg]
    · rw [Complex.exp_ofReal_mul_I_im, sin_neg]
  rw [← Complex.normSq_eq_norm_sq, Complex.normSq_apply, Complex.re_sum, Complex.im_sum, Finset.sum_mul_sum, Finset.sum_mul_sum,
    ← Finset.sum_add_distrib]
  refine Finset.sum_congr rfl fun i _ => ?_
  rw [← Finset.sum_add_distrib]
  refine Finset.sum_congr rfl fun j _ => ?_
  rw [e, e]
  simp only [Complex.re_ofReal_mul, Complex.im_ofReal_mul]
  push_cast
  rw [sub_mul, cos_sub]
  ring

theorem response_sq (a : ℕ → ℝ) (p : ℕ) (θ : ℝ) : ‖lpResponse a p θ‖ ^ 2 =
    ∑ i ∈ Finset.range (p + 1), ∑ j ∈ Finset.range (p + 1), a i * a j * cos (((i : ℤ) - (j : ℤ) : ℤ) * θ) :=
  normSq_trig a _ θ

theorem fourierPower_eq (x : List ℝ) (θ : ℝ) : fourierPower x θ =
    ∑ i ∈ Finset.range x.length, ∑ j ∈ Finset.range x.length, x.getD i 0 * x.getD j 0 * cos (((i : ℤ) - (j : ℤ) : ℤ) * θ) :=
  normSq_trig (fun k => x.getD k 0) _ θ

theorem continuous_response (a : ℕ → ℝ) (p : ℕ) : Continuous (lpResponse a p) := by
  unfold lpResponse
  fun_prop

theorem continuous_fourierPower (x : List ℝ) : Continuous (fourierPower x) := by
  unfold fourierPower
  fun_prop

/-- The autocorrelation is the cosine transform of the power spectrum. -/
theorem meanOver_fourierPower (x : List ℝ) (m : ℤ) :
    meanOver (fun θ => fourierPower x θ * cos (m * θ)) = autoCorr x m.natAbs := by
  have e : ∀ θ, fourierPower x θ * cos (m * θ) = ∑ i ∈ Finset.range x.length, ∑ j ∈ Finset.range x.length,
      (x.getD i 0 * x.getD j 0) * (cos (((i : ℤ) - (j : ℤ) : ℤ) * θ) * cos (m * θ)) := by
    intro θ
    rw [fourierPower_eq, Finset.sum_mul]
    refine Finset.sum_congr rfl fun i _ => ?_
    rw [Finset.sum_mul]
    exact Finset.sum_congr rfl fun j _ => by ring
  rw [meanOver_congr e, meanOver_sum _ (fun i _ => by fun_prop)]
  have e2 : ∀ i ∈ Finset.range x.length, meanOver (fun θ => ∑ j ∈ Finset.range x.length,
      (x.getD i 0 * x.getD j 0) * (cos (((i : ℤ) - (j : ℤ) : ℤ) * θ) * cos (m * θ))) =
      ∑ j ∈ Finset.range x.length, (x.getD i 0 * x.getD j 0) *
        (((if (i : ℤ) - j = m then 1 else 0) + (if (i : ℤ) - j = -m then 1 else 0)) / 2) := by
    intro i _
    rw [meanOver_sum _ (fun i _ => by fun_prop)]
    refine Finset.sum_congr rfl fun j _ => ?_
    rw [meanOver_const_mul, meanOver_cos_mul]
  rw [Finset.sum_congr rfl e2]
  -- each of the two halves is the autocorrelation
  have half : ∀ m : ℤ, 0 ≤ m → ∑ i ∈ Finset.range x.length, ∑ j ∈ Finset.range x.length,
      x.getD i 0 * x.getD j 0 * (if (i : ℤ) - j = m then 1 else 0) = autoCorr x m.natAbs := by
    intro m hm
    rw [autoCorr_eq, Finset.sum_comm]
    refine Finset.sum_congr rfl fun j hj => ?_
    by_cases h : j + m.natAbs < x.length
    · rw [Finset.sum_eq_single (j + m.natAbs)]
      · rw [if_pos (by omega)]; ring
      · intro i _ hi
        rw [if_neg (by omega), mul_zero]
      · intro hc
        exact absurd (Finset.mem_range.mpr h) hc
    · rw [List.getD_eq_default _ _ (not_lt.mp h), mul_zero]
      refine Finset.sum_eq_zero fun i hi => ?_
      have := Finset.mem_range.mp hi
      rw [if_neg (by omega), mul_zero]
  have half' : ∀ m : ℤ, ∑ i ∈ Finset.range x.length, ∑ j ∈ Finset.range x.length,
      x.getD i 0 * x.getD j 0 * (if (i : ℤ) - j = m then 1 else 0) = autoCorr x m.natAbs := by
    intro m
    rcases le_total 0 m with h | h
    · exact half m h
    · rw [← Int.natAbs_neg, ← half (-m) (by omega), Finset.sum_comm]
      refine Finset.sum_congr rfl fun j _ => Finset.sum_congr rfl fun i _ => ?_
      rw [mul_comm (x.getD i 0)]
      congr 1
      have : ((i : ℤ) - j = m) ↔ ((j : ℤ) - i = -m) := by omega
      simp only [this]
  have h1 := half' m
  have h2 := half' (-m)
  rw [Int.natAbs_neg] at h2
  have e3 : ∑ i ∈ Finset.range x.length, ∑ j ∈ Finset.range x.length, (x.getD i 0 * x.getD j 0) *
        (((if (i : ℤ) - j = m then (1 : ℝ) else 0) + (if (i : ℤ) - j = -m then 1 else 0)) / 2) =
      (autoCorr x m.natAbs + autoCorr x m.natAbs) / 2 := by
    nth_rewrite 1 [← h1]
    rw [← h2, ← Finset.sum_add_distrib, Finset.sum_div]
    refine Finset.sum_congr rfl fun i _ => ?_
    rw [← Finset.sum_add_distrib, Finset.sum_div]
    exact Finset.sum_congr rfl fun j _ => by ring
  rw [e3]
  ring

/-- The prediction error of any filter is the mean of the filtered power spectrum. -/
theorem predError_spectrum (x : List ℝ) (p : ℕ) (b : ℕ → ℝ) (h0 : b 0 = 1) :
    predError x p b = meanOver fun θ => fourierPower x θ * ‖lpResponse b p θ‖ ^ 2 := by
  have e : ∀ θ, fourierPower x θ * ‖lpResponse b p θ‖ ^ 2 = ∑ i ∈ Finset.range (p + 1), ∑ j ∈ Finset.range (p + 1),
      (b i * b j) * (fourierPower x θ * cos (((i : ℤ) - (j : ℤ) : ℤ) * θ)) := by
    intro θ
    rw [response_sq, Finset.mul_sum]
    refine Finset.sum_congr rfl fun i _ => ?_
    rw [Finset.mul_sum]
    exact Finset.sum_congr rfl fun j _ => by ring
  have hc := continuous_fourierPower x
  rw [meanOver_congr e, meanOver_sum _ (fun i _ => by fun_prop)]
  have e2 : ∀ i ∈ Finset.range (p + 1), meanOver (fun θ => ∑ j ∈ Finset.range (p + 1),
      (b i * b j) * (fourierPower x θ * cos (((i : ℤ) - (j : ℤ) : ℤ) * θ))) =
      ∑ j ∈ Finset.range (p + 1), (b i * b j) * ∑ n ∈ Finset.range (x.length + p), sh x i n * sh x j n := by
    intro i hi
    rw [meanOver_sum _ (fun i _ => by fun_prop)]
    refine Finset.sum_congr rfl fun j hj => ?_
    rw [meanOver_const_mul, meanOver_fourierPower, sum_sh_mul' (by have := Finset.mem_range.mp hi; omega)
      (by have := Finset.mem_range.mp hj; omega)]
  rw [Finset.sum_congr rfl e2]
  unfold predError
  have e3 : ∀ n ∈ Finset.range (x.length + p), predErrorAt x p b n ^ 2 =
      ∑ i ∈ Finset.range (p + 1), ∑ j ∈ Finset.range (p + 1), (b i * b j) * (sh x i n * sh x j n) := by
    intro n _
    have : predErrorAt x p b n = ∑ k ∈ Finset.range (p + 1), b k * sh x k n := by
      rw [predErrorAt_natCast, Finset.sum_range_succ', h0, add_comm, one_mul]
      congr 1
      rw [Finset.range_eq_Ico, Finset.sum_Ico_add' (fun k => b k * sh x k n) 0 p 1]
      rfl
    rw [this, sq, Finset.sum_mul_sum]
    exact Finset.sum_congr rfl fun i _ => Finset.sum_congr rfl fun j _ => by ring
  rw [Finset.sum_congr rfl e3, Finset.sum_comm]
  refine Finset.sum_congr rfl fun i _ => ?_
  rw [Finset.sum_comm]
  exact Finset.sum_congr rfl fun j _ => by rw [Finset.mul_sum]

/-! ### All-pole spectra -/

section AllPole

variable {a : ℕ → ℝ} {p : ℕ} (h0 : a 0 = 1)
  (hr : ∀ z : ℂ, ∑ k ∈ Finset.range (p + 1), (a k : ℂ) * z ^ (p - k) = 0 → ‖z‖ < 1)

/-- The filter as a polynomial in the delay. -/
noncomputable def delayPoly (a : ℕ → ℝ) (p : ℕ) (z : ℂ) : ℂ := ∑ k ∈ Finset.range (p + 1), (a k : ℂ) * z ^ k

include h0 in
theorem delayPoly_zero : delayPoly a p 0 = 1 := by
  rw [delayPoly, Finset.sum_eq_single 0 (fun b _ hb => by simp [hb]) (by simp)]
  simp [h0]

include h0 hr in
theorem delayPoly_ne_zero {z : ℂ} (hz : ‖z‖ ≤ 1) : delayPoly a p z ≠ 0 := by
  intro h
  have hz0 : z ≠ 0 := by
    rintro rfl
    rw [delayPoly_zero h0] at h
    exact one_ne_zero h
  have h3 : ∑ k ∈ Finset.range (p + 1), (a k : ℂ) * z⁻¹ ^ (p - k) = 0 := by
    have e : ∑ k ∈ Finset.range (p + 1), (a k : ℂ) * z⁻¹ ^ (p - k) = z⁻¹ ^ p * delayPoly a p z := by
      rw [delayPoly, Finset.mul_sum]
      refine Finset.sum_congr rfl fun k hk => ?_
      have hk' : k ≤ p := by have := Finset.mem_range.mp hk; omega
      have : z⁻¹ ^ p = z⁻¹ ^ (p - k) * z⁻¹ ^ k := by rw [← pow_add]; congr 1; omega
      rw [this, inv_pow z k]
      field_simp
    rw [e, h, mul_zero]
  have h4 := hr _ h3
  rw [norm_inv] at h4
  have := (one_le_inv₀ (norm_pos_iff.mpr hz0)).mpr hz
  linarith

theorem arResponse_eq (a : ℕ → ℝ) (p : ℕ) (θ : ℝ) :
    lpResponse a p θ = (starRingEnd ℂ) (delayPoly a p (circleMap 0 1 θ)) := by
  rw [lpResponse, delayPoly, map_sum]
  refine Finset.sum_congr rfl fun k _ => ?_
  rw [map_mul, Complex.conj_ofReal, map_pow, circleMap_zero, Complex.ofReal_one, one_mul, ← Complex.exp_conj, map_mul,
    Complex.conj_ofReal, Complex.conj_I, ← Complex.exp_nat_mul]
  congr 2
  ring

include h0 hr in
theorem response_ne_zero (θ : ℝ) : lpResponse a p θ ≠ 0 := by
  rw [arResponse_eq]
  refine (map_ne_zero _).mpr (delayPoly_ne_zero h0 hr ?_)
  simp

theorem differentiable_delayPoly (a : ℕ → ℝ) (p : ℕ) : Differentiable ℂ (delayPoly a p) := by
  unfold delayPoly
  fun_prop

include h0 hr in
/-- The autocorrelations of an all-pole spectrum satisfy the Yule-Walker equations. -/
theorem allPole_yule_walker (k : ℕ) :
    ∑ j ∈ Finset.range (p + 1), a j * meanOver (fun θ => (1 / ‖lpResponse a p θ‖ ^ 2) * cos (((k : ℤ) - (j : ℤ) : ℤ) * θ)) =
      if k = 0 then 1 else 0 := by
  have hcr := continuous_response a p
  have hne : ∀ θ, ‖lpResponse a p θ‖ ^ 2 ≠ 0 := fun θ => pow_ne_zero _ (norm_ne_zero_iff.mpr (response_ne_zero h0 hr θ))
  have hci : Continuous fun θ => 1 / ‖lpResponse a p θ‖ ^ 2 := continuous_const.div (by fun_prop) hne
  have hd : DiffContOnCl ℂ (fun z => z ^ k / delayPoly a p z) (Metric.ball 0 |1|) := by
    have hcl : closure (Metric.ball (0 : ℂ) |1|) ⊆ Metric.closedBall 0 1 := by
      rw [abs_one]; exact Metric.closure_ball_subset_closedBall
    refine DifferentiableOn.diffContOnCl fun z hz => ?_
    refine DifferentiableAt.differentiableWithinAt (DifferentiableAt.div (by fun_prop) (differentiable_delayPoly a p z) ?_)
    exact delayPoly_ne_zero h0 hr (by simpa using hcl hz)
  have hav := hd.circleAverage
  beta_reduce at hav
  rw [delayPoly_zero h0, div_one, circleAverage_def] at hav
  have hcont : Continuous fun θ => circleMap 0 1 θ ^ k / delayPoly a p (circleMap 0 1 θ) := by
    refine Continuous.div (by fun_prop) ((differentiable_delayPoly a p).continuous.comp (continuous_circleMap 0 1)) fun θ => ?_
    exact delayPoly_ne_zero h0 hr (by simp)
  have hre := congrArg Complex.re hav
  rw [Complex.smul_re, smul_eq_mul] at hre
  have hcomm := Complex.reCLM.intervalIntegral_comp_comm (hcont.intervalIntegrable 0 (2 * π) (μ := MeasureTheory.volume))
  simp only [Complex.reCLM_apply] at hcomm
  rw [← hcomm] at hre
  have hint : ∀ θ : ℝ, (circleMap 0 1 θ ^ k / delayPoly a p (circleMap 0 1 θ)).re =
      ∑ j ∈ Finset.range (p + 1), a j * ((1 / ‖lpResponse a p θ‖ ^ 2) * cos (((k : ℤ) - (j : ℤ) : ℤ) * θ)) := by
    intro θ
    have hP := delayPoly_ne_zero (z := circleMap 0 1 θ) h0 hr (by simp)
    have e : circleMap 0 1 θ ^ k / delayPoly a p (circleMap 0 1 θ) =
        ((1 / ‖lpResponse a p θ‖ ^ 2 : ℝ) : ℂ) * (circleMap 0 1 θ ^ k * lpResponse a p θ) := by
      rw [arResponse_eq, Complex.norm_conj, ← Complex.normSq_eq_norm_sq]
      push_cast
      rw [← Complex.mul_conj]
      have hP' : (starRingEnd ℂ) (delayPoly a p (circleMap 0 1 θ)) ≠ 0 := (map_ne_zero _).mpr hP
      field_simp
    rw [e, Complex.re_ofReal_mul]
    have e2 : circleMap 0 1 θ ^ k * lpResponse a p θ =
        ∑ j ∈ Finset.range (p + 1), (a j : ℂ) * Complex.exp ((((((k : ℤ) - (j : ℤ) : ℤ) : ℝ) * θ : ℝ) : ℂ) * Complex.I) := by
      rw [lpResponse, Finset.mul_sum]
      refine Finset.sum_congr rfl fun j _ => ?_
      rw [circleMap_zero, Complex.ofReal_one, one_mul, ← Complex.exp_nat_mul, mul_left_comm, ← Complex.exp_add]
      congr 2
      push_cast
      ring
    rw [e2, Complex.re_sum, Finset.mul_sum]
    refine Finset.sum_congr rfl fun j _ => ?_
    rw [Complex.re_ofReal_mul, Complex.exp_ofReal_mul_I_re]
    ring
  have hm : meanOver (fun θ => ∑ j ∈ Finset.range (p + 1),
      a j * ((1 / ‖lpResponse a p θ‖ ^ 2) * cos (((k : ℤ) - (j : ℤ) : ℤ) * θ))) = ((0 : ℂ) ^ k).re := by
    rw [← hre, meanOver, div_eq_inv_mul, ← funext hint]
  rw [meanOver_sum _ (fun i _ => by fun_prop)] at hm
  rw [Finset.sum_congr rfl fun j _ => meanOver_const_mul _ _] at hm
  rw [hm]
  split_ifs with h
  · subst h; simp
  · simp [h]

end AllPole

end Props
end Spafe
