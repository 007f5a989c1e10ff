import Verif.Props.Rounding
import Verif.Props.Lpc
import Verif.Props.Float64
import Verif.Model.RoundingLpc
import Verif.Lemmas.LpcSpectrum
import Mathlib.Algebra.Order.Chebyshev

/-! C175: linear prediction in floating point. -/

set_option linter.unusedSectionVars false

namespace Spafe
namespace Props
open Model XF Spec

/-- `m` is a lower bound of the autocorrelation matrix of the frame for prediction order `p`: at most its smallest
eigenvalue. -/
def BoundedBelow (x : List ℝ) (p : ℕ) (m : ℝ) : Prop :=
  ∀ y : ℕ → ℝ, m * ∑ k ∈ Finset.Icc 1 p, y k ^ 2 ≤
    ∑ i ∈ Finset.Icc 1 p, ∑ k ∈ Finset.Icc 1 p, y i * y k * autoCorr x ((i : ℤ) - (k : ℤ)).natAbs

/-- C175: a frame that is not silent has a positive lower bound, and any lower bound of its power spectrum is one. -/
theorem C175_lower_bound (x : List ℝ) (p : ℕ) (hp : 1 ≤ p) :
    ((∃ m, 0 < m ∧ BoundedBelow x p m) ↔ NotSilent x) ∧
      ∀ m, (∀ θ, m ≤ fourierPower x θ) → BoundedBelow x p m := by
  refine ⟨⟨?_, fun hx => quad_ge_exists hx hp⟩, fun m hm y => quad_ge_spectrum hm p y⟩
  rintro ⟨m, hm, h⟩
  by_contra hx
  have := h fun k => if k = 1 then 1 else 0
  simp only [autoCorr_silent hx, mul_zero, Finset.sum_const_zero] at this
  have h1 : (∑ k ∈ Finset.Icc 1 p, (if k = 1 then (1 : ℝ) else 0) ^ 2) = 1 := by
    rw [Finset.sum_eq_single 1]
    · simp
    · intro k _ hk; simp [hk]
    · intro hc; exact absurd (Finset.mem_Icc.mpr ⟨le_refl _, hp⟩) hc
  rw [h1] at this
  linarith

theorem autoCorr_abs_le (x : List ℝ) (k : ℕ) :
    ∑ n ∈ Finset.range (x.length - k), |x.getD n 0 * x.getD (n + k) 0| ≤ autoCorr x 0 := by
  have h0 : autoCorr x 0 = ∑ n ∈ Finset.range x.length, x.getD n 0 ^ 2 := by
    rw [autoCorr_eq]
    exact Finset.sum_congr rfl fun n _ => by rw [add_zero, sq]
  have h1 : ∑ n ∈ Finset.range (x.length - k), x.getD n 0 ^ 2 ≤ autoCorr x 0 := by
    rw [h0]
    exact Finset.sum_le_sum_of_subset_of_nonneg (Finset.range_mono (Nat.sub_le _ _)) fun _ _ _ => sq_nonneg _
  have h2 : ∑ n ∈ Finset.range (x.length - k), x.getD (n + k) 0 ^ 2 ≤ autoCorr x 0 := by
    rw [h0, Finset.range_eq_Ico, Finset.sum_Ico_add' (fun n => x.getD n 0 ^ 2) 0 (x.length - k) k, Finset.range_eq_Ico]
    refine Finset.sum_le_sum_of_subset_of_nonneg (fun n hn => ?_) fun _ _ _ => sq_nonneg _
    have := Finset.mem_Ico.mp hn
    exact Finset.mem_Ico.mpr ⟨by omega, by omega⟩
  have h3 : ∑ n ∈ Finset.range (x.length - k), |x.getD n 0 * x.getD (n + k) 0| ≤
      ∑ n ∈ Finset.range (x.length - k), (x.getD n 0 ^ 2 / 2 + x.getD (n + k) 0 ^ 2 / 2) := by
    refine Finset.sum_le_sum fun n _ => ?_
    rw [abs_mul]
    nlinarith [sq_nonneg (|x.getD n 0| - |x.getD (n + k) 0|), sq_abs (x.getD n 0), sq_abs (x.getD (n + k) 0)]
  rw [Finset.sum_add_distrib, ← Finset.sum_div, ← Finset.sum_div] at h3
  linarith

/-- C175: every computed autocorrelation is within `((1 + u)^N - 1) r(0)` of the exact one. -/
theorem C175_autocorrelation {u : ℝ} {fl : ℝ → ℝ} (h : Rounding u fl) (x : List ℝ) (k : ℕ) (r : ℝ)
    (hr : FlAutoCorr fl x k r) : |r - autoCorr x k| ≤ ((1 + u) ^ x.length - 1) * autoCorr x 0 := by
  have hu := h.nonneg
  have hpow : ∀ n : ℕ, 1 ≤ (1 + u) ^ n := fun n => one_le_pow₀ (by linarith)
  have h0 : 0 ≤ autoCorr x 0 := le_trans (Finset.sum_nonneg fun _ _ => abs_nonneg _) (autoCorr_abs_le x 0)
  unfold FlAutoCorr at hr
  split_ifs at hr with hk
  · have h1 := C120_dot h (le_refl 1) (fun k _ => Near.refl (x.getD k 0)) hr
    have e : ∑ n ∈ Finset.range (x.length - k), x.getD n 0 * x.getD (n + k) 0 = autoCorr x k := by
      rw [autoCorr_eq]
      refine Finset.sum_subset (Finset.range_mono (Nat.sub_le _ _)) fun n _ hn => ?_
      rw [List.getD_eq_default x (n := n + k) _ (by have := Finset.mem_range.not.mp hn; omega), mul_zero]
    rw [e, mul_one] at h1
    refine h1.trans (mul_le_mul ?_ (autoCorr_abs_le x k) (Finset.sum_nonneg fun _ _ => abs_nonneg _) ?_)
    · exact sub_le_sub_right (pow_le_pow_right₀ (by linarith) (Nat.sub_le _ _)) _
    · linarith [hpow x.length]
  · have e : autoCorr x k = 0 := by
      rw [autoCorr_eq]
      refine Finset.sum_eq_zero fun n _ => ?_
      rw [List.getD_eq_default x (n := n + k) _ (by omega), mul_zero]
    rw [hr, e, sub_zero, abs_zero]
    exact mul_nonneg (by linarith [hpow x.length]) h0

/-- C175: the computed coefficients satisfy the exact normal equations up to the residual `ρ` of the solver and
`((1 + u)^N - 1) r(0) (1 + Σ |b_k|)`. -/
theorem C175_residual {u ρ : ℝ} {fl : ℝ → ℝ} (h : Rounding u fl) (x : List ℝ) (p : ℕ) (b : ℕ → ℝ)
    (hb : FlLpc fl x p ρ b) (i : ℕ) (h1 : 1 ≤ i) (h2 : i ≤ p) :
    |∑ k ∈ Finset.Icc 1 p, b k * autoCorr x ((i : ℤ) - (k : ℤ)).natAbs + autoCorr x i| ≤
      ρ + ((1 + u) ^ x.length - 1) * autoCorr x 0 * (1 + ∑ k ∈ Finset.Icc 1 p, |b k|) := by
  obtain ⟨r, hr, hs⟩ := hb.solves
  have hs' := hs i h1 h2
  set G := ((1 + u) ^ x.length - 1) * autoCorr x 0
  have hG : ∀ k ≤ p, |autoCorr x k - r k| ≤ G := fun k hk => by
    rw [abs_sub_comm]; exact C175_autocorrelation h x k _ (hr k hk)
  have e : ∑ k ∈ Finset.Icc 1 p, b k * autoCorr x ((i : ℤ) - (k : ℤ)).natAbs + autoCorr x i =
      (∑ k ∈ Finset.Icc 1 p, b k * r ((i : ℤ) - (k : ℤ)).natAbs + r i) +
        (∑ k ∈ Finset.Icc 1 p, b k * (autoCorr x ((i : ℤ) - (k : ℤ)).natAbs - r ((i : ℤ) - (k : ℤ)).natAbs) +
          (autoCorr x i - r i)) := by
    simp only [mul_sub, Finset.sum_sub_distrib]
    ring
  rw [e]
  have h3 : |∑ k ∈ Finset.Icc 1 p, b k * (autoCorr x ((i : ℤ) - (k : ℤ)).natAbs - r ((i : ℤ) - (k : ℤ)).natAbs)| ≤
      G * ∑ k ∈ Finset.Icc 1 p, |b k| := by
    refine (Finset.abs_sum_le_sum_abs _ _).trans ?_
    rw [Finset.mul_sum]
    refine Finset.sum_le_sum fun k hk => ?_
    have := Finset.mem_Icc.mp hk
    rw [abs_mul, mul_comm]
    exact mul_le_mul_of_nonneg_right (hG _ (by omega)) (abs_nonneg _)
  have h4 := hG i h2
  have h5 := abs_add_le (∑ k ∈ Finset.Icc 1 p, b k * r ((i : ℤ) - (k : ℤ)).natAbs + r i)
    (∑ k ∈ Finset.Icc 1 p, b k * (autoCorr x ((i : ℤ) - (k : ℤ)).natAbs - r ((i : ℤ) - (k : ℤ)).natAbs) +
          (autoCorr x i - r i))
  have h6 := abs_add_le (∑ k ∈ Finset.Icc 1 p, b k * (autoCorr x ((i : ℤ) - (k : ℤ)).natAbs - r ((i : ℤ) - (k : ℤ)).natAbs))
    (autoCorr x i - r i)
  linarith

/-- Coefficients that satisfy the normal equations up to `D`. -/
theorem residual_bounds {x : List ℝ} {p : ℕ} {a : List ℝ} {e m D : ℝ} (ha : lpcHelper x p = .ok (a, e)) (hm : 0 < m)
    (hb : BoundedBelow x p m) (b : ℕ → ℝ)
    (hD : ∀ i, 1 ≤ i → i ≤ p →
      |∑ k ∈ Finset.Icc 1 p, b k * autoCorr x ((i : ℤ) - (k : ℤ)).natAbs + autoCorr x i| ≤ D) :
    ∑ k ∈ Finset.Icc 1 p, (b k - a.getD k 0) ^ 2 ≤ p * (D / m) ^ 2 ∧
      predError x p b ≤ predError x p (fun k => a.getD k 0) + p * D ^ 2 / m := by
  obtain ⟨-, -, hn⟩ := C59_normal_equations x p a e ha
  have hexp := predError_expand (x := x) (p := p) (u := fun k => a.getD k 0) hn b
  rw [← quad_eq x p fun k => b k - a.getD k 0] at hexp
  have hlow := hb fun k => b k - a.getD k 0
  set S := ∑ k ∈ Finset.Icc 1 p, (b k - a.getD k 0) ^ 2
  set d : ℕ → ℝ := fun i => ∑ k ∈ Finset.Icc 1 p, b k * autoCorr x ((i : ℤ) - (k : ℤ)).natAbs + autoCorr x i with hd
  have hQ : ∑ i ∈ Finset.Icc 1 p, ∑ k ∈ Finset.Icc 1 p, (b i - a.getD i 0) * (b k - a.getD k 0) *
      autoCorr x ((i : ℤ) - (k : ℤ)).natAbs = ∑ i ∈ Finset.Icc 1 p, (b i - a.getD i 0) * d i := by
    refine Finset.sum_congr rfl fun i hi => ?_
    have h := hn i (Finset.mem_Icc.mp hi).1 (Finset.mem_Icc.mp hi).2
    have : d i = ∑ k ∈ Finset.Icc 1 p, (b k - a.getD k 0) * autoCorr x ((i : ℤ) - (k : ℤ)).natAbs := by
      simp only [hd, sub_mul, Finset.sum_sub_distrib]
      rw [h]; ring
    rw [this, Finset.mul_sum]
    exact Finset.sum_congr rfl fun k _ => by ring
  set Q := ∑ i ∈ Finset.Icc 1 p, ∑ k ∈ Finset.Icc 1 p, (b i - a.getD i 0) * (b k - a.getD k 0) *
      autoCorr x ((i : ℤ) - (k : ℤ)).natAbs
  have hcs : Q ^ 2 ≤ S * ∑ i ∈ Finset.Icc 1 p, d i ^ 2 := by
    rw [hQ]
    exact Finset.sum_mul_sq_le_sq_mul_sq _ _ _
  have hdd : ∑ i ∈ Finset.Icc 1 p, d i ^ 2 ≤ p * D ^ 2 := by
    have := Finset.sum_le_card_nsmul (Finset.Icc 1 p) (fun i => d i ^ 2) (D ^ 2) (fun i hi => by
      rw [← sq_abs]
      exact pow_le_pow_left₀ (abs_nonneg _) (hD i (Finset.mem_Icc.mp hi).1 (Finset.mem_Icc.mp hi).2) 2)
    simpa using this
  have hS : 0 ≤ S := Finset.sum_nonneg fun _ _ => sq_nonneg _
  have hcs' : Q ^ 2 ≤ S * (p * D ^ 2) := hcs.trans (mul_le_mul_of_nonneg_left hdd hS)
  have hP : 0 ≤ (p : ℝ) * D ^ 2 := by positivity
  rw [hexp]
  rcases hS.eq_or_lt with h0 | h0
  · rw [← h0, zero_mul] at hcs'
    have hq : Q = 0 := pow_eq_zero_iff two_ne_zero |>.mp (le_antisymm hcs' (sq_nonneg _))
    rw [hq, ← h0]
    exact ⟨by positivity, by rw [add_zero]; exact le_add_of_nonneg_right (by positivity)⟩
  have hQ0 : 0 ≤ Q := le_trans (by positivity) hlow
  have hmQ : m * Q ≤ p * D ^ 2 := by
    have : S * (m * Q) ≤ S * (p * D ^ 2) := by nlinarith
    exact le_of_mul_le_mul_left this h0
  constructor
  · rw [div_pow, ← mul_div_assoc, le_div_iff₀ (by positivity)]
    nlinarith
  · have : Q ≤ p * D ^ 2 / m := by rw [le_div_iff₀ hm]; linarith
    linarith

/-- C175: the distance of the computed from the exact coefficients, and how much larger the prediction error of the
computed coefficients is than the smallest possible one. -/
theorem C175_coefficients {u ρ : ℝ} {fl : ℝ → ℝ} (h : Rounding u fl) (x : List ℝ) (p : ℕ) (a : List ℝ) (e m : ℝ)
    (ha : lpcHelper x p = .ok (a, e)) (hm : 0 < m) (hx : BoundedBelow x p m) (b : ℕ → ℝ) (hb : FlLpc fl x p ρ b) :
    ∑ k ∈ Finset.Icc 1 p, (b k - a.getD k 0) ^ 2 ≤
        p * ((ρ + ((1 + u) ^ x.length - 1) * autoCorr x 0 * (1 + ∑ k ∈ Finset.Icc 1 p, |b k|)) / m) ^ 2 ∧
      predError x p b ≤ predError x p (fun k => a.getD k 0) +
        p * (ρ + ((1 + u) ^ x.length - 1) * autoCorr x 0 * (1 + ∑ k ∈ Finset.Icc 1 p, |b k|)) ^ 2 / m :=
  residual_bounds ha hm hx b fun i h1 h2 => C175_residual h x p b hb i h1 h2

/-- C175: the same without the computed coefficients on the right, when the arithmetic is accurate enough for the frame:
`2 p ((1 + u)^N - 1) r(0) ≤ m`. -/
theorem C175_apriori {u ρ : ℝ} {fl : ℝ → ℝ} (h : Rounding u fl) (x : List ℝ) (p : ℕ) (a : List ℝ) (e m : ℝ)
    (ha : lpcHelper x p = .ok (a, e)) (hm : 0 < m) (hx : BoundedBelow x p m)
    (hu : 2 * p * (((1 + u) ^ x.length - 1) * autoCorr x 0) ≤ m) (b : ℕ → ℝ) (hb : FlLpc fl x p ρ b) :
    ∑ k ∈ Finset.Icc 1 p, (b k - a.getD k 0) ^ 2 ≤
      p * (2 * (ρ + ((1 + u) ^ x.length - 1) * autoCorr x 0 * (1 + ∑ k ∈ Finset.Icc 1 p, |a.getD k 0|)) / m) ^ 2 := by
  have hu0 := h.nonneg
  have hG0 : 0 ≤ ((1 + u) ^ x.length - 1) * autoCorr x 0 :=
    mul_nonneg (by linarith [one_le_pow₀ (n := x.length) (show 1 ≤ 1 + u by linarith)])
      (le_trans (Finset.sum_nonneg fun _ _ => abs_nonneg _) (autoCorr_abs_le x 0))
  have h1 := (C175_coefficients h x p a e m ha hm hx b hb).1
  have hp : 1 ≤ p := by
    rcases Nat.eq_zero_or_pos p with rfl | hp
    · exfalso
      simp only [lpcHelper] at ha
      split_ifs at ha
    · exact hp
  have hD0 : 0 ≤ ρ + ((1 + u) ^ x.length - 1) * autoCorr x 0 * (1 + ∑ k ∈ Finset.Icc 1 p, |b k|) :=
    (abs_nonneg _).trans (C175_residual h x p b hb 1 le_rfl hp)
  set G := ((1 + u) ^ x.length - 1) * autoCorr x 0
  set D := ρ + G * (1 + ∑ k ∈ Finset.Icc 1 p, |b k|) with hD
  refine h1.trans (mul_le_mul_of_nonneg_left (pow_le_pow_left₀ (by positivity) ?_ 2) (by positivity))
  apply div_le_div_of_nonneg_right _ hm.le
  -- the sum of the computed magnitudes
  have hpr : (1 : ℝ) ≤ p := by exact_mod_cast hp
  have hs : ∑ k ∈ Finset.Icc 1 p, |b k| ≤ ∑ k ∈ Finset.Icc 1 p, |a.getD k 0| + p * (D / m) := by
    have e1 : ∑ k ∈ Finset.Icc 1 p, |b k| ≤ ∑ k ∈ Finset.Icc 1 p, |a.getD k 0| + ∑ k ∈ Finset.Icc 1 p, |b k - a.getD k 0| := by
      rw [← Finset.sum_add_distrib]
      refine Finset.sum_le_sum fun k _ => ?_
      have := abs_add_le (a.getD k 0) (b k - a.getD k 0)
      rwa [add_sub_cancel] at this
    have e2 : (∑ k ∈ Finset.Icc 1 p, |b k - a.getD k 0|) ^ 2 ≤ (p * (D / m)) ^ 2 := by
      have := sq_sum_le_card_mul_sum_sq (s := Finset.Icc 1 p) (f := fun k => |b k - a.getD k 0|)
      simp only [sq_abs, Nat.card_Icc, Nat.add_sub_cancel] at this
      refine this.trans ?_
      have := mul_le_mul_of_nonneg_left h1 (show (0 : ℝ) ≤ p by positivity)
      refine this.trans (le_of_eq (by ring))
    have e3 := abs_le_of_sq_le_sq' e2 (by positivity)
    linarith [e3.2]
  have hDm : G * (p * (D / m)) ≤ D / 2 := by
    have : G * (p * (D / m)) = (2 * p * G) * (D / m) / 2 := by ring
    rw [this]
    have h3 : (2 * p * G) * (D / m) ≤ m * (D / m) := mul_le_mul_of_nonneg_right hu (by positivity)
    rw [mul_div_cancel₀ _ hm.ne'] at h3
    linarith
  have := mul_le_mul_of_nonneg_left hs hG0
  nlinarith

/-- C175: the results converge. For every frame that is not silent and every tolerance, all runs in arithmetic that is
accurate enough, with a solver whose residual is small enough, are within the tolerance of the exact coefficients. -/
theorem C175_converges (x : List ℝ) (p : ℕ) (a : List ℝ) (e : ℝ) (ha : lpcHelper x p = .ok (a, e)) (ε : ℝ) (hε : 0 < ε) :
    ∃ η > 0, ∀ u ρ fl b, u ≤ η → ρ ≤ η → Rounding u fl → FlLpc fl x p ρ b → ∀ k, k ≤ p → |b k - a.getD k 0| ≤ ε := by
  have hp : 1 ≤ p := by
    rcases Nat.eq_zero_or_pos p with rfl | hp
    · exfalso
      simp only [lpcHelper] at ha
      split_ifs at ha
    · exact hp
  have hx0 : x ≠ [] := by
    rintro rfl
    simp [lpcHelper] at ha
  have hx : NotSilent x := (C61_defined_iff x p hx0 hp).1.mp ⟨_, ha⟩
  obtain ⟨m, hm, hB⟩ := (C175_lower_bound x p hp).1.mpr hx
  obtain ⟨-, ha0, -⟩ := C59_normal_equations x p a e ha
  set S := ∑ k ∈ Finset.Icc 1 p, |a.getD k 0|
  have hS : 0 ≤ S := Finset.sum_nonneg fun _ _ => abs_nonneg _
  have hpr : (1 : ℝ) ≤ p := by exact_mod_cast hp
  -- the bound as a function of the accuracy
  let f : ℝ → ℝ := fun t => 2 * p * (((1 + t) ^ x.length - 1) * autoCorr x 0)
  let g : ℝ → ℝ := fun t => p * (2 * (t + ((1 + t) ^ x.length - 1) * autoCorr x 0 * (1 + S)) / m) ^ 2
  have hf : Filter.Tendsto f (nhds 0) (nhds (f 0)) := (by fun_prop : Continuous f).tendsto 0
  have hg : Filter.Tendsto g (nhds 0) (nhds (g 0)) := (by fun_prop : Continuous g).tendsto 0
  have hf0 : f 0 = 0 := by simp [f]
  have hg0 : g 0 = 0 := by simp [g]
  rw [hf0] at hf
  rw [hg0] at hg
  have hev := ((hf.eventually (gt_mem_nhds hm)).and (hg.eventually (gt_mem_nhds (show (0 : ℝ) < ε ^ 2 by positivity))))
  obtain ⟨r, hr, hball⟩ := Metric.eventually_nhds_iff.mp hev
  refine ⟨r / 2, by positivity, ?_⟩
  intro u ρ fl b hu hρ hR hb k hk
  rcases Nat.eq_zero_or_pos k with rfl | hk0
  · rw [hb.one, ha0, sub_self, abs_zero]; exact hε.le
  have hu0 := hR.nonneg
  have hr2 : dist (r / 2) 0 < r := by
    rw [dist_zero_right, Real.norm_eq_abs, abs_of_pos (by positivity)]; linarith
  obtain ⟨b1, b2⟩ := hball hr2
  have hr0 : 0 ≤ autoCorr x 0 := le_trans (Finset.sum_nonneg fun _ _ => abs_nonneg _) (autoCorr_abs_le x 0)
  have hpw : ((1 + u) ^ x.length - 1) * autoCorr x 0 ≤ ((1 + r / 2) ^ x.length - 1) * autoCorr x 0 :=
    mul_le_mul_of_nonneg_right (sub_le_sub_right (pow_le_pow_left₀ (by linarith) (by linarith) _) _) hr0
  have hG0 : 0 ≤ ((1 + u) ^ x.length - 1) * autoCorr x 0 :=
    mul_nonneg (by linarith [one_le_pow₀ (n := x.length) (show 1 ≤ 1 + u by linarith)]) hr0
  have hcond : 2 * p * (((1 + u) ^ x.length - 1) * autoCorr x 0) ≤ m :=
    (mul_le_mul_of_nonneg_left hpw (by positivity)).trans b1.le
  have hmain := C175_apriori hR x p a e m ha hm hB hcond b hb
  have hρ0 : 0 ≤ ρ := by
    obtain ⟨r, -, hs⟩ := hb.solves
    exact (abs_nonneg _).trans (hs 1 le_rfl hp)
  have hmono : p * (2 * (ρ + ((1 + u) ^ x.length - 1) * autoCorr x 0 * (1 + S)) / m) ^ 2 ≤ g (r / 2) := by
    refine mul_le_mul_of_nonneg_left (pow_le_pow_left₀ (by positivity) ?_ 2) (by positivity)
    apply div_le_div_of_nonneg_right _ hm.le
    have := mul_le_mul_of_nonneg_right hpw (show 0 ≤ 1 + S by linarith)
    linarith
  have hone : (b k - a.getD k 0) ^ 2 ≤ ∑ k ∈ Finset.Icc 1 p, (b k - a.getD k 0) ^ 2 :=
    Finset.single_le_sum (f := fun k => (b k - a.getD k 0) ^ 2) (fun _ _ => sq_nonneg _) (Finset.mem_Icc.mpr ⟨hk0, hk⟩)
  exact abs_le_of_sq_le_sq (by linarith) hε.le

/-- C175: `lpc` with order 13 on frames of at most 400 samples in double precision. `K` bounds the ratio of `r(0)` to the
smallest eigenvalue of the autocorrelation matrix, and the solver leaves a residual of `ρ r(0)`. -/
theorem C175_double (x : List ℝ) (hN : x.length ≤ 400) (a : List ℝ) (e m K ρ : ℝ) (ha : lpcHelper x 12 = .ok (a, e))
    (hm : 0 < m) (hx : BoundedBelow x 12 m) (hK : autoCorr x 0 ≤ K * m) (hK' : K ≤ 9 * 10 ^ 11) (b : ℕ → ℝ)
    (hb : FlLpc fl64 x 12 (ρ * autoCorr x 0) b) (k : ℕ) (hk : k ≤ 12) :
    |b k - a.getD k 0| ≤ 7 * K * (ρ + 4.5 / 10 ^ 14 * (1 + ∑ k ∈ Finset.Icc 1 12, |a.getD k 0|)) := by
  have hR := C130_binary64.1
  obtain ⟨-, ha0, -⟩ := C59_normal_equations x 12 a e ha
  have hr0 : 0 ≤ autoCorr x 0 := le_trans (Finset.sum_nonneg fun _ _ => abs_nonneg _) (autoCorr_abs_le x 0)
  have hK0 : 0 ≤ K := by
    by_contra hc
    have : K * m < 0 := mul_neg_of_neg_of_pos (not_le.mp hc) hm
    linarith
  set S := ∑ k ∈ Finset.Icc 1 12, |a.getD k 0|
  have hS : 0 ≤ S := Finset.sum_nonneg fun _ _ => abs_nonneg _
  have hg1 : 1 ≤ ((1 : ℝ) + 1 / 2 ^ 53) ^ x.length := one_le_pow₀ (by norm_num)
  have hg : ((1 : ℝ) + 1 / 2 ^ 53) ^ x.length ≤ 1 + 4.5 / 10 ^ 14 := by
    refine (pow_le_pow_right₀ (by norm_num) hN).trans ?_
    have h100 : ((1 : ℝ) + 1 / 2 ^ 53) ^ 100 ≤ 1 + 1.12 / 10 ^ 14 := by norm_num
    rw [show 400 = 100 * 4 by norm_num, pow_mul]
    exact (pow_le_pow_left₀ (by positivity) h100 4).trans (by norm_num)
  have hmain := C175_apriori (ρ := ρ * autoCorr x 0) hR x 12 a e m ha hm hx (by
    push_cast
    generalize ((1 : ℝ) + 1 / 2 ^ 53) ^ x.length = g at *
    have h1 : (g - 1) * autoCorr x 0 ≤ 4.5 / 10 ^ 14 * (9 * 10 ^ 11 * m) := by
      apply mul_le_mul (by linarith) _ hr0 (by norm_num)
      exact hK.trans (mul_le_mul_of_nonneg_right hK' hm.le)
    linarith) b hb
  have hρ : 0 ≤ ρ * autoCorr x 0 := by
    obtain ⟨r, -, hs⟩ := hb.solves
    exact (abs_nonneg _).trans (hs 1 le_rfl (by norm_num))
  generalize ((1 : ℝ) + 1 / 2 ^ 53) ^ x.length = g at *
  have hx0 : x ≠ [] := by
    rintro rfl
    simp [lpcHelper] at ha
  have hpos : 0 < autoCorr x 0 := by
    refine lt_of_le_of_ne hr0 fun hz => ?_
    have hns : NotSilent x := (C61_defined_iff x 12 hx0 (by norm_num)).1.mp ⟨_, ha⟩
    have := quad_pos hns (p := 1) (y := fun _ => 1) ⟨1, le_rfl, le_rfl, one_ne_zero⟩
    simp [← hz] at this
  have hρ0 : 0 ≤ ρ := nonneg_of_mul_nonneg_left hρ hpos
  set T := ρ + 4.5 / 10 ^ 14 * (1 + S) with hT
  have hT0 : 0 ≤ T := by positivity
  rcases Nat.eq_zero_or_pos k with rfl | hk0
  · rw [hb.one, ha0, sub_self, abs_zero]; positivity
  have hone : (b k - a.getD k 0) ^ 2 ≤ ∑ k ∈ Finset.Icc 1 12, (b k - a.getD k 0) ^ 2 :=
    Finset.single_le_sum (f := fun k => (b k - a.getD k 0) ^ 2) (fun _ _ => sq_nonneg _) (Finset.mem_Icc.mpr ⟨hk0, hk⟩)
  have hdiv : 2 * (ρ * autoCorr x 0 + (g - 1) * autoCorr x 0 * (1 + S)) / m ≤ 2 * K * T := by
    rw [div_le_iff₀ hm]
    have h1 : ρ * autoCorr x 0 + (g - 1) * autoCorr x 0 * (1 + S) ≤ autoCorr x 0 * T := by
      have : (g - 1) * (1 + S) ≤ 4.5 / 10 ^ 14 * (1 + S) := mul_le_mul_of_nonneg_right (by linarith) (by linarith)
      have := mul_le_mul_of_nonneg_left this hr0
      rw [hT]
      linarith
    have h2 : autoCorr x 0 * T ≤ K * m * T := mul_le_mul_of_nonneg_right hK hT0
    linarith
  have hnn : 0 ≤ 2 * (ρ * autoCorr x 0 + (g - 1) * autoCorr x 0 * (1 + S)) / m := by
    have : 0 ≤ (g - 1) * autoCorr x 0 * (1 + S) := mul_nonneg (mul_nonneg (by linarith) hr0) (by linarith)
    positivity
  have hsq := pow_le_pow_left₀ hnn hdiv 2
  refine abs_le_of_sq_le_sq ?_ (by positivity)
  push_cast at hmain
  nlinarith [sq_nonneg (K * T)]

/-! ### A run with rounding -/

/-- The frame `[1, 1]`, order 1: `r = (2, 1)`, so the coefficient is `-1/2`. -/
theorem roundingLpc_demo : BoundedBelow [1, 1] 1 2 ∧ FlLpc (fun t => t * (1 + 1 / 1024)) [1, 1] 1 (1 / 1024)
    (fun k => if k = 0 then 1 else -1 / 2) := by
  constructor
  · intro y
    simp [autoCorr_eq, Finset.sum_range_succ]
    nlinarith
  · refine ⟨by simp, fun k => if k = 0 then 2 * (1 + 1 / 1024) else 1, ?_, ?_⟩
    · intro k hk
      obtain rfl | rfl : k = 0 ∨ k = 1 := by omega
      · simp only [FlAutoCorr]
        rw [if_pos (by simp)]
        refine ⟨fun _ => 1, fun k hk => ?_, ?_⟩
        · obtain rfl | rfl : k = 0 ∨ k = 1 := by simp at hk; omega
          · left; simp
          · left; simp
        · have := FlSum.add (fl := fun t => t * (1 + 1 / 1024)) (FlSum.one (1 : ℝ)) (FlSum.one (1 : ℝ))
          convert this using 1
          · norm_num; rfl
          · norm_num
      · simp only [FlAutoCorr]
        rw [if_pos (by simp)]
        refine ⟨fun _ => 1, fun k hk => ?_, ?_⟩
        · obtain rfl : k = 0 := by simp at hk; omega
          left; simp
        · exact FlSum.one (1 : ℝ)
    · intro i h1 h2
      obtain rfl : i = 1 := by omega
      norm_num [abs_le]

example : ∃ e, lpcHelper [1, 1] 1 = .ok ([1, -1 / 2], e) ∧ Rounding (1 / 1024) (fun t => t * (1 + 1 / 1024)) ∧
    BoundedBelow [1, 1] 1 2 ∧ FlLpc (fun t => t * (1 + 1 / 1024)) [1, 1] 1 (1 / 1024) (fun k => if k = 0 then 1 else -1 / 2) := by
  obtain ⟨e, he⟩ := lpcHelper_demo
  refine ⟨e, he, ⟨by norm_num, fun t => ?_⟩, roundingLpc_demo.1, roundingLpc_demo.2⟩
  rw [show t * (1 + 1 / 1024) - t = 1 / 1024 * t by ring, abs_mul, abs_of_pos (show (0 : ℝ) < 1 / 1024 by norm_num)]

end Props
end Spafe
