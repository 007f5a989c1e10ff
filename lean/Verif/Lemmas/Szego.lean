import Mathlib.Analysis.Polynomial.MahlerMeasure
import Mathlib.Analysis.SpecificLimits.Basic

/-! Approximate inverses of polynomials on the unit circle. -/

namespace Spafe
open Polynomial

/-- On the unit disc `(1 - w) / (1 - ρ w)` is at most `2 / (1 + ρ)`. -/
theorem abel_factor {ρ : ℝ} (h0 : 0 ≤ ρ) (h1 : ρ ≤ 1) {w : ℂ} (hw : ‖w‖ ≤ 1) : (1 + ρ) * ‖1 - w‖ ≤ 2 * ‖1 - ρ * w‖ := by
  have hsq : w.re ^ 2 + w.im ^ 2 ≤ 1 := by
    have := pow_le_pow_left₀ (norm_nonneg w) hw 2
    rw [← Complex.normSq_eq_norm_sq, Complex.normSq_apply] at this
    nlinarith
  have hre : -1 ≤ w.re := by nlinarith [sq_nonneg w.im, sq_nonneg (w.re - 1)]
  apply le_of_sq_le_sq _ (by positivity)
  rw [mul_pow, mul_pow, ← Complex.normSq_eq_norm_sq, ← Complex.normSq_eq_norm_sq, Complex.normSq_apply, Complex.normSq_apply]
  simp only [Complex.sub_re, Complex.one_re, Complex.sub_im, Complex.one_im, Complex.re_ofReal_mul, Complex.im_ofReal_mul]
  have key : 2 ^ 2 * ((1 - ρ * w.re) * (1 - ρ * w.re) + (0 - ρ * w.im) * (0 - ρ * w.im)) -
      (1 + ρ) ^ 2 * ((1 - w.re) * (1 - w.re) + (0 - w.im) * (0 - w.im)) =
      (1 - ρ) * ((1 + 3 * ρ) * (1 - (w.re ^ 2 + w.im ^ 2)) + 2 * (1 - ρ) * (1 + w.re)) := by ring
  have : 0 ≤ (1 - ρ) * ((1 + 3 * ρ) * (1 - (w.re ^ 2 + w.im ^ 2)) + 2 * (1 - ρ) * (1 + w.re)) := by
    apply mul_nonneg (by linarith)
    apply add_nonneg
    · exact mul_nonneg (by linarith) (by linarith)
    · exact mul_nonneg (by linarith) (by linarith)
  linarith

/-- An approximate inverse of `1 - w`, bounded on the unit disc. -/
theorem geom_factor {ε : ℝ} (hε : 0 < ε) : ∃ (ρ : ℝ) (n : ℕ), 1 ≤ n ∧
    ∀ w : ℂ, ‖w‖ ≤ 1 → ‖1 - w‖ * ‖∑ k ∈ Finset.range n, ((ρ : ℂ) * w) ^ k‖ ≤ 1 + ε := by
  obtain ⟨ρ, h0, h1, h2⟩ : ∃ ρ : ℝ, 0 < ρ ∧ ρ < 1 ∧ 2 / (1 + ρ) ≤ 1 + ε / 2 := by
    refine ⟨1 / (1 + ε), by positivity, by rw [div_lt_one (by positivity)]; linarith, ?_⟩
    rw [div_le_iff₀ (by positivity)]
    have : (1 + ε / 2) * (1 + 1 / (1 + ε)) = 2 + (ε ^ 2 / 2) / (1 + ε) := by field_simp; ring
    rw [this]
    have : 0 ≤ (ε ^ 2 / 2) / (1 + ε) := by positivity
    linarith
  obtain ⟨n, hn⟩ := exists_pow_lt_of_lt_one (show 0 < ε / (2 + ε) by positivity) h1
  refine ⟨ρ, n + 1, by omega, fun w hw => ?_⟩
  have hρw : ‖(ρ : ℂ) * w‖ ≤ ρ := by
    rw [norm_mul, Complex.norm_real, Real.norm_of_nonneg h0.le]
    nlinarith
  have hne : 1 - (ρ : ℂ) * w ≠ 0 := by
    intro h
    have : (ρ : ℂ) * w = 1 := (sub_eq_zero.mp h).symm
    rw [this, norm_one] at hρw
    linarith
  have hpos : 0 < ‖1 - (ρ : ℂ) * w‖ := norm_pos_iff.mpr hne
  have hg : (1 - (ρ : ℂ) * w) * ∑ k ∈ Finset.range (n + 1), ((ρ : ℂ) * w) ^ k = 1 - ((ρ : ℂ) * w) ^ (n + 1) := by
    have := mul_neg_geom_sum ((ρ : ℂ) * w) (n + 1)
    exact this
  have hb : ‖1 - (ρ : ℂ) * w‖ * ‖∑ k ∈ Finset.range (n + 1), ((ρ : ℂ) * w) ^ k‖ ≤ 1 + ρ ^ n := by
    rw [← norm_mul, hg]
    refine (norm_sub_le _ _).trans ?_
    rw [norm_one, norm_pow]
    have e1 := pow_le_pow_left₀ (norm_nonneg _) hρw (n + 1)
    have e2 : ρ ^ (n + 1) ≤ ρ ^ n := pow_le_pow_of_le_one h0.le h1.le (Nat.le_succ n)
    linarith
  have ha := abel_factor h0.le h1.le hw
  set S := ‖∑ k ∈ Finset.range (n + 1), ((ρ : ℂ) * w) ^ k‖
  have hS : 0 ≤ S := norm_nonneg _
  have h3 : (1 + ρ) * (‖1 - w‖ * S) ≤ 2 * (1 + ρ ^ n) := by
    have := mul_le_mul_of_nonneg_right ha hS
    nlinarith
  have h4 : ‖1 - w‖ * S ≤ 2 / (1 + ρ) * (1 + ρ ^ n) := by
    rw [div_mul_eq_mul_div, le_div_iff₀ (by positivity)]
    linarith
  have h5 : (1 + ε / 2) * (1 + ε / (2 + ε)) = 1 + ε := by field_simp; ring
  refine h4.trans (le_trans (mul_le_mul h2 (by linarith) (by positivity) (by positivity)) h5.le)

/-- For one root. -/
theorem root_factor (r : ℂ) {ε : ℝ} (hε : 0 < ε) : ∃ B : ℂ[X], B.coeff 0 = 1 ∧
    ∀ z : ℂ, ‖z‖ = 1 → ‖z - r‖ * ‖B.eval z‖ ≤ max 1 ‖r‖ * (1 + ε) := by
  obtain ⟨ρ, n, hn, hb⟩ := geom_factor hε
  -- the reflected root
  obtain ⟨c, hc1, hc2⟩ : ∃ c : ℂ, ‖c‖ ≤ 1 ∧ ∀ z : ℂ, ‖z‖ = 1 → ‖z - r‖ = max 1 ‖r‖ * ‖1 - c * z‖ := by
    by_cases hr : 1 ≤ ‖r‖
    · have hr0 : r ≠ 0 := by rintro rfl; norm_num at hr
      refine ⟨r⁻¹, by rw [norm_inv]; exact inv_le_one_of_one_le₀ hr, fun z _ => ?_⟩
      rw [max_eq_right hr, ← norm_mul, mul_sub, mul_one, mul_inv_cancel_left₀ hr0, norm_sub_rev]
    · push Not at hr
      refine ⟨(starRingEnd ℂ) r, by rw [Complex.norm_conj]; exact hr.le, fun z hz => ?_⟩
      rw [max_eq_left hr.le, one_mul]
      have h1 : (starRingEnd ℂ) z * z = 1 := by
        rw [← Complex.normSq_eq_conj_mul_self, Complex.normSq_eq_norm_sq, hz]; norm_num
      have h2 : 1 - (starRingEnd ℂ) r * z = (starRingEnd ℂ) (z - r) * z := by
        rw [map_sub, sub_mul, h1]
      rw [h2, norm_mul, Complex.norm_conj, hz, mul_one]
  refine ⟨∑ k ∈ Finset.range n, C (((ρ : ℂ) * c) ^ k) * X ^ k, ?_, fun z hz => ?_⟩
  · simp only [finset_sum_coeff, coeff_C_mul, coeff_X_pow]
    rw [Finset.sum_eq_single 0]
    · simp
    · intro k _ hk; simp [Ne.symm hk]
    · intro hc; exact absurd (Finset.mem_range.mpr (by omega)) hc
  · have he : (∑ k ∈ Finset.range n, C (((ρ : ℂ) * c) ^ k) * X ^ k).eval z = ∑ k ∈ Finset.range n, ((ρ : ℂ) * (c * z)) ^ k := by
      simp only [eval_finset_sum, eval_mul, eval_C, eval_pow, eval_X]
      exact Finset.sum_congr rfl fun k _ => by rw [← mul_pow]; ring
    rw [he, hc2 z hz, mul_assoc]
    refine mul_le_mul_of_nonneg_left (hb (c * z) ?_) (by positivity)
    rw [norm_mul, hz, mul_one]
    exact hc1

/-- For a product of roots. -/
theorem roots_factor (s : Multiset ℂ) {ε : ℝ} (hε : 0 < ε) : ∃ B : ℂ[X], B.coeff 0 = 1 ∧
    ∀ z : ℂ, ‖z‖ = 1 → ‖((s.map fun r => X - C r).prod).eval z‖ * ‖B.eval z‖ ≤
      (s.map fun r => max 1 ‖r‖).prod * (1 + ε) ^ s.card := by
  induction s using Multiset.induction_on with
  | empty => exact ⟨1, by simp, fun z _ => by simp⟩
  | cons r s ih =>
    obtain ⟨B, hB0, hB⟩ := ih
    obtain ⟨B', hB0', hB'⟩ := root_factor r hε
    refine ⟨B' * B, by rw [mul_coeff_zero, hB0, hB0', one_mul], fun z hz => ?_⟩
    rw [Multiset.map_cons, Multiset.prod_cons, Multiset.map_cons, Multiset.prod_cons, Multiset.card_cons, eval_mul, eval_mul,
      norm_mul, norm_mul, eval_sub, eval_X, eval_C]
    have h1 := hB' z hz
    have h2 := hB z hz
    have h3 := mul_le_mul h1 h2 (by positivity) (by positivity)
    calc _ = (‖z - r‖ * ‖B'.eval z‖) * (‖((s.map fun r => X - C r).prod).eval z‖ * ‖B.eval z‖) := by ring
      _ ≤ _ := h3
      _ = _ := by rw [pow_succ]; ring

/-- Every polynomial has approximate inverses `B` with `B(0) = 1` for which the product is at most the Mahler measure,
up to any factor above one, on the whole unit circle. -/
theorem mahler_factor (q : ℂ[X]) {ε : ℝ} (hε : 0 < ε) : ∃ B : ℂ[X], B.coeff 0 = 1 ∧
    ∀ z : ℂ, ‖z‖ = 1 → ‖q.eval z‖ * ‖B.eval z‖ ≤ q.mahlerMeasure * (1 + ε) ^ q.natDegree := by
  obtain ⟨B, h0, hB⟩ := roots_factor q.roots hε
  refine ⟨B, h0, fun z hz => ?_⟩
  have hs := IsAlgClosed.splits q
  have hq : q = C q.leadingCoeff * (q.roots.map fun r => X - C r).prod := hs.eq_prod_roots
  have hd : q.natDegree = q.roots.card := hs.natDegree_eq_card_roots
  rw [hd, mahlerMeasure_eq_leadingCoeff_mul_prod_roots]
  nth_rewrite 1 [hq]
  rw [eval_mul, eval_C, norm_mul, mul_assoc, mul_assoc]
  exact mul_le_mul_of_nonneg_left (hB z hz) (norm_nonneg _)

end Spafe
