import Verif.Spec.Envelope
import Mathlib.FieldTheory.IsAlgClosed.Basic
import Mathlib.Analysis.Complex.Polynomial.Basic
import Mathlib.Analysis.Complex.MeanValue

/-! Lemmas for the envelope of linear prediction: the autocorrelations of an all-pole spectrum. -/

set_option linter.unusedSectionVars false

namespace Spafe
namespace Props
open Spec Real Polynomial

/-- The numbers `x 0, ..., x p` continued by the recursion with the coefficients `a`. -/
noncomputable def continued (a x : ℕ → ℝ) (p : ℕ) (k : ℕ) : ℝ :=
  if k ≤ p then x k else -∑ j : Fin p, a (j + 1) * continued a x p (k - (j + 1))
termination_by k
decreasing_by omega

/-- The delay by one. -/
def delay : (ℤ → ℝ) →ₗ[ℝ] (ℤ → ℝ) where
  toFun x := fun k => x (k - 1)
  map_add' _ _ := rfl
  map_smul' _ _ := rfl

theorem delay_pow (j : ℕ) (x : ℤ → ℝ) (k : ℤ) : (delay ^ j) x k = x (k - j) := by
  induction j generalizing k with
  | zero => simp
  | succ j ih =>
    rw [pow_succ', Module.End.mul_apply]
    show (delay ^ j) x (k - 1) = _
    rw [ih]
    congr 1
    push_cast
    ring

theorem aeval_delay (c : ℕ → ℝ) (e : ℕ → ℕ) (p : ℕ) (x : ℤ → ℝ) (k : ℤ) :
    (aeval delay (∑ j ∈ Finset.range (p + 1), C (c j) * X ^ (e j))) x k = ∑ j ∈ Finset.range (p + 1), c j * x (k - e j) := by
  rw [map_sum, LinearMap.sum_apply, Finset.sum_apply]
  refine Finset.sum_congr rfl fun j _ => ?_
  rw [map_mul, aeval_C, map_pow, aeval_X, Module.End.mul_apply, Module.algebraMap_end_apply, Pi.smul_apply, delay_pow,
    smul_eq_mul]

/-- A filter with all zeros in the unit disc and its reverse have no common zero. -/
theorem coprime_reverse {a : ℕ → ℝ} {p : ℕ} (h0 : a 0 = 1)
    (hr : ∀ z : ℂ, ∑ k ∈ Finset.range (p + 1), (a k : ℂ) * z ^ (p - k) = 0 → ‖z‖ < 1) :
    IsCoprime (∑ j ∈ Finset.range (p + 1), C (a j) * X ^ j) (∑ j ∈ Finset.range (p + 1), C (a j) * X ^ (p - j)) := by
  refine (Polynomial.isCoprime_iff_aeval_ne_zero_of_isAlgClosed ℝ ℂ _ _).mpr fun z => ?_
  by_contra hc
  rw [not_or, not_not, not_not] at hc
  obtain ⟨h1, h2⟩ := hc
  simp only [map_sum, map_mul, aeval_C, map_pow, aeval_X, Complex.coe_algebraMap] at h1 h2
  have hz := hr z h2
  have hz0 : z ≠ 0 := by
    rintro rfl
    rw [Finset.sum_eq_single 0 (fun b _ hb => by simp [hb]) (by simp)] at h1
    simp [h0] at h1
  have h3 : ∑ k ∈ Finset.range (p + 1), (a k : ℂ) * z⁻¹ ^ (p - k) = 0 := by
    have e : ∑ k ∈ Finset.range (p + 1), (a k : ℂ) * z⁻¹ ^ (p - k) =
        z⁻¹ ^ p * ∑ k ∈ Finset.range (p + 1), (a k : ℂ) * z ^ k := by
      rw [Finset.mul_sum]
      refine Finset.sum_congr rfl fun k hk => ?_
      have hk' : k ≤ p := by have := Finset.mem_range.mp hk; omega
      have : z⁻¹ ^ p = z⁻¹ ^ (p - k) * z⁻¹ ^ k := by rw [← pow_add]; congr 1; omega
      rw [this, inv_pow z k]
      field_simp
    rw [e, h1, mul_zero]
  have h4 := hr _ h3
  rw [norm_inv] at h4
  have := one_lt_inv_iff₀.mpr ⟨norm_pos_iff.mpr hz0, hz⟩
  linarith

/-- The Yule-Walker equations of a filter with all zeros in the unit disc determine the autocorrelations. -/
theorem yule_walker_unique {a : ℕ → ℝ} {p : ℕ} (h0 : a 0 = 1)
    (hr : ∀ z : ℂ, ∑ k ∈ Finset.range (p + 1), (a k : ℂ) * z ^ (p - k) = 0 → ‖z‖ < 1) {x : ℕ → ℝ}
    (hx : ∀ k ≤ p, ∑ j ∈ Finset.range (p + 1), a j * x ((k : ℤ) - (j : ℤ)).natAbs = 0) : ∀ k ≤ p, x k = 0 := by
  obtain ⟨Y, hY⟩ : ∃ Y : ℤ → ℝ, Y = fun n => continued a x p n.natAbs := ⟨_, rfl⟩
  have hYle : ∀ n : ℤ, n.natAbs ≤ p → Y n = x n.natAbs := by
    intro n hn; rw [hY]; beta_reduce; rw [continued, if_pos hn]
  have hYneg : ∀ n, Y (-n) = Y n := by intro n; rw [hY]; simp
  obtain ⟨y, hy⟩ : ∃ y : ℤ → ℝ, y = fun k => ∑ j ∈ Finset.range (p + 1), a j * Y (k - j) := ⟨_, rfl⟩
  have hy0 : ∀ k : ℕ, y k = 0 := by
    intro k
    rw [hy]
    by_cases hk : k ≤ p
    · rw [← hx k hk]
      refine Finset.sum_congr rfl fun j hj => ?_
      rw [hYle]
      have := Finset.mem_range.mp hj
      omega
    · beta_reduce
      rw [Finset.sum_range_succ', h0]
      have e : Y (k : ℤ) = -∑ j : Fin p, a (j + 1) * continued a x p (k - (j + 1)) := by
        rw [hY]; beta_reduce; rw [Int.natAbs_natCast, continued, if_neg hk]
      rw [Nat.cast_zero, sub_zero, one_mul, e, ← Fin.sum_univ_eq_sum_range (fun j => a (j + 1) * Y ((k : ℤ) - ((j + 1 : ℕ) : ℤ)))]
      rw [← sub_eq_add_neg, sub_eq_zero]
      refine Finset.sum_congr rfl fun j _ => ?_
      rw [hY]
      beta_reduce
      congr 2
      have := j.2
      omega
  obtain ⟨w, hw⟩ : ∃ w : ℤ → ℝ, w = fun k => ∑ i ∈ Finset.range (p + 1), a i * y (k + i) := ⟨_, rfl⟩
  have hw0 : ∀ k : ℕ, w k = 0 := by
    intro k
    rw [hw]
    refine Finset.sum_eq_zero fun i _ => ?_
    have := hy0 (k + i)
    push_cast at this
    rw [this, mul_zero]
  have hwneg : ∀ k, w (-k) = w k := by
    intro k
    rw [hw, hy]
    simp only [Finset.mul_sum]
    rw [Finset.sum_comm]
    refine Finset.sum_congr rfl fun i _ => Finset.sum_congr rfl fun j _ => ?_
    rw [← hYneg (k + i - j)]
    rw [show -(k + (i : ℤ) - j) = -k + j - i by ring]
    ring
  have hwall : ∀ k : ℤ, w k = 0 := by
    intro k
    rcases Int.eq_nat_or_neg k with ⟨n, rfl | rfl⟩
    · exact hw0 n
    · rw [hwneg]; exact hw0 n
  have hyall : ∀ n : ℕ, ∀ k : ℤ, -(n : ℤ) ≤ k → y k = 0 := by
    intro n
    induction n with
    | zero =>
      intro k hk
      obtain ⟨m, rfl⟩ := Int.eq_ofNat_of_zero_le (by omega : 0 ≤ k)
      exact hy0 m
    | succ n ih =>
      intro k hk
      by_cases h : -(n : ℤ) ≤ k
      · exact ih k h
      · have h1 := hwall k
        rw [hw] at h1
        beta_reduce at h1
        rw [Finset.sum_range_succ', h0, Nat.cast_zero, add_zero, one_mul, Finset.sum_eq_zero, zero_add] at h1
        · exact h1
        · intro j _
          rw [ih (k + ((j + 1 : ℕ) : ℤ)) (by push_cast at hk ⊢; omega), mul_zero]
  have hyz : ∀ k, y k = 0 := fun k => hyall k.natAbs k (by omega)
  -- both filters annihilate the sequence
  obtain ⟨U, V, hUV⟩ := coprime_reverse h0 hr
  have hP : aeval delay (∑ j ∈ Finset.range (p + 1), C (a j) * X ^ j) Y = 0 := by
    funext k
    rw [aeval_delay a (fun j => j)]
    have := hyz k
    rw [hy] at this
    exact this
  have hQ : aeval delay (∑ j ∈ Finset.range (p + 1), C (a j) * X ^ (p - j)) Y = 0 := by
    funext k
    rw [aeval_delay a (fun j => p - j)]
    have := hyz (p - k)
    rw [hy] at this
    refine Eq.trans (Finset.sum_congr rfl fun j hj => ?_) this
    rw [← hYneg]
    congr 2
    have := Finset.mem_range.mp hj
    push_cast [Nat.cast_sub (by omega : j ≤ p)]
    ring
  have hYz : Y = 0 := by
    have h1 : aeval delay (1 : ℝ[X]) Y = Y := by simp
    rw [← h1, ← hUV, map_add, map_mul, map_mul, LinearMap.add_apply, Module.End.mul_apply, Module.End.mul_apply, hP, hQ,
      map_zero, map_zero, add_zero]
  intro k hk
  have := hYle k (by simpa using hk)
  rw [hYz] at this
  simpa using this.symm

end Props
end Spafe
