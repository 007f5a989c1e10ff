import Verif.Model.Preprocessing
import Verif.Lemmas.ListAux
import Mathlib.Tactic.Ring
import Mathlib.Tactic.NormNum
import Mathlib.Tactic.Linarith
import Mathlib.Tactic.FieldSimp
import Mathlib.Analysis.SpecificLimits.Normed
import Mathlib.Topology.Algebra.InfiniteSum.Order
import Mathlib.Topology.Algebra.InfiniteSum.Real

/-! Helper lemmas for `preprocessing.py`. -/

set_option linter.unusedSectionVars false

namespace Spafe
namespace Model

section
variable {α : Type} [Field α] [LinearOrder α]

theorem firFilter_length (b x : List α) : (Np.firFilter b x).length = x.length := by
  simp [Np.firFilter]

theorem preEmphasis_length (x : List α) (c : α) : (preEmphasis x c).length = x.length :=
  firFilter_length _ _

theorem preEmphasis_getD (x : List α) (c : α) (t : ℕ) (ht : t < x.length) :
    (preEmphasis x c).getD t 0 = x.getD t 0 - if t = 0 then 0 else c * x.getD (t - 1) 0 := by
  rw [preEmphasis, Np.firFilter, getD_map_range_lt _ _ ht]
  cases t with
  | zero => simp
  | succ t => simp [Finset.sum_range_succ]; ring

/-- The strided view for a positive step and a window that fits. -/
theorem strideTrick_ok (a : List α) (L S : ℕ) (hS : 0 < S) (hL : L ≤ a.length) :
    strideTrick a L S = .ok ((List.range ((a.length - L) / S + 1)).map fun i =>
      (List.range L).map fun (j : ℕ) => a.getD (i * S + j) 0) := by
  have hq : ((a.length : ℤ) - L).fdiv S = (((a.length - L) / S : ℕ) : ℤ) := by
    rw [← Nat.cast_sub hL, Int.fdiv_eq_ediv_of_nonneg _ (by positivity), Int.natCast_ediv]
  have hS' : (S : ℤ) ≠ 0 := by exact_mod_cast hS.ne'
  simp only [strideTrick, pyFloorDiv, if_neg hS', hq, ok_bind]
  have h0 : (0:ℤ) ≤ (((a.length - L) / S : ℕ) : ℤ) := Int.natCast_nonneg _
  generalize hQ : (a.length - L) / S = Q at *
  rw [if_neg (by push Not; constructor <;> omega)]
  have : ((Q : ℤ) + 1).toNat = Q + 1 := by omega
  rw [this, Int.toNat_natCast]
  apply mapM_ok
  intro i hi
  apply mapM_ok
  intro j hj
  have hi : i ≤ (a.length - L) / S := by rw [hQ]; have := List.mem_range.mp hi; omega
  have hj : j < L := List.mem_range.mp hj
  have h1 : i * S ≤ a.length - L := (Nat.le_div_iff_mul_le hS).mp hi
  have h2 : ((i : ℤ) * (S : ℤ) + (j : ℤ)) = ((i * S + j : ℕ) : ℤ) := by push_cast; ring
  rw [h2, if_pos ⟨by positivity, by exact_mod_cast (by omega)⟩, Int.toNat_natCast]

theorem strideTrick_zero_step (a : List α) (L : ℤ) : strideTrick a L 0 = .error .zeroDivisionError := by
  simp [strideTrick, pyFloorDiv]

theorem strideTrick_short (a : List α) (L S : ℤ) (hS : 0 < S) (h1 : (a.length : ℤ) < L)
    (h2 : L - a.length ≤ S) : strideTrick a L S = .ok [] := by
  have hq : ((a.length : ℤ) - L).fdiv S = -1 := by
    rw [Int.fdiv_eq_ediv_of_nonneg _ hS.le]
    have h3 : -1 ≤ ((a.length : ℤ) - L) / S := (Int.le_ediv_iff_mul_le hS).mpr (by linarith)
    have h4 : ((a.length : ℤ) - L) / S < 0 := (Int.ediv_lt_iff_lt_mul hS).mpr (by linarith)
    omega
  have hL : ¬ L < 0 := by have := Int.natCast_nonneg a.length; omega
  simp [strideTrick, pyFloorDiv, hS.ne', hq, hL]

theorem strideTrick_too_short (a : List α) (L S : ℤ) (hS : 0 < S) (h : S < L - a.length) :
    strideTrick a L S = .error .valueError := by
  have hq : ((a.length : ℤ) - L).fdiv S < -1 := by
    rw [Int.fdiv_eq_ediv_of_nonneg _ hS.le]
    exact (Int.ediv_lt_iff_lt_mul hS).mpr (by linarith)
  have : ((a.length : ℤ) - L).fdiv S + 1 < 0 := by omega
  simp [strideTrick, pyFloorDiv, hS.ne', this]

theorem strideTrick_neg_oob (a : List α) (L S : ℤ) (hS : S < 0) (h1 : (a.length : ℤ) < L) :
    strideTrick a L S = .error .outOfBounds := by
  have hq : 0 ≤ ((a.length : ℤ) - L).fdiv S := by
    rw [← Int.neg_fdiv_neg]
    exact Int.fdiv_nonneg (by linarith) (by linarith)
  have hlen := Int.natCast_nonneg a.length
  simp only [strideTrick, pyFloorDiv, hS.ne, if_false, ok_bind]
  rw [if_neg (by push Not; constructor <;> omega)]
  have inner : ∀ i : ℕ, (∃ b, ((List.range L.toNat).mapM fun (j : ℕ) =>
      if 0 ≤ (i:ℤ) * S + j ∧ (i:ℤ) * S + j < a.length then
        (Except.ok (a.getD ((i:ℤ) * S + j).toNat 0) : Py α) else .error .outOfBounds) = .ok b) ∨
      ((List.range L.toNat).mapM fun (j : ℕ) =>
      if 0 ≤ (i:ℤ) * S + j ∧ (i:ℤ) * S + j < a.length then
        (Except.ok (a.getD ((i:ℤ) * S + j).toNat 0) : Py α) else .error .outOfBounds) =
          .error .outOfBounds := by
    intro i
    by_cases hall : ∀ j ∈ List.range L.toNat, 0 ≤ (i:ℤ) * S + j ∧ (i:ℤ) * S + j < a.length
    · left
      exact ⟨_, mapM_ok _ (fun (j : ℕ) => a.getD ((i:ℤ) * S + j).toNat 0) _ fun j hj => by rw [if_pos (hall j hj)]⟩
    · right
      push Not at hall
      obtain ⟨j, hj, hj'⟩ := hall
      apply mapM_eq_error
      · intro j _
        split_ifs
        · exact Or.inl ⟨_, rfl⟩
        · exact Or.inr rfl
      · exact ⟨j, hj, by rw [if_neg (by rintro ⟨a, b⟩; have := hj' a; omega)]⟩
  apply mapM_eq_error
  · intro i _; exact inner i
  · refine ⟨0, List.mem_range.mpr (by omega), ?_⟩
    apply mapM_eq_error
    · intro j _
      split_ifs
      · exact Or.inl ⟨_, rfl⟩
      · exact Or.inr rfl
    · refine ⟨a.length, List.mem_range.mpr (by omega), ?_⟩
      rw [if_neg (by simp)]

theorem window_eq_drop_take (a : List α) (s L : ℕ) (h : s + L ≤ a.length) :
    ((List.range L).map fun (j : ℕ) => a.getD (s + j) 0) = (a.drop s).take L := by
  apply ext_getD 0 (by simp; omega)
  intro j hj
  have hj : j < L := by simpa using hj
  rw [getD_map_range_lt _ _ hj, getD_take_lt _ _ hj, getD_drop']

end

section windows
open Real

theorem summable_i0 (x : ℝ) : Summable fun k : ℕ => ((x / 2) ^ k / (k.factorial : ℝ)) ^ 2 := by
  refine Summable.of_nonneg_of_le (fun k => sq_nonneg _) (fun k => ?_)
    (Real.summable_pow_div_factorial ((x / 2) ^ 2))
  have h1 : (1:ℝ) ≤ k.factorial := by exact_mod_cast Nat.one_le_iff_ne_zero.mpr k.factorial_ne_zero
  rw [div_pow, ← pow_mul, mul_comm, pow_mul]
  apply div_le_div_of_nonneg_left (by positivity) (by positivity)
  nlinarith

theorem i0_pos (x : ℝ) : 0 < Np.i0 x := by
  have h := (summable_i0 x).sum_le_tsum {0} (fun k _ => sq_nonneg _)
  rw [Np.i0]
  refine lt_of_lt_of_le ?_ h
  simp

theorem i0_mono {x y : ℝ} (hx : 0 ≤ x) (hxy : x ≤ y) : Np.i0 x ≤ Np.i0 y := by
  apply Summable.tsum_le_tsum _ (summable_i0 x) (summable_i0 y)
  intro k
  apply pow_le_pow_left₀ (by positivity)
  apply div_le_div_of_nonneg_right _ (by positivity)
  apply pow_le_pow_left₀ (by positivity)
  linarith

/-- The symmetric abscissa of sample `M-1-i` is minus that of sample `i`. -/
theorem win_arg_symm {M i : ℕ} (h : i < M) :
    (1 - (M:ℝ) + 2 * ((M - 1 - i : ℕ) : ℝ)) = -(1 - (M:ℝ) + 2 * i) := by
  have : ((M - 1 - i : ℕ) : ℝ) = (M:ℝ) - 1 - i := by
    rw [Nat.sub_sub, Nat.cast_sub (by omega)]; push_cast; ring
  rw [this]; ring

theorem hamming_symm {M i : ℕ} (h : i < M) : Np.hammingAt M (M - 1 - i) = Np.hammingAt M i := by
  simp only [Np.hammingAt, win_arg_symm h, mul_neg, neg_div, cos_neg]
theorem hanning_symm {M i : ℕ} (h : i < M) : Np.hanningAt M (M - 1 - i) = Np.hanningAt M i := by
  simp only [Np.hanningAt, win_arg_symm h, mul_neg, neg_div, cos_neg]
theorem blackman_symm {M i : ℕ} (h : i < M) : Np.blackmanAt M (M - 1 - i) = Np.blackmanAt M i := by
  simp only [Np.blackmanAt, win_arg_symm h, mul_neg, neg_div, cos_neg]
theorem bartlett_symm {M i : ℕ} (h : i < M) : Np.bartlettAt M (M - 1 - i) = Np.bartlettAt M i := by
  simp only [Np.bartlettAt, win_arg_symm h]
  split_ifs with h1 h2 h3 h3
  · rfl
  · have : (1 - (M:ℝ) + 2 * i) = 0 := by linarith
    rw [this]; simp
  · ring
  · ring
  · linarith
theorem kaiser_symm (b : ℝ) {M i : ℕ} (h : i < M) : Np.kaiserAt b M (M - 1 - i) = Np.kaiserAt b M i := by
  have : ((M - 1 - i : ℕ) : ℝ) - ((M:ℝ) - 1) / 2 = -((i:ℝ) - ((M:ℝ) - 1) / 2) := by
    have := win_arg_symm h; linarith
  simp only [Np.kaiserAt, this, neg_div, neg_sq]

theorem hamming_range (M i : ℕ) : 0 ≤ Np.hammingAt M i ∧ Np.hammingAt M i ≤ 1 := by
  unfold Np.hammingAt
  split_ifs
  · norm_num
  · have h1 := neg_one_le_cos (π * (1 - M + 2 * i) / (M - 1))
    have h2 := cos_le_one (π * (1 - M + 2 * i) / (M - 1))
    constructor <;> norm_num <;> linarith
theorem hanning_range (M i : ℕ) : 0 ≤ Np.hanningAt M i ∧ Np.hanningAt M i ≤ 1 := by
  unfold Np.hanningAt
  split_ifs
  · norm_num
  · have h1 := neg_one_le_cos (π * (1 - M + 2 * i) / (M - 1))
    have h2 := cos_le_one (π * (1 - M + 2 * i) / (M - 1))
    constructor <;> norm_num <;> linarith
theorem blackman_range (M i : ℕ) : 0 ≤ Np.blackmanAt M i ∧ Np.blackmanAt M i ≤ 1 := by
  unfold Np.blackmanAt
  split_ifs
  · norm_num
  · have h1 := neg_one_le_cos (π * (1 - M + 2 * i) / (M - 1))
    have h2 := cos_le_one (π * (1 - M + 2 * i) / (M - 1))
    have h3 : cos (2 * π * (1 - M + 2 * i) / (M - 1)) = 2 * cos (π * (1 - M + 2 * i) / (M - 1)) ^ 2 - 1 := by
      rw [← cos_two_mul]; congr 1; ring
    rw [h3]
    constructor <;> norm_num <;> nlinarith
theorem bartlett_range {M i : ℕ} (h : i < M) : 0 ≤ Np.bartlettAt M i ∧ Np.bartlettAt M i ≤ 1 := by
  unfold Np.bartlettAt
  split_ifs with h1 h2
  · norm_num
  · have hM : (0:ℝ) < (M:ℝ) - 1 := by
      have : (2:ℝ) ≤ M := by exact_mod_cast (by omega : 2 ≤ M)
      linarith
    have h3 : (1 - (M:ℝ) + 2 * i) / (M - 1) ≤ 0 := div_nonpos_of_nonpos_of_nonneg h2 hM.le
    have h4 : -1 ≤ (1 - (M:ℝ) + 2 * i) / (M - 1) := by
      rw [le_div_iff₀ hM]; have : (0:ℝ) ≤ i := by positivity
      linarith
    constructor <;> linarith
  · push Not at h2
    have hM : (0:ℝ) < (M:ℝ) - 1 := by
      have : (2:ℝ) ≤ M := by exact_mod_cast (by omega : 2 ≤ M)
      linarith
    have hi : (i:ℝ) + 1 ≤ M := by exact_mod_cast h
    have h3 : 0 ≤ (1 - (M:ℝ) + 2 * i) / (M - 1) := by positivity
    have h4 : (1 - (M:ℝ) + 2 * i) / (M - 1) ≤ 1 := by
      rw [div_le_one hM]; linarith
    constructor <;> linarith
theorem kaiser_range {b : ℝ} (hb : 0 ≤ b) (M i : ℕ) : 0 ≤ Np.kaiserAt b M i ∧ Np.kaiserAt b M i ≤ 1 := by
  unfold Np.kaiserAt
  split_ifs
  · norm_num
  · refine ⟨div_nonneg (i0_pos _).le (i0_pos _).le, (div_le_one (i0_pos _)).mpr (i0_mono (by positivity) ?_)⟩
    have : √(1 - ((i - ((M : ℝ) - 1) / 2) / (((M : ℝ) - 1) / 2)) ^ 2) ≤ 1 := by
      apply Real.sqrt_le_one.mpr
      have := sq_nonneg ((i - ((M : ℝ) - 1) / 2) / (((M : ℝ) - 1) / 2))
      linarith
    nlinarith

end windows

end Model
end Spafe
