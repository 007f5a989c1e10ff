import Verif.Basic.XF
import Mathlib.Algebra.BigOperators.Group.Finset.Basic
import Mathlib.Algebra.BigOperators.Group.List.Basic

/-! Lemmas about extended floats. -/

set_option linter.unusedSectionVars false

namespace Spafe
namespace XF

variable {α : Type} [Field α] [LinearOrder α]

theorem add_def (a b : XF α) : a + b = add a b := rfl
theorem mul_def (a b : XF α) : a * b = mul a b := rfl
theorem sub_def (a b : XF α) : a - b = a + -b := rfl
theorem neg_def (a : XF α) : -a = neg a := rfl
theorem div_def (a b : XF α) : a / b = mul a (inv b) := rfl
theorem zero_def : (0 : XF α) = fin 0 := rfl
theorem one_def : (1 : XF α) = fin 1 := rfl

@[simp] theorem fin_add (x y : α) : fin x + fin y = fin (x + y) := rfl
@[simp] theorem fin_mul (x y : α) : fin x * fin y = fin (x * y) := rfl
@[simp] theorem neg_fin (x : α) : -(fin x) = fin (-x) := rfl
@[simp] theorem fin_sub (x y : α) : fin x - fin y = fin (x - y) := by
  rw [sub_def, neg_fin, fin_add, sub_eq_add_neg]
theorem fin_div (x y : α) (h : y ≠ 0) : fin x / fin y = fin (x / y) := by
  rw [div_def]; simp only [inv, if_neg h]; rw [← mul_def, fin_mul, div_eq_mul_inv]
@[simp] theorem zero_div_zero : (fin (0 : α)) / fin 0 = nan := by
  rw [div_def]; simp [inv, mul, infMul]
@[simp] theorem nan_add (a : XF α) : nan + a = nan := rfl
@[simp] theorem add_nan (a : XF α) : a + nan = nan := by cases a <;> rfl
@[simp] theorem nan_mul (a : XF α) : nan * a = nan := rfl
@[simp] theorem mul_nan (a : XF α) : a * nan = nan := by cases a <;> rfl
@[simp] theorem neg_nan : -(nan : XF α) = nan := rfl
@[simp] theorem nan_sub (a : XF α) : nan - a = nan := rfl
@[simp] theorem sub_nan (a : XF α) : a - nan = nan := by cases a <;> rfl
@[simp] theorem nan_div (a : XF α) : nan / a = nan := rfl
@[simp] theorem div_nan (a : XF α) : a / nan = nan := by cases a <;> rfl

theorem fin_injective : Function.Injective (fin : α → XF α) := fun _ _ h => by cases h; rfl
theorem fin_inj {x y : α} : (fin x = fin y) ↔ x = y := ⟨fun h => fin_injective h, fun h => h ▸ rfl⟩

theorem fin_div_zero_of_pos (x : α) (h : 0 < x) : fin x / fin 0 = pinf := by
  rw [div_def]; simp [inv, mul, infMul, h, h.ne']
theorem fin_div_zero_of_neg (x : α) (h : x < 0) : fin x / fin 0 = ninf := by
  rw [div_def]; simp [inv, mul, infMul, h.not_gt, h.ne]

instance : AddCommMonoid (XF α) where
  add_assoc a b c := by
    cases a <;> cases b <;> cases c <;> simp only [add_def, add, add_assoc]
  zero_add a := by cases a <;> simp [zero_def, add_def, add]
  add_zero a := by cases a <;> simp [zero_def, add_def, add]
  add_comm a b := by cases a <;> cases b <;> simp only [add_def, add, add_comm]
  nsmul := nsmulRec

/-- `fin` as an additive homomorphism. -/
def finHom : α →+ XF α where
  toFun := fin
  map_zero' := rfl
  map_add' _ _ := rfl

theorem sum_fin {ι : Type} (s : Finset ι) (f : ι → α) :
    (∑ i ∈ s, fin (f i)) = fin (∑ i ∈ s, f i) := (map_sum (finHom (α := α)) f s).symm

theorem list_sum_fin (l : List α) : (l.map fin).sum = fin l.sum :=
  (map_list_sum (finHom (α := α)) l).symm

@[simp] theorem ltb_fin (x y : α) : ltb (fin x) (fin y) = decide (x < y) := rfl
@[simp] theorem leb_fin (x y : α) : leb (fin x) (fin y) = decide (x ≤ y) := rfl
@[simp] theorem isNan_fin (x : α) : (fin x).isNan = false := rfl
@[simp] theorem isInf_fin (x : α) : (fin x).isInf = false := rfl
@[simp] theorem isFinite_fin (x : α) : (fin x).isFinite = true := rfl
@[simp] theorem toNum_fin (x : α) : (fin x).toNum = x := rfl
@[simp] theorem abs_fin (x : α) : (fin x).abs = fin |x| := rfl
@[simp] theorem max2_fin (x y : α) : max2 (fin x) (fin y) = fin (max x y) := by
  simp only [max2, isNan_fin, ltb_fin]
  by_cases h : x < y
  · simp [h, max_eq_right h.le]
  · simp [h, max_eq_left (not_lt.mp h)]
@[simp] theorem min2_fin (x y : α) : min2 (fin x) (fin y) = fin (min x y) := by
  simp only [min2, isNan_fin, ltb_fin]
  by_cases h : y < x
  · simp [h, min_eq_right h.le]
  · simp [h, min_eq_left (not_lt.mp h)]

theorem isFinite_iff (a : XF α) : a.isFinite = true ↔ ∃ x, a = fin x := by
  cases a <;> simp [isFinite]

theorem log_pos {x : ℝ} (h : 0 < x) : log (fin x) = fin (Real.log x) := by simp [log, h]
theorem log_zero : log (fin 0) = ninf := by simp [log]
theorem log10_pos {x : ℝ} (h : 0 < x) : log10 (fin x) = fin (Real.logb 10 x) := by simp [log10, h]
theorem pow_pos' {x : ℝ} (h : 0 < x) (p : ℝ) : pow (fin x) p = fin (x ^ p) := by
  by_cases hp : p = 0 <;> simp [pow, h, hp]
theorem pow_nonneg' {x : ℝ} (h : 0 ≤ x) {p : ℝ} (hp : 0 < p) : pow (fin x) p = fin (x ^ p) := by
  rcases h.lt_or_eq with h | rfl
  · exact pow_pos' h p
  · simp [pow, hp, hp.ne', Real.zero_rpow hp.ne']
theorem pow_zero_neg {p : ℝ} (hp : p < 0) : pow (fin 0) p = pinf := by
  simp [pow, hp.ne, hp.not_gt]

end XF
end Spafe
