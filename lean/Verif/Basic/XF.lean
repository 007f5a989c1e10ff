import Mathlib.Algebra.Order.Field.Basic
import Verif.Basic.Py
import Mathlib.Analysis.SpecialFunctions.Pow.Real
import Mathlib.Analysis.SpecialFunctions.Log.Base
import Mathlib.Analysis.SpecialFunctions.Arsinh
import Mathlib.Analysis.SpecialFunctions.Trigonometric.Arctan
import Mathlib.Analysis.Real.Sqrt

/-!
# Extended floats

`XF α` is a `float64` without rounding, overflow and signed zero: an exact number, `±inf` or `nan`.
The operations follow IEEE 754 / numpy (which warns but does not raise).
-/

namespace Spafe

/-- `float64` values: not-a-number, the infinities, or an exact number (no rounding, one zero). -/
inductive XF (α : Type) where
  | nan
  | ninf
  | pinf
  | fin (x : α)

namespace XF

variable {α : Type} [Field α] [LinearOrder α]

/-- IEEE addition. -/
def add : XF α → XF α → XF α
  | nan, _ => nan
  | ninf, nan => nan
  | ninf, pinf => nan
  | ninf, ninf => ninf
  | ninf, fin _ => ninf
  | pinf, nan => nan
  | pinf, ninf => nan
  | pinf, pinf => pinf
  | pinf, fin _ => pinf
  | fin _, nan => nan
  | fin _, ninf => ninf
  | fin _, pinf => pinf
  | fin x, fin y => fin (x + y)

/-- IEEE negation. -/
def neg : XF α → XF α
  | nan => nan
  | ninf => pinf
  | pinf => ninf
  | fin x => fin (-x)

/-- `+inf * x`. -/
def infMul (x : α) : XF α := if x = 0 then nan else if 0 < x then pinf else ninf

/-- IEEE multiplication. -/
def mul : XF α → XF α → XF α
  | nan, _ => nan
  | ninf, nan => nan
  | ninf, ninf => pinf
  | ninf, pinf => ninf
  | ninf, fin y => infMul (-y)
  | pinf, nan => nan
  | pinf, ninf => ninf
  | pinf, pinf => pinf
  | pinf, fin y => infMul y
  | fin _, nan => nan
  | fin x, ninf => infMul (-x)
  | fin x, pinf => infMul x
  | fin x, fin y => fin (x * y)

/-- IEEE reciprocal (of `+0`: `+inf`). -/
def inv : XF α → XF α
  | nan => nan
  | ninf => fin 0
  | pinf => fin 0
  | fin x => if x = 0 then pinf else fin x⁻¹

instance : Zero (XF α) := ⟨fin 0⟩
instance : One (XF α) := ⟨fin 1⟩
instance : Add (XF α) := ⟨add⟩
instance : Neg (XF α) := ⟨neg⟩
instance : Sub (XF α) := ⟨fun a b => add a (neg b)⟩
instance : Mul (XF α) := ⟨mul⟩
/-- IEEE division; `x/0 = ±inf`, `0/0 = nan`, `inf/inf = nan`. -/
instance : Div (XF α) := ⟨fun a b => mul a (inv b)⟩
instance : Inhabited (XF α) := ⟨fin 0⟩

/-- IEEE `<` (false when an operand is NaN). -/
def ltb : XF α → XF α → Bool
  | nan, _ => false
  | _, nan => false
  | fin x, fin y => decide (x < y)
  | ninf, ninf => false
  | ninf, _ => true
  | pinf, _ => false
  | fin _, pinf => true
  | fin _, ninf => false

/-- IEEE `<=` (false when an operand is NaN). -/
def leb : XF α → XF α → Bool
  | nan, _ => false
  | _, nan => false
  | fin x, fin y => decide (x ≤ y)
  | ninf, _ => true
  | _, pinf => true
  | pinf, _ => false
  | fin _, ninf => false

/-- `np.isnan`. -/
def isNan : XF α → Bool
  | nan => true
  | _ => false

/-- `np.isinf`. -/
def isInf : XF α → Bool
  | pinf => true
  | ninf => true
  | _ => false

/-- `np.isfinite`. -/
def isFinite : XF α → Bool
  | fin _ => true
  | _ => false

/-- The number inside a finite value (0 otherwise; only used where finiteness is proved or in `finite?`). -/
def toNum : XF α → α
  | fin x => x
  | _ => 0

/-- `np.abs`. -/
def abs : XF α → XF α
  | nan => nan
  | ninf => pinf
  | pinf => pinf
  | fin x => fin |x|

/-- `np.maximum` of two values / one step of `np.max`: NaN propagates. -/
def max2 (a b : XF α) : XF α :=
  if a.isNan then nan else if b.isNan then nan else if ltb a b then b else a

/-- `np.minimum` of two values / one step of `np.min`: NaN propagates. -/
def min2 (a b : XF α) : XF α :=
  if a.isNan then nan else if b.isNan then nan else if ltb b a then b else a

end XF

namespace XF
open Real

/-- `np.log`. -/
noncomputable def log : XF ℝ → XF ℝ
  | nan => nan
  | ninf => nan
  | pinf => pinf
  | fin x => if 0 < x then fin (Real.log x) else if x = 0 then ninf else nan

/-- `np.log10`. -/
noncomputable def log10 : XF ℝ → XF ℝ
  | nan => nan
  | ninf => nan
  | pinf => pinf
  | fin x => if 0 < x then fin (Real.logb 10 x) else if x = 0 then ninf else nan

/-- `10 ** x`. -/
noncomputable def exp10 : XF ℝ → XF ℝ
  | nan => nan
  | ninf => fin 0
  | pinf => pinf
  | fin x => fin ((10 : ℝ) ^ x)

/-- `np.exp`. -/
noncomputable def exp : XF ℝ → XF ℝ
  | nan => nan
  | ninf => fin 0
  | pinf => pinf
  | fin x => fin (Real.exp x)

/-- `np.sqrt`. -/
noncomputable def sqrt : XF ℝ → XF ℝ
  | nan => nan
  | ninf => nan
  | pinf => pinf
  | fin x => if 0 ≤ x then fin (Real.sqrt x) else nan

/-- `np.sinh`. -/
noncomputable def sinh : XF ℝ → XF ℝ
  | nan => nan
  | ninf => ninf
  | pinf => pinf
  | fin x => fin (Real.sinh x)

/-- `np.arcsinh`. -/
noncomputable def arcsinh : XF ℝ → XF ℝ
  | nan => nan
  | ninf => ninf
  | pinf => pinf
  | fin x => fin (Real.arsinh x)

/-- `np.tan`. -/
noncomputable def tan : XF ℝ → XF ℝ
  | fin x => fin (Real.tan x)
  | _ => nan

/-- `np.arctan`. -/
noncomputable def arctan : XF ℝ → XF ℝ
  | nan => nan
  | ninf => fin (-(π / 2))
  | pinf => fin (π / 2)
  | fin x => fin (Real.arctan x)

open Classical in
/-- `np.power(x, p)` for a finite exponent `p`: `0 ** negative = inf`, `negative ** non-integer = nan`. -/
noncomputable def pow (x : XF ℝ) (p : ℝ) : XF ℝ :=
  if p = 0 then fin 1 else
  match x with
  | nan => nan
  | pinf => if 0 < p then pinf else fin 0
  | ninf => if p < 0 then fin 0 else if ∃ n : ℤ, p = 2 * n + 1 then ninf else pinf
  | fin x =>
    if 0 < x then fin (x ^ p)
    else if x = 0 then (if 0 < p then fin 0 else pinf)
    else if h : ∃ n : ℤ, p = n then fin (x ^ h.choose) else nan

/-- Python `int(x)`: `ValueError` for NaN, `OverflowError` for infinities. -/
noncomputable def toInt : XF ℝ → Py ℤ
  | nan => .error .valueError
  | ninf => .error .overflowError
  | pinf => .error .overflowError
  | fin x => .ok (pyInt x)

/-- `np.floor`. -/
noncomputable def floor : XF ℝ → XF ℝ
  | fin x => fin (⌊x⌋ : ℤ)
  | x => x

end XF

end Spafe
