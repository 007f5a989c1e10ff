import Mathlib.Algebra.Order.Floor.Ring

/-!
# Python primitives used by the model

Exceptions are values (`Py α = Except Err α`); Python's negative indexing, slicing, `int()` and `range`
are reproduced here once and used by every model file.
-/

namespace Spafe

/-- The exception classes the modelled code can raise (`spafe/utils/exceptions.py:19-31` for
`ParameterError`; the others are Python / numpy / scipy built-ins).
`outOfBounds` stands for an `as_strided` read outside the underlying buffer (undefined behaviour in numpy).
`outOfModel` marks points where Python goes on with NaN-filled arrays which the model does not follow. -/
inductive Err where
  | parameterError (msg : String)
  | keyError
  | indexError
  | valueError
  | zeroDivisionError
  | typeError
  | linAlgError
  | overflowError
  | outOfBounds
  | outOfModel
  deriving DecidableEq, Repr

/-- A Python computation without side effects: a value or an exception. -/
abbrev Py (α : Type) := Except Err α

/-! `ErrorMsgs`, `spafe/utils/exceptions.py:10-16`. -/
namespace ErrorMsgs
def lowFreq : String := "minimal frequency cannot be less than zero."
def highFreq : String := "maximum frequency cannot be greater than half sampling frequency."
def nfilts : String := "number of filters must be bigger than number of cepstrums"
def winLenWinHop : String := "window's length has to be larger than the window's hop"
end ErrorMsgs

/-- Python `int(x)` on a finite float: truncation towards zero. -/
def pyInt {α : Type} [Ring α] [LinearOrder α] [FloorRing α] (x : α) : ℤ :=
  if 0 ≤ x then ⌊x⌋ else ⌈x⌉

/-- Python `l[i]` with negative indices. -/
def pyIdx {β : Type} (l : List β) (i : ℤ) : Py β :=
  if 0 ≤ i then
    match l[i.toNat]? with
    | some v => .ok v
    | none => .error .indexError
  else if -(l.length : ℤ) ≤ i then
    match l[(l.length + i).toNat]? with
    | some v => .ok v
    | none => .error .indexError
  else .error .indexError

/-- Python `l[i] = v` with negative indices. -/
def pySet {β : Type} (l : List β) (i : ℤ) (v : β) : Py (List β) :=
  if 0 ≤ i then
    if i < l.length then .ok (l.set i.toNat v) else .error .indexError
  else if -(l.length : ℤ) ≤ i then .ok (l.set (l.length + i).toNat v)
  else .error .indexError

/-- A slice bound: negative values count from the end, then clamp to `[0, len]`. -/
def sliceBound (len : ℕ) (i : ℤ) : ℕ :=
  if i < 0 then (len + i).toNat else min i.toNat len

/-- Python `l[a:b]` (step 1). -/
def pySlice {β : Type} (l : List β) (a b : ℤ) : List β :=
  (l.drop (sliceBound l.length a)).take (sliceBound l.length b - sliceBound l.length a)

/-- Python `l[a:]`. -/
def pySliceFrom {β : Type} (l : List β) (a : ℤ) : List β :=
  l.drop (sliceBound l.length a)

/-- Python `range(a, b)` for integers. -/
def pyRange (a b : ℤ) : List ℤ :=
  (List.range (b - a).toNat).map fun (i : ℕ) => a + (i : ℤ)

/-- Python `x // y` on integers (`ZeroDivisionError` for `y = 0`); floor division. -/
def pyFloorDiv (x y : ℤ) : Py ℤ :=
  if y = 0 then .error .zeroDivisionError else .ok (x.fdiv y)

@[simp] theorem ok_bind {β γ : Type} (a : β) (f : β → Py γ) : ((Except.ok a : Py β) >>= f) = f a := rfl
@[simp] theorem error_bind {β γ : Type} (e : Err) (f : β → Py γ) :
    ((Except.error e : Py β) >>= f) = .error e := rfl
@[simp] theorem pure_eq_ok {β : Type} (a : β) : (pure a : Py β) = .ok a := rfl

end Spafe
