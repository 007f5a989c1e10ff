import Mathlib.Algebra.BigOperators.Group.Finset.Basic
import Mathlib.Algebra.Order.Ring.Basic
import Mathlib.Data.Int.Interval
import Mathlib.Order.Interval.Finset.Defs
import Mathlib.Algebra.Order.Field.Basic

/-! Specification vocabulary for C142: the line fitted to a window of values. -/

namespace Spafe
namespace Spec

variable {α : Type} [Field α] [LinearOrder α]

/-- Squared error of the line `k ↦ a + b·k` on the values `y(-h), …, y(h)`. -/
def squaredError (y : ℤ → α) (h : ℤ) (a b : α) : α := ∑ k ∈ Finset.Icc (-h) h, (y k - (a + b * k)) ^ 2

/-- `b` is the slope of a line with the least squared error. -/
def IsFittedSlope (y : ℤ → α) (h : ℤ) (b : α) : Prop :=
  ∃ a, ∀ a' b', squaredError y h a b ≤ squaredError y h a' b'

end Spec
end Spafe
