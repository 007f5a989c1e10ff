import Verif.Spec.Filters

/-! What RASTA filtering is for: each critical band is filtered along time (rows are frames, columns are bands). -/

namespace Spafe
namespace Spec

variable {α : Type} [Field α]

/-- The course of band `n`. -/
def course (x : List (List α)) (n : ℕ) : List α := x.map fun r => r.getD n 0

/-- `y` is `x` with each of the `K` bands filtered along time. -/
def RastaInTime (K : ℕ) (x y : List (List α)) : Prop :=
  (∀ r ∈ y, r.length = K) ∧ ∀ n < K, Rasta (course x n) (course y n)

/-- Frames become bands and bands become frames. -/
def turned (K : ℕ) (x : List (List α)) : List (List α) := (List.range K).map (course x)

/-- The same spectral weighting (in the log domain, `c`) in all frames. -/
def throughChannel (c : List α) (x : List (List α)) : List (List α) := x.map fun r => List.zipWith (· + ·) r c

end Spec
end Spafe
