import Verif.Model.Rounding
import Verif.Model.Cepstral

/-!
`normalize_ceps` and `deltas` (`utils/cepstral.py`) with rounding, as relations like those of `Rounding.lean`: sums may
be taken in any order. `np.sqrt` is correctly rounded (IEEE 754), so it is `fl` of the exact root.
-/

namespace Spafe
namespace Model

/-- `m` is a possible result of `np.mean(x)` in floating point: a sum, then one division (`cepstral.py:51-54`). -/
def FlMean (fl : ℝ → ℝ) (x : List ℝ) (m : ℝ) : Prop :=
  ∃ s, FlSum fl x s ∧ m = fl (s / x.length)

/-- `σ` is a possible result of `np.std(x)` in floating point (`cepstral.py:51`, `:53`): numpy takes the mean, subtracts
it, squares, takes the mean of the squares and then the root. -/
def FlStd (fl : ℝ → ℝ) (x : List ℝ) (σ : ℝ) : Prop :=
  ∃ m, FlMean fl x m ∧ ∃ v, FlMean fl (x.map fun t => fl (fl (t - m) * fl (t - m))) v ∧ σ = fl (√v)

/-- `B` holds possible results of `normalize_ceps(A, name)` in floating point (`cepstral.py:50-55`) for a matrix `A` with
`c` columns. The maximum and the minimum (:54) are exact. -/
def FlNormalized (fl : ℝ → ℝ) (A : List (List ℝ)) (c : ℕ) (name : String) (B : ℕ → ℕ → ℝ) : Prop :=
  if name = "mvn" then ∃ m : ℕ → ℝ, (∀ j < c, FlMean fl (Np.col A j) (m j)) ∧ ∃ σ, FlStd fl A.flatten σ ∧
      ∀ i < A.length, ∀ j < c, B i j = fl (fl (Np.at2 A i j - m j) / σ)
  else if name = "ms" then ∃ m : ℕ → ℝ, (∀ j < c, FlMean fl (Np.col A j) (m j)) ∧
      ∀ i < A.length, ∀ j < c, B i j = fl (Np.at2 A i j - m j)
  else if name = "vn" then ∃ σ, FlStd fl A.flatten σ ∧ ∀ i < A.length, ∀ j < c, B i j = fl (Np.at2 A i j / σ)
  else if name = "mn" then ∃ m, FlMean fl A.flatten m ∧
      ∃ hi ∈ A.flatten, ∃ lo ∈ A.flatten, (∀ v ∈ A.flatten, lo ≤ v ∧ v ≤ hi) ∧
      ∀ i < A.length, ∀ j < c, B i j = fl (fl (Np.at2 A i j - m) / fl (hi - lo))
  else False

/-- `y` is a possible result of `deltas` in floating point at position `t` of the row `r` (`cepstral.py:113-122`): the
dot product of the weights `-h ... h`, which are exact, with the row continued by its first and last values. -/
def FlDelta (fl : ℝ → ℝ) (h : ℕ) (r : List ℝ) (t : ℕ) (y : ℝ) : Prop :=
  FlDot fl (fun k => r.getD (min (t + k - h) (r.length - 1)) 0) (fun k => (k : ℝ) - h) (2 * h + 1) y

end Model
end Spafe
