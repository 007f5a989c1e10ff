import Verif.Model.Rounding

/-! Linear prediction in floating point (`spafe/features/lpc.py:74-82`). As in `Model/Rounding.lean`, the floating-point
run is a relation: it holds of every result that some order of the operations can give. -/

namespace Spafe
namespace Model

/-- `r` is a possible value of `r[k]`, `lpc.py:75-80`: the entry of `np.correlate(frame, frame, "full")` at lag `k`, a dot
product of `N - k` terms, and the zero of `np.zeros` where the lag reaches the length of the frame. -/
def FlAutoCorr (fl : ℝ → ℝ) (x : List ℝ) (k : ℕ) (r : ℝ) : Prop :=
  if k < x.length then FlDot fl (fun n => x.getD n 0) (fun n => x.getD (n + k) 0) (x.length - k) r else r = 0

/-- `b` is a possible result of `__lpc_helper` in floating point, `lpc.py:74-83`. The product of the computed inverse and
`-r[1:]` (line 82) is LAPACK's and numpy's; it is known here only by its residual in the computed equations, at most `ρ`
in each row. -/
structure FlLpc (fl : ℝ → ℝ) (x : List ℝ) (p : ℕ) (ρ : ℝ) (b : ℕ → ℝ) : Prop where
  one : b 0 = 1
  solves : ∃ r : ℕ → ℝ, (∀ k ≤ p, FlAutoCorr fl x k (r k)) ∧ ∀ i, 1 ≤ i → i ≤ p →
    |∑ k ∈ Finset.Icc 1 p, b k * r ((i : ℤ) - (k : ℤ)).natAbs + r i| ≤ ρ

end Model
end Spafe
