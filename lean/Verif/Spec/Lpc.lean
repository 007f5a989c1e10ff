import Mathlib.Data.Real.Basic
import Mathlib.Algebra.BigOperators.Ring.Finset
import Mathlib.Order.Interval.Finset.Nat

/-! Independent specification of linear prediction. -/

namespace Spafe
namespace Spec

/-- The signal extended by zeros to all integer times. -/
noncomputable def ext (x : List ℝ) (n : ℤ) : ℝ := if 0 ≤ n then x.getD n.toNat 0 else 0

/-- The autocorrelation of the (zero-extended) signal at lag `k`. -/
noncomputable def autoCorr (x : List ℝ) (k : ℕ) : ℝ :=
  ∑ n ∈ Finset.range x.length, ext x n * ext x (n + k)

/-- The prediction error at time `n` with coefficients `b 1, …, b p`: `x[n] + Σ b_k x[n-k]`. -/
noncomputable def predErrorAt (x : List ℝ) (p : ℕ) (b : ℕ → ℝ) (n : ℤ) : ℝ :=
  ext x n + ∑ k ∈ Finset.Icc 1 p, b k * ext x (n - k)

/-- The total squared prediction error over the zero-extended signal. Only the times `0, …, N + p - 1` contribute
(`predErrorAt_eq_zero` in `Lemmas/Lpc.lean`). -/
noncomputable def predError (x : List ℝ) (p : ℕ) (b : ℕ → ℝ) : ℝ :=
  ∑ n ∈ Finset.range (x.length + p), predErrorAt x p b n ^ 2

/-- Some sample is not zero. -/
def NotSilent (x : List ℝ) : Prop := ∃ v ∈ x, v ≠ 0

/-- `c` is the LP cepstrum of the predictor coefficients `a` at index `m`:
`c_m = a_m + Σ_{0<k<m} (k/m) c_k a_{m-k}`, where `a_m = 0` beyond the order. -/
def LpCepstrumAt (a c : ℕ → ℝ) (m : ℕ) : Prop :=
  c m = a m + ∑ k ∈ Finset.Ico 1 m, (k : ℝ) / m * c k * a (m - k)

end Spec
end Spafe
