import Verif.Model.RoundingLpc
import Verif.Model.RoundingRasta
import Verif.Spec.LpMeaning

/-! The end of `__rastaplp` (`spafe/features/rplp.py:140-169`) in floating point. -/

namespace Spafe
namespace Model
open Spec

/-- A possible floating-point run of `rplp.py:160-169` on one row `L` of `N` loudness values. `y` is the computed magnitude of
`np.fft.ifft(L, nfft)` (line 160; numpy's FFT is known here only by its error, at most `τ` per entry), `b` the result of `__lpc_helper` on
it (line 166), and `c` the result of `lpc2lpcc` on `b` (line 168), at most `κ` off. For entry 0 of `c` see
`FlResidual`. -/
structure FlPlp (fl : ℝ → ℝ) (nfft N : ℕ) (L : ℕ → ℝ) (p : ℕ) (τ ρ κ : ℝ) (y : List ℝ) (b c : ℕ → ℝ) : Prop where
  length : y.length = nfft
  idft : ∀ t < nfft, |y.getD t 0 - inverseDft nfft N L t| ≤ τ
  lpc : FlLpc fl y p ρ b
  cepstra : ∀ k, 1 ≤ k → k ≤ p → |c k - lpCoefficient b 0 k| ≤ κ

/-- A possible value `e` of the residual of `__lpc_helper`, `lpc.py:84-85`, on the frame `y` with the computed coefficients `b`: the
entries of `np.correlate` from the largest lag downwards are computed as in `FlAutoCorr`, and their products with `b`, the sum, the square
and the root are at most `σ` off. `c0` is its logarithm (`lpc2lpcc`, `lpc.py:235`), at most `κ` off. -/
structure FlResidual (fl : ℝ → ℝ) (y : List ℝ) (p : ℕ) (σ κ : ℝ) (b : ℕ → ℝ) (e c0 : ℝ) : Prop where
  residual : ∃ r : ℕ → ℝ, (∀ k < y.length, FlAutoCorr fl y k (r k)) ∧
    |e - (|r (y.length - 1) + ∑ k ∈ Finset.range (min (p + 1) (2 * y.length - 2)), b k * r ((y.length : ℤ) - 2 - k).natAbs|)| ≤ σ
  log : |c0 - Real.log e| ≤ κ

/-- A possible floating-point run of `rplp.py:140-148` on one row of `N` computed energies `e`: the logarithms are at most `β` off
(line 142), the filter is that of `FlRasta` (line 145), and the exponential has the relative error `ν` (line 148). -/
structure FlLogRasta (fl : ℝ → ℝ) (N : ℕ) (e : ℕ → ℝ) (β ν : ℝ) (w : ℕ → ℝ) (lg out : List ℝ) : Prop where
  length : lg.length = N
  logs : ∀ n < N, |lg.getD n 0 - Real.log (e n)| ≤ β
  filter : FlRasta fl lg out
  exps : ∀ n < N, |w n - Real.exp (out.getD n 0)| ≤ ν * Real.exp (out.getD n 0)

end Model
end Spafe
