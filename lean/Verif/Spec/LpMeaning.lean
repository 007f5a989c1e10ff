import Verif.Spec.Lpc
import Verif.Spec.Meaning

/-! What the LP-based features compute from one frame. -/

namespace Spafe
namespace Spec

/-- `a` are prediction coefficients of order `p` of the frame `x`: `a 0 = 1` and the normal equations. -/
structure IsPredictor (x : List ℝ) (p : ℕ) (a : ℕ → ℝ) : Prop where
  one : a 0 = 1
  normal : ∀ i, 1 ≤ i → i ≤ p →
    ∑ k ∈ Finset.Icc 1 p, a k * autoCorr x ((i : ℤ) - (k : ℤ)).natAbs = -autoCorr x i

/-- The number that spafe uses as prediction error: the autocorrelation read from the largest lag downwards. -/
noncomputable def lpResidual (x : List ℝ) (p : ℕ) (a : ℕ → ℝ) : ℝ :=
  |autoCorr x (x.length - 1) + ∑ k ∈ Finset.range (min (p + 1) (2 * x.length - 2)),
    a k * autoCorr x ((x.length : ℤ) - 2 - k).natAbs|

/-- The coefficient `m` that spafe derives from the predictor `a` with residual `e`. -/
noncomputable def lpCoefficient (a : ℕ → ℝ) (e : ℝ) (m : ℕ) : ℝ :=
  if m = 0 then logFloor e else a m + ∑ k ∈ Finset.Ico 1 m, (k : ℝ) / m * a (m - k)

/-- The magnitude of the inverse DFT of length `n` of `L 0, ..., L (N-1)`. -/
noncomputable def inverseDft (n N : ℕ) (L : ℕ → ℝ) (t : ℕ) : ℝ :=
  ‖∑ j ∈ Finset.range (min n N), (L j : ℂ) * Complex.exp (2 * Real.pi * Complex.I * (j * t) / n)‖ / n

end Spec
end Spafe
