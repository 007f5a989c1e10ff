import Mathlib.Analysis.SpecialFunctions.Trigonometric.Basic

/-! Perceptual linear prediction as published. -/

namespace Spafe
namespace Spec
open Real

/-- Perceptual linear prediction as published (Hermansky 1990): the autocorrelation at lag `k` is the inverse transform of
the loudness values `L 0, ..., L (N-1)`, extended symmetrically to a spectrum of `2 (N-1)` values. -/
noncomputable def spectrumAutoCorr (N : ℕ) (L : ℕ → ℝ) (k : ℕ) : ℝ :=
  (L 0 + (-1) ^ k * L (N - 1) + 2 * ∑ j ∈ Finset.Ico 1 (N - 1), L j * cos (π * j * k / (N - 1 : ℕ))) / (2 * (N - 1 : ℕ))

/-- `a` is the predictor of order `p` for this autocorrelation. -/
structure IsPlpPredictor (N : ℕ) (L : ℕ → ℝ) (p : ℕ) (a : ℕ → ℝ) : Prop where
  one : a 0 = 1
  normal : ∀ i, 1 ≤ i → i ≤ p →
    ∑ k ∈ Finset.Icc 1 p, a k * spectrumAutoCorr N L ((i : ℤ) - (k : ℤ)).natAbs = -spectrumAutoCorr N L i

end Spec
end Spafe
