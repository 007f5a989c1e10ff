import Verif.Spec.Lpc
import Mathlib.Analysis.SpecialFunctions.Complex.Circle
import Mathlib.MeasureTheory.Integral.IntervalIntegral.Basic

/-! Independent specification of spectra and of the all-pole envelope of linear prediction. -/

namespace Spafe
namespace Spec
open Real

/-- The value of the filter with coefficients `a 0, ..., a p` at the angular frequency `θ`: `Σ a_k e^{-ikθ}`. -/
noncomputable def lpResponse (a : ℕ → ℝ) (p : ℕ) (θ : ℝ) : ℂ :=
  ∑ k ∈ Finset.range (p + 1), (a k : ℂ) * Complex.exp (-(k * θ * Complex.I))

/-- The power spectrum of a frame at the angular frequency `θ`. -/
noncomputable def fourierPower (x : List ℝ) (θ : ℝ) : ℝ :=
  ‖∑ n ∈ Finset.range x.length, (x.getD n 0 : ℂ) * Complex.exp (-(n * θ * Complex.I))‖ ^ 2

/-- The all-pole spectrum `E / |A(θ)|²`. -/
noncomputable def allPole (a : ℕ → ℝ) (p : ℕ) (E θ : ℝ) : ℝ := E / ‖lpResponse a p θ‖ ^ 2

/-- The mean over all frequencies. -/
noncomputable def meanOver (f : ℝ → ℝ) : ℝ := (∫ θ in (0)..(2 * π), f θ) / (2 * π)

end Spec
end Spafe
