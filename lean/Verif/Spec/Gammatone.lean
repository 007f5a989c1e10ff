import Mathlib.Analysis.SpecialFunctions.Pow.Real
import Mathlib.Analysis.Complex.Trigonometric

/-!
The gammatone filters of Slaney's report (Apple TR 35): centre frequencies in geometric progression after a shift,
equivalent rectangular bandwidth, and the magnitude response of the four-stage filter. Written from the report: real
zeros `e^{-B/fs} (cos θ ± (√2 ± 1) sin θ)`, a fourfold pair of poles `e^{-B/fs} e^{± iθ}`, `θ = 2π fc / fs`.
-/

namespace Spafe
namespace Spec

open Real

/-- Centre frequency `j` of `n` filters. -/
noncomputable def gtCentre (low high : ℝ) (n j : ℕ) : ℝ :=
  (low + 9.26449 * 24.7) * ((high + 9.26449 * 24.7) / (low + 9.26449 * 24.7)) ^ ((j : ℝ) / n) - 9.26449 * 24.7

/-- Decay rate in rad/s: `1.019 * 2π` times the equivalent rectangular bandwidth. -/
noncomputable def gtDecay (fc : ℝ) (order : ℕ) : ℝ :=
  2 * π * 1.019 * ((fc / 9.26449) ^ order + 24.7 ^ order) ^ (1 / (order : ℝ))

/-- The real zero belonging to the factor `r`. -/
noncomputable def gtZero (fs fc b r : ℝ) : ℝ := exp (-b / fs) * (cos (2 * π * fc / fs) + r * sin (2 * π * fc / fs))

/-- The pole in the upper half plane (for `0 < fc < fs/2`). -/
noncomputable def gtPole (fs fc b : ℝ) : ℂ := Complex.exp (-(b / fs : ℝ) + (2 * π * fc / fs : ℝ) * Complex.I)

/-- Magnitude response, up to a gain, at the angle `ω`. -/
noncomputable def gtResponse (fs fc b ω : ℝ) : ℝ :=
  ‖(Complex.exp (ω * Complex.I) - gtZero fs fc b (√2 + 1)) * (Complex.exp (ω * Complex.I) - gtZero fs fc b (-(√2 + 1))) *
    (Complex.exp (ω * Complex.I) - gtZero fs fc b (√2 - 1)) * (Complex.exp (ω * Complex.I) - gtZero fs fc b (-(√2 - 1)))‖ /
  ‖(Complex.exp (ω * Complex.I) - gtPole fs fc b) * (Complex.exp (ω * Complex.I) - (starRingEnd ℂ) (gtPole fs fc b))‖ ^ 4

end Spec
end Spafe
