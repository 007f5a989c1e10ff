import Verif.Model.Preprocessing
import Mathlib.Analysis.SpecialFunctions.Trigonometric.Basic
import Mathlib.Analysis.SpecialFunctions.Complex.Log
import Mathlib.Analysis.Normed.Group.InfiniteSum

/-! What a causal filter does, and the gain of a Butterworth band-pass filter. -/

namespace Spafe
namespace Spec
open Complex

/-- `y` is the convolution of `x` with the impulse response `h`, cut to the length of `x`. -/
def Convolves (h : ℕ → ℝ) (x y : List ℝ) : Prop :=
  y.length = x.length ∧ ∀ n < x.length, y.getD n 0 = ∑ k ∈ Finset.range (n + 1), h k * x.getD (n - k) 0

/-- The frequency response of a filter at `f` Hz. -/
noncomputable def response (h : ℕ → ℝ) (fs f : ℝ) : ℂ :=
  ∑' n : ℕ, (h n : ℂ) * cexp (-(2 * Real.pi * f / fs * n : ℝ) * I)

/-- The power gain of a Butterworth band-pass filter of order 6 with cut-off frequencies `f1` and `f2`, on the frequency
scale of the bilinear transformation. -/
noncomputable def bandGain (fs f1 f2 f : ℝ) : ℝ :=
  1 / (1 + ((Real.tan (Real.pi * f / fs) ^ 2 - Real.tan (Real.pi * f1 / fs) * Real.tan (Real.pi * f2 / fs)) /
    (Real.tan (Real.pi * f / fs) * (Real.tan (Real.pi * f2 / fs) - Real.tan (Real.pi * f1 / fs)))) ^ 12)

end Spec
end Spafe
