import Mathlib.Data.Real.Basic

/-! The critical-band rate of H. Traunmueller, JASA 88 (1990) 97-100, the reference cited by `hz2bark` and `bark2hz`. -/

namespace Spafe
namespace Spec

/-- The published rational formula. -/
noncomputable def traunRaw (f : ℝ) : ℝ := 26.81 * f / (1960 + f) - 0.53

/-- The published formula with the two published corrections at the ends of the scale. -/
noncomputable def traunmueller (f : ℝ) : ℝ :=
  if traunRaw f < 2 then traunRaw f + 0.15 * (2 - traunRaw f)
  else if 20.1 < traunRaw f then traunRaw f + 0.22 * (traunRaw f - 20.1)
  else traunRaw f

end Spec
end Spafe
