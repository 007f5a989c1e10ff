import Verif.Basic.XF
import Mathlib.Analysis.SpecialFunctions.Log.Base

/-! What a picture shows. -/

namespace Spafe
namespace Spec

/-- The value shown at the point `(x, y)` of the image of a matrix of `R` rows and `C` columns stretched over the rectangle from
`(x0, y0)` to `(x1, y1)`, first row at the bottom (`origin="lower"`). -/
noncomputable def shownAt (m : List (List (XF ℝ))) (R C : ℕ) (x0 x1 y0 y1 x y : ℝ) : XF ℝ :=
  (m.getD ⌊(y - y0) / (y1 - y0) * R⌋₊ []).getD ⌊(x - x0) / (x1 - x0) * C⌋₊ .nan

/-- Without `extent` the pixels of matplotlib are centred on the integers. -/
noncomputable def shownAtIndex (m : List (List (XF ℝ))) (R C : ℕ) (x y : ℝ) : XF ℝ :=
  shownAt m R C (-1 / 2) (C - 1 / 2) (-1 / 2) (R - 1 / 2) x y

/-- `10 log10` of a value over the maximum, floored 80 dB (`dbf`) below, as in the docstrings. -/
noncomputable def decibels (dbf top v : ℝ) : ℝ := max (10 * Real.logb 10 (max 1e-10 v / max 1e-10 top)) (-dbf)

end Spec
end Spafe
