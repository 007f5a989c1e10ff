import Verif.Model.Converters

/-! Model of the computations in `spafe/utils/vis.py` (the drawing itself is not modelled). -/

namespace Spafe
namespace Model
open XF

/-- `"%.1f" % hz2erb(y)` needs a number: `hz2erb(y)` with its default approach (`None` would be a `TypeError`). -/
noncomputable def erbTick (y : XF ℝ) : Py (XF ℝ) :=
  match hz2erb y "Glasberg" with
  | some v => .ok v
  | none => .error .typeError

/-- `tick_function`, `vis.py:15-30`, with the default approaches of the converters. `fmt` is `"%.1f" % z`. The
dictionary is built before the lookup, so all three conversions run for every name. -/
noncomputable def tickFunction (fmt : XF ℝ → String) (X : List (XF ℝ)) (fbType : String) : Py (List String) := do
  let mel ← X.mapM fun y => hz2mel y "Oshaghnessy"
  let mel := mel.map fmt
  let bark := (X.map fun y => hz2bark y "Wang").map fmt
  let erb ← X.mapM erbTick
  let gamma := erb.map fmt
  .ok (if fbType = "mel" then mel else if fbType = "bark" then bark else if fbType = "gamma" then gamma
    else X.map fmt)

/-- `np.max` of a matrix of numbers; `ValueError` if it has no entry. -/
noncomputable def matMax (m : List (List ℝ)) : Py ℝ :=
  match m.flatten with
  | [] => .error .valueError
  | a :: l => .ok (l.foldl max a)

/-- The dB image of `show_spectrogram`, `vis.py:144-152`, for a real or complex spectrogram. -/
noncomputable def dbImage (spec : List (List ℂ)) (dbf : ℝ) : Py (List (List ℝ)) := do
  let amin : ℝ := 1e-10
  let magnitude := spec.map fun r => r.map fun v => ‖v‖
  let ref ← matMax magnitude
  let logSpec := magnitude.map fun r => r.map fun v => 10 * Real.logb 10 (max amin v / max amin ref)
  let top ← matMax logSpec
  .ok (logSpec.map fun r => r.map fun v => max v (top - dbf))

end Model
end Spafe
