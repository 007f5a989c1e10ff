import Verif.Model.Vis
import Verif.Model.MelFbanks

/-!
Model of the drawing functions of `spafe/utils/vis.py` as lists of drawing commands. matplotlib is
library code: a command stands for the call and its data; what `imshow` shows is `Spec.shownAt`. Titles, sizes, colours, labels of
the axes and the grid are left out.
-/

namespace Spafe
namespace Model
open XF

/-- A drawing command. -/
inductive Draw
  /-- `plot(xs, data)`: one line per column of `data`. -/
  | lines (xs : List ℝ) (data : XMat)
  /-- `vlines(x, 0, 1)`. -/
  | vline (x : XF ℝ)
  /-- `text(x, 1, s)`. -/
  | label (x : XF ℝ) (s : String)
  /-- ticks of the upper axis and their labels. -/
  | topTicks (xs : List (XF ℝ)) (labels : List String)
  /-- `imshow(rows, origin="lower", extent=...)`. -/
  | image (rows : XMat) (extent : Option (ℝ × ℝ × ℝ × ℝ))

/-- `m.T` of a matrix with rows of equal length. -/
noncomputable def matT (m : XMat) : XMat := Np.transpose m (m.headD []).length

/-- `show_fbanks`, `vis.py:33-97`. `fmt` is `"{:.1f}".format`, `"%.1f" %`; `ticks` are the ticks matplotlib chose for the lower axis
(`vis.py:84`). `plot` raises `ValueError` when the frequencies and the rows of the transposed bank differ in number. -/
noncomputable def showFbanks (fmt : XF ℝ → String) (ticks : List (XF ℝ)) (fbanks : XMat) (centerFreqs : List (XF ℝ)) (refFreqs : List ℝ)
    (fbType : String) (showCenterFreqs : Bool) : Py (List Draw) := do
  let data := matT fbanks
  if refFreqs.length ≠ data.length then .error .valueError
  else do
    let marks := if showCenterFreqs then centerFreqs.flatMap fun f => [Draw.vline f, Draw.label f ("(" ++ fmt f ++ ", 1)")] else []
    let labels ← tickFunction fmt ticks fbType
    .ok (Draw.lines refFreqs data :: marks ++ [Draw.topTicks ticks labels])

/-- `show_spectrogram`, `vis.py:100-169`. -/
noncomputable def showSpectrogram (spec : List (List ℂ)) (xmin xmax ymin ymax dbf : ℝ) : Py (List Draw) := do
  let logSpec ← dbImage spec dbf
  .ok [Draw.image (logSpec.map fun r => r.map fin) (some (xmin, xmax, ymin, ymax))]

/-- `show_features`, `vis.py:172-196`. -/
noncomputable def showFeatures (feats : XMat) : List Draw := [Draw.image (matT feats) none]

end Model
end Spafe
