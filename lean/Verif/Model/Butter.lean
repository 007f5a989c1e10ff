import Verif.Model.Dominant
import Verif.Model.Filters
import Mathlib.Analysis.SpecialFunctions.Complex.Log
import Mathlib.Analysis.SpecialFunctions.Pow.Complex

/-! Model of the Butterworth option of `get_dominant_frequencies`, `dominant_frequencies.py:119-124`. The code calls
`scipy.signal.butter(6, [w1, w2], "band")` and `scipy.signal.lfilter`; the design is scipy's: analog low-pass prototype
(`buttap`), band-pass transformation (`lp2bp_zpk`), bilinear transformation (`bilinear_zpk`), polynomials (`zpk2tf`). -/

namespace Spafe
namespace Model
open Complex

/-- `buttap(6)`: the poles `-exp(iπm/12)`, `m = -5, -3, ..., 5`; no zeros, gain 1. -/
noncomputable def buttPoles : List ℂ :=
  ([-5, -3, -1, 1, 3, 5] : List ℝ).map fun m => -cexp (I * (Real.pi * m / 12 : ℝ))

/-- `warped = 2 * fs * tan(pi * Wn / fs)` with `fs = 2` in `iirfilter`. -/
noncomputable def warp (w : ℝ) : ℝ := 4 * Real.tan (Real.pi * w / 2)

/-- `np.sqrt` of a complex number: the principal root. -/
noncomputable def csqrt (z : ℂ) : ℂ := z ^ (1 / 2 : ℂ)

/-- `lp2bp_zpk` on the poles: `p ↦ p bw/2 ± sqrt((p bw/2)^2 - wo^2)`, all with `+` first. -/
noncomputable def bandPoles (wo bw : ℝ) (ps : List ℂ) : List ℂ :=
  (ps.map fun (p : ℂ) => p * bw / 2 + csqrt ((p * bw / 2) ^ 2 - wo ^ 2)) ++
    ps.map fun (p : ℂ) => p * bw / 2 - csqrt ((p * bw / 2) ^ 2 - wo ^ 2)

/-- `np.poly`: convolution of the factors `[1, -z]`, highest power first. -/
def npPoly {α : Type} [CommRing α] (zs : List α) : List α :=
  zs.foldl (fun a z => (List.range (a.length + 1)).map fun (i : ℕ) => a.getD i 0 - z * (0 :: a).getD i 0) [1]

/-- `zpk2tf`: `k * poly(z)` and `poly(p)`; roots that come in conjugate pairs give real polynomials. -/
noncomputable def zpk2tf (z p : List ℂ) (k : ℝ) : List ℝ × List ℝ :=
  ((npPoly z).map fun v => k * v.re, (npPoly p).map re)

/-- The poles after `bilinear_zpk` with `fs = 2`: `(4 + p) / (4 - p)`. -/
noncomputable def digitalPoles (w1 w2 : ℝ) : List ℂ :=
  (bandPoles (Real.sqrt (warp w1 * warp w2)) (warp w2 - warp w1) buttPoles).map fun p => (4 + p) / (4 - p)

/-- `butter(6, [w1, w2], "band")`. The six zeros at 0 become 1, six zeros at -1 are appended; the gain is
`bw^6 * real(prod(4 - z) / prod(4 - p))`. Frequencies outside `(0, 1)` raise; for `w1 ≥ w2` the result depends on the version
of scipy (newer ones raise). -/
noncomputable def butterBand (w1 w2 : ℝ) : Py (List ℝ × List ℝ) :=
  if w1 ≤ 0 ∨ w2 ≤ 0 ∨ 1 ≤ w1 ∨ 1 ≤ w2 then .error .valueError
  else if w2 ≤ w1 then .error .outOfModel
  else
    let bw := warp w2 - warp w1
    let wo := Real.sqrt (warp w1 * warp w2)
    let zs : List ℂ := List.replicate 6 0
    let ps := bandPoles wo bw buttPoles
    let k := bw ^ 6 * ((zs.map fun z => 4 - z).prod / (ps.map fun (p : ℂ) => 4 - p).prod).re
    .ok (zpk2tf ((zs.map fun z => (4 + z) / (4 - z)) ++ List.replicate 6 (-1)) (digitalPoles w1 w2) k)

/-- `lfilter(b, a, x)` with more than one coefficient in `a` and `a[0] = 1`: direct form II transposed, state 0. -/
def lfilter {α : Type} [CommRing α] (b a x : List α) : List α :=
  (df2t b a (List.replicate (max a.length b.length - 1) 0) x).1

/-- `dominant_frequencies.py:119-124`. -/
noncomputable def butterSig (fs lower upper : ℝ) (sig : List ℝ) : Py (List ℝ) :=
  if fs = 0 then .error .zeroDivisionError
  else do
    let (b, a) ← butterBand (lower * 2 / fs) (upper * 2 / fs)
    .ok (lfilter b a sig)

/-- `get_dominant_frequencies`, `dominant_frequencies.py:16-164`, with its argument `butter_filter`. -/
noncomputable def getDominantFrequencies (sig : List ℝ) (fs : ℝ) (butterFilter : Bool := false) (lower : ℝ := 50)
    (upper : ℝ := 3000) (nfft : ℕ := 512) (win : SlidingWindow := {}) (onlyPositive : Bool := true) :
    Py (List ℝ) :=
  getDominant (if butterFilter then butterSig fs lower upper else .ok) sig fs nfft win onlyPositive

end Model
end Spafe
