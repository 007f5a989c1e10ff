import Verif.Model.Features

/-! Model of `spafe/frequencies/dominant_frequencies.py`. -/

namespace Spafe
namespace Model

/-- Rounding to the nearest integer, ties to even (`np.round`). -/
noncomputable def roundHalfEven (x : ℝ) : ℤ :=
  if x - ⌊x⌋ < 1 / 2 then ⌊x⌋
  else if 1 / 2 < x - ⌊x⌋ then ⌊x⌋ + 1
  else if ⌊x⌋ % 2 = 0 then ⌊x⌋ else ⌊x⌋ + 1

/-- `np.round(x, 3)`: `rint(x * 1000) / 1000`. -/
noncomputable def round3 (x : ℝ) : ℝ := (roundHalfEven (x * 1000) : ℝ) / 1000

/-- The loop body, `dominant_frequencies.py:135-150`. -/
noncomputable def dominantOf (nfft : ℕ) (fs : ℝ) (w : List ℝ) : Py ℝ :=
  if nfft = 0 then .error .valueError
  else if fs = 0 then .error .zeroDivisionError
  else
    let magnitude := (Np.absRfft nfft w).map fun v => 1 / (nfft : ℝ) * v
    let power := magnitude.map fun v => 1 / (nfft : ℝ) * v ^ 2
    let frequencies := Np.fftfreq power.length fs
    .ok (frequencies.getD (Np.argmax power) 0)

/-- `get_dominant_frequencies`, `dominant_frequencies.py:16-164`. The optional filter of lines 119-124 is a
parameter: `filt` is any function of the signal, the identity for `butter_filter=False`. `Model/Butter.lean` has the
Butterworth filter. -/
noncomputable def getDominant (filt : List ℝ → Py (List ℝ)) (sig : List ℝ) (fs : ℝ) (nfft : ℕ) (win : SlidingWindow)
    (onlyPositive : Bool) : Py (List ℝ) := do
  let sig ← filt sig
  let (frames, frameLength) ← framing sig fs win.winLen win.winHop
  let windows ← windowing frames frameLength.toNat win.winType
  let ds ← windows.mapM (dominantOf nfft fs)
  let ds := ds.map round3
  .ok (if onlyPositive then ds.filter (fun d => decide (0 ≤ d)) else ds)

end Model
end Spafe
