import Verif.Model.MultiChannel
import Verif.Model.Pncc
import Verif.Model.Plp

/-! The feature functions on an array of shape `(N, 1)`. The docstrings call the argument "a mono audio signal (Nx1)", for example
`mfcc.py:199`. The input is given by its rows. After framing (`preprocessing.py:94-96`) the code is the same as for one axis, so only
the steps up to there differ from the models in `Features.lean`, `Pncc.lean`, `Lpc.lean` and `Plp.lean`. -/

namespace Spafe
namespace Model

open XF

/-- `pre_emphasis`, `preprocessing.py:55-72`, on an array of shape `(N, 1)`: `lfilter` works along the last axis, which has length 1. For
`N = 0` numpy's `apply_along_axis` raises `ValueError`. -/
noncomputable def preEmphasisColPy (x : List (List ℝ)) (coeff : ℝ) : Py (List (List ℝ)) :=
  if x = [] then .error .valueError else .ok (preEmphasis2 x coeff)

/-- Pre-emphasis, framing, windowing as in `frontEnd`. -/
noncomputable def frontEndCol (a : Args) (coeff : ℝ) (x : List (List ℝ)) : Py (List (List ℝ)) := do
  let x ← (if a.preEmph then preEmphasisColPy x coeff else .ok x : Py (List (List ℝ)))
  let (frames, frameLength) ← framing2 id (Array2.ofRows x 1) a.fs a.win.winLen a.win.winHop
  windowing frames frameLength.toNat a.win.winType

/-- See `spectrogram`. -/
noncomputable def spectrogramCol (a : Args) (coeff : ℝ) (fbanks : XMat) (x : List (List ℝ)) :
    Py (XMat × List (List ℝ)) := do
  let windows ← frontEndCol a coeff x
  let ft ← absFft a.nfft windows
  let features ← dotFbanks a.nfft (powerSpectrum a.nfft ft) fbanks
  .ok (features, ft)

/-- `mel_spectrogram`, `mfcc.py:29-163`. -/
noncomputable def melSpectrogramCol (a : Args) (x : List (List ℝ)) : Py (XMat × List (List ℝ)) := do
  let fb ← melBankOf a
  spectrogramCol a a.preEmphCoeff fb x

/-- `linear_spectrogram`, `lfcc.py:28-154`. -/
noncomputable def linearSpectrogramCol (a : Args) (x : List (List ℝ)) : Py (XMat × List (List ℝ)) := do
  let fb ← getFbanks a.fbanks (linearFilterBanks a.nfilts a.nfft a.fs a.low a.high a.scale)
  spectrogramCol a 0.97 fb x

/-- `bark_spectrogram`, `bfcc.py:50-183`. -/
noncomputable def barkSpectrogramCol (a : Args) (x : List (List ℝ)) : Py (XMat × List (List ℝ)) := do
  let fb ← getFbanks a.fbanks (barkFilterBanks a.nfilts a.nfft a.fs a.low a.high a.scale a.approach)
  spectrogramCol a 0.97 fb x

/-- `erb_spectrogram`, `gfcc.py:29-162`. -/
noncomputable def erbSpectrogramCol (a : Args) (x : List (List ℝ)) : Py (XMat × List (List ℝ)) := do
  let fb ← gammaBankOf a
  spectrogramCol a 0.97 fb x

/-- `mfcc`, `mfcc.py:166-323`. -/
noncomputable def mfccCol (a : Args) (x : List (List ℝ)) : Py XMat :=
  if a.nfilts < a.numCeps then .error (.parameterError ErrorMsgs.nfilts)
  else do
    let (features, ft) ← melSpectrogramCol a x
    cepstralTail a ft (logFeatures features)

/-- `lfcc`, `lfcc.py:157-304`. -/
noncomputable def lfccCol (a : Args) (x : List (List ℝ)) : Py XMat :=
  if a.nfilts < a.numCeps then .error (.parameterError ErrorMsgs.nfilts)
  else do
    let (features, ft) ← linearSpectrogramCol a x
    cepstralTail a ft (logFeatures features)

/-- `bfcc`, `bfcc.py:186-346`. -/
noncomputable def bfccCol (a : Args) (x : List (List ℝ)) : Py XMat :=
  if a.nfilts < a.numCeps then .error (.parameterError ErrorMsgs.nfilts)
  else do
    let (features, ft) ← barkSpectrogramCol a x
    cepstralTail a ft (logFeatures (features.map fun r => r.map intensityPowerLaw))

/-- `imfcc`, `mfcc.py:326-462`. -/
noncomputable def imfccCol (a : Args) (x : List (List ℝ)) : Py XMat :=
  if a.nfilts < a.numCeps then .error (.parameterError ErrorMsgs.nfilts)
  else do
    let fb ← getFbanks a.fbanks (inverseMelFilterBanks a.nfilts a.nfft a.fs a.low a.high a.scale a.approach)
    mfccCol { a with fbanks := some fb } x

/-- `gfcc`, `gfcc.py:165-326`. -/
noncomputable def gfccCol (a : Args) (x : List (List ℝ)) : Py XMat :=
  if a.nfilts < a.numCeps then .error (.parameterError ErrorMsgs.nfilts)
  else do
    let (features, ft) ← erbSpectrogramCol a x
    cepstralTail a ft (features.map fun r => r.map fun v => XF.pow v (1 / 3))

/-- `ngcc`, `ngcc.py:29-204`. -/
noncomputable def ngccCol (a : Args) (x : List (List ℝ)) : Py XMat :=
  if a.nfilts < a.numCeps then .error (.parameterError ErrorMsgs.nfilts)
  else do
    let fb ← gammaBankOf a
    let (features, ft) ← spectrogramCol a a.preEmphCoeff fb x
    cepstralTail a ft (logFeatures features)

/-- `msrcc`, `msrcc.py:23-180`. -/
noncomputable def msrccCol (a : Args) (x : List (List ℝ)) : Py XMat :=
  if a.nfilts < a.numCeps then .error (.parameterError ErrorMsgs.nfilts)
  else do
    let (features, ft) ← melSpectrogramCol a x
    cepstralTail a ft (features.map fun r => r.map fun v => XF.pow v a.gamma)

/-- `lpc.py:178-191`, see `lpcFrames`. -/
noncomputable def lpcFramesCol (a : LpcArgs) (x : List (List ℝ)) : Py (List (List ℝ)) := do
  let x ← (if a.preEmph then preEmphasisColPy x 0.97 else .ok x : Py (List (List ℝ)))
  let (frames, frameLength) ← framing2 id (Array2.ofRows x 1) a.fs a.win.winLen a.win.winHop
  let _windows ← windowing frames frameLength.toNat a.win.winType
  .ok frames

/-- `lpc`, `lpc.py:88-201`. -/
noncomputable def lpcCol (a : LpcArgs) (x : List (List ℝ)) : Py (List (List ℝ) × List ℝ) := do
  let frames ← lpcFramesCol a x
  let rows ← frames.mapM fun f => lpcHelper f (a.order - 1)
  .ok (rows.map Prod.fst, rows.map Prod.snd)

/-- `lpcc`, `lpc.py:247-345`. -/
noncomputable def lpccCol (a : LpcArgs) (x : List (List ℝ)) : Py XMat := do
  let frames ← lpcFramesCol a x
  let rows ← frames.mapM fun f => do
    let (co, e) ← lpcHelper f (a.order - 1)
    lpc2lpcc co e (a.order - 1 + 1)
  let m ← (match a.lifter with
    | none => .ok rows
    | some l => if l = 0 then .ok rows else lifterCeps rows (a.order - 1 + 1) l : Py XMat)
  match a.normalize with
    | none => .ok m
    | some s => if s = "" then .ok m else normalizeCeps m (a.order - 1 + 1) s

/-- `pncc`, `pncc.py:274-457`. -/
noncomputable def pnccCol (a : Args) (power : ℝ) (x : List (List ℝ)) : Py XMat :=
  if a.nfilts < a.numCeps then .error (.parameterError ErrorMsgs.nfilts)
  else do
    let fb ← gammaBankOf a
    let windows ← frontEndCol a a.preEmphCoeff x
    let ft ← absFft a.nfft windows
    let P ← (if ∀ r ∈ fb, r.length = a.nfft / 2 + 1 then
        .ok (Np.dotT (ft.map fun r => r.map fun v => fin (1 / (a.nfft : ℝ)) * XF.pow (fin v) power) fb)
      else .error .valueError : Py XMat)
    let V ← pnccNonlin a.nfilts P
    cepstralTail { a with useEnergy := false } [] V

/-- `psrcc`, `psrcc.py:29-206`. -/
noncomputable def psrccCol (a : Args) (x : List (List ℝ)) : Py XMat :=
  if a.nfilts < a.numCeps then .error (.parameterError ErrorMsgs.nfilts)
  else do
    let fb ← melBankOf a
    let windows ← frontEndCol a a.preEmphCoeff x
    let ft ← absFft a.nfft windows
    let phases := windows.map fun w =>
      (List.range (a.nfft / 2 + 1)).map fun (k : ℕ) => phaseDeg (Np.dft w a.nfft k)
    let features ← dotFbanks a.nfft phases fb
    let y := features.map fun r => r.map fun v => nanToZero (XF.pow v a.gamma)
    cepstralTail a ft (infToMax y)

/-- `__rastaplp`, `rplp.py:28-179`. -/
noncomputable def rastaplpCol (doRasta : Bool) (a : Args) (x : List (List ℝ)) : Py XMat :=
  if a.nfilts < a.numCeps then .error (.parameterError ErrorMsgs.nfilts)
  else do
    let fb ← getFbanks a.fbanks
      (barkFilterBanks a.nfilts a.nfft a.fs a.low (some (effHigh a.high a.fs)) a.scale a.approach)
    let (aud, _) ← spectrogramCol a a.preEmphCoeff fb x
    let aud ← plpRasta doRasta aud
    let rows ← (aud.map fun r => r.map loudness).mapM (plpRow a.nfft a.numCeps)
    plpTail a rows

end Model
end Spafe
