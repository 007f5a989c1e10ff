import Verif.Model.Preprocessing
import Verif.Model.Cepstral
import Verif.Model.MelFbanks
import Verif.Model.BarkFbanks
import Verif.Model.GammatoneFbanks
import Mathlib.Analysis.SpecialFunctions.Complex.Arg

/-!
Model of `spafe/features/{mfcc,lfcc,bfcc,gfcc,ngcc,msrcc,psrcc}.py`.

The Python functions repeat the same blocks of statements literally; each block is one definition here
(`frontEnd`, `absFft`, `powerDot`, `cepstralTail`), cited at every place it occurs.
-/

namespace Spafe
namespace Model

open XF

/-- `SlidingWindow`, `preprocessing.py:21-38`, with its defaults. -/
structure SlidingWindow where
  winLen : ℝ := 0.025
  winHop : ℝ := 0.010
  winType : String := "hamming"

/-- The keyword arguments of the cepstral functions, with the defaults of `mfcc` (`mfcc.py:166-184`). Defaults that
differ elsewhere: `nfilts = 26` in `bfcc`, `psrcc`; `conversion_approach = "Wang"` in `bfcc`, `"Glasberg"` in `gfcc`,
`ngcc`; `lifter = 0` in `imfcc`. `gamma` exists in `msrcc`, `psrcc` only; `lfcc` has no `conversion_approach`.
`fbanks` is a matrix given by the caller. Sizes are natural numbers. -/
structure Args where
  fs : ℝ := 16000
  numCeps : ℕ := 13
  preEmph : Bool := true
  preEmphCoeff : ℝ := 0.97
  window : Option SlidingWindow := none
  nfilts : ℕ := 24
  nfft : ℕ := 512
  low : ℝ := 0
  high : Option ℝ := none
  scale : String := "constant"
  gamma : ℝ := -1 / 7
  dctType : ℕ := 2
  useEnergy : Bool := false
  lifter : Option ℝ := none
  normalize : Option String := none
  fbanks : Option XMat := none
  approach : String := "Oshaghnessy"

/-- `if window is None: window = SlidingWindow()` (`mfcc.py:142-143` and likewise everywhere). -/
noncomputable def Args.win (a : Args) : SlidingWindow := a.window.getD {}

/-- Pre-emphasis, framing, windowing: `mfcc.py:138-151`, `lfcc.py:129-142`, `bfcc.py:159-172`, `gfcc.py:137-150`,
`ngcc.py:153-166`, `psrcc.py:151-164`. `coeff` is the coefficient the function actually passes. -/
noncomputable def frontEnd (a : Args) (coeff : ℝ) (sig : List ℝ) : Py (List (List ℝ)) := do
  let sig ← (if a.preEmph then preEmphasisPy sig coeff else .ok sig : Py (List ℝ))
  let (frames, frameLength) ← framing sig a.fs a.win.winLen a.win.winHop
  windowing frames frameLength.toNat a.win.winType

/-- `np.absolute(np.fft.fft(windows, nfft))[:, : int(nfft / 2) + 1]` (`mfcc.py:155-156`, `lfcc.py:146-147`,
`gfcc.py:154-155`) and `np.absolute(np.fft.rfft(windows, nfft))` (`bfcc.py:176`, `ngcc.py:169`);
`nfft = 0` raises `ValueError` in numpy. -/
noncomputable def absFft (nfft : ℕ) (windows : List (List ℝ)) : Py (List (List ℝ)) :=
  if nfft = 0 then .error .valueError else .ok (windows.map (Np.absRfft nfft))

/-- `(1.0 / nfft) * np.square(fourrier_transform)`, `mfcc.py:159`, `lfcc.py:150`, `bfcc.py:179`, `gfcc.py:158`,
`ngcc.py:170`. -/
noncomputable def powerSpectrum (nfft : ℕ) (ft : List (List ℝ)) : List (List ℝ) :=
  ft.map fun r => r.map fun v => 1 / (nfft : ℝ) * (v * v)

/-- `np.dot(x, fbanks.T)`, `mfcc.py:162`, `lfcc.py:153`, `bfcc.py:182`, `gfcc.py:161`, `ngcc.py:173`, `psrcc.py:172`:
`ValueError` when the bank does not have `nfft // 2 + 1` columns. -/
noncomputable def dotFbanks (nfft : ℕ) (x : List (List ℝ)) (fbanks : XMat) : Py XMat :=
  if ∀ r ∈ fbanks, r.length = nfft / 2 + 1 then
    .ok (Np.dotT (x.map fun r => r.map fin) fbanks)
  else .error .valueError

/-- The common body of the four spectrogram functions and of `ngcc.py:153-173` once the bank is known. Returns
`(features, fourrier_transform)`. -/
noncomputable def spectrogram (a : Args) (coeff : ℝ) (fbanks : XMat) (sig : List ℝ) :
    Py (XMat × List (List ℝ)) := do
  let windows ← frontEnd a coeff sig
  let ft ← absFft a.nfft windows
  let features ← dotFbanks a.nfft (powerSpectrum a.nfft ft) fbanks
  .ok (features, ft)

/-- `if fbanks is None: fbanks, _ = compute(...)`. -/
def getFbanks {β : Type} (fbanks : Option XMat) (compute : Py (XMat × β)) : Py XMat :=
  match fbanks with
  | some fb => .ok fb
  | none => do
    let (fb, _) ← compute
    .ok fb

/-- The mel bank for the arguments, `mfcc.py:124-135`, `psrcc.py:137-148`. -/
noncomputable def melBankOf (a : Args) : Py XMat :=
  getFbanks a.fbanks (melFilterBanks a.nfilts a.nfft a.fs a.low a.high a.scale a.approach)

/-- `mel_spectrogram`, `mfcc.py:29-163`. -/
noncomputable def melSpectrogram (a : Args) (sig : List ℝ) : Py (XMat × List (List ℝ)) := do
  let fb ← melBankOf a
  spectrogram a a.preEmphCoeff fb sig

/-- `linear_spectrogram`, `lfcc.py:28-154`: the pre-emphasis coefficient is the literal `0.97` (line 130). -/
noncomputable def linearSpectrogram (a : Args) (sig : List ℝ) : Py (XMat × List (List ℝ)) := do
  let fb ← getFbanks a.fbanks (linearFilterBanks a.nfilts a.nfft a.fs a.low a.high a.scale)
  spectrogram a 0.97 fb sig

/-- `bark_spectrogram`, `bfcc.py:50-183`: the pre-emphasis coefficient is the literal `0.97` (line 160). -/
noncomputable def barkSpectrogram (a : Args) (sig : List ℝ) : Py (XMat × List (List ℝ)) := do
  let fb ← getFbanks a.fbanks (barkFilterBanks a.nfilts a.nfft a.fs a.low a.high a.scale a.approach)
  spectrogram a 0.97 fb sig

/-- The gammatone bank for the arguments (default `order = 4`), `gfcc.py:123-134`, `ngcc.py:139-150`. -/
noncomputable def gammaBankOf (a : Args) : Py XMat :=
  getFbanks a.fbanks (gammatoneFilterBanks a.nfilts a.nfft a.fs a.low a.high a.scale 4 a.approach)

/-- `erb_spectrogram`, `gfcc.py:29-162`: the pre-emphasis coefficient is the literal `0.97` (line 138). -/
noncomputable def erbSpectrogram (a : Args) (sig : List ℝ) : Py (XMat × List (List ℝ)) := do
  let fb ← gammaBankOf a
  spectrogram a 0.97 fb sig

/-- `zero_handling` on an extended-float matrix, `preprocessing.py:52` (`nan == 0` is false). -/
noncomputable def xZeroHandling : XF ℝ → XF ℝ
  | fin x => fin (if x = 0 then eps else x)
  | v => v

/-- `np.log(zero_handling(features))`, `mfcc.py:296-297`, `lfcc.py:278-279`, `bfcc.py:319-320`, `ngcc.py:177-178`. -/
noncomputable def logFeatures (x : XMat) : XMat := x.map fun r => r.map fun v => XF.log (xZeroHandling v)

/-- `intensity_power_law`, `bfcc.py:29-47`, on one entry. -/
noncomputable def intensityPowerLaw (w : XF ℝ) : XF ℝ :=
  let f := fun (w : XF ℝ) (c p : ℝ) => w * w + fin (c * p)
  let e := (f w 56.8 (10 ^ 6) * (w * w * w * w)) /
    (f w 6.3 (10 ^ 6) * f w 0.38 (10 ^ 9) * f (w * w * w) 9.58 (10 ^ 26))
  XF.pow e (1 / 3)

/-- The frame energies used with `use_energy`, `mfcc.py:305-313`: log of the zero-handled row sum of
`(1/nfft) * |X|²`. -/
noncomputable def logEnergy (nfft : ℕ) (mag : List ℝ) : XF ℝ :=
  let s := (mag.map fun v => 1 / (nfft : ℝ) * (|v| * |v|)).sum
  XF.log (fin (if s = 0 then eps else s))

/-- `ceps[:, 0] = np.log(energy)`. -/
noncomputable def setFirstCol (m : XMat) (v : List (XF ℝ)) : XMat :=
  List.zipWith (fun r e => r.set 0 e) m v

/-- DCT, truncation to `num_ceps` columns, energy, liftering and normalisation: `mfcc.py:300-323`,
`lfcc.py:282-304`, `bfcc.py:323-346`, `gfcc.py:302-326`, `ngcc.py:181-204`, `msrcc.py:157-180`, `psrcc.py:183-206`.
`ceps[:, 0] = ...` raises `IndexError` when there is no column. -/
noncomputable def cepstralTail (a : Args) (ft : List (List ℝ)) (x : XMat) : Py XMat := do
  let m ← Np.dct a.dctType (Np.ncols x) x
  let m := m.map (·.take a.numCeps)
  let c := min a.numCeps (Np.ncols x)
  let m ← (if a.useEnergy then
      (if c = 0 then .error .indexError else .ok (setFirstCol m (ft.map (logEnergy a.nfft))))
    else .ok m : Py XMat)
  let m ← (match a.lifter with
    | none => .ok m
    | some l => if l = 0 then .ok m else lifterCeps m c l : Py XMat)
  match a.normalize with
    | none => .ok m
    | some s => if s = "" then .ok m else normalizeCeps m c s

/-- `mfcc`, `mfcc.py:166-323`. -/
noncomputable def mfcc (a : Args) (sig : List ℝ) : Py XMat :=
  if a.nfilts < a.numCeps then .error (.parameterError ErrorMsgs.nfilts)
  else do
    let (features, ft) ← melSpectrogram a sig
    cepstralTail a ft (logFeatures features)

/-- `imfcc`, `mfcc.py:326-462`. -/
noncomputable def imfcc (a : Args) (sig : List ℝ) : Py XMat :=
  if a.nfilts < a.numCeps then .error (.parameterError ErrorMsgs.nfilts)
  else do
    let fb ← getFbanks a.fbanks (inverseMelFilterBanks a.nfilts a.nfft a.fs a.low a.high a.scale a.approach)
    mfcc { a with fbanks := some fb } sig

/-- `lfcc`, `lfcc.py:157-304`. -/
noncomputable def lfcc (a : Args) (sig : List ℝ) : Py XMat :=
  if a.nfilts < a.numCeps then .error (.parameterError ErrorMsgs.nfilts)
  else do
    let (features, ft) ← linearSpectrogram a sig
    cepstralTail a ft (logFeatures features)

/-- `bfcc`, `bfcc.py:186-346`. -/
noncomputable def bfcc (a : Args) (sig : List ℝ) : Py XMat :=
  if a.nfilts < a.numCeps then .error (.parameterError ErrorMsgs.nfilts)
  else do
    let (features, ft) ← barkSpectrogram a sig
    cepstralTail a ft (logFeatures (features.map fun r => r.map intensityPowerLaw))

/-- `gfcc`, `gfcc.py:165-326`: cubic root, no zero handling. -/
noncomputable def gfcc (a : Args) (sig : List ℝ) : Py XMat :=
  if a.nfilts < a.numCeps then .error (.parameterError ErrorMsgs.nfilts)
  else do
    let (features, ft) ← erbSpectrogram a sig
    cepstralTail a ft (features.map fun r => r.map fun v => XF.pow v (1 / 3))

/-- `ngcc`, `ngcc.py:29-204`. -/
noncomputable def ngcc (a : Args) (sig : List ℝ) : Py XMat :=
  if a.nfilts < a.numCeps then .error (.parameterError ErrorMsgs.nfilts)
  else do
    let fb ← gammaBankOf a
    let (features, ft) ← spectrogram a a.preEmphCoeff fb sig
    cepstralTail a ft (logFeatures features)

/-- `msrcc`, `msrcc.py:23-180`. -/
noncomputable def msrcc (a : Args) (sig : List ℝ) : Py XMat :=
  if a.nfilts < a.numCeps then .error (.parameterError ErrorMsgs.nfilts)
  else do
    let (features, ft) ← melSpectrogram a sig
    cepstralTail a ft (features.map fun r => r.map fun v => XF.pow v a.gamma)

/-- The phase in degrees mapped to `[0, 360)`, `psrcc.py:168-169`, of one FFT bin. (`np.angle` of a negative zero
or of numbers with a negative zero imaginary part is not modelled.) -/
noncomputable def phaseDeg (z : ℂ) : ℝ :=
  let p := Complex.arg z * (180 / Real.pi)
  (360 + p) * (if p < 0 then 1 else 0) + p * (if 0 < p then 1 else 0)

/-- `features[np.isnan(features)] = 0`, `psrcc.py:178`. -/
noncomputable def nanToZero (v : XF ℝ) : XF ℝ := if v.isNan then fin 0 else v

/-- `features[np.isinf(features)] = features.max()`, `psrcc.py:180`. The maximum is taken of the whole array,
infinities included. -/
noncomputable def infToMax (x : XMat) : XMat :=
  x.map fun r => r.map fun v => if v.isInf then xmax x.flatten else v

/-- `psrcc`, `psrcc.py:29-206`. `features.max()` of an empty array raises `ValueError`, as does the DCT. -/
noncomputable def psrcc (a : Args) (sig : List ℝ) : Py XMat :=
  if a.nfilts < a.numCeps then .error (.parameterError ErrorMsgs.nfilts)
  else do
    let fb ← melBankOf a
    let windows ← frontEnd a a.preEmphCoeff sig
    let ft ← absFft a.nfft windows
    let phases := windows.map fun w =>
      (List.range (a.nfft / 2 + 1)).map fun (k : ℕ) => phaseDeg (Np.dft w a.nfft k)
    let features ← dotFbanks a.nfft phases fb
    let x := features.map fun r => r.map fun v => nanToZero (XF.pow v a.gamma)
    cepstralTail a ft (infToMax x)

end Model
end Spafe
