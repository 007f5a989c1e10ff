import Verif.Model.Pncc

/-!
The cepstral functions with an integer `num_ceps` that may be negative. `Args.numCeps` is a natural number in the other
models; here the argument `z : ℤ` takes its place in the check `nfilts < num_ceps` and in the slice `[:, :num_ceps]`.
-/

namespace Spafe
namespace Model

open XF

/-- Python's `r[:z]`: a negative `z` leaves out the last `-z` entries (all of them when there are fewer). -/
def sliceTo {α : Type} (z : ℤ) (r : List α) : List α := r.take (if z < 0 then r.length - z.natAbs else z.natAbs)

/-- The number of columns of `m[:, :z]` when `m` has `n` columns. -/
def slicedColumns (z : ℤ) (n : ℕ) : ℕ := if z < 0 then n - z.natAbs else min z.natAbs n

/-- `mfcc.py:300-323`, `lfcc.py:282-304`, `bfcc.py:323-346`, `gfcc.py:302-326`, `ngcc.py:181-204`, `msrcc.py:157-180`,
`psrcc.py:183-206` with `num_ceps = z`. -/
noncomputable def cepstralTailZ (a : Args) (z : ℤ) (ft : List (List ℝ)) (x : XMat) : Py XMat := do
  let m ← Np.dct a.dctType (Np.ncols x) x
  let m := m.map (sliceTo z)
  let c := slicedColumns z (Np.ncols x)
  let m ← (if a.useEnergy then
      (if c = 0 then .error .indexError else .ok (setFirstCol m (ft.map (logEnergy a.nfft))))
    else .ok m : Py XMat)
  let m ← (match a.lifter with
    | none => .ok m
    | some l => if l = 0 then .ok m else lifterCeps m c l : Py XMat)
  match a.normalize with
    | none => .ok m
    | some s => if s = "" then .ok m else normalizeCeps m c s

/-- `mfcc`, `mfcc.py:166-323`, with `num_ceps = z` (`a.numCeps` is not used). -/
noncomputable def mfccZ (a : Args) (z : ℤ) (sig : List ℝ) : Py XMat :=
  if (a.nfilts : ℤ) < z then .error (.parameterError ErrorMsgs.nfilts)
  else do
    let (features, ft) ← melSpectrogram a sig
    cepstralTailZ a z ft (logFeatures features)

/-- `imfcc`, `mfcc.py:326-462`. -/
noncomputable def imfccZ (a : Args) (z : ℤ) (sig : List ℝ) : Py XMat :=
  if (a.nfilts : ℤ) < z then .error (.parameterError ErrorMsgs.nfilts)
  else do
    let fb ← getFbanks a.fbanks (inverseMelFilterBanks a.nfilts a.nfft a.fs a.low a.high a.scale a.approach)
    mfccZ { a with fbanks := some fb } z sig

/-- `lfcc`, `lfcc.py:157-304`. -/
noncomputable def lfccZ (a : Args) (z : ℤ) (sig : List ℝ) : Py XMat :=
  if (a.nfilts : ℤ) < z then .error (.parameterError ErrorMsgs.nfilts)
  else do
    let (features, ft) ← linearSpectrogram a sig
    cepstralTailZ a z ft (logFeatures features)

/-- `bfcc`, `bfcc.py:186-346`. -/
noncomputable def bfccZ (a : Args) (z : ℤ) (sig : List ℝ) : Py XMat :=
  if (a.nfilts : ℤ) < z then .error (.parameterError ErrorMsgs.nfilts)
  else do
    let (features, ft) ← barkSpectrogram a sig
    cepstralTailZ a z ft (logFeatures (features.map fun r => r.map intensityPowerLaw))

/-- `gfcc`, `gfcc.py:165-326`. -/
noncomputable def gfccZ (a : Args) (z : ℤ) (sig : List ℝ) : Py XMat :=
  if (a.nfilts : ℤ) < z then .error (.parameterError ErrorMsgs.nfilts)
  else do
    let (features, ft) ← erbSpectrogram a sig
    cepstralTailZ a z ft (features.map fun r => r.map fun v => XF.pow v (1 / 3))

/-- `ngcc`, `ngcc.py:29-204`. -/
noncomputable def ngccZ (a : Args) (z : ℤ) (sig : List ℝ) : Py XMat :=
  if (a.nfilts : ℤ) < z then .error (.parameterError ErrorMsgs.nfilts)
  else do
    let fb ← gammaBankOf a
    let (features, ft) ← spectrogram a a.preEmphCoeff fb sig
    cepstralTailZ a z ft (logFeatures features)

/-- `msrcc`, `msrcc.py:23-180`. -/
noncomputable def msrccZ (a : Args) (z : ℤ) (sig : List ℝ) : Py XMat :=
  if (a.nfilts : ℤ) < z then .error (.parameterError ErrorMsgs.nfilts)
  else do
    let (features, ft) ← melSpectrogram a sig
    cepstralTailZ a z ft (features.map fun r => r.map fun v => XF.pow v a.gamma)

/-- `psrcc`, `psrcc.py:29-206`. -/
noncomputable def psrccZ (a : Args) (z : ℤ) (sig : List ℝ) : Py XMat :=
  if (a.nfilts : ℤ) < z then .error (.parameterError ErrorMsgs.nfilts)
  else do
    let fb ← melBankOf a
    let windows ← frontEnd a a.preEmphCoeff sig
    let ft ← absFft a.nfft windows
    let phases := windows.map fun w =>
      (List.range (a.nfft / 2 + 1)).map fun (k : ℕ) => phaseDeg (Np.dft w a.nfft k)
    let features ← dotFbanks a.nfft phases fb
    let x := features.map fun r => r.map fun v => nanToZero (XF.pow v a.gamma)
    cepstralTailZ a z ft (infToMax x)

/-- `pncc`, `pncc.py:274-457`. -/
noncomputable def pnccZ (a : Args) (power : ℝ) (z : ℤ) (sig : List ℝ) : Py XMat :=
  if (a.nfilts : ℤ) < z then .error (.parameterError ErrorMsgs.nfilts)
  else do
    let fb ← gammaBankOf a
    let P ← pnccPower a power fb sig
    let V ← pnccNonlin a.nfilts P
    cepstralTailZ { a with useEnergy := false } z [] V

end Model
end Spafe
