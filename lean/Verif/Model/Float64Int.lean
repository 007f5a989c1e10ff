import Verif.Model.Float64
import Verif.Model.Yin
import Verif.Model.Cqt

/-!
`compute_yin` and `cqcc` with their conversions to integers performed in `binary64`: the argument of `int` is rounded. All
other arithmetic is exact, as in the models these definitions copy.
-/

namespace Spafe
namespace Model
open XF

/-- `compute_yin`, `fundamental_frequencies.py:129-268`, with a rounding `rnd` of the quotients of line 235 and the products
of lines 236 and 237. -/
noncomputable def computeYinR (rnd : ℝ → ℝ) (sig : List ℝ) (fs winLen winHop lowFreq highFreq thr : ℝ) : Py YinResult :=
  if highFreq = 0 ∨ lowFreq = 0 then .error .zeroDivisionError
  else do
    let tauMin := pyInt (rnd (fs / highFreq))
    let tauMax := pyInt (rnd (fs / lowFreq))
    let wLen := pyInt (rnd (winLen * fs))
    let wStep := pyInt (rnd (winHop * fs))
    let scale ← pyRangeStep 0 ((sig.length : ℤ) - wLen) wStep
    let times := scale.map fun (t : ℤ) => (t : ℝ) / fs
    let rs ← (scale.map fun t => pySlice sig t (t + wLen)).mapM (yinFrame fs tauMin tauMax thr)
    .ok { pitches := rs.map (·.pitch), harmonicRates := rs.map (·.harmonicRate), argmins := rs.map (·.argmin), times }

/-- `compute_yin` in `binary64`; the window lengths are given as written by the caller and become floats first. -/
noncomputable def computeYin64 (sig : List ℝ) (fs winLen winHop lowFreq highFreq thr : ℝ) : Py YinResult :=
  computeYinR fl64 sig fs (fl64 winLen) (fl64 winHop) lowFreq highFreq thr

/-- `cqcc`, `cqcc.py:155-305`, with a rounding `rnd` of the product `len(log_features) * resampling_ratio` of line 291. -/
noncomputable def cqccR (rnd : ℝ → ℝ) (a : CqtArgs) (sig : List ℝ) : Py XMat := do
  let q ← cqtSpectrogram a sig
  let logs := q.map fun r => r.map cqtLog
  let num := pyInt (rnd ((Np.ncols logs : ℝ) * a.ratio))
  if q = [] ∨ num ≤ 0 then .error .valueError
  else
    let res := logs.map (resampleX num.toNat)
    let rows := (List.range num.toNat).map fun (t : ℕ) => res.map fun c => c.getD t 0
    cepstralTail { a.toArgs with useEnergy := false } [] rows

/-- `cqcc` with the resampling ratio as written by the caller, in `binary64`. -/
noncomputable def cqcc64 (a : CqtArgs) (sig : List ℝ) : Py XMat := cqccR fl64 { a with ratio := fl64 a.ratio } sig

end Model
end Spafe
