import Verif.Model.Column
import Verif.Model.Cqt

/-! `cqt_spectrogram` and `cqcc` on an array of shape `(N, 1)`, see `Model/Column.lean`. -/

namespace Spafe
namespace Model
open XF

/-- `cqt_spectrogram`, `cqcc.py:28-152`. The arrays after framing (`cqcc.py:130-132`) are the same as for one axis. -/
noncomputable def cqtSpectrogramCol (a : CqtArgs) (x : List (List ℝ)) : Py (List (List ℂ)) :=
  if effHigh a.high a.fs > a.fs / 2 then .error (.parameterError ErrorMsgs.highFreq)
  else do
    let windows ← frontEndCol a.toArgs a.preEmphCoeff x
    computeCqt windows a.fs a.low (some (effHigh a.high a.fs)) a.nfft a.octaves a.bins a.win.winType a.thr a.f0 a.qRate

/-- `cqcc`, `cqcc.py:155-305`. -/
noncomputable def cqccCol (a : CqtArgs) (x : List (List ℝ)) : Py XMat := do
  let q ← cqtSpectrogramCol a x
  let logs := q.map fun r => r.map cqtLog
  let num := pyInt ((Np.ncols logs : ℝ) * a.ratio)
  if q = [] ∨ num ≤ 0 then .error .valueError
  else
    let res := logs.map (resampleX num.toNat)
    let rows := (List.range num.toNat).map fun (t : ℕ) => res.map fun c => c.getD t 0
    cepstralTail { a.toArgs with useEnergy := false } [] rows

end Model
end Spafe
