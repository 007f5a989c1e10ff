import Verif.Model.Lpc

/-! Model of `spafe/features/rplp.py`. -/

namespace Spafe
namespace Model
open XF

/-- `rasta_filter` (`filters.py:17-47`) on an array that may hold infinities or NaN. -/
noncomputable def rastaFilterX (x : XMat) : Py XMat :=
  rastaRows ((rastaNumer : List ℝ).map fin) [fin 1, fin (-(94 / 100))] ((lfilterZiFir (rastaNumer : List ℝ)).map fin) x

/-- `w**n` for the even powers of `rplp.py:151-153`, by repeated multiplication. -/
noncomputable def powNat (w : XF ℝ) : ℕ → XF ℝ
  | 0 => fin 1
  | n + 1 => powNat w n * w

/-- The lambda `E`, `rplp.py:151-153`. -/
noncomputable def equalLoudness (w : XF ℝ) : XF ℝ :=
  ((powNat w 2 + fin (56.8 * 10 ^ 6)) * powNat w 4) /
    ((powNat w 2 + fin (6.3 * 10 ^ 6)) * (powNat w 2 + fin (0.38 * 10 ^ 9)) * (powNat w 6 + fin (9.58 * 10 ^ 26)))

/-- One entry of `np.abs(Y) ** (1 / 3)`, `rplp.py:154-157` (`1 / 3` exact). -/
noncomputable def loudness (w : XF ℝ) : XF ℝ := XF.pow (XF.abs (equalLoudness w)) (1 / 3)

/-- One row of `np.absolute(np.fft.ifft(L, nfft))`, `rplp.py:160`: the row is cropped or zero-padded to `n` values. -/
noncomputable def ifftAbs (n : ℕ) (row : List ℝ) : List ℝ :=
  (List.range n).map fun (k : ℕ) =>
    ‖(1 / (n : ℂ)) * ∑ j ∈ Finset.range n, ((row.getD j 0 : ℝ) : ℂ) *
      Complex.exp (2 * Real.pi * Complex.I * (j * k) / n)‖

/-- The inverse transform of one row of loudness values followed by the body of the loop, `rplp.py:160`, `165-169`.
An infinite or NaN value among the first `nfft` ones makes every bin non-finite, then the autocorrelation, and
`scipy.linalg.inv` (`check_finite=True`) raises `ValueError`. Orders 0 and 1 are not modelled, see `lpcHelper`. -/
noncomputable def plpRow (nfft order : ℕ) (row : List (XF ℝ)) : Py (List (XF ℝ)) :=
  if order ≤ 1 then .error .outOfModel
  else if (row.take nfft).all XF.isFinite then do
    let (co, e) ← lpcHelper (ifftAbs nfft (row.map XF.toNum)) (order - 1)
    lpc2lpcc co e order
  else .error .valueError

/-- `if lifter is not None` and `if normalize`, `rplp.py:172-177`, for `order` columns. -/
noncomputable def plpTail (a : Args) (m : XMat) : Py XMat := do
  let m ← (match a.lifter with
    | none => .ok m
    | some l => lifterCeps m a.numCeps l : Py XMat)
  match a.normalize with
    | none => .ok m
    | some s => if s = "" then .ok m else normalizeCeps m a.numCeps s

/-- The auditory spectrum after optional RASTA filtering in the log domain, `rplp.py:140-148`. -/
noncomputable def plpRasta (doRasta : Bool) (aud : XMat) : Py XMat :=
  if doRasta then do
    let y ← rastaFilterX (aud.map fun r => r.map XF.log)
    .ok (y.map fun r => r.map XF.exp)
  else .ok aud

/-- `__rastaplp`, `rplp.py:28-179`; `a.numCeps` is `order`. The defaults of `plp` and `rplp` differ from those of `Args`
in `pre_emph = False` and `conversion_approach = "Wang"`. -/
noncomputable def rastaplp (doRasta : Bool) (a : Args) (sig : List ℝ) : Py XMat :=
  if a.nfilts < a.numCeps then .error (.parameterError ErrorMsgs.nfilts)
  else do
    let fb ← getFbanks a.fbanks
      (barkFilterBanks a.nfilts a.nfft a.fs a.low (some (effHigh a.high a.fs)) a.scale a.approach)
    let (aud, _) ← spectrogram a a.preEmphCoeff fb sig
    let aud ← plpRasta doRasta aud
    let rows ← (aud.map fun r => r.map loudness).mapM (plpRow a.nfft a.numCeps)
    plpTail a rows

/-- `plp`, `rplp.py:182-292`. -/
noncomputable def plp (a : Args) (sig : List ℝ) : Py XMat := rastaplp false a sig

/-- `rplp`, `rplp.py:295-412`. -/
noncomputable def rplp (a : Args) (sig : List ℝ) : Py XMat := rastaplp true a sig

end Model
end Spafe
