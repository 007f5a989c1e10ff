import Verif.Model.Lpc

/-!
Integer arrays in `spafe/features/lpc.py`. `scipy.io.wavfile.read` returns `int16` (or `uint8`, `int32`) samples. Every
feature turns them into floats with its first operation (`lfilter`, the product with a window, `np.fft.rfft`,
`np.array(x, np.float64)`), except `lpc` and `lpcc` without pre-emphasis, which correlate the integer frames themselves.
numpy integer arithmetic keeps the dtype and wraps around.
-/

namespace Spafe
namespace Model
open XF

/-- A numpy integer dtype: its smallest value and its number of bits. -/
structure IntType where
  lo : ℤ
  bits : ℕ

def int16 : IntType := ⟨-2 ^ 15, 16⟩
def int32 : IntType := ⟨-2 ^ 31, 32⟩
def uint8 : IntType := ⟨0, 8⟩

/-- The value stored for the mathematical result `x` of an integer operation: congruent to `x`, in the range. Numbers in
integer arrays are represented by the reals of the same value. -/
noncomputable def IntType.wrap (t : IntType) (x : ℝ) : ℝ := ((t.lo + (⌊x⌋ - t.lo) % 2 ^ t.bits : ℤ) : ℝ)

/-- `__lpc_helper`, `lpc.py:25-85`, for a frame of integer dtype: `auto_corr` (line 79), `r` (lines 75, 80) and `-r[1:]`
(line 82) are integer arrays; `linalg.inv` (line 82) and the error term (line 84) are floats. A frame of one sample
(line 84 then adds the integer 0, and line 85 squares an integer) is not modelled. -/
noncomputable def lpcHelperInt (t : IntType) (frame : List ℝ) (order : ℕ) : Py (List ℝ × ℝ) :=
  if frame = [] then .error .valueError
  else if order = 0 ∨ frame.length = 1 then .error .outOfModel
  else
    let autoCorr := (correlateFull frame).map t.wrap
    let seg := pySlice autoCorr ((frame.length : ℤ) - 1) ((frame.length : ℤ) + order)
    let r := (List.range (order + 1)).map fun (i : ℕ) => if i < min (order + 1) frame.length then seg.getD i 0 else 0
    let T := toeplitz r order
    if T.det = 0 then .error .linAlgError
    else
      let phi := T⁻¹.mulVec fun i : Fin order => t.wrap (-r.getD (i + 1) 0)
      let a := 1 :: List.ofFn phi
      let e := autoCorr.getD 0 0 + (List.zipWith (· * ·) (autoCorr.drop 1) a).sum
      .ok (a, Real.sqrt (e ^ 2))

/-- `lpc`, `lpc.py:88-201`, of an integer signal. `lfilter` (`preprocessing.py:72`) returns floats. -/
noncomputable def lpcInt (t : IntType) (a : LpcArgs) (sig : List ℤ) : Py (List (List ℝ) × List ℝ) :=
  let x := sig.map fun (z : ℤ) => (z : ℝ)
  if a.preEmph then lpc a x
  else do
    let frames ← lpcFrames a x
    let rows ← frames.mapM fun f => lpcHelperInt t f (a.order - 1)
    .ok (rows.map Prod.fst, rows.map Prod.snd)

/-- `lpcc`, `lpc.py:247-345`, of an integer signal. -/
noncomputable def lpccInt (t : IntType) (a : LpcArgs) (sig : List ℤ) : Py XMat :=
  let x := sig.map fun (z : ℤ) => (z : ℝ)
  if a.preEmph then lpcc a x
  else do
    let frames ← lpcFrames a x
    let rows ← frames.mapM fun f => do
      let (co, e) ← lpcHelperInt t f (a.order - 1)
      lpc2lpcc co e (a.order - 1 + 1)
    let m ← (match a.lifter with
      | none => .ok rows
      | some l => if l = 0 then .ok rows else lifterCeps rows (a.order - 1 + 1) l : Py XMat)
    match a.normalize with
      | none => .ok m
      | some s => if s = "" then .ok m else normalizeCeps m (a.order - 1 + 1) s

end Model
end Spafe
