import Verif.Basic.Np

/-! Model of `spafe/utils/preprocessing.py`. -/

namespace Spafe
namespace Model

section
variable {α : Type} [Field α] [LinearOrder α]

/-- `np.finfo(float).eps`. -/
def eps : α := 1 / 2 ^ 52

/-- `zero_handling`, `preprocessing.py:41-52`, on one row. -/
def zeroHandling (x : List α) : List α := x.map fun v => if v = 0 then eps else v

/-- `zero_handling` on a matrix. -/
def zeroHandling2 (x : List (List α)) : List (List α) := x.map zeroHandling

/-- `pre_emphasis`, `preprocessing.py:55-72`, of a signal with at least one sample: `lfilter([1, -c], [1], sig)`. -/
def preEmphasis (sig : List α) (coeff : α) : List α := Np.firFilter [1, -coeff] sig

/-- `pre_emphasis`, `preprocessing.py:55-72`, of any signal. With a single denominator coefficient scipy's `lfilter`
calls `np.convolve`, which raises `ValueError` on an empty array. -/
def preEmphasisPy (sig : List α) (coeff : α) : Py (List α) :=
  if sig = [] then .error .valueError else .ok (preEmphasis sig coeff)

/-- `stride_trick`, `preprocessing.py:75-96`: frame `i` is the `as_strided` view of `frame_length` samples from
sample `i * stride_step`. A negative number of rows or negative frame length is rejected by numpy
(`ValueError`); reading outside the buffer is undefined behaviour, reported as `outOfBounds`. -/
def strideTrick (a : List α) (strideLength strideStep : ℤ) : Py (List (List α)) := do
  let q ← pyFloorDiv ((a.length : ℤ) - strideLength) strideStep
  let nrows := q + 1
  if nrows < 0 ∨ strideLength < 0 then .error .valueError
  else
    (List.range nrows.toNat).mapM fun (i : ℕ) =>
      (List.range strideLength.toNat).mapM fun (j : ℕ) =>
        let idx : ℤ := (i : ℤ) * strideStep + j
        if 0 ≤ idx ∧ idx < a.length then .ok (a.getD idx.toNat 0) else .error .outOfBounds

/-- `framing`, `preprocessing.py:99-143`, with the rounding of the two float products made explicit:
`rnd` is applied to `win_len * fs` and `win_hop * fs` before `int()`.
`frames[-1]` (line 138) raises `IndexError` when there is no frame; the padding branch (lines 139-141) is dead
because every strided row has exactly `frame_length` entries. -/
def framingR [IsStrictOrderedRing α] [FloorRing α] (rnd : α → α) (sig : List α) (fs winLen winHop : α) :
    Py (List (List α) × ℤ) :=
  if winLen < winHop then .error (.parameterError ErrorMsgs.winLenWinHop)
  else do
    let frameLength := pyInt (rnd (winLen * fs))
    let frameStep := pyInt (rnd (winHop * fs))
    let frames ← strideTrick sig frameLength frameStep
    if frames.length = 0 then .error .indexError
    else .ok (frames, frameLength)

/-- `framing` with exact arithmetic. -/
def framing [IsStrictOrderedRing α] [FloorRing α] (sig : List α) (fs winLen winHop : α) :
    Py (List (List α) × ℤ) := framingR id sig fs winLen winHop

end

/-- The window vector selected by name, `preprocessing.py:166-172` (`KeyError` for unknown names). -/
noncomputable def windowVec (winType : String) (M : ℕ) : Py (List ℝ) :=
  if winType = "hanning" then .ok ((List.range M).map (Np.hanningAt M))
  else if winType = "bartlet" then .ok ((List.range M).map (Np.bartlettAt M))
  else if winType = "kaiser" then .ok ((List.range M).map (Np.kaiserAt 14 M))
  else if winType = "blackman" then .ok ((List.range M).map (Np.blackmanAt M))
  else if winType = "hamming" then .ok ((List.range M).map (Np.hammingAt M))
  else .error .keyError

/-- `windowing`, `preprocessing.py:146-172`, for frames of exactly `frame_len` samples (the only way the library
calls it). -/
noncomputable def windowing (frames : List (List ℝ)) (frameLen : ℕ) (winType : String) :
    Py (List (List ℝ)) := do
  let w ← windowVec winType frameLen
  .ok (frames.map fun f => List.zipWith (· * ·) w f)

end Model
end Spafe
