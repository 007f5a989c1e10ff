import Verif.Model.Preprocessing

/-! `spafe/utils/preprocessing.py` on arrays with two axes (for example a stereo recording as returned by
`scipy.io.wavfile.read`, shape `(samples, channels)`). Nothing in the library checks the number of axes. -/

namespace Spafe
namespace Model

/-- A numpy array with two axes as it lies in memory: the buffer, `a.size` and `a.strides[0]` (in elements). -/
structure Array2 (α : Type) where
  buf : List α
  size : ℕ
  stride : ℕ

section
variable {α : Type}

/-- `np.array(a)` (`preprocessing.py:91`) of a C-ordered array of shape `(n, m)` given by its rows. -/
def Array2.ofRows (x : List (List α)) (m : ℕ) : Array2 α := ⟨x.flatten, x.length * m, m⟩

/-- `np.array(a)` of a Fortran-ordered array (for example the transpose of a C-ordered one; `np.array` keeps the order)
given by its columns, each with `n` entries. -/
def Array2.ofColumns (x : List (List α)) (n : ℕ) : Array2 α := ⟨x.flatten, x.length * n, 1⟩

variable [Field α] [LinearOrder α]

/-- The `as_strided` read at position `t` of the first axis, `preprocessing.py:94-96`. -/
def Array2.read (a : Array2 α) (t : ℤ) : Py α :=
  if 0 ≤ t * a.stride ∧ t * a.stride < a.buf.length then .ok (a.buf.getD (t * a.stride).toNat 0)
  else .error .outOfBounds

/-- `stride_trick`, `preprocessing.py:75-96`, on two axes: `a.size` counts all entries, `a.strides[0]` is the distance of
two neighbours along the first axis. -/
def strideTrick2 (a : Array2 α) (strideLength strideStep : ℤ) : Py (List (List α)) := do
  let q ← pyFloorDiv ((a.size : ℤ) - strideLength) strideStep
  let nrows := q + 1
  if nrows < 0 ∨ strideLength < 0 then .error .valueError
  else
    (List.range nrows.toNat).mapM fun (i : ℕ) =>
      (List.range strideLength.toNat).mapM fun (j : ℕ) => a.read ((i : ℤ) * strideStep + j)

/-- `framing`, `preprocessing.py:99-143`, on two axes; see `framingR` for the rounding. -/
def framing2 [IsStrictOrderedRing α] [FloorRing α] (rnd : α → α) (a : Array2 α) (fs winLen winHop : α) :
    Py (List (List α) × ℤ) :=
  if winLen < winHop then .error (.parameterError ErrorMsgs.winLenWinHop)
  else do
    let frameLength := pyInt (rnd (winLen * fs))
    let frameStep := pyInt (rnd (winHop * fs))
    let frames ← strideTrick2 a frameLength frameStep
    if frames.length = 0 then .error .indexError
    else .ok (frames, frameLength)

/-- `pre_emphasis`, `preprocessing.py:55-72`, on two axes, none of them
empty: `lfilter` filters along the last axis. -/
def preEmphasis2 (x : List (List α)) (coeff : α) : List (List α) := x.map fun r => preEmphasis r coeff

end
end Model
end Spafe
