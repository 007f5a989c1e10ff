import Verif.Model.Features
import Mathlib.LinearAlgebra.Matrix.NonsingularInverse

/-! Model of `spafe/features/lpc.py`. -/

namespace Spafe
namespace Model
open XF

/-- `np.correlate(x, x, "full")`, `lpc.py:79`: entry `i` of the `2 N - 1` entries is the sum over `n` of
`x[n + i - (N - 1)] * x[n]`, indices outside the array giving nothing. -/
noncomputable def correlateFull (x : List ℝ) : List ℝ :=
  (List.range (2 * x.length - 1)).map fun (i : ℕ) =>
    ∑ n ∈ Finset.range x.length,
      (if x.length - 1 ≤ n + i then x.getD (n + i - (x.length - 1)) 0 else 0) * x.getD n 0

/-- The vector `r`, `lpc.py:74-80`: `p = order + 1` entries, the first `min(p, N)` of them from the slice
`auto_corr[N - 1 : N + order]`, the others 0. -/
noncomputable def lpcR (frame : List ℝ) (order : ℕ) : List ℝ :=
  let seg := pySlice (correlateFull frame) ((frame.length : ℤ) - 1) ((frame.length : ℤ) + order)
  (List.range (order + 1)).map fun (i : ℕ) => if i < min (order + 1) frame.length then seg.getD i 0 else 0

/-- `linalg.toeplitz(r[:-1])`, `lpc.py:82`: the symmetric Toeplitz matrix with first column `r[0], …, r[order-1]`. -/
noncomputable def toeplitz (r : List ℝ) (n : ℕ) : Matrix (Fin n) (Fin n) ℝ :=
  Matrix.of fun i j => r.getD ((i : ℤ) - (j : ℤ)).natAbs 0

/-- `__lpc_helper`, `lpc.py:25-85`. `np.correlate` of an empty array raises `ValueError`; `linalg.inv` of a singular
matrix raises `LinAlgError`. For `order = 0` the code inverts a 0×0 matrix, on which scipy versions differ: not
modelled. -/
noncomputable def lpcHelper (frame : List ℝ) (order : ℕ) : Py (List ℝ × ℝ) :=
  if frame = [] then .error .valueError
  else if order = 0 then .error .outOfModel
  else
    let autoCorr := correlateFull frame
    let r := lpcR frame order
    let T := toeplitz r order
    if T.det = 0 then .error .linAlgError
    else
      let phi := T⁻¹.mulVec fun i : Fin order => -r.getD (i + 1) 0
      let a := 1 :: List.ofFn phi
      let e := autoCorr.getD 0 0 + (List.zipWith (· * ·) (autoCorr.drop 1) a).sum
      .ok (a, Real.sqrt (e ^ 2))

/-- The keyword arguments of `lpc` (`lpc.py:88-95`, without the last two) and `lpcc` (`lpc.py:247-256`). -/
structure LpcArgs where
  fs : ℝ := 16000
  order : ℕ := 13
  preEmph : Bool := true
  preEmphCoeff : ℝ := 0.97
  window : Option SlidingWindow := none
  lifter : Option ℝ := none
  normalize : Option String := none

/-- `if window is None: window = SlidingWindow()`, `lpc.py:182-183`, `319-320`. -/
noncomputable def LpcArgs.win (a : LpcArgs) : SlidingWindow := a.window.getD {}

/-- Pre-emphasis with the literal coefficient `0.97`, framing and windowing, `lpc.py:178-191`, `315-328`. The windowed
frames are only used for their number; the loops (`lpc.py:196`, `332`) run over `frames`. -/
noncomputable def lpcFrames (a : LpcArgs) (sig : List ℝ) : Py (List (List ℝ)) := do
  let sig ← (if a.preEmph then preEmphasisPy sig 0.97 else .ok sig : Py (List ℝ))
  let (frames, frameLength) ← framing sig a.fs a.win.winLen a.win.winHop
  let _windows ← windowing frames frameLength.toNat a.win.winType
  .ok frames

/-- `lpc`, `lpc.py:88-201`: coefficient matrix and error column (as a list). `order = 0` and `order = 1` are not
modelled, see `lpcHelper`. -/
noncomputable def lpc (a : LpcArgs) (sig : List ℝ) : Py (List (List ℝ) × List ℝ) := do
  let frames ← lpcFrames a sig
  let rows ← frames.mapM fun f => lpcHelper f (a.order - 1)
  .ok (rows.map Prod.fst, rows.map Prod.snd)

/-- Python `a[i]` for a list of numbers and an index that is never negative. -/
noncomputable def idxX (a : List (XF ℝ)) (i : ℕ) : Py (XF ℝ) := pyIdx a i

/-- `sum([(k / m) * c[m] * a[m - k] for k in range(lo, m)])`, `lpc.py:238`, `242`. -/
noncomputable def lpccSum (a c : List (XF ℝ)) (m lo : ℕ) : Py (XF ℝ) := do
  let terms ← (List.range' lo (m - lo)).mapM fun (k : ℕ) => do
    let cm ← idxX c m
    let amk ← idxX a (m - k)
    (.ok (fin ((k : ℝ) / (m : ℝ)) * cm * amk) : Py (XF ℝ))
  .ok terms.sum

/-- The first loop of `lpc2lpcc`, `lpc.py:237-238`, over the given values of `m`. -/
noncomputable def lpccLoop1 (a : List (XF ℝ)) : List ℕ → List (XF ℝ) → Py (List (XF ℝ))
  | [], c => .ok c
  | m :: ms, c => do
    let am ← idxX a m
    let s ← lpccSum a c m 1
    let c ← pySet c m (am + s)
    lpccLoop1 a ms c

/-- The second loop of `lpc2lpcc`, `lpc.py:241-242`. -/
noncomputable def lpccLoop2 (a : List (XF ℝ)) (p : ℕ) : List ℕ → List (XF ℝ) → Py (List (XF ℝ))
  | [], c => .ok c
  | m :: ms, c => do
    let s ← lpccSum a c m (m - p)
    let c ← pySet c m s
    lpccLoop2 a p ms c

/-- `lpc2lpcc`, `lpc.py:204-244`. -/
noncomputable def lpc2lpcc (a : List ℝ) (e : ℝ) (nceps : ℕ) : Py (List (XF ℝ)) := do
  let p := a.length
  let xa := a.map fin
  let c := List.replicate nceps (fin (1 : ℝ))
  let c ← pySet c 0 (XF.log (xZeroHandling (fin e)))
  let c ← lpccLoop1 xa (List.range' 1 (p - 1)) c
  if p < nceps then lpccLoop2 xa p (List.range' (p + 1) (nceps - (p + 1))) c else .ok c

/-- `lpcc`, `lpc.py:247-345`. -/
noncomputable def lpcc (a : LpcArgs) (sig : List ℝ) : Py XMat := do
  let frames ← lpcFrames a sig
  let rows ← frames.mapM fun f => do
    let (co, e) ← lpcHelper f (a.order - 1)
    lpc2lpcc co e (a.order - 1 + 1)
  let m ← (match a.lifter with
    | none => .ok rows
    | some l => if l = 0 then .ok rows else lifterCeps rows (a.order - 1 + 1) l : Py XMat)
  match a.normalize with
    | none => .ok m
    | some s => if s = "" then .ok m else normalizeCeps m (a.order - 1 + 1) s

end Model
end Spafe
