import Verif.Basic.XF
import Mathlib.Algebra.BigOperators.Group.Finset.Basic

/-! Model of `spafe/frequencies/fundamental_frequencies.py` (the YIN algorithm). `fftconvolve` is the exact
convolution; `float64` values are exact. -/

namespace Spafe
namespace Model
open XF

/-- Python `range(a, b, step)`; `ValueError` for step 0. -/
def pyRangeStep (a b step : ℤ) : Py (List ℤ) :=
  if step = 0 then .error .valueError
  else
    let n := if 0 < step then ((b - a + step - 1) / step).toNat else ((a - b - step - 1) / (-step)).toNat
    .ok ((List.range n).map fun (i : ℕ) => a + (i : ℤ) * step)

/-- `np.cumsum`. -/
noncomputable def cumsum (l : List ℝ) : List ℝ :=
  (List.range l.length).map fun (i : ℕ) => ∑ j ∈ Finset.range (i + 1), l.getD j 0

/-- `signal.fftconvolve(x, y)` (mode "full"): `len(x) + len(y) - 1` values, none if an input is empty. -/
noncomputable def convolve (x y : List ℝ) : List ℝ :=
  if x.length = 0 ∨ y.length = 0 then []
  else (List.range (x.length + y.length - 1)).map fun (n : ℕ) =>
    ∑ i ∈ Finset.range (n + 1), x.getD i 0 * y.getD (n - i) 0

/-- `compute_difference`, `fundamental_frequencies.py:16-73`. `x_cum_sum[w:0:-1]` is the reversed tail. -/
noncomputable def computeDifference (x : List ℝ) (tauMax : ℤ) : List ℝ :=
  let w := x.length
  let cs := 0 :: cumsum (x.map fun v => v * v)
  let conv := convolve x x.reverse
  let rtTau0 := (cs.take w).map fun v => cs.getD w 0 - v
  let rt0 := (cs.drop 1).reverse
  let rt := pySliceFrom conv ((w : ℤ) - 1)
  let tmp := List.zipWith (fun a b => a - 2 * b) (List.zipWith (fun a b => a + b) rt0 rtTau0) rt
  pySlice tmp 0 tauMax

/-- A binary numpy operation on 1-d arrays: equal lengths or one of length 1, else `ValueError`. -/
def broadcast {α β γ : Type} (f : α → β → γ) (a : List α) (b : List β) : Py (List γ) :=
  if a.length = b.length then .ok (List.zipWith f a b)
  else match a, b with
    | [x], b => .ok (b.map fun y => f x y)
    | a, [y] => .ok (a.map fun x => f x y)
    | _, _ => .error .valueError

/-- `compute_cmnd`, `fundamental_frequencies.py:76-97`. -/
noncomputable def computeCmnd (d : List ℝ) (tau : ℤ) : Py (List (XF ℝ)) := do
  let num ← broadcast (fun (v : ℝ) (t : ℤ) => v * (t : ℝ)) (pySliceFrom d 1) (pyRange 1 tau)
  let q ← broadcast (fun a b => fin a / fin b) num (cumsum (pySliceFrom d 1))
  .ok (fin 1 :: q)

/-- The inner loop of `get_pitch`, `fundamental_frequencies.py:121-122`. -/
noncomputable def descend (cmdf : List (XF ℝ)) (tauMax tau : ℤ) : Py ℤ :=
  if h : tau + 1 < tauMax then do
    let a ← pyIdx cmdf (tau + 1)
    let b ← pyIdx cmdf tau
    if ltb a b then descend cmdf tauMax (tau + 1) else .ok tau
  else .ok tau
termination_by (tauMax - tau).toNat
decreasing_by omega

/-- `get_pitch`, `fundamental_frequencies.py:100-126`, with `tau` the loop variable (started at `tau_min`). -/
noncomputable def getPitch (cmdf : List (XF ℝ)) (tau tauMax : ℤ) (thr : ℝ) : Py ℤ :=
  if h : tau < tauMax then do
    let a ← pyIdx cmdf tau
    if ltb a (fin thr) then descend cmdf tauMax tau else getPitch cmdf (tau + 1) tauMax thr
  else .ok 0
termination_by (tauMax - tau).toNat
decreasing_by omega

/-- `np.argmin`: the first NaN, or else the first minimal element. -/
noncomputable def argminX (l : List (XF ℝ)) : ℕ :=
  (List.range l.length).foldl (fun best i =>
    if (l.getD best nan).isNan then best
    else if (l.getD i nan).isNan || ltb (l.getD i nan) (l.getD best nan) then i else best) 0

/-- Python's `min` on a non-empty list: `x` replaces the current minimum `m` when `x < m`. -/
noncomputable def pyMin : List (XF ℝ) → Py (XF ℝ)
  | [] => .error .valueError
  | a :: l => .ok (l.foldl (fun m x => if ltb x m then x else m) a)

/-- The results for one frame. -/
structure YinFrame where
  pitch : XF ℝ
  harmonicRate : XF ℝ
  argmin : XF ℝ

/-- The loop body of `compute_yin`, `fundamental_frequencies.py:246-266`. -/
noncomputable def yinFrame (fs : ℝ) (tauMin tauMax : ℤ) (thr : ℝ) (frame : List ℝ) : Py YinFrame := do
  let df := computeDifference frame tauMax
  let cmdf ← computeCmnd df tauMax
  let p ← getPitch cmdf tauMin tauMax thr
  let am := argminX cmdf
  let argmin := if tauMin < (am : ℤ) then fin fs / fin (am : ℝ) else fin 0
  if p ≠ 0 then do
    let hr ← pyIdx cmdf p
    .ok { pitch := fin (fs / (p : ℝ)), harmonicRate := hr, argmin }
  else do
    let hr ← pyMin cmdf
    .ok { pitch := fin 0, harmonicRate := hr, argmin }

/-- The part of the loop body after `compute_cmnd`, `fundamental_frequencies.py:250-266`, on any array `cmdf`. -/
noncomputable def yinOut (fs : ℝ) (tauMin tauMax : ℤ) (thr : ℝ) (cmdf : List (XF ℝ)) : Py YinFrame := do
  let p ← getPitch cmdf tauMin tauMax thr
  let am := argminX cmdf
  let argmin := if tauMin < (am : ℤ) then fin fs / fin (am : ℝ) else fin 0
  if p ≠ 0 then do
    let hr ← pyIdx cmdf p
    .ok { pitch := fin (fs / (p : ℝ)), harmonicRate := hr, argmin }
  else do
    let hr ← pyMin cmdf
    .ok { pitch := fin 0, harmonicRate := hr, argmin }

/-- The four arrays returned by `compute_yin`. -/
structure YinResult where
  pitches : List (XF ℝ)
  harmonicRates : List (XF ℝ)
  argmins : List (XF ℝ)
  times : List ℝ

/-- `compute_yin`, `fundamental_frequencies.py:129-268`. -/
noncomputable def computeYin (sig : List ℝ) (fs winLen winHop lowFreq highFreq thr : ℝ) : Py YinResult :=
  if highFreq = 0 ∨ lowFreq = 0 then .error .zeroDivisionError
  else do
    let tauMin := pyInt (fs / highFreq)
    let tauMax := pyInt (fs / lowFreq)
    let wLen := pyInt (winLen * fs)
    let wStep := pyInt (winHop * fs)
    let scale ← pyRangeStep 0 ((sig.length : ℤ) - wLen) wStep
    let times := scale.map fun (t : ℤ) => (t : ℝ) / fs
    let rs ← (scale.map fun t => pySlice sig t (t + wLen)).mapM (yinFrame fs tauMin tauMax thr)
    .ok { pitches := rs.map (·.pitch), harmonicRates := rs.map (·.harmonicRate), argmins := rs.map (·.argmin), times }

end Model
end Spafe
