import Verif.Model.Pncc
import Verif.Model.Lpc

/-!
The functions that write into arrays in place, as programs over a store. The other model files describe these functions by
recursion on lists; here they are written as the Python statements are: arrays are allocated, rows and entries are read by
(possibly negative) index and overwritten, and every array that exists - in particular the caller's - can in principle be
changed. `Props/Store.lean` proves that these programs compute what the recursive definitions say and change nothing else.

A numpy assignment `x[i] = v` evaluates `v` completely before it writes.
-/

namespace Spafe
namespace Store
open Model XF

/-- The arrays that exist, by address. One-dimensional arrays have one row. -/
abbrev Heap := List XMat

/-- A program: it may raise, return a value and change the store. -/
abbrev Prog (α : Type) := StateT Heap (Except Err) α

/-- A computation without access to the store. -/
def lift {α : Type} (x : Py α) : Prog α := fun h => x >>= fun v => .ok (v, h)

/-- A new array; its address. -/
def alloc (x : XMat) : Prog ℕ := fun h => .ok (h.length, h ++ [x])

/-- The whole array at an address (for its shape, or for an expression that reads all of it). -/
def load (r : ℕ) : Prog XMat := fun h =>
  match h[r]? with
  | some x => .ok (x, h)
  | none => .error .outOfModel

/-- `x[i]`, a row. -/
def getRow (r : ℕ) (i : ℤ) : Prog (List (XF ℝ)) := do
  let x ← load r
  lift (pyIdx x i)

/-- `x[i, j]`. -/
def getAt (r : ℕ) (i j : ℤ) : Prog (XF ℝ) := do
  let row ← getRow r i
  lift (pyIdx row j)

/-- `x[i, :] = v`: `IndexError` for the index, `ValueError` if the lengths differ. -/
def setRow (r : ℕ) (i : ℤ) (v : List (XF ℝ)) : Prog Unit := do
  let x ← load r
  let old ← lift (pyIdx x i)
  if old.length ≠ v.length then lift (.error .valueError)
  else do
    let x' ← lift (pySet x i v)
    fun h => .ok ((), h.set r x')

/-- `x[i, j] = v`. -/
def setAt (r : ℕ) (i j : ℤ) (v : XF ℝ) : Prog Unit := do
  let x ← load r
  let old ← lift (pyIdx x i)
  let new ← lift (pySet old j v)
  let x' ← lift (pySet x i new)
  fun h => .ok ((), h.set r x')

/-- `for m in ms: body`. -/
def loop : List ℕ → (ℕ → Prog Unit) → Prog Unit
  | [], _ => pure ()
  | m :: ms, body => do
    body m
    loop ms body

/-- `np.zeros_like(x)`. -/
noncomputable def zerosLike (x : XMat) : XMat := x.map fun r => r.map fun _ => fin 0

/-- `np.where(c, x, y)` on rows. -/
def whereRow (c : List Bool) (x y : List (XF ℝ)) : List (XF ℝ) :=
  List.zipWith (fun (b : Bool) (p : XF ℝ × XF ℝ) => if b then p.1 else p.2) c (List.zipWith Prod.mk x y)

/-- `asymmetric_lowpass_filtering`, `pncc.py:83-96`, statement by statement. -/
noncomputable def asymLowpassP (q : ℕ) (lmA lmB : ℝ) : Prog ℕ := do
  let Q ← load q
  let out ← alloc (zerosLike Q)
  let q0 ← getRow q 0
  setRow out 0 (q0.map (fin 0.9 * ·))
  let O ← load out
  loop (List.range O.length) fun m => do
    let p1 ← getRow out ((m : ℤ) - 1)
    let x1 ← getRow q m
    let Q1 := List.zipWith (fun p x => fin lmA * p + fin (1 - lmA) * x) p1 x1
    let p2 ← getRow out ((m : ℤ) - 1)
    let x2 ← getRow q m
    let Q2 := List.zipWith (fun p x => fin lmB * p + fin (1 - lmB) * x) p2 x2
    let x3 ← getRow q m
    let p3 ← getRow out ((m : ℤ) - 1)
    setRow out m (whereRow (List.zipWith (fun x p => leb p x) x3 p3) Q1 Q2)
  pure out

/-- `temporal_masking`, `pncc.py:120-136`. -/
noncomputable def temporalMaskingP (q : ℕ) (lam myu : ℝ) : Prog ℕ := do
  let Q ← load q
  let tm ← alloc (zerosLike Q)
  let peak ← alloc (zerosLike Q)
  let q0 ← getRow q 0
  setRow tm 0 q0
  let q0' ← getRow q 0
  setRow peak 0 q0'
  loop (List.range' 1 (Q.length - 1)) fun m => do
    let p ← getRow peak ((m : ℤ) - 1)
    let x ← getRow q m
    setRow peak m (List.zipWith (fun p x => max2 (fin lam * p) x) p x)
    let x1 ← getRow q m
    let p1 ← getRow peak ((m : ℤ) - 1)
    let x2 ← getRow q m
    let p2 ← getRow peak ((m : ℤ) - 1)
    setRow tm m (whereRow (List.zipWith (fun x p => leb (fin lam * p) x) x1 p1) x2 (p2.map (fin myu * ·)))
  pure tm

/-- `weight_smoothing`, `pncc.py:162-173`. -/
noncomputable def weightSmoothingP (r q : ℕ) (L N : ℕ) : Prog ℕ := do
  let R ← load r
  let out ← alloc (zerosLike R)
  loop (List.range R.length) fun m =>
    loop (List.range (Np.ncols R)) fun l => do
      let l1 := wsLo N l
      let l2 := wsHi N L l
      if ((l2 : ℤ) - l1 + 1) = 0 then lift (.error .zeroDivisionError)
      else do
        let terms ← (List.range' l1 (l2 - l1)).mapM fun (k : ℕ) => do
          let a ← getAt r m k
          let b ← getAt q m k
          pure (a / b)
        setAt out m l (fin (1 / (((l2 : ℤ) - l1 + 1 : ℤ) : ℝ)) * terms.sum)
  pure out

/-- `mean_power_normalization`, `pncc.py:200-212`; `myu` is an array with one row. -/
noncomputable def meanPowerP (t : ℕ) (lam : ℝ) (L : ℕ) (k : ℝ) : Prog ℕ := do
  let T ← load t
  let myu ← alloc [List.replicate T.length (fin 0)]
  setAt myu 0 0 (fin 0.0001)
  loop (List.range' 1 (T.length - 1)) fun m => do
    let p ← getAt myu 0 ((m : ℤ) - 1)
    if L = 0 then lift (.error .zeroDivisionError)
    else do
      let terms ← (List.range L).mapM fun (l : ℕ) => getAt t m l
      setAt myu 0 m (fin lam * p + fin ((1 - lam) / L) * terms.sum)
  let T' ← load t
  let u ← getRow myu 0
  alloc (List.zipWith (fun r u => r.map fun v => fin k * v / u) T' u)

/-- `asymmetric_noise_suppression_with_temporal_masking`, `pncc.py:250-271`. -/
noncomputable def noiseSuppressionP (q : ℕ) (threshold : ℝ) : Prog ℕ := do
  let le ← asymLowpassP q 0.999 0.5
  let Q ← load q
  let LE ← load le
  let sub ← alloc (mapMat2 (fun q e => q - e) Q LE)
  let SUB ← load sub
  let q0 ← alloc (SUB.map fun r => r.map fun v => if ltb v (fin threshold) then fin 0 else v)
  let f ← asymLowpassP q0 0.999 0.5
  let tm ← temporalMaskingP q0 0.85 0.2
  let Q ← load q
  let LE ← load le
  let TM ← load tm
  let F ← load f
  alloc (mapMat2 (fun (b : Bool) (p : XF ℝ × XF ℝ) => if b then p.1 else p.2)
    (mapMat2 (fun q e => leb (fin 2 * e) q) Q LE) (mapMat2 Prod.mk TM F))

/-- The medium-time processing of `pncc`, `pncc.py:429-444`. -/
noncomputable def pnccNonlinP (p nfilts : ℕ) : Prog ℕ := do
  let P ← load p
  let q ← alloc (mediumTimePower P)
  let r ← noiseSuppressionP q 0
  let s ← weightSmoothingP r q nfilts 4
  let P ← load p
  let S ← load s
  let t ← alloc (mapMat2 (fun p s => p * s) P S)
  let u ← meanPowerP t 0.999 nfilts 1
  let U ← load u
  alloc (U.map fun r => r.map fun v => XF.pow v (1 / 15))

/-- `rasta_filter`, `filters.py:36-47`; the state `z` is a local variable that the loop carries along. -/
noncomputable def rastaLoopP (numer denom : List (XF ℝ)) (x y : ℕ) : List ℕ → List (XF ℝ) → Prog Unit
  | [], _ => pure ()
  | i :: is, z => do
    let r1 ← getRow x i
    let x0 ← getAt x i 0
    let (y1, z') := firZi numer (z.map (· * x0)) (r1.take 4)
    let y1 := y1.map (· * fin 0)
    let r2 ← getRow x i
    let y2 := (df2t numer denom z' (r2.drop 4)).1
    setRow y i (y1 ++ y2)
    rastaLoopP numer denom x y is z'

/-- `rasta_filter`, `filters.py:32-47`, for given filter coefficients and initial state. -/
noncomputable def rastaP (numer denom zi : List (XF ℝ)) (x : ℕ) : Prog ℕ := do
  let X ← load x
  let y ← alloc (zerosLike X)
  rastaLoopP numer denom x y (List.range X.length) zi
  pure y

/-- `fbank[j, mask] = v[mask]` for a boolean mask, as in `mel_fbanks.py:110-114`: the masked entries are overwritten. -/
def setMask (r : ℕ) (j : ℤ) (mask : List Bool) (v : List (XF ℝ)) : Prog Unit := do
  let old ← getRow r j
  setRow r j (whereRow mask v old)

/-- The filter loop of `mel_filter_banks_helper`, `mel_fbanks.py:104-118`, given the edge points and the scaling. -/
noncomputable def melBankP (pts : List (XF ℝ)) (nfilts nfft : ℕ) (low high : ℝ) (scaling : List ℝ) : Prog ℕ := do
  let freqs := (melFreqs nfft low high).map fin
  let fbank ← alloc (List.replicate nfilts (List.replicate (nfft / 2 + 1) (fin 0)))
  loop (List.range nfilts) fun j => do
    let lower := pts.getD j 0
    let center := pts.getD (j + 1) 0
    let upper := pts.getD (j + 2) 0
    setMask fbank j (freqs.map fun f => leb lower f == leb f center) (freqs.map fun f => (f - lower) / (center - lower))
    setMask fbank j (freqs.map fun f => leb center f == leb f upper) (freqs.map fun f => (upper - f) / (upper - center))
  let F ← load fbank
  alloc (List.zipWith (fun r (s : ℝ) => r.map (· * fin s)) F scaling)

/-- `for i, pts in enumerate(imel_fbanks): imel_fbanks[i] = pts[::-1]` and `np.abs`, `mel_fbanks.py:321-330`. The loop
overwrites the bank it was given. (`pts[::-1]` is a view of the row that is assigned to; numpy notices the overlap and copies.) -/
noncomputable def reverseRowsP (b : ℕ) : Prog ℕ := do
  let B ← load b
  loop (List.range B.length) fun i => do
    let pts ← getRow b i
    setRow b i pts.reverse
  let B' ← load b
  alloc (absMat B')

/-- What `np.lib.stride_tricks.as_strided` returns: for each entry the position in the array at address `base` that it
stands for. No data is copied, so entries with the same position are one and the same memory cell. -/
structure View where
  base : ℕ
  idx : List (List ℤ)

/-- One entry of a view. `as_strided` does not check bounds: a position outside of the array is undefined behaviour. -/
noncomputable def readCell (base : ℕ) (k : ℤ) : Prog (XF ℝ) := do
  let a ← load base
  if 0 ≤ k ∧ k < (a.headD []).length then pure ((a.headD []).getD k.toNat 0) else lift (.error .outOfBounds)

/-- The entries of a view. -/
noncomputable def readView (v : View) : Prog XMat := v.idx.mapM fun row => row.mapM (readCell v.base)

/-- `frames[i, j] = x` for a view: the memory cell is overwritten. -/
def writeView (v : View) (i j : ℕ) (x : XF ℝ) : Prog Unit := do
  let row ← lift (pyIdx v.idx i)
  let k ← lift (pyIdx row j)
  setAt v.base 0 k x

/-- `stride_trick`, `preprocessing.py:91-96`: the signal is copied (`a = np.array(a)`), the frames are views of the
copy. -/
def strideTrickP (r : ℕ) (strideLength strideStep : ℤ) : Prog View := do
  let a ← load r
  let b ← alloc [a.headD []]
  let q ← lift (pyFloorDiv (((a.headD []).length : ℤ) - strideLength) strideStep)
  if q + 1 < 0 ∨ strideLength < 0 then lift (.error .valueError)
  else pure ⟨b, (List.range (q + 1).toNat).map fun (i : ℕ) => (List.range strideLength.toNat).map fun (j : ℕ) =>
    (i : ℤ) * strideStep + j⟩

end Store
end Spafe
