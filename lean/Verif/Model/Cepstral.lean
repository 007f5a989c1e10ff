import Verif.Basic.Np

/-! Model of `spafe/utils/cepstral.py`. Matrices have extended-float entries. -/

namespace Spafe
namespace Model

open XF

/-- A matrix of extended floats, as a list of rows. -/
abbrev XMat := List (List (XF ℝ))

/-- Number of rows as an extended float. -/
noncomputable def xlen {β : Type} (l : List β) : XF ℝ := fin (l.length : ℝ)

/-- `np.mean` of a flat list. -/
noncomputable def xmean (l : List (XF ℝ)) : XF ℝ := l.sum / xlen l

/-- `np.std` of a flat list (population). -/
noncomputable def xstd (l : List (XF ℝ)) : XF ℝ :=
  XF.sqrt ((l.map fun v => (v - xmean l) * (v - xmean l)).sum / xlen l)

/-- `np.max` of a non-empty flat list. -/
noncomputable def xmax : List (XF ℝ) → XF ℝ
  | [] => nan
  | a :: l => l.foldl max2 a

/-- `np.min` of a non-empty flat list. -/
noncomputable def xmin : List (XF ℝ) → XF ℝ
  | [] => nan
  | a :: l => l.foldl min2 a

/-- `np.mean(x, axis=0)` for a matrix with `c` columns. -/
noncomputable def colMeans (x : XMat) (c : ℕ) : List (XF ℝ) :=
  (List.range c).map fun (j : ℕ) => xmean (Np.col x j)

/-- `x - v` with the row vector `v` broadcast over the rows. -/
noncomputable def subRow (x : XMat) (v : List (XF ℝ)) : XMat :=
  x.map fun r => List.zipWith (· - ·) r v

/-- `normalize_ceps`, `cepstral.py:17-56`. The dictionary display evaluates all four entries first, so an empty
matrix raises `ValueError` (from `np.max`) whatever the name; then an unknown name raises `KeyError`.
`x` is a matrix of `shape[1] = c` columns. -/
noncomputable def normalizeCeps (x : XMat) (c : ℕ) (normalizationType : String) : Py XMat :=
  if x.flatten = [] then .error .valueError
  else if normalizationType = "mvn" then
    .ok ((subRow x (colMeans x c)).map fun r => r.map (· / xstd x.flatten))
  else if normalizationType = "ms" then .ok (subRow x (colMeans x c))
  else if normalizationType = "vn" then .ok (x.map fun r => r.map (· / xstd x.flatten))
  else if normalizationType = "mn" then
    .ok (x.map fun r => r.map fun v => (v - xmean x.flatten) / (xmax x.flatten - xmin x.flatten))
  else .error .keyError

/-- `lift_vec` for positive `lift`, `cepstral.py:86`: `[1] + [i**lift for i in range(1, c)]`
(one entry even when there are no columns). -/
noncomputable def liftVecPos (lift : ℝ) (c : ℕ) : List ℝ :=
  1 :: (List.range (c - 1)).map fun (i : ℕ) => ((i : ℝ) + 1) ^ lift

/-- `lift_vec` for non-positive `lift`, `cepstral.py:91-94`. `lift = int(-lift)`; for `-1 < lift < 0` that is 0
and `np.pi * k / 0 = inf`, `sin(inf) = nan`. -/
noncomputable def liftVecNeg (lift : ℝ) (c : ℕ) : List (XF ℝ) :=
  let L : ℤ := pyInt (-1 * lift)
  (List.range c).map fun (i : ℕ) =>
    if L = 0 then nan else fin (1 + ((L : ℝ) / 2) * Real.sin (Real.pi * ((i : ℝ) + 1) / L))

/-- Row `r` of `np.dot(ceps, np.diag(v))`: entry `j` is `Σ_i r[i] * diag(v)[i][j]`, including the products with
the zeros off the diagonal (so one NaN/inf entry makes its whole row NaN). -/
noncomputable def dotDiag (r : List (XF ℝ)) (v : List ℝ) : List (XF ℝ) :=
  (List.range v.length).map fun (j : ℕ) =>
    ∑ i ∈ Finset.range r.length, r.getD i 0 * fin (if i = j then v.getD i 0 else 0)

/-- `lifter_ceps`, `cepstral.py:59-95`, for a matrix with `c` columns. `np.dot` with the `1 × 1` matrix raises
`ValueError` when there are no columns. -/
noncomputable def lifterCeps (ceps : XMat) (c : ℕ) (lift : ℝ) : Py XMat :=
  if lift = 0 ∨ lift > 10 then .ok ceps
  else if lift > 0 then
    if c = 0 then .error .valueError
    else .ok (ceps.map fun r => dotDiag r (liftVecPos lift c))
  else .ok (ceps.map fun r => List.zipWith (· * ·) r (liftVecNeg lift c))

section
variable {α : Type} [Field α]

/-- `win`, `cepstral.py:113-114`: `arange(h, -(h+1), -1)` = `[h, h-1, ..., -h]`. -/
def deltaWin (h : ℕ) : List α := (List.range (2 * h + 1)).map fun (i : ℕ) => (h : α) - (i : α)

/-- One row of `xx`, `cepstral.py:116-120`: the row with its end values repeated `h` times. -/
def padRow (h : ℕ) (r : List α) : List α :=
  List.replicate h (r.getD 0 0) ++ r ++ List.replicate h (r.getD (r.length - 1) 0)

/-- One row of `deltas`, `cepstral.py:122`. -/
def deltaRow (h : ℕ) (r : List α) : List α :=
  ((Np.firFilter (deltaWin h) (padRow h r)).drop (2 * h)).take r.length

/-- `deltas`, `cepstral.py:98-123`, for an integer `w` and a matrix with `c` columns: `x[:, 0]` raises `IndexError`
when there are no columns (:117). `hlen = floor(w / 2)` (:113); for negative `w` it is negative and `np.tile` raises
`ValueError` (:117). `lfilter(win, 1, xx, axis=1)` (:122) is `np.apply_along_axis` of a convolution, which raises
`ValueError` when there are no rows. -/
def deltas (x : List (List α)) (c : ℕ) (w : ℤ) : Py (List (List α)) :=
  if c = 0 then .error .indexError
  else if w < 0 then .error .valueError
  else if x.length = 0 then .error .valueError
  else .ok (x.map (deltaRow (w / 2).toNat))

end

end Model
end Spafe
