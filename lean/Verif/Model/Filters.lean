import Verif.Basic.Np

/-! Model of `spafe/utils/filters.py`. -/

namespace Spafe
namespace Model

variable {α : Type} [Field α] [LinearOrder α]

/-- `numer`, `filters.py:32-33`: `-arange(-2, 3) / sum(arange(-2, 3)**2)` = `[2, 1, 0, -1, -2] / 10`. -/
def rastaNumer : List α :=
  ([-2, -1, 0, 1, 2] : List α).map fun v => (-1 * v) / (([-2, -1, 0, 1, 2] : List α).map (· ^ 2)).sum

/-- `signal.lfilter_zi(b, 1)`, `filters.py:36`: the state for which a step input gives a constant output,
`zi[k] = b[k+1] + ... + b[m-1]` for an FIR filter. -/
def lfilterZiFir (b : List α) : List α :=
  (List.range (b.length - 1)).map fun (k : ℕ) => (b.drop (k + 1)).sum

/-- One input sample of a direct form II transposed filter (`signal.lfilter`): output `b0 x + z0`,
new state `z_k' = z_{k+1} + b_{k+1} x - a_{k+1} y` (`a0 = 1`; missing coefficients are 0). -/
def df2tStep {α : Type} [Zero α] [Add α] [Sub α] [Mul α] (b a z : List α) (x : α) : α × List α :=
  let y := b.getD 0 0 * x + z.getD 0 0
  (y, (List.range z.length).map fun (k : ℕ) =>
    z.getD (k + 1) 0 + b.getD (k + 1) 0 * x - a.getD (k + 1) 0 * y)

/-- `signal.lfilter(b, a, xs, zi=z)` for a state of length `max(len(a), len(b)) - 1`. -/
def df2t {α : Type} [Zero α] [Add α] [Sub α] [Mul α] (b a : List α) : List α → List α → List α × List α
  | z, [] => ([], z)
  | z, x :: xs =>
    let (y, z') := df2tStep b a z x
    let (ys, z'') := df2t b a z' xs
    (y :: ys, z'')

/-- `signal.lfilter(b, 1, x, zi=z)`: scipy takes a separate path when the denominator has one coefficient, the full
convolution of `b` and `x` plus `z` in front. Output: its first `len(x)` entries; final state: the others. -/
def firZi {α : Type} [Zero α] [Add α] [Mul α] (b z x : List α) : List α × List α :=
  let full := (List.range (x.length + b.length - 1)).map fun (n : ℕ) =>
    ((List.range b.length).map fun (i : ℕ) =>
      if i ≤ n ∧ n - i < x.length then b.getD i 0 * x.getD (n - i) 0 else 0).sum + z.getD n 0
  (full.take x.length, full.drop x.length)

/-- The loop of `rasta_filter`, `filters.py:39-46`. The state `z` left by the FIR call of one row is multiplied
by the next row's first sample. `x[i, 0]` needs at least one column; `x[i, 0:4]` needs four columns to make the
appended result as long as the row only in the sense that both parts together always have the row's length. -/
def rastaRows {α : Type} [Zero α] [Add α] [Sub α] [Mul α] (numer denom : List α) : List α → List (List α) → Py (List (List α))
  | _, [] => .ok []
  | z, r :: rs =>
    match r with
    | [] => .error .indexError
    | x0 :: _ =>
      let (y1, z') := firZi numer (z.map (· * x0)) (r.take 4)
      let y2 := (df2t numer denom z' (r.drop 4)).1
      match rastaRows numer denom z' rs with
      | .error e => .error e
      | .ok rest => .ok ((y1.map (· * 0) ++ y2) :: rest)

/-- `rasta_filter`, `filters.py:17-47`. (Exact arithmetic: the unused state after the IIR call is dropped.) -/
def rastaFilter (x : List (List α)) : Py (List (List α)) :=
  rastaRows rastaNumer [1, -(94 / 100)] (lfilterZiFir rastaNumer) x

/-- `scale_fbank`, `filters.py:50-75`: a column vector, or `KeyError`. -/
def scaleFbank (scale : String) (nfilts : ℕ) : Py (List α) :=
  if scale = "ascendant" then .ok ((List.range nfilts).map fun (i : ℕ) => ((i : α) + 1) / nfilts)
  else if scale = "descendant" then .ok ((List.range nfilts).map fun (i : ℕ) => ((nfilts : α) - (i : α)) / nfilts)
  else if scale = "constant" then .ok (List.replicate nfilts 1)
  else .error .keyError

end Model
end Spafe
