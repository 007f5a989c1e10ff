import Verif.Lemmas.XF
import Mathlib.Analysis.SpecialFunctions.Trigonometric.Basic
import Mathlib.Analysis.SpecialFunctions.Exponential
import Mathlib.Topology.Algebra.InfiniteSum.Basic

/-!
# numpy / scipy primitives used by the model

One-dimensional arrays are lists, matrices are lists of rows. `x.getD j 0` is used where numpy/scipy itself
zero-pads (FFT of a short frame, zero history of a filter, convolution borders).
-/

namespace Spafe
namespace Np

open Real

section generic
variable {α : Type}

/-- `np.linspace(start, stop, n)` (end point included). -/
def linspace [Field α] (start stop : α) (n : ℕ) : List α :=
  if n = 1 then [start]
  else (List.range n).map fun (i : ℕ) => start + (i : α) * ((stop - start) / ((n : α) - 1))

/-- `np.mean` of a list (numpy gives NaN for an empty list; callers guard against that). -/
def mean [Field α] (l : List α) : α := l.sum / (l.length : α)

/-- `np.var` (population variance). -/
def var [Field α] (l : List α) : α := (l.map fun v => (v - mean l) ^ 2).sum / (l.length : α)

/-- Column `j` of a matrix. -/
def col [Zero α] (m : List (List α)) (j : ℕ) : List α := m.map fun r => r.getD j 0

/-- Number of columns (`shape[1]`), the length of the first row. -/
def ncols (m : List (List α)) : ℕ := (m.headD []).length

/-- All rows have length `c`. -/
def Rect (m : List (List α)) (c : ℕ) : Prop := ∀ r ∈ m, r.length = c

/-- Element `(i, j)` of a matrix (0 outside; only used inside the bounds). -/
def at2 [Zero α] (m : List (List α)) (i j : ℕ) : α := (m.getD i []).getD j 0

/-- `a.T` for an `r × c` matrix (`c` given explicitly, as numpy knows it even when there are no rows). -/
def transpose [Zero α] (m : List (List α)) (c : ℕ) : List (List α) :=
  (List.range c).map fun (j : ℕ) => col m j

/-- `np.dot(v, w)` of two vectors of equal length. -/
def dot [Mul α] [Add α] [Zero α] (v w : List α) : α := (List.zipWith (· * ·) v w).sum

/-- `np.dot(X, W.T)`: every row of `X` against every row of `W`. -/
def dotT [Mul α] [Add α] [Zero α] (x w : List (List α)) : List (List α) :=
  x.map fun r => w.map fun f => dot r f

/-- `scipy.signal.lfilter(b, 1, x)`: `y[n] = Σ_i b[i] x[n-i]`, zero history. -/
def firFilter [Field α] (b x : List α) : List α :=
  (List.range x.length).map fun (n : ℕ) =>
    ∑ i ∈ Finset.range b.length, if i ≤ n then b.getD i 0 * x.getD (n - i) 0 else 0

/-- First index of a maximal element, `np.argmax` (of a non-empty list without NaN). -/
def argmax [Zero α] [LT α] [DecidableLT α] (l : List α) : ℕ :=
  (List.range l.length).foldl (fun best i => if l.getD best 0 < l.getD i 0 then i else best) 0

end generic

/-- `np.fft.fftfreq(n, d=1/fs)[i]`: `i*fs/n` for the first half, `(i-n)*fs/n` for the rest. -/
noncomputable def fftfreq (n : ℕ) (fs : ℝ) : List ℝ :=
  (List.range n).map fun (i : ℕ) => (if i ≤ (n - 1) / 2 then (i : ℝ) else (i : ℝ) - n) * fs / n

/-- The DFT sum of length `n` at bin `k`, `np.fft.fft(x, n)[k]` for complex samples `x`. -/
noncomputable def dftC (x : ℕ → ℂ) (n k : ℕ) : ℂ :=
  ∑ j ∈ Finset.range n, x j * Complex.exp (-(2 * π * Complex.I * (j * k) / n))

/-- `np.fft.fft(x, n)[k]` of a real list: `x` is cropped to / zero-padded to `n` samples. -/
noncomputable def dft (x : List ℝ) (n k : ℕ) : ℂ := dftC (fun j => ((x.getD j 0 : ℝ) : ℂ)) n k

/-- `np.abs(np.fft.rfft(x, n))` = `np.abs(np.fft.fft(x, n)[: n // 2 + 1])`. -/
noncomputable def absRfft (n : ℕ) (x : List ℝ) : List ℝ :=
  (List.range (n / 2 + 1)).map fun (k : ℕ) => ‖dft x n k‖

/-- `scipy.fftpack.dct(x, type, norm="ortho")` as a kernel: output `k` is `Σ_n kernel k n * x[n]`.
Types 1-4 as documented by scipy. -/
noncomputable def dctKernel (type N k n : ℕ) : ℝ :=
  match type with
  | 1 =>
    let e : ℝ := if n = 0 ∨ n = N - 1 then √2 else 2
    let f : ℝ := if k = 0 ∨ k = N - 1 then √(1 / ((N : ℝ) - 1)) / 2 else √(2 / ((N : ℝ) - 1)) / 2
    f * e * cos (π * k * n / ((N : ℝ) - 1))
  | 2 =>
    let f : ℝ := if k = 0 then √(1 / (4 * N)) else √(1 / (2 * N))
    2 * f * cos (π * k * (2 * n + 1) / (2 * N))
  | 3 =>
    if n = 0 then 1 / √N else √(2 / N) * cos (π * (2 * k + 1) * n / (2 * N))
  | _ => √(2 / N) * cos (π * (2 * k + 1) * (2 * n + 1) / (4 * N))

/-- One row of `dct(x, type=t, axis=1, norm="ortho")` on extended floats. (For a row with an infinite entry scipy's fast
algorithm forms other intermediate sums than this one and may return NaN where this sum is infinite.) -/
noncomputable def dctRow (type : ℕ) (row : List (XF ℝ)) : List (XF ℝ) :=
  (List.range row.length).map fun (k : ℕ) =>
    ∑ n ∈ Finset.range row.length, XF.fin (dctKernel type row.length k n) * row.getD n 0

/-- `dct(m, type=t, axis=1, norm="ortho")`: `ValueError` for an unknown type, for zero columns, and for type 1
on fewer than two columns. (scipy checks in this order only up to the exception class.) -/
noncomputable def dct (type : ℕ) (c : ℕ) (m : List (List (XF ℝ))) : Py (List (List (XF ℝ))) :=
  if type < 1 ∨ 4 < type then .error .valueError
  else if c < 1 then .error .valueError
  else if type = 1 ∧ c < 2 then .error .valueError
  else .ok (m.map (dctRow type))

/-- Modified Bessel function `np.i0` (numpy evaluates a Chebyshev approximation of this series). -/
noncomputable def i0 (x : ℝ) : ℝ := ∑' k : ℕ, ((x / 2) ^ k / (k.factorial : ℝ)) ^ 2

/-- `np.hamming(M)[i]`. -/
noncomputable def hammingAt (M i : ℕ) : ℝ :=
  if M = 1 then 1 else 0.54 + 0.46 * cos (π * (1 - M + 2 * i) / (M - 1))
/-- `np.hanning(M)[i]`. -/
noncomputable def hanningAt (M i : ℕ) : ℝ :=
  if M = 1 then 1 else 0.5 + 0.5 * cos (π * (1 - M + 2 * i) / (M - 1))
/-- `np.bartlett(M)[i]`. -/
noncomputable def bartlettAt (M i : ℕ) : ℝ :=
  if M = 1 then 1 else
    if (1 - M + 2 * i : ℝ) ≤ 0 then 1 + (1 - M + 2 * i) / (M - 1) else 1 - (1 - M + 2 * i) / (M - 1)
/-- `np.blackman(M)[i]`. -/
noncomputable def blackmanAt (M i : ℕ) : ℝ :=
  if M = 1 then 1 else
    0.42 + 0.5 * cos (π * (1 - M + 2 * i) / (M - 1)) + 0.08 * cos (2 * π * (1 - M + 2 * i) / (M - 1))
/-- `np.kaiser(M, beta)[i]`. -/
noncomputable def kaiserAt (beta : ℝ) (M i : ℕ) : ℝ :=
  if M = 1 then 1 else
    i0 (beta * √(1 - ((i - ((M : ℝ) - 1) / 2) / (((M : ℝ) - 1) / 2)) ^ 2)) / i0 beta

end Np
end Spafe
