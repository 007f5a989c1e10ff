import Verif.Model.Features
import Verif.Spec.Meaning

/-!
The computation of the spectrogram functions with rounding: every intermediate result is a rounded one. This is a
relation, because numpy is free to add in any order and to use fused multiply-add; a theorem about it holds for all
these runs. The rounding `fl` is any function with relative error at most `u` (`u = 2^-53` for `float64` as long as
nothing overflows or underflows). `np.fft.fft`, `np.absolute` and the window functions are library code: of them only
an accuracy is assumed, stated with each.
-/

namespace Spafe
namespace Model

/-- A rounding function with unit roundoff `u`. -/
structure Rounding (u : ℝ) (fl : ℝ → ℝ) : Prop where
  nonneg : 0 ≤ u
  err : ∀ t, |fl t - t| ≤ u * |t|

/-- `r` is a possible result of adding up the list in floating point: any order, any bracketing. -/
inductive FlSum (fl : ℝ → ℝ) : List ℝ → ℝ → Prop
  | one (x : ℝ) : FlSum fl [x] x
  | add {a b : List ℝ} {v w : ℝ} : FlSum fl a v → FlSum fl b w → FlSum fl (a ++ b) (fl (v + w))
  | perm {a b : List ℝ} {v : ℝ} : a.Perm b → FlSum fl a v → FlSum fl b v

/-- `r` is a possible floating-point dot product of `a 0 ... a (n-1)` and `b 0 ... b (n-1)`: every product is rounded,
or kept exact by a fused multiply-add. -/
def FlDot (fl : ℝ → ℝ) (a b : ℕ → ℝ) (n : ℕ) (r : ℝ) : Prop :=
  ∃ p : ℕ → ℝ, (∀ k < n, p k = a k * b k ∨ p k = fl (a k * b k)) ∧ FlSum fl ((List.range n).map p) r

/-- `y` is a possible result of `pre_emphasis(sig, c)` (`preprocessing.py:72`, the convolution with `[1, -c]`), or the
signal itself when `on` is false. -/
def FlEmphasised (fl : ℝ → ℝ) (on : Bool) (c : ℝ) (x : List ℝ) (y : ℕ → ℝ) : Prop :=
  ∀ t < x.length,
    if on then
      if t = 0 then FlDot fl (fun _ => 1) (fun _ => x.getD 0 0) 1 (y 0)
      else FlDot fl (fun i => if i = 0 then 1 else -c) (fun i => x.getD (t - i) 0) 2 (y t)
    else y t = x.getD t 0

/-- The float run of the code for frame `i`: `pre_emphasis`, `framing` (a view, exact), `windowing`
(`preprocessing.py:172`), `np.fft.fft`, `np.absolute`, `(1.0 / nfft) * np.square(...)`, `np.dot(..., fbanks.T)`
(`mfcc.py:138-162`; the same statements in the other spectrogram functions). -/
structure FlFrame (fl : ℝ → ℝ) (fb : List (List ℝ)) (wv : ℕ → ℝ) (fft : (ℕ → ℝ) → ℕ → ℂ) (abs : ℂ → ℝ) (on : Bool)
    (c : ℝ) (x : List ℝ) (l s nfft i : ℕ) where
  /-- the pre-emphasised signal -/
  y : ℕ → ℝ
  emph : FlEmphasised fl on c x y
  /-- the power spectrum -/
  power : ℕ → ℝ
  power_eq : ∀ k < nfft / 2 + 1, power k = fl (fl (1 / (nfft : ℝ)) *
    fl (abs (fft (fun j => fl (y (i * s + j) * wv j)) k) * abs (fft (fun j => fl (y (i * s + j) * wv j)) k)))
  /-- the row of band energies -/
  energy : ℕ → ℝ
  energy_dot : ∀ n < fb.length, FlDot fl power (fun k => (fb.getD n []).getD k 0) (nfft / 2 + 1) (energy n)

/-- Accuracy of the FFT on frames of `l` samples: an error of at most `δ` relative to the norm of the transform. -/
def AccurateFft (δ : ℝ) (fft : (ℕ → ℝ) → ℕ → ℂ) (l nfft : ℕ) : Prop :=
  ∀ z : ℕ → ℝ, ∑ k ∈ Finset.range (nfft / 2 + 1), ‖fft z k - Spec.frameBin (fun _ => 1) z l 0 nfft 0 k‖ ^ 2 ≤
    δ ^ 2 * (nfft * ∑ j ∈ Finset.range l, z j ^ 2)

/-- The accuracy assumed of the arithmetic and of the library functions: roundoff `u`, `np.absolute` within `v` relative,
window values within `ω` of the weights of the named window, FFT within `δ`. -/
structure Arithmetic (u v ω δ : ℝ) (fl : ℝ → ℝ) (fft : (ℕ → ℝ) → ℕ → ℂ) (abs : ℂ → ℝ) (wv : ℕ → ℝ) (name : String)
    (l nfft : ℕ) : Prop where
  round : Rounding u fl
  v0 : 0 ≤ v
  ω0 : 0 ≤ ω
  δ0 : 0 ≤ δ
  abs_err : ∀ z, |abs z - ‖z‖| ≤ v * ‖z‖
  window_err : ∀ j < l, |wv j - Spec.windowWeight name l j| ≤ ω
  fft_err : AccurateFft δ fft l nfft

end Model
end Spafe
