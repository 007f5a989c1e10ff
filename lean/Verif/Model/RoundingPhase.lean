import Verif.Model.Rounding

/-! The phase sums of `psrcc` (`spafe/features/psrcc.py:151-172`) in floating point, as a relation like `Model/Rounding.lean`. -/

namespace Spafe
namespace Model

/-- The float run of `psrcc` for frame `i`: `pre_emphasis`, `framing` (a view, exact), `windowing` (`preprocessing.py:172`), `np.fft.rfft`,
`np.angle(deg=True)` (`psrcc.py:167-168`), the map to [0, 360) (`psrcc.py:169`; the products with 0 and 1 and the sum with 0 are exact), and
`np.dot(fft_phases, fbanks.T)` (`psrcc.py:172`). -/
structure FlPhase (fl : ℝ → ℝ) (fb : List (List ℝ)) (wv : ℕ → ℝ) (fft : (ℕ → ℝ) → ℕ → ℂ) (ang : ℂ → ℝ) (on : Bool)
    (c : ℝ) (x : List ℝ) (l s nfft i : ℕ) where
  /-- the pre-emphasised signal -/
  y : ℕ → ℝ
  emph : FlEmphasised fl on c x y
  /-- the phases -/
  phase : ℕ → ℝ
  phase_eq : ∀ k < nfft / 2 + 1, phase k =
    fl (360 + ang (fft (fun j => fl (y (i * s + j) * wv j)) k)) * (if ang (fft (fun j => fl (y (i * s + j) * wv j)) k) < 0 then 1 else 0) +
      ang (fft (fun j => fl (y (i * s + j) * wv j)) k) * (if 0 < ang (fft (fun j => fl (y (i * s + j) * wv j)) k) then 1 else 0)
  /-- the row of phase sums -/
  band : ℕ → ℝ
  band_dot : ∀ n < fb.length, FlDot fl phase (fun k => (fb.getD n []).getD k 0) (nfft / 2 + 1) (band n)

/-- The accuracy assumed of the arithmetic and of the library functions: roundoff `u`, `np.angle` in degrees within `α` relative (so
that it has the sign of the exact angle), window values within `ω` of the weights of the named window, `np.fft.rfft` within `δ`, its first bin and for even `nfft` its
last without imaginary part. -/
structure PhaseArithmetic (u α ω δ : ℝ) (fl : ℝ → ℝ) (fft : (ℕ → ℝ) → ℕ → ℂ) (ang : ℂ → ℝ) (wv : ℕ → ℝ) (name : String)
    (l nfft : ℕ) : Prop where
  round : Rounding u fl
  α0 : 0 ≤ α
  α1 : α < 1
  ω0 : 0 ≤ ω
  δ0 : 0 ≤ δ
  ang_err : ∀ z, |ang z - Complex.arg z * 180 / Real.pi| ≤ α * |Complex.arg z * 180 / Real.pi|
  window_err : ∀ j < l, |wv j - Spec.windowWeight name l j| ≤ ω
  fft_err : AccurateFft δ fft l nfft
  fft_real : ∀ z k, k = 0 ∨ 2 * k = nfft → (fft z k).im = 0

end Model
end Spafe
