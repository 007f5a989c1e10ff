import Verif.Model.Rounding
import Verif.Model.Dominant

/-! `get_dominant_frequencies` (`frequencies/dominant_frequencies.py`, without the filter) with rounding. -/

namespace Spafe
namespace Model

/-- The power spectrum of frame `i` in floating point (`dominant_frequencies.py:130-142`): the windowed samples, the FFT, the
magnitudes `(1 / nfft) * np.abs(...)` and the powers `(1 / nfft) * magnitude_spectrum**2`. -/
noncomputable def flPower (fl : ℝ → ℝ) (wv : ℕ → ℝ) (fft : (ℕ → ℝ) → ℕ → ℂ) (abs : ℂ → ℝ) (x : List ℝ) (s nfft i k : ℕ) : ℝ :=
  let mag := fl (fl (1 / (nfft : ℝ)) * abs (fft (fun j => fl (x.getD (i * s + j) 0 * wv j)) k))
  fl (fl (1 / (nfft : ℝ)) * fl (mag * mag))

/-- `k` is the result of `np.argmax(power_spectrum)` (`dominant_frequencies.py:148`) in floating point: the first of the
largest powers. -/
def FlDominantBin (fl : ℝ → ℝ) (wv : ℕ → ℝ) (fft : (ℕ → ℝ) → ℕ → ℂ) (abs : ℂ → ℝ) (x : List ℝ) (s nfft i k : ℕ) : Prop :=
  k ≤ nfft / 2 ∧ (∀ j ≤ nfft / 2, flPower fl wv fft abs x s nfft i j ≤ flPower fl wv fft abs x s nfft i k) ∧
    ∀ j < k, flPower fl wv fft abs x s nfft i j < flPower fl wv fft abs x s nfft i k

/-- The value reported for bin `k` in floating point: `np.fft.fftfreq(n, 1 / fs)[k]` with `n = nfft // 2 + 1`
(`dominant_frequencies.py:145-151`; numpy computes `q * (1 / (n * d))` with the integer `q = k` or `k - n`), then
`np.round(..., 3)` (:158; `rint(v * 1000) / 1000`). -/
noncomputable def flDominantValue (fl : ℝ → ℝ) (fs : ℝ) (nfft k : ℕ) : ℝ :=
  let n := nfft / 2 + 1
  let q : ℝ := if 2 * k ≤ nfft / 2 then k else (k : ℝ) - n
  let v := fl (q * fl (1 / fl (n * fl (1 / fs))))
  fl ((roundHalfEven (fl (v * 1000)) : ℝ) / 1000)

end Model
end Spafe
