import Mathlib.Analysis.SpecialFunctions.Complex.Log
import Mathlib.Analysis.SpecialFunctions.Log.Base
import Verif.Basic.Np

/-! What `get_dominant_frequencies` is about: the strongest bin of a one-sided spectrum and its frequency. -/

namespace Spafe
namespace Spec

/-- `k` is the strongest bin of the one-sided `nfft`-point spectrum of `w`, the first one if there are several. -/
def StrongestBin (nfft : ℕ) (w : List ℝ) (k : ℕ) : Prop :=
  k ≤ nfft / 2 ∧ (∀ j ≤ nfft / 2, ‖Np.dft w nfft j‖ ≤ ‖Np.dft w nfft k‖) ∧
    ∀ j < k, ‖Np.dft w nfft j‖ < ‖Np.dft w nfft k‖

/-- The frequency in Hz of bin `k` of an `nfft`-point transform. -/
noncomputable def trueFreq (fs : ℝ) (nfft k : ℕ) : ℝ := k * fs / nfft

/-- The value that is looked up for bin `k` instead: the two-sided frequency grid of `nfft/2 + 1` points. -/
noncomputable def gridFreq (fs : ℝ) (nfft k : ℕ) : ℝ :=
  if 2 * k ≤ nfft / 2 then k * fs / (nfft / 2 + 1 : ℕ) else (k * fs / (nfft / 2 + 1 : ℕ)) - fs

/-- Frame number `i` of a signal: `l` samples from `i * s` on, weighted by `w`. -/
def windowedFrame (x w : List ℝ) (l s i : ℕ) : List ℝ := List.zipWith (· * ·) w ((x.drop (i * s)).take l)

/-- `r` is a multiple of 0.001 nearest to `x`. -/
def Rounded3 (x r : ℝ) : Prop := (∃ n : ℤ, r = n / 1000) ∧ |r - x| ≤ 1 / 2000

end Spec
end Spafe
