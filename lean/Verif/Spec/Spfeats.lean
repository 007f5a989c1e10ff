import Mathlib.Analysis.SpecialFunctions.Pow.Real
import Mathlib.Analysis.Complex.Norm

/-! What the spectral descriptors of `spfeats.py` are meant to be, in terms of magnitudes and bin frequencies. -/

namespace Spafe
namespace Spec

/-- The magnitude of bin `k` of the spectrum `s`. -/
noncomputable def mag (s : List ℂ) (k : ℕ) : ℝ := ‖s.getD k 0‖

/-- The sum of all magnitudes. -/
noncomputable def total (s : List ℂ) : ℝ := ∑ k ∈ Finset.range s.length, mag s k

/-- The absolute frequency in Hz of bin `k` of a full FFT of length `n`: how far `k * fs / n` is from `0` or `fs`. -/
noncomputable def binFreq (fs : ℝ) (n k : ℕ) : ℝ := min (k : ℝ) ((n : ℝ) - k) * fs / n

/-- The `i`-th moment of the frequency, weighted with the magnitudes. -/
noncomputable def barycenter (fs : ℝ) (s : List ℂ) (i : ℕ) : ℝ :=
  (∑ k ∈ Finset.range s.length, mag s k * binFreq fs s.length k ^ i) / total s

/-- The central moment of order `p` divided by `μ₂ ^ p`. -/
noncomputable def centralMoment (p : ℕ) (fs : ℝ) (s : List ℂ) : ℝ :=
  (∑ k ∈ Finset.range s.length, mag s k * (binFreq fs s.length k - barycenter fs s 1) ^ p) /
    (total s * barycenter fs s 2 ^ p)

/-- Geometric mean over arithmetic mean. -/
noncomputable def flatness (s : List ℂ) : ℝ :=
  (∏ k ∈ Finset.range s.length, mag s k) ^ (1 / (s.length : ℝ)) / (total s / s.length)

/-- The `p`-norm of the steps between neighbouring magnitudes. -/
noncomputable def flux (s : List ℂ) (p : ℕ) : ℝ :=
  (∑ k ∈ Finset.range (s.length - 1), |mag s (k + 1) - mag s k| ^ p) ^ (1 / (p : ℝ))

/-- The documented spread: the square root of the variance of the frequency around the centroid. -/
noncomputable def spread (fs : ℝ) (s : List ℂ) : ℝ :=
  √((∑ k ∈ Finset.range s.length, (binFreq fs s.length k - barycenter fs s 1) ^ 2 * mag s k) / total s)

end Spec
end Spafe
