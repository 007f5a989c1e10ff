import Verif.Basic.Np

/-!
End-to-end specification of the cepstral features, written from the definitions in the literature and not from the
code: window weights, pre-emphasis, power of a DFT bin, band energies, orthonormal DCT.
-/

namespace Spafe
namespace Spec

open Real

/-- The window weights by name, in their textbook form. -/
noncomputable def windowWeight (name : String) (M i : ℕ) : ℝ :=
  if M = 1 then 1
  else if name = "hanning" then (1 - cos (2 * π * i / (M - 1))) / 2
  else if name = "hamming" then 0.54 - 0.46 * cos (2 * π * i / (M - 1))
  else if name = "blackman" then 0.42 - 0.5 * cos (2 * π * i / (M - 1)) + 0.08 * cos (4 * π * i / (M - 1))
  else if name = "bartlet" then 1 - |2 * (i : ℝ) / (M - 1) - 1|
  else Np.i0 (14 * √(1 - (2 * (i : ℝ) / (M - 1) - 1) ^ 2)) / Np.i0 14

/-- The signal after optional pre-emphasis with coefficient `c`, as a function of time. -/
noncomputable def emphasised (on : Bool) (c : ℝ) (x : List ℝ) (t : ℕ) : ℝ :=
  if on then x.getD t 0 - (if t = 0 then 0 else c * x.getD (t - 1) 0) else x.getD t 0

/-- DFT bin `k` (of `nfft`) of the windowed frame of `l` samples that starts at sample `i * s`. -/
noncomputable def frameBin (w y : ℕ → ℝ) (l s nfft i k : ℕ) : ℂ :=
  ∑ j ∈ Finset.range (min l nfft),
    ((w j * y (i * s + j) : ℝ) : ℂ) * Complex.exp (-(2 * π * Complex.I * (j * k) / nfft))

/-- Its power `|X|² / nfft`. -/
noncomputable def framePower (w y : ℕ → ℝ) (l s nfft i k : ℕ) : ℝ := ‖frameBin w y l s nfft i k‖ ^ 2 / nfft

/-- The energy of frame `i` in band `n` of the filter bank `fb`. -/
noncomputable def bandEnergy (fb : List (List ℝ)) (w y : ℕ → ℝ) (l s nfft i n : ℕ) : ℝ :=
  ∑ k ∈ Finset.range (nfft / 2 + 1), framePower w y l s nfft i k * (fb.getD n []).getD k 0

/-- The phase of a bin in degrees, in `[0, 360)`. -/
noncomputable def phaseDegrees (z : ℂ) : ℝ :=
  if Complex.arg z < 0 then Complex.arg z * 180 / π + 360 else Complex.arg z * 180 / π

/-- The phases of frame `i` weighted by band `n` of the filter bank. -/
noncomputable def bandPhase (fb : List (List ℝ)) (w y : ℕ → ℝ) (l s nfft i n : ℕ) : ℝ :=
  ∑ k ∈ Finset.range (nfft / 2 + 1), phaseDegrees (frameBin w y l s nfft i k) * (fb.getD n []).getD k 0

/-- Coefficient `k` of the orthonormal DCT-II of `y 0, ..., y (N-1)`. -/
noncomputable def dctII (N : ℕ) (y : ℕ → ℝ) (k : ℕ) : ℝ :=
  √(2 / N) * (if k = 0 then 1 / √2 else 1) * ∑ n ∈ Finset.range N, y n * cos (π * k * (2 * n + 1) / (2 * N))

/-- Logarithm with the floor used for zero energies. -/
noncomputable def logFloor (e : ℝ) : ℝ := Real.log (if e = 0 then 1 / 2 ^ 52 else e)

/-- The intensity/loudness law of `bfcc`, `((E²+56.8e6) E⁴ / ((E²+6.3e6)(E²+0.38e9)(E⁶+9.58e26)))^(1/3)`. -/
noncomputable def intensity (e : ℝ) : ℝ :=
  ((e ^ 2 + 56.8 * 10 ^ 6) * e ^ 4 /
    ((e ^ 2 + 6.3 * 10 ^ 6) * (e ^ 2 + 0.38 * 10 ^ 9) * (e ^ 6 + 9.58 * 10 ^ 26))) ^ (1 / 3 : ℝ)

end Spec
end Spafe
