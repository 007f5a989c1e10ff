import Verif.Basic.Np

/-! Independent specification of the constant-Q transform. -/

namespace Spafe
namespace Spec

/-- The quality factor for `B` bins per octave. -/
noncomputable def qFactor (q : ℝ) (B : ℕ) : ℝ := q / (2 ^ (1 / (B : ℝ)) - 1)

/-- The window length of frequency `f`. -/
noncomputable def winLen (fs q : ℝ) (B : ℕ) (f : ℝ) : ℤ := ⌈qFactor q B * fs / f⌉

/-- The geometric grid of `O` octaves of `B` frequencies starting at `f0`. -/
noncomputable def grid (f0 : ℝ) (O B : ℕ) : List ℝ := (List.range (O * B)).map fun (i : ℕ) => f0 * 2 ^ ((i : ℝ) / B)

open Classical in
/-- The frequencies of the grid in `[low, high]`. -/
noncomputable def inBand (f0 : ℝ) (O B : ℕ) (low high : ℝ) : List ℝ :=
  (grid f0 O B).filter fun f => decide (low ≤ f ∧ f ≤ high)

open Classical in
/-- The frequencies of the band whose window fits into `nfft` samples. -/
noncomputable def admissible (f0 : ℝ) (O B : ℕ) (low high fs q : ℝ) (nfft : ℕ) : List ℝ :=
  (inBand f0 O B low high).filter fun f => decide (winLen fs q B f ≤ nfft)

/-- The constant-Q coefficient of a frame at `f`: the mean over `N` samples, centred in `nfft`, of the samples times
the window times `exp(-2πi f m / fs)`. -/
noncomputable def cqCoeff (nfft : ℕ) (fs f : ℝ) (N : ℕ) (w : ℕ → ℝ) (x : ℕ → ℝ) : ℂ :=
  (1 / (N : ℂ)) * ∑ m ∈ Finset.range N, (x ((nfft - N) / 2 + m) : ℂ) * (w m : ℂ) *
    Complex.exp (-(2 * Real.pi * Complex.I * (f / fs) * m))

end Spec
end Spafe
