import Verif.Model.Rounding
import Verif.Model.Spfeats

/-!
`spectral_centroid`, `spectral_flatness`, `spectral_flux` (`features/spfeats.py`) with rounding, as relations like those of
`Model/Rounding.lean`. `np.abs`, powers, `np.log`, `np.exp` and square roots are library functions (`abs`, `pw`, `lg`, `ex`, `rt`)
of which only an accuracy is assumed.
-/

namespace Spafe
namespace Model

/-- Entry `k` of `np.abs(np.fft.fftfreq(n, 1.0 / fs))`, `spfeats.py:55`, with rounding: `fftfreq` multiplies the integers
`0, 1, ..., -2, -1` with `1.0 / (n * d)`, where `d = 1.0 / fs`. -/
noncomputable def flFreq (fl : ℝ → ℝ) (fs : ℝ) (n k : ℕ) : ℝ :=
  |fl ((if k ≤ (n - 1) / 2 then (k : ℝ) else (k : ℝ) - n) * fl (1 / fl (n * fl (1 / fs))))|

/-- `r` is a possible result of `spectral_centroid` (`spfeats.py:52-59`) of order `i`. -/
def FlCentroid (fl : ℝ → ℝ) (abs : ℂ → ℝ) (pw : ℝ → ℕ → ℝ) (fs : ℝ) (s : List ℂ) (i : ℕ) (r : ℝ) : Prop :=
  ∃ num den, FlDot fl (fun k => abs (s.getD k 0)) (fun k => pw (flFreq fl fs s.length k) i) s.length num ∧
    FlSum fl ((List.range s.length).map fun (k : ℕ) => abs (s.getD k 0)) den ∧ r = fl (num / den)

/-- `r` is a possible result of `spectral_flatness` (`spfeats.py:207-211`): `gmean` is `exp` of the mean of the logarithms. -/
def FlFlatness (fl : ℝ → ℝ) (abs : ℂ → ℝ) (lg ex : ℝ → ℝ) (s : List ℂ) (r : ℝ) : Prop :=
  ∃ S T, FlSum fl ((List.range s.length).map fun (k : ℕ) => lg (abs (s.getD k 0))) S ∧
    FlSum fl ((List.range s.length).map fun (k : ℕ) => abs (s.getD k 0)) T ∧
    r = fl (ex (fl (S / s.length)) / fl (T / s.length))

/-- `r` is a possible result of `spectral_flux` (`spfeats.py:262-264`) with `p = 2`, for at least two bins. -/
def FlFlux (fl : ℝ → ℝ) (abs : ℂ → ℝ) (rt : ℝ → ℝ) (s : List ℂ) (r : ℝ) : Prop :=
  ∃ S, FlDot fl (fun k => |fl (abs (s.getD (k + 1) 0) - abs (s.getD k 0))|)
    (fun k => |fl (abs (s.getD (k + 1) 0) - abs (s.getD k 0))|) (s.length - 1) S ∧ r = rt S

end Model
end Spafe
