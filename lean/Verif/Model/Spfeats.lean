import Verif.Model.Plp

/-! Model of `spafe/features/spfeats.py`. Spectra are lists of complex numbers; `float64` values are exact. -/

namespace Spafe
namespace Model
open XF

/-- `np.abs(spectrum)`, e.g. `spfeats.py:52`. -/
noncomputable def magSpec (s : List ℂ) : List ℝ := s.map fun z => ‖z‖

/-- `np.abs(np.fft.fftfreq(len(spectrum), 1.0 / fs))`, e.g. `spfeats.py:55`: `1.0 / 0` raises, and so does
`fftfreq(0, d)`, which divides by `0 * d`. -/
noncomputable def absFreqs (fs : ℝ) (n : ℕ) : Py (List ℝ) :=
  if fs = 0 ∨ n = 0 then .error .zeroDivisionError else .ok ((Np.fftfreq n fs).map fun f => |f|)

/-- `spectral_centroid`, `spfeats.py:31-59`, for orders `i ≥ 0`. -/
noncomputable def spectralCentroid (fs : ℝ) (s : List ℂ) (i : ℕ) : Py (XF ℝ) := do
  let freqs ← absFreqs fs s.length
  .ok (fin (List.zipWith (fun m f => m * f ^ i) (magSpec s) freqs).sum / fin (magSpec s).sum)

/-- The common form of `spectral_skewness` and `spectral_kurtosis`: `Σ a (f - μ1)^p / (Σ a · μ2^p)`. -/
noncomputable def spectralMoment (p : ℕ) (fs : ℝ) (s : List ℂ) : Py (XF ℝ) := do
  let mu1 ← spectralCentroid fs s 1
  let mu2 ← spectralCentroid fs s 2
  let freqs ← absFreqs fs s.length
  .ok ((List.zipWith (fun m f => fin m * powNat (fin f - mu1) p) (magSpec s) freqs).sum /
    (fin (magSpec s).sum * powNat mu2 p))

/-- `spectral_skewness`, `spfeats.py:62-92`. -/
noncomputable def spectralSkewness (fs : ℝ) (s : List ℂ) : Py (XF ℝ) := spectralMoment 3 fs s

/-- `spectral_kurtosis`, `spfeats.py:95-125`. -/
noncomputable def spectralKurtosis (fs : ℝ) (s : List ℂ) : Py (XF ℝ) := spectralMoment 4 fs s

/-- `spectral_entropy`, `spfeats.py:128-155`. -/
noncomputable def spectralEntropy (s : List ℂ) : XF ℝ :=
  fin (-1) * ((magSpec s).map fun m => fin m * XF.log (fin m)).sum / XF.log (fin (s.length : ℝ))

/-- `spectral_spread`, `spfeats.py:158-188`: the whole sum of `freqs - mu1` is squared and multiplied with the
magnitudes, so an array comes out. -/
noncomputable def spectralSpread (fs : ℝ) (s : List ℂ) : Py (List (XF ℝ)) := do
  let freqs ← absFreqs fs s.length
  let mu1 ← spectralCentroid fs s 1
  let t := powNat (freqs.map fun f => fin f - mu1).sum 2
  .ok ((magSpec s).map fun m => XF.sqrt ((t * fin m) / fin (magSpec s).sum))

/-- `spectral_flatness`, `spfeats.py:191-211`; `gmean` is `exp` of the mean of the logarithms. -/
noncomputable def spectralFlatness (s : List ℂ) : XF ℝ :=
  XF.exp (((magSpec s).map fun m => XF.log (fin m)).sum / fin (s.length : ℝ)) /
    (fin (magSpec s).sum / fin (s.length : ℝ))

/-- `spectral_rolloff`, `spfeats.py:214-233`, with a spectrum and a number. -/
noncomputable def spectralRolloff (s : List ℂ) (k : ℝ) : ℝ := k * (magSpec s).sum

/-- `spectral_rolloff(fs, spectrum)` as written in `spfeats.py:330`: the number is the "spectrum" and the array is
`k`. -/
noncomputable def spectralRolloffSwapped (fs : ℝ) (s : List ℂ) : List ℂ := s.map fun z => z * ((|fs| : ℝ) : ℂ)

/-- `spectral_flux`, `spfeats.py:236-264`, for a norm type `p ≥ 0`; `1 / 0` raises. -/
noncomputable def spectralFlux (s : List ℂ) (p : ℕ) : Py ℝ :=
  if p = 0 then .error .zeroDivisionError
  else .ok ((List.zipWith (fun a b => |b - a| ^ p) (magSpec s) (magSpec s).tail).sum ^ (1 / (p : ℝ)))

/-- `np.mean` of complex numbers. -/
noncomputable def cMean (s : List ℂ) : ℂ := s.sum / (s.length : ℂ)

/-- `np.var` of complex numbers: the mean of the squared distances from the mean. -/
noncomputable def cVar (s : List ℂ) : ℝ := (s.map fun z => ‖z - cMean s‖ ^ 2).sum / s.length

/-- The dictionary returned by `extract_feats`, `spfeats.py:317-336`. -/
structure SpectralFeats where
  centroid : XF ℝ
  skewness : XF ℝ
  kurtosis : XF ℝ
  entropy : XF ℝ
  spread : List (XF ℝ)
  flatness : XF ℝ
  rolloff : List ℂ
  flux : ℝ
  mean : ℂ
  rms : ℂ
  std : ℝ
  variance : ℝ

/-- `np.fft.rfft(a=sig, n=nfft)`, `spfeats.py:321`: `ValueError` for `nfft < 1`. -/
noncomputable def rfft (sig : List ℝ) (nfft : ℕ) : Py (List ℂ) :=
  if nfft = 0 then .error .valueError else .ok ((List.range (nfft / 2 + 1)).map fun (k : ℕ) => Np.dft sig nfft k)

/-- `extract_feats`, `spfeats.py:267-336`. -/
noncomputable def extractFeats (sig : List ℝ) (fs : ℝ) (nfft : ℕ) : Py SpectralFeats := do
  let s ← rfft sig nfft
  let centroid ← spectralCentroid fs s 1
  let skewness ← spectralSkewness fs s
  let kurtosis ← spectralKurtosis fs s
  let spread ← spectralSpread fs s
  let flux ← spectralFlux s 2
  .ok {
    centroid, skewness, kurtosis, entropy := spectralEntropy s, spread, flatness := spectralFlatness s,
    rolloff := spectralRolloffSwapped fs s, flux, mean := cMean s,
    rms := (cMean (s.map fun z => z ^ 2)) ^ (1 / 2 : ℂ), std := √(cVar s), variance := cVar s }

end Model
end Spafe
