import Verif.Model.Features

/-! Model of `spafe/utils/spectral.py` and `spafe/features/cqcc.py`. -/

namespace Spafe
namespace Model
open XF

/-- `tmp_cqt_freqs`, `spectral.py:75-81`. -/
noncomputable def cqtTmpFreqs (f0 : ℝ) (octaves bins : ℕ) : List ℝ :=
  (List.range octaves).flatMap fun (m : ℕ) => (List.range bins).map fun (n : ℕ) =>
    f0 * 2 ^ (((m : ℝ) * bins + n) / bins)

/-- `np.ceil(Q * fs / f).astype(np.int64)`, `spectral.py:90`. -/
noncomputable def cqtWinLen (Q fs f : ℝ) : ℤ := ⌈Q * fs / f⌉

open Classical in
/-- Frequencies and window lengths, `spectral.py:72-94`. `number_of_bins_per_octave = 0` makes `1.0 / 0` raise. A
frequency `≤ 0` (`f0 ≤ 0` and `low_freq ≤ 0`) is not modelled: numpy casts an infinity to an integer. -/
noncomputable def cqtSelect (fs low : ℝ) (high : Option ℝ) (nfft octaves bins : ℕ) (f0 qRate : ℝ) :
    Py (List ℝ × List ℤ) :=
  let high := effHigh high fs
  let freqs := (cqtTmpFreqs f0 octaves bins).filter fun f => decide (low ≤ f ∧ f ≤ high)
  if bins = 0 then .error .zeroDivisionError
  else if ∃ f ∈ freqs, f ≤ 0 then .error .outOfModel
  else
    let Q := qRate / (2 ^ (1 / (bins : ℝ)) - 1)
    let winLens := (freqs.map (cqtWinLen Q fs)).filter fun (n : ℤ) => decide (n ≤ nfft)
    let freqs := pySliceFrom freqs (-1 * (winLens.length : ℤ))
    .ok (freqs, winLens)

/-- One row `a[k]`, `spectral.py:103-112`: `Nk` samples of the windowed complex exponential placed at
`start_index = int((nfft - Nk) / 2)`; nothing for `Nk ≤ 0`. -/
noncomputable def cqtAtom (nfft : ℕ) (fs fk : ℝ) (Nk : ℤ) (w : List ℝ) (j : ℕ) : ℂ :=
  let start := ((nfft : ℤ) - Nk).tdiv 2
  if start ≤ j ∧ (j : ℤ) < start + Nk then
    (1 / (Nk : ℂ)) * (((w.getD (j - start.toNat) 0 : ℝ) : ℂ) *
      Complex.exp (2 * Real.pi * Complex.I * (fk / fs) * ((j - start.toNat : ℕ) : ℂ)))
  else 0

open Classical in
/-- One row of the thresholded kernel, `spectral.py:103-116`. -/
noncomputable def cqtKernelRow (nfft : ℕ) (fs fk : ℝ) (Nk : ℤ) (winType : String) (thr : ℝ) : Py (List ℂ) := do
  let w ← windowVec winType Nk.toNat
  if nfft = 0 then .error .valueError
  else
    .ok ((List.range nfft).map fun (k : ℕ) =>
      let v := Np.dftC (cqtAtom nfft fs fk Nk w) nfft k
      if ‖v‖ ≤ thr then 0 else v)

/-- One entry of `np.fft.fft(x, nfft) * kernel_sparse.T`, `spectral.py:117-127`: the frame is padded or cropped to
`nfft` samples. -/
noncomputable def cqtEntry (nfft : ℕ) (kernel : List ℂ) (frame : List ℝ) : ℂ :=
  ∑ j ∈ Finset.range nfft, Np.dft frame nfft j * ((starRingEnd ℂ) (kernel.getD j 0) / nfft)

/-- `compute_constant_qtransform`, `spectral.py:19-128`: one row per frequency, one column per frame. With no frequency
scipy's sparse product of a matrix without rows is taken to be empty; `nfft = 0` then divides by 0 (not modelled). -/
noncomputable def computeCqt (frames : List (List ℝ)) (fs low : ℝ) (high : Option ℝ) (nfft octaves bins : ℕ)
    (winType : String) (thr f0 qRate : ℝ) : Py (List (List ℂ)) := do
  let (freqs, winLens) ← cqtSelect fs low high nfft octaves bins f0 qRate
  let kernel ← (List.range freqs.length).mapM fun (k : ℕ) => do
    let Nk ← pyIdx winLens k
    let fk ← pyIdx freqs k
    cqtKernelRow nfft fs fk Nk winType thr
  if nfft = 0 then .error .outOfModel
  else .ok (kernel.map fun row => frames.map (cqtEntry nfft row))

/-- The keyword arguments of `cqt_spectrogram` (`cqcc.py:28-42`) and `cqcc` (`cqcc.py:155-174`). -/
structure CqtArgs extends Args where
  octaves : ℕ := 7
  bins : ℕ := 24
  ratio : ℝ := 1
  thr : ℝ := 0.005
  f0 : ℝ := 120
  qRate : ℝ := 1

/-- `cqt_spectrogram`, `cqcc.py:28-152`. -/
noncomputable def cqtSpectrogram (a : CqtArgs) (sig : List ℝ) : Py (List (List ℂ)) :=
  if effHigh a.high a.fs > a.fs / 2 then .error (.parameterError ErrorMsgs.highFreq)
  else do
    let windows ← frontEnd a.toArgs a.preEmphCoeff sig
    computeCqt windows a.fs a.low (some (effHigh a.high a.fs)) a.nfft a.octaves a.bins a.win.winType a.thr a.f0 a.qRate

/-- `scipy.signal.resample(x, num)` of one real column with `num ≥ 1` (`cqcc.py:290-292`): real FFT, the lower
`min(num, Nx) // 2 + 1` bins kept (the highest one doubled or halved when `min(num, Nx)` is even and the length
changes), inverse real FFT of length `num`, times `num / Nx`. -/
noncomputable def resample (num : ℕ) (x : List ℝ) : List ℝ :=
  let Nx := x.length
  let N := min num Nx
  let Y := fun (k : ℕ) =>
    if N / 2 < k then (0 : ℂ)
    else if N % 2 = 0 ∧ k = N / 2 ∧ num < Nx then Np.dft x Nx k * 2
    else if N % 2 = 0 ∧ k = N / 2 ∧ Nx < num then Np.dft x Nx k * (1 / 2)
    else Np.dft x Nx k
  (List.range num).map fun (t : ℕ) =>
    (1 / (num : ℝ)) * ((Y 0).re + ∑ k ∈ Finset.Ico 1 (num / 2 + 1), (if 2 * k = num then 1 else 2) *
      (Y k * Complex.exp (2 * Real.pi * Complex.I * (k * t) / num)).re) * ((num : ℝ) / Nx)

/-- One entry of `np.log(zero_handling(np.absolute(.) ** 2))`, `cqcc.py:282-287`. -/
noncomputable def cqtLog (z : ℂ) : XF ℝ := XF.log (fin (if ‖z‖ ^ 2 = 0 then eps else ‖z‖ ^ 2))

/-- The number in a finite float. -/
noncomputable def finVal? : XF ℝ → Option ℝ
  | fin y => some y
  | _ => none

/-- `resample` of one column of floats: an infinite or NaN entry spoils the FFT, the column is then taken to be NaN. -/
noncomputable def resampleX (num : ℕ) (x : List (XF ℝ)) : List (XF ℝ) :=
  match x.mapM finVal? with
  | some y => (resample num y).map fin
  | none => List.replicate num nan

/-- `cqcc`, `cqcc.py:155-305`. `resample` raises `ValueError` for `num ≤ 0`, the DCT raises it for no column. -/
noncomputable def cqcc (a : CqtArgs) (sig : List ℝ) : Py XMat := do
  let q ← cqtSpectrogram a sig
  let logs := q.map fun r => r.map cqtLog
  let num := pyInt ((Np.ncols logs : ℝ) * a.ratio)
  if q = [] ∨ num ≤ 0 then .error .valueError
  else
    let res := logs.map (resampleX num.toNat)
    let rows := (List.range num.toNat).map fun (t : ℕ) => res.map fun c => c.getD t 0
    cepstralTail { a.toArgs with useEnergy := false } [] rows

end Model
end Spafe
