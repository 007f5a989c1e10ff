import Verif.Model.MelFbanks
import Mathlib.Analysis.Complex.Trigonometric

/-! Model of `spafe/fbanks/gammatone_fbanks.py`. -/

namespace Spafe
namespace Model

open XF

/-- `EarQ`, `minBW`, `gammatone_fbanks.py:19-20`. -/
noncomputable def earQ : ℝ := 9.26449
noncomputable def minBW : ℝ := 24.7

/-- `generate_center_frequencies`, `gammatone_fbanks.py:23-45`. `m = i + 1`, result reversed. -/
noncomputable def generateCenterFrequencies (minFreq maxFreq : ℝ) (nfilts : ℕ) : List ℝ :=
  let c := earQ * minBW
  ((List.range nfilts).map fun (i : ℕ) =>
    (maxFreq + c) * Real.exp ((((i : ℝ) + 1) / nfilts) * (Real.log (minFreq + c) - Real.log (maxFreq + c))) - c).reverse

/-- Rows `A11..A14` of `compute_gain`, stacked as `A`, `gammatone_fbanks.py:66-79`, for one centre frequency: index `i < 4`. -/
noncomputable def gammaA (fc b t : ℝ) (i : ℕ) : ℝ :=
  let k := Real.exp (b * t)
  let cos := Real.cos (2 * fc * Real.pi * t)
  let sin := Real.sin (2 * fc * Real.pi * t)
  let smax := Real.sqrt (3 + (2 : ℝ) ^ ((3 : ℝ) / 2))
  let smin := Real.sqrt (3 - (2 : ℝ) ^ ((3 : ℝ) / 2))
  match i with
  | 0 => (cos + smax * sin) / k
  | 1 => (cos - smax * sin) / k
  | 2 => (cos + smin * sin) / k
  | _ => (cos - smin * sin) / k

/-- `Kj` and the columns of `Kjmat`, `gammatone_fbanks.py:80-81`. -/
noncomputable def gammaKj (wt : ℝ) : ℂ := Complex.exp (Complex.I * wt)

/-- `Coe`, `gammatone_fbanks.py:83`. -/
noncomputable def gammaCoe (b wt t : ℝ) : ℂ :=
  let k : ℂ := (Real.exp (b * t) : ℝ)
  let kj : ℂ := gammaKj wt
  (-2) / k ^ 2 - 2 * kj ^ 2 + 2 * (1 + kj ^ 2) / k

/-- `G[:, i]`, `gammatone_fbanks.py:82`. -/
noncomputable def gammaG (fc b wt t : ℝ) (i : ℕ) : ℂ :=
  2 * t * gammaKj wt * ((gammaA fc b t i : ℝ) - gammaKj wt)

/-- `Gain`, returned with `A`, `gammatone_fbanks.py:84-85`. -/
noncomputable def gammaGain (fc b wt t : ℝ) : ℝ :=
  ‖gammaG fc b wt t 0 * gammaG fc b wt t 1 * gammaG fc b wt t 2 * gammaG fc b wt t 3 * (gammaCoe b wt t)⁻¹ ^ 4‖

/-- `ERB`, `gammatone_fbanks.py:204`, for one centre frequency (`width = 1`). -/
noncomputable def gammaErb (fc : ℝ) (order : ℕ) : ℝ :=
  1 * ((fc / earQ) ^ order + minBW ^ order) ^ (1 / (order : ℝ))

/-- `B`, `gammatone_fbanks.py:205`. -/
noncomputable def gammaB (fc : ℝ) (order : ℕ) : ℝ := 1.019 * 2 * Real.pi * gammaErb fc order

/-- `pole`, `gammatone_fbanks.py:209`. -/
noncomputable def gammaPole (b wt t : ℝ) : ℂ := Complex.exp (Complex.I * wt) / (Real.exp (b * t) : ℝ)

/-- `u`, `gammatone_fbanks.py:199`. -/
noncomputable def gammaU (nfft k : ℕ) : ℂ := Complex.exp (Complex.I * 2 * Real.pi * k / nfft)

/-- One entry of the unnormalised bank, `gammatone_fbanks.py:215-219`. -/
noncomputable def gammaEntry (nfft : ℕ) (fs : ℝ) (order : ℕ) (fc : ℝ) (k : ℕ) : ℝ :=
  let t := 1 / fs
  let b := gammaB fc order
  let wt := 2 * fc * Real.pi * t
  let u := gammaU nfft k
  (t ^ 4 / gammaGain fc b wt t) *
    ‖(u - (gammaA fc b t 0 : ℝ)) * (u - (gammaA fc b t 1 : ℝ)) * (u - (gammaA fc b t 2 : ℝ)) * (u - (gammaA fc b t 3 : ℝ))‖ *
    (‖(u - gammaPole b wt t) * (u - (starRingEnd ℂ) (gammaPole b wt t))‖ ^ 4)⁻¹

/-- One unnormalised row. -/
noncomputable def gammaRow (nfft : ℕ) (fs : ℝ) (order : ℕ) (fc : ℝ) : List ℝ :=
  (List.range (nfft / 2 + 1)).map fun (k : ℕ) => gammaEntry nfft fs order fc k

/-- `f / np.max(f)`, `gammatone_fbanks.py:223`, on extended floats (a row of zeros would give NaN). -/
noncomputable def normRow (r : List ℝ) : List (XF ℝ) :=
  (r.map fin).map (· / xmax (r.map fin))

/-- `gammatone_filter_banks`, `gammatone_fbanks.py:88-231`. `fs = 0` and `order = 0` raise `ZeroDivisionError`,
`nfft = 0` raises `IndexError` (line 215). A negative `high_freq` makes Python continue with complex/NaN values;
that is not followed (`outOfModel`). Centre frequencies are `None` for an unknown conversion approach. -/
noncomputable def gammatoneFilterBanks (nfilts nfft : ℕ) (fs low : ℝ) (highFreq : Option ℝ) (scale : String)
    (order : ℕ) (approach : String) : Py (XMat × List (Option (XF ℝ))) :=
  let high := effHigh highFreq fs
  if low < 0 then .error (.parameterError ErrorMsgs.lowFreq)
  else if high > fs / 2 then .error (.parameterError ErrorMsgs.highFreq)
  else if fs = 0 then .error .zeroDivisionError
  else if high < 0 then .error .outOfModel
  else if order = 0 then .error .zeroDivisionError
  else if nfft = 0 then .error .indexError
  else do
    let fcs := generateCenterFrequencies low high nfilts
    let rows := fcs.map fun fc => normRow (gammaRow nfft fs order fc)
    let scaling ← scaleFbank scale nfilts
    .ok (List.zipWith (fun r (s : ℝ) => r.map (· * fin s)) rows scaling, fcs.map fun f => hz2erb (fin f) approach)

end Model
end Spafe
