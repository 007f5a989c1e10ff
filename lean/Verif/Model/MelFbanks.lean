import Verif.Model.Converters
import Verif.Model.Filters
import Verif.Model.Cepstral

/-! Model of `spafe/fbanks/mel_fbanks.py` and `spafe/fbanks/linear_fbanks.py`. -/

namespace Spafe
namespace Model

open XF

/-- `high_freq = high_freq or fs / 2` (`mel_fbanks.py:65`, `bark_fbanks.py:138`, `gammatone_fbanks.py:180`):
both `None` and `0` mean `fs / 2`. -/
noncomputable def effHigh (highFreq : Option ℝ) (fs : ℝ) : ℝ :=
  match highFreq with
  | none => fs / 2
  | some h => if h = 0 then fs / 2 else h

/-- One entry of the filter loop, `mel_fbanks.py:107-114`. The boolean masks are compared with `==`, so they also
select entries for which both comparisons are false; the right slope overwrites the left one. -/
noncomputable def melEntry (lower center upper f : XF ℝ) : XF ℝ :=
  let v1 := if (leb lower f == leb f center) then (f - lower) / (center - lower) else fin 0
  if (leb center f == leb f upper) then (upper - f) / (upper - center) else v1

/-- `freqs`, `mel_fbanks.py:104`. -/
noncomputable def melFreqs (nfft : ℕ) (low high : ℝ) : List ℝ := Np.linspace low high (nfft / 2 + 1)

/-- The filter loop and the scaling, `mel_fbanks.py:104-118`, given the `nfilts + 2` edge points in Hz. -/
noncomputable def melBank (pts : List (XF ℝ)) (nfilts nfft : ℕ) (low high : ℝ) (scaling : List ℝ) : XMat :=
  (List.range nfilts).map fun (j : ℕ) =>
    (melFreqs nfft low high).map fun f =>
      melEntry (pts.getD j 0) (pts.getD (j + 1) 0) (pts.getD (j + 2) 0) (fin f) * fin (scaling.getD j 0)

/-- `scale_freqs`, `mel_fbanks.py:80-81` and `:95-96`: `nfilts + 2` points from `low` in steps of
`|high - low| / (nfilts + 1)`. -/
noncomputable def scalePoints (low high : XF ℝ) (nfilts : ℕ) : List (XF ℝ) :=
  let delta := (high - low).abs / fin ((nfilts : ℝ) + 1)
  (List.range (nfilts + 2)).map fun (i : ℕ) => low + delta * fin (i : ℝ)

/-- `mel_filter_banks_helper`, `mel_fbanks.py:19-120`. Returns the bank and the centre frequencies. -/
noncomputable def melFilterBanksHelper (nfilts nfft : ℕ) (fs low : ℝ) (highFreq : Option ℝ) (scale fbType : String)
    (approach : String) : Py (XMat × List (XF ℝ)) :=
  let high := effHigh highFreq fs
  if low < 0 then .error (.parameterError ErrorMsgs.lowFreq)
  else if high > fs / 2 then .error (.parameterError ErrorMsgs.highFreq)
  else if fbType = "mel" then do
    let lowMel ← hz2mel (fin low) approach
    let highMel ← hz2mel (fin high) approach
    let pts := scalePoints lowMel highMel nfilts
    let hzPts ← pts.mapM fun p => mel2hz p approach
    let scaling ← scaleFbank scale nfilts
    .ok (melBank hzPts nfilts nfft low high scaling, (pts.drop 1).take nfilts)
  else do
    let pts := scalePoints (fin low) (fin high) nfilts
    let scaling ← scaleFbank scale nfilts
    .ok (melBank pts nfilts nfft low high scaling, (pts.drop 1).take nfilts)

/-- `mel_filter_banks`, `mel_fbanks.py:123-214`. -/
noncomputable def melFilterBanks (nfilts nfft : ℕ) (fs low : ℝ) (highFreq : Option ℝ) (scale approach : String) :
    Py (XMat × List (XF ℝ)) :=
  melFilterBanksHelper nfilts nfft fs low highFreq scale "mel" approach

/-- The dictionary `scales`, `mel_fbanks.py:302-306`. -/
def inverseScale (scale : String) : Py String :=
  if scale = "ascendant" then .ok "descendant"
  else if scale = "descendant" then .ok "ascendant"
  else if scale = "constant" then .ok "constant"
  else .error .keyError

/-- `np.abs` of a matrix. -/
noncomputable def absMat (m : XMat) : XMat := m.map fun r => r.map XF.abs

/-- `inverse_mel_filter_banks`, `mel_fbanks.py:217-330`. `scales[scale]` is looked up first; `high_freq` is *not*
resolved before the subtraction in line 327, so `None` raises `TypeError` there (numpy evaluates the subtraction entry by
entry: with no filters nothing is subtracted). -/
noncomputable def inverseMelFilterBanks (nfilts nfft : ℕ) (fs low : ℝ) (highFreq : Option ℝ)
    (scale approach : String) : Py (XMat × List (XF ℝ)) := do
  let sc ← inverseScale scale
  let (bank, melFreqs) ← melFilterBanksHelper nfilts nfft fs low highFreq sc "mel" approach
  let rev := bank.map List.reverse
  let hz ← melFreqs.mapM fun m => mel2hz m approach
  match highFreq with
  | none => if hz = [] then .ok (absMat rev, []) else .error .typeError
  | some h =>
    let centers ← hz.mapM fun f => hz2mel (fin h - f) approach
    .ok (absMat rev, centers)

/-- `linear_filter_banks`, `linear_fbanks.py:18-105` (the default `conversion_approach` is not used there). -/
noncomputable def linearFilterBanks (nfilts nfft : ℕ) (fs low : ℝ) (highFreq : Option ℝ) (scale : String) :
    Py (XMat × List (XF ℝ)) := do
  let (bank, freqs) ← melFilterBanksHelper nfilts nfft fs low highFreq scale "lin" "Oshaghnessy"
  .ok (absMat bank, freqs)

end Model
end Spafe
