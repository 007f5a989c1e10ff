import Verif.Model.MelFbanks

/-! Model of `spafe/fbanks/bark_fbanks.py`. -/

namespace Spafe
namespace Model

open XF

/-- `Fm`, `bark_fbanks.py:19-41`. -/
noncomputable def fm (fb fc : XF ℝ) : XF ℝ :=
  let d := fb - fc
  if ltb d (fin (-1.3)) || ltb (fin 2.5) d then fin 0
  else if leb (fin (-1.3)) d && leb d (fin (-0.5)) then exp10 (fin 2.5 * (d + fin 0.5))
  else if ltb (fin (-0.5)) d && ltb d (fin 0.5) then fin 1
  else exp10 (fin (-1) * (d - fin 0.5))

/-- `np.linspace` on extended floats: `start + i*step` with `step = (stop-start)/(n-1)`, the last point is exactly
`stop`; a single point is `start + 0*(stop-start)`. -/
noncomputable def xlinspace (start stop : XF ℝ) (n : ℕ) : List (XF ℝ) :=
  if n = 1 then [fin 0 * (stop - start) + start]
  else (List.range n).map fun (i : ℕ) =>
    if i = n - 1 then stop else fin (i : ℝ) * ((stop - start) / fin ((n : ℝ) - 1)) + start

/-- The inner loop over bins, `bark_fbanks.py:164-167`, for the filter with centre `fc`: Python index assignment,
so negative bins wrap around and bins beyond the row raise `IndexError`. -/
noncomputable def barkRow (nfft : ℕ) (fs : ℝ) (approach : String) (b0 bN : ℤ) (fc : XF ℝ) : Py (List (XF ℝ)) :=
  (pyRange b0 bN).foldlM
    (fun row i => pySet row i (fm (hz2bark (fin (((i : ℝ) * fs) / ((nfft : ℝ) + 1))) approach) fc))
    (List.replicate (nfft / 2 + 1) (fin 0))

/-- `bark_filter_banks`, `bark_fbanks.py:44-173`. -/
noncomputable def barkFilterBanks (nfilts nfft : ℕ) (fs low : ℝ) (highFreq : Option ℝ) (scale approach : String) :
    Py (XMat × List (XF ℝ)) :=
  let high := effHigh highFreq fs
  if low < 0 then .error (.parameterError ErrorMsgs.lowFreq)
  else if high > fs / 2 then .error (.parameterError ErrorMsgs.highFreq)
  else do
    let lowBark := hz2bark (fin low) approach
    let highBark := hz2bark (fin high) approach
    let centers := xlinspace lowBark highBark nfilts
    let bins := centers.map fun f => XF.floor (fin ((nfft : ℝ) + 1) * (bark2hz f approach / fin fs))
    let rows ← (List.range nfilts).mapM fun (j : ℕ) => do
      let b0 ← toInt (bins.getD 0 0)
      let bN ← toInt (bins.getD (nfilts - 1) 0)
      barkRow nfft fs approach b0 bN (centers.getD j 0)
    let scaling ← scaleFbank scale nfilts
    .ok (List.zipWith (fun r (s : ℝ) => r.map (· * fin s)) rows scaling, centers)

end Model
end Spafe
