import Verif.Model.RoundingBank
import Mathlib.Analysis.SpecialFunctions.Arsinh

/-!
The ERB and Bark converters (`utils/converters.py`) with rounding, one scalar at a time; `hz2mel` and `mel2hz` are in
`Model/RoundingBank.lean`.
-/

namespace Spafe
namespace Model

/-- `hz2erb`, `converters.py:71`, with rounding: `A * np.log10(1 + f * k)`, `k = 0.00437` and `A` as stored. -/
noncomputable def flErb (fl lg : ℝ → ℝ) (A k f : ℝ) : ℝ := fl (A * lg (fl (1 + fl (f * k))))

/-- `erb2hz`, `converters.py:115`, with rounding: `(10 ** (e / A) - 1) / k`. -/
noncomputable def flErbInv (fl p10 : ℝ → ℝ) (A k e : ℝ) : ℝ := fl (fl (p10 (fl (e / A)) - 1) / k)

/-- Accuracy assumed of `np.arcsinh` and `np.sinh`: relative error at most `v`. -/
structure AsinhSinh (v : ℝ) (as sh : ℝ → ℝ) : Prop where
  nonneg : 0 ≤ v
  as_err : ∀ t, |as t - Real.arsinh t| ≤ v * |Real.arsinh t|
  sh_err : ∀ t, |sh t - Real.sinh t| ≤ v * |Real.sinh t|

/-- `hz2bark` for Wang and Schroeder, `converters.py:180` and `:184`, with rounding: `c * np.arcsinh(f / d)`. -/
noncomputable def flBark (fl as : ℝ → ℝ) (c d f : ℝ) : ℝ := fl (c * as (fl (f / d)))

/-- `bark2hz` for Wang and Schroeder, `converters.py:259` and `:263`, with rounding: `d * np.sinh(b / c)`. -/
noncomputable def flBarkInv (fl sh : ℝ → ℝ) (c d b : ℝ) : ℝ := fl (d * sh (fl (b / c)))

/-- `hz2bark` for Tjomov, `converters.py:182`, with rounding: `6.7 * np.arcsinh((f + 20) / 600)`, `c` is 6.7 as stored. -/
noncomputable def flTjomov (fl as : ℝ → ℝ) (c f : ℝ) : ℝ := flBark fl as c 600 (fl (f + 20))

/-- `bark2hz` for Tjomov, `converters.py:261`, with rounding: `600 * np.sinh(b / 6.7) - 20`. -/
noncomputable def flTjomovInv (fl sh : ℝ → ℝ) (c b : ℝ) : ℝ := fl (flBarkInv fl sh c 600 b - 20)

end Model
end Spafe
