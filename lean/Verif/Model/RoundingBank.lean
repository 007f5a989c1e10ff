import Verif.Model.Rounding
import Verif.Model.MelFbanks

/-!
`hz2mel`, `mel2hz` (`utils/converters.py`) and the mel and linear filter banks (`fbanks/mel_fbanks.py`) with rounding.
`fl` rounds every arithmetic operation; `lg` and `p10` are `np.log10` and `10 ** x` of the library, of which only a relative
accuracy is assumed. All of it is elementwise, so there is no freedom in the order of the operations.
-/

namespace Spafe
namespace Model

/-- Accuracy assumed of `np.log10` on numbers `≥ 1/2` and of `10 ** x`: relative error at most `v`. -/
structure LogPow (v : ℝ) (lg p10 : ℝ → ℝ) : Prop where
  nonneg : 0 ≤ v
  log_err : ∀ t, 1 / 2 ≤ t → |lg t - Real.logb 10 t| ≤ v * |Real.logb 10 t|
  pow_err : ∀ t, |p10 t - (10 : ℝ) ^ t| ≤ v * (10 : ℝ) ^ t

/-- `hz2mel`, `converters.py:347-348`, with rounding: `a * np.log10(1 + f / b)`. -/
noncomputable def flMel (fl lg : ℝ → ℝ) (a b f : ℝ) : ℝ := fl (a * lg (fl (1 + fl (f / b))))

/-- `mel2hz`, `converters.py:383-384`, with rounding: `b * (10 ** (m / a) - 1)`. -/
noncomputable def flMelInv (fl p10 : ℝ → ℝ) (a b m : ℝ) : ℝ := fl (b * fl (p10 (fl (m / a)) - 1))

/-- Entry `j` of `scale_freqs`, `mel_fbanks.py:80-81` and `:95-96`, with rounding. -/
noncomputable def flPoint (fl : ℝ → ℝ) (low high : ℝ) (n j : ℕ) : ℝ :=
  fl (low + fl (fl (|fl (high - low)| / (n + 1)) * j))

/-- Filter edge `j` in Hz of the mel bank, `mel_fbanks.py:76-91`, with rounding. -/
noncomputable def flMelPoint (fl lg p10 : ℝ → ℝ) (a b low high : ℝ) (n j : ℕ) : ℝ :=
  flMelInv fl p10 a b (flPoint fl (flMel fl lg a b low) (flMel fl lg a b high) n j)

/-- Entry `k` of `np.linspace(low_freq, high_freq, M + 1)`, `mel_fbanks.py:104`, with rounding: numpy multiplies the index
by the step, adds the start and sets the last entry to the stop. -/
noncomputable def flGrid (fl : ℝ → ℝ) (low high : ℝ) (M k : ℕ) : ℝ :=
  if k = M then high else fl (fl (k * fl (fl (high - low) / M)) + low)

/-- One entry of the filter loop, `mel_fbanks.py:107-114`, with rounding (comparisons of floats are exact). -/
noncomputable def flEntry (fl : ℝ → ℝ) (lower center upper f : ℝ) : ℝ :=
  let v1 := if (decide (lower ≤ f) == decide (f ≤ center)) then fl (fl (f - lower) / fl (center - lower)) else 0
  if (decide (center ≤ f) == decide (f ≤ upper)) then fl (fl (upper - f) / fl (upper - center)) else v1

/-- One entry of the bank, `mel_fbanks.py:107-118`, with rounding: the filter loop on the computed edges `p` and the computed
grid, times the factor `s` of `scale_fbank` (one division, `filters.py:68-74`). -/
noncomputable def flWeight (fl : ℝ → ℝ) (p : ℕ → ℝ) (low high s : ℝ) (nfft j k : ℕ) : ℝ :=
  fl (flEntry fl (p j) (p (j + 1)) (p (j + 2)) (flGrid fl low high (nfft / 2) k) * fl s)

end Model
end Spafe
