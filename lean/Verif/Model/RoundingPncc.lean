import Verif.Model.Rounding

/-!
The recursions of `pncc` in floating point, one channel at a time. `fl` rounds a real number to a float; comparisons, `np.maximum`
and `np.where` are exact.
-/

namespace Spafe
namespace Model

/-- `(1 / (2 * M + 1)) * sum(P[max(0, m - M) : min(P.shape[0], m + M + 1), l])` with `M = 2`, `pncc.py:49-50`: the slice is added up
in any order. -/
def FlMediumTime (fl : ℝ → ℝ) (T : ℕ) (p : ℕ → ℝ) (m : ℕ) (r : ℝ) : Prop :=
  ∃ s, FlSum fl ((List.range (min T (m + 3) - (m - 2))).map fun (k : ℕ) => p (m - 2 + k)) s ∧ r = fl (fl (1 / 5) * s)

/-- `Q1` and `Q2` of `asymmetric_lowpass_filtering`, `pncc.py:88-89`: `lm * prev + (1 - lm) * x`, every operation rounded. `lm` is
given as written by the caller and rounded to a float first. -/
noncomputable def flBlend (fl : ℝ → ℝ) (lm prev x : ℝ) : ℝ :=
  fl (fl (fl lm * prev) + fl (fl (1 - fl lm) * x))

/-- One step of the asymmetric filter, `pncc.py:88-95`, with the default parameters of line 60. -/
noncomputable def flFollow (fl : ℝ → ℝ) (prev x : ℝ) : ℝ :=
  if prev ≤ x then flBlend fl 0.999 prev x else flBlend fl 0.5 prev x

/-- `asymmetric_lowpass_filtering`, `pncc.py:83-96`, of `T` frames: for `m = 0` the previous output is the last row, which holds 0
unless it is the row initialised in line 84. -/
noncomputable def flEnvelope (fl : ℝ → ℝ) (T : ℕ) (q : ℕ → ℝ) : ℕ → ℝ
  | 0 => flFollow fl (if T = 1 then fl (fl 0.9 * q 0) else 0) (q 0)
  | m + 1 => flFollow fl (flEnvelope fl T q m) (q (m + 1))

/-- `subtracted_lower_envelope` and `Q_tilde_0`, `pncc.py:252-259`, with threshold 0 (the default of line 216). -/
noncomputable def flExcess (fl : ℝ → ℝ) (T : ℕ) (q : ℕ → ℝ) (m : ℕ) : ℝ :=
  if fl (q m - flEnvelope fl T q m) < 0 then 0 else fl (q m - flEnvelope fl T q m)

/-- `online_peak_power`, `pncc.py:124-129`. -/
noncomputable def flPeak (fl : ℝ → ℝ) (s : ℕ → ℝ) : ℕ → ℝ
  | 0 => s 0
  | m + 1 => max (fl (fl 0.85 * flPeak fl s m)) (s (m + 1))

/-- `Q_tilde_tm`, `pncc.py:123` and `130-134`. -/
noncomputable def flMasked (fl : ℝ → ℝ) (s : ℕ → ℝ) : ℕ → ℝ
  | 0 => s 0
  | m + 1 => if fl (fl 0.85 * flPeak fl s m) ≤ s (m + 1) then s (m + 1) else fl (fl 0.2 * flPeak fl s m)

/-- `R_tilde`, `pncc.py:249-271`. -/
noncomputable def flSuppressed (fl : ℝ → ℝ) (T : ℕ) (q : ℕ → ℝ) (m : ℕ) : ℝ :=
  if fl (2 * flEnvelope fl T q m) ≤ q m then flMasked fl (flExcess fl T q) m else flEnvelope fl T (flExcess fl T q) m

/-- `myu[m]` of `mean_power_normalization`, `pncc.py:202-208`, with `lam_myu = 0.999` (line 177) and `nfilts = L`: `μ` is a possible
sequence of computed values. -/
def FlMeanPower (fl : ℝ → ℝ) (L : ℕ) (t : ℕ → ℕ → ℝ) (μ : ℕ → ℝ) : Prop :=
  μ 0 = fl 0.0001 ∧ ∀ m, ∃ s, FlSum fl ((List.range L).map (t (m + 1))) s ∧
    μ (m + 1) = fl (fl (fl 0.999 * μ m) + fl (fl (fl (1 - fl 0.999) / L) * s))

/-- `U = k * T / myu[:, None]`, `pncc.py:211`, with `k = 1` (line 177). -/
noncomputable def flNormalized (fl : ℝ → ℝ) (t μ : ℝ) : ℝ := fl (fl (1 * t) / μ)

end Model
end Spafe
