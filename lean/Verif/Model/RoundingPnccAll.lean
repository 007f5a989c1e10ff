import Verif.Model.RoundingPncc

/-!
`pncc` in floating point from the band powers to the normalised powers: the stages of `Model/RoundingPncc.lean` put together, with
the weight smoothing between them.
-/

namespace Spafe
namespace Model

/-- `S_tilde[m, l]` of `weight_smoothing`, `pncc.py:162-171`, for `L = nfilts` and `N = 4` (line 140): `ratio k` is the rounded
quotient of channel `k`; the built-in `sum` starts from 0. The order of the additions is left open. -/
def FlWeight (fl : ℝ → ℝ) (L : ℕ) (ratio : ℕ → ℝ) (l : ℕ) (r : ℝ) : Prop :=
  ∃ s, FlSum fl (0 :: (List.range (min (l + 4) L - max (l - 4) 1)).map fun (k : ℕ) => ratio (max (l - 4) 1 + k)) s ∧
    r = fl (fl (1 / ((min (l + 4) L - max (l - 4) 1 + 1 : ℕ) : ℝ)) * s)

/-- `myu` of `mean_power_normalization` for `R` frames, `pncc.py:202-208`; see `FlMeanPower`. -/
def FlMeanPowerUpTo (fl : ℝ → ℝ) (L R : ℕ) (t : ℕ → ℕ → ℝ) (μ : ℕ → ℝ) : Prop :=
  μ 0 = fl 0.0001 ∧ ∀ m, m + 1 < R → ∃ s, FlSum fl ((List.range L).map (t (m + 1))) s ∧
    μ (m + 1) = fl (fl (fl 0.999 * μ m) + fl (fl (fl (1 - fl 0.999) / L) * s))

/-- A possible run of `pncc` on `R` frames and `L = nfilts` channels of computed band powers `P`, `pncc.py:427-441`. -/
structure FlPncc (fl : ℝ → ℝ) (L R : ℕ) (P : ℕ → ℕ → ℝ) where
  /-- `Q_tilde`, line 429 -/
  Q : ℕ → ℕ → ℝ
  Q_eq : ∀ m < R, ∀ l < L, FlMediumTime fl R (fun i => P i l) m (Q m l)
  /-- `S_tilde`, lines 432 and 435 -/
  S : ℕ → ℕ → ℝ
  S_eq : ∀ m < R, ∀ l < L, FlWeight fl L (fun k => fl (flSuppressed fl R (fun i => Q i k) m / Q m k)) l (S m l)
  /-- `T = P * S_tilde`, line 438 -/
  T : ℕ → ℕ → ℝ
  T_eq : ∀ m < R, ∀ l < L, T m l = fl (P m l * S m l)
  /-- the running mean of line 441 -/
  μ : ℕ → ℝ
  μ_eq : FlMeanPowerUpTo fl L R T μ

/-- `U`, `pncc.py:441`. -/
noncomputable def FlPncc.U {fl : ℝ → ℝ} {L R : ℕ} {P : ℕ → ℕ → ℝ} (F : FlPncc fl L R P) (m l : ℕ) : ℝ :=
  flNormalized fl (F.T m l) (F.μ m)

end Model
end Spafe
