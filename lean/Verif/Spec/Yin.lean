import Mathlib.Data.Real.Basic
import Mathlib.Algebra.BigOperators.Group.Finset.Basic
import Mathlib.Algebra.Order.Floor.Ring

/-! The YIN quantities of de Cheveigné and Kawahara for one frame. -/

namespace Spafe
namespace Spec

/-- The difference function `d(τ) = Σ_j (x_j - x_{j+τ})²`, over all pairs inside the frame. -/
noncomputable def yinDiff (x : List ℝ) (τ : ℕ) : ℝ :=
  ∑ j ∈ Finset.range (x.length - τ), (x.getD j 0 - x.getD (j + τ) 0) ^ 2

/-- `d(1) + ... + d(τ)`. -/
noncomputable def yinCum (x : List ℝ) (τ : ℕ) : ℝ := ∑ j ∈ Finset.range τ, yinDiff x (j + 1)

/-- The cumulative mean normalised difference: `1` at lag 0 and `d(τ)` over the mean of `d(1..τ)` elsewhere. -/
noncomputable def yinCmnd (x : List ℝ) (τ : ℕ) : ℝ := if τ = 0 then 1 else yinDiff x τ / (yinCum x τ / τ)

/-- The frame holds at least two different neighbours. -/
def NotConst (x : List ℝ) : Prop := ∃ j, j + 1 < x.length ∧ x.getD j 0 ≠ x.getD (j + 1) 0

/-- The frame repeats after `P` samples, as far as it reaches. -/
def Periodic (x : List ℝ) (P : ℕ) : Prop := ∀ j, j + P < x.length → x.getD j 0 = x.getD (j + P) 0

/-- The number of analysis windows: starts `0, s, 2 s, ...` strictly below `len - w`. -/
def yinCount (len w s : ℕ) : ℕ := (len - w + s - 1) / s

/-- Sensible arguments of `compute_yin`: positive frequencies, and a hop of at least one sample. -/
def YinValid (fs winLen winHop low high : ℝ) : Prop :=
  0 < fs ∧ 0 < low ∧ 0 < high ∧ 0 ≤ winLen ∧ 1 ≤ winHop * fs

/-- Window number `i`: `w` samples from `i * s` on. -/
def yinWindow (sig : List ℝ) (w s i : ℕ) : List ℝ := (sig.drop (i * s)).take w

/-- The lag that YIN picks from normalised differences `c` among the lags `a, ..., T - 1`: none (0) if all are at least
the threshold; otherwise, from the first lag below the threshold, descend as long as `c` decreases. Every comparison
holds with the margin `ε` (`2 ε` between two values of `c`). -/
def PitchLag (ε : ℝ) (c : ℕ → ℝ) (a T : ℕ) (thr : ℝ) (p : ℕ) : Prop :=
  (p = 0 ∧ ∀ t, a ≤ t → t < T → thr + ε ≤ c t) ∨
  ∃ t0, a ≤ t0 ∧ t0 ≤ p ∧ p < T ∧ c t0 + ε < thr ∧ (∀ t, a ≤ t → t < t0 → thr + ε ≤ c t) ∧
    (∀ t, t0 ≤ t → t < p → c (t + 1) + 2 * ε < c t) ∧ (p + 1 < T → c p + 2 * ε ≤ c (p + 1))

/-- `k` is the first of the indices below `T` at which `c` is smallest. -/
def FirstMin (c : ℕ → ℝ) (T k : ℕ) : Prop := k < T ∧ (∀ t < T, c k ≤ c t) ∧ ∀ t < k, c k < c t

/-- The energy of a frame. -/
noncomputable def frameEnergy (x : List ℝ) : ℝ := ∑ j ∈ Finset.range x.length, x.getD j 0 ^ 2

/-- `d` is the difference function of `x` up to errors of `κ` times the energy of the frame. -/
def RoundedDiff (κ : ℝ) (x : List ℝ) (T : ℕ) (d : ℕ → ℝ) : Prop :=
  ∀ τ < T, |d τ - yinDiff x τ| ≤ κ * frameEnergy x

end Spec
end Spafe
