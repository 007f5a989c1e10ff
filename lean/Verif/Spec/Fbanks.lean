import Mathlib.Analysis.SpecialFunctions.Log.Base
import Verif.Basic.XF

/-! Independent specification of filter banks: closed formulas over the reals, no lists, no loops. -/

namespace Spafe
namespace Spec

/-- The effective upper frequency: `None` and `0` stand for `fs / 2`. -/
inductive EffHigh (fs : ℝ) : Option ℝ → ℝ → Prop
  | none : EffHigh fs none (fs / 2)
  | zero : EffHigh fs (some 0) (fs / 2)
  | given (h : ℝ) (h0 : h ≠ 0) : EffHigh fs (some h) h

/-- The two documented mel formulas: `a * log10(1 + f/b)`. -/
inductive MelConst : String → ℝ → ℝ → Prop
  | oshaghnessy : MelConst "Oshaghnessy" 2595 700
  | lindsay : MelConst "Lindsay" 2410 625

/-- Mel scale. -/
noncomputable def mel (a b f : ℝ) : ℝ := a * Real.logb 10 (1 + f / b)
/-- Inverse mel scale. -/
noncomputable def melInv (a b m : ℝ) : ℝ := b * ((10 : ℝ) ^ (m / a) - 1)

/-- The triangle with feet `l`, `u` and apex `c`. -/
noncomputable def tri (l c u f : ℝ) : ℝ := max 0 (min ((f - l) / (c - l)) ((u - f) / (u - c)))

/-- `n + 2` equidistant points between `low` and `high`: point `j`. -/
noncomputable def linPoint (low high : ℝ) (n j : ℕ) : ℝ := low + j * (high - low) / (n + 1)

/-- Filter edge `j` in Hz of a mel bank: equidistant on the mel scale. -/
noncomputable def melPoint (a b low high : ℝ) (n j : ℕ) : ℝ :=
  melInv a b (linPoint (mel a b low) (mel a b high) n j)

/-- Frequency at which column `k` is evaluated. -/
noncomputable def colFreq (low high : ℝ) (nfft k : ℕ) : ℝ := low + k * (high - low) / (nfft / 2 : ℕ)

/-- The documented amplitude scalings. -/
inductive Scale : String → (ℕ → ℕ → ℝ) → Prop
  | ascendant : Scale "ascendant" fun n j => (j + 1) / n
  | descendant : Scale "descendant" fun n j => (n - j) / n
  | constant : Scale "constant" fun _ _ => 1

/-- Swapping ascending and descending. -/
inductive SwapScale : String → String → Prop
  | ascendant : SwapScale "ascendant" "descendant"
  | descendant : SwapScale "descendant" "ascendant"
  | constant : SwapScale "constant" "constant"

/-- An `r × c` matrix whose entry `(i, j)` is the finite number `f i j`. -/
def IsMatrix (m : List (List (XF ℝ))) (r c : ℕ) (f : ℕ → ℕ → ℝ) : Prop :=
  m.length = r ∧ (∀ row ∈ m, row.length = c) ∧
    ∀ i j, i < r → j < c → (m.getD i []).getD j (.fin 0) = .fin (f i j)

/-- A vector whose entry `i` is the finite number `f i`. -/
def IsVector (v : List (XF ℝ)) (n : ℕ) (f : ℕ → ℝ) : Prop :=
  v.length = n ∧ ∀ i, i < n → v.getD i (.fin 0) = .fin (f i)

/-- The Bark formulas for which the filter bank is well-behaved everywhere. -/
inductive BarkScale : String → (ℝ → ℝ) → Prop
  | wang : BarkScale "Wang" fun f => 6 * Real.arsinh (f / 600)
  | tjomov : BarkScale "Tjomov" fun f => 6.7 * Real.arsinh ((f + 20) / 600)
  | schroeder : BarkScale "Schroeder" fun f => 7 * Real.arsinh (f / 650)

/-- The Bark critical-band curve as a function of the Bark distance to the centre. -/
noncomputable def barkCurve (d : ℝ) : ℝ :=
  if d < -1.3 ∨ 2.5 < d then 0
  else if d ≤ -0.5 then (10 : ℝ) ^ (2.5 * (d + 0.5))
  else if d < 0.5 then 1
  else (10 : ℝ) ^ (-(d - 0.5))

/-- Point `j` of `n` equidistant points from `x` to `y`, both included. -/
noncomputable def gridPoint (x y : ℝ) (n j : ℕ) : ℝ := x + j * (y - x) / (n - 1 : ℕ)

end Spec
end Spafe
