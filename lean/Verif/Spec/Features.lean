import Verif.Spec.Fbanks

/-! Independent vocabulary for the feature properties. -/

namespace Spafe
namespace Spec

/-- Every entry is a finite number. -/
def AllFinite (m : List (List (XF ℝ))) : Prop := ∀ r ∈ m, ∀ v ∈ r, ∃ x : ℝ, v = .fin x

/-- Every entry is a finite number `≥ 0`. -/
def AllNonneg (m : List (List (XF ℝ))) : Prop := ∀ r ∈ m, ∀ v ∈ r, ∃ x : ℝ, 0 ≤ x ∧ v = .fin x

/-- Every entry is a finite number `> 0`. -/
def AllPos (m : List (List (XF ℝ))) : Prop := ∀ r ∈ m, ∀ v ∈ r, ∃ x : ℝ, 0 < x ∧ v = .fin x

/-- An `r × c` matrix. -/
def HasShape {β : Type} (m : List (List β)) (r c : ℕ) : Prop := m.length = r ∧ ∀ row ∈ m, row.length = c

end Spec
end Spafe
