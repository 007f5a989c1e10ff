import Verif.Props.Cepstral
import Verif.Props.Preprocessing

/-! The test suite of the repository checks literal values for three functions. The model returns these values; this validates the
model and claims no property. The tests with general assertions are instances of the theorems listed in `DESIGN.md`. -/

set_option linter.unusedSectionVars false

namespace Spafe
namespace Props
open Model

/-- `tests/test_utils_preprocessing.py:39-47`. -/
example : preEmphasis ([0, 1, 2, 3, 4] : List ℚ) 0.97 = [0, 1, 1.03, 1.06, 1.09] := by
  norm_num [preEmphasis, Np.firFilter, List.range_succ, Finset.sum_range_succ]

/-- `tests/test_utils_cepstral.py:41-50` with `w = 0`: the deltas of every matrix are 0. -/
example (x : List (List ℚ)) (c : ℕ) (hc : 0 < c) (hx : Np.Rect x c) (hne : x ≠ []) :
    ∃ y, deltas x c 0 = .ok y ∧ ∀ i t, i < x.length → t < c → Np.at2 y i t = 0 := by
  obtain ⟨y, h, -, -, hy⟩ := (C22_deltas_formula x c 0 hx).2.2 hc le_rfl hne
  exact ⟨y, h, fun i t hi ht => by rw [hy i t hi ht]; simp⟩

/-- `tests/test_utils_cepstral.py:41-50` with `w = 2`: row `i` is `(i + 1, 2 (i + 1))`, and the deltas are `(i + 1, i + 1)`. -/
example : deltas ((List.range 10).map fun (i : ℕ) => [(i : ℚ) + 1, 2 * (i + 1)]) 2 2 =
    .ok ((List.range 10).map fun (i : ℕ) => [(i : ℚ) + 1, i + 1]) := by
  rw [deltas, if_neg (by norm_num), if_neg (by norm_num), if_neg (by simp), List.map_map]
  congr 1
  refine List.map_congr_left fun i _ => ?_
  norm_num [deltaRow, deltaWin, padRow, Np.firFilter, List.range_succ, Finset.sum_range_succ]
  ring

end Props
end Spafe
