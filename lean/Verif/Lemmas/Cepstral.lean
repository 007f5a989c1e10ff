import Verif.Lemmas.Mat
import Verif.Lemmas.Preprocessing
import Mathlib.Analysis.SpecialFunctions.Trigonometric.Basic

/-! Helper lemmas for `cepstral.py`. -/

set_option linter.unusedSectionVars false

namespace Spafe
namespace Model
open XF

/-- Column means removed. -/
noncomputable def centered (A : List (List ℝ)) (c : ℕ) : List (List ℝ) :=
  A.map fun r => (List.range c).map fun (j : ℕ) => r.getD j 0 - Np.mean (Np.col A j)

theorem col_ne_nil {A : List (List ℝ)} (hA : A ≠ []) (j : ℕ) : Np.col A j ≠ [] := by
  simpa [Np.col] using hA

theorem colMeans_fin {A : List (List ℝ)} {c : ℕ} (h : Np.Rect A c) (hA : A ≠ []) :
    colMeans (finMat A) c = (List.range c).map fun (j : ℕ) => fin (Np.mean (Np.col A j)) := by
  unfold colMeans
  apply List.map_congr_left
  intro j hj
  rw [col_finMat h (List.mem_range.mp hj), xmean_fin (col_ne_nil hA j)]

theorem subRow_fin {A : List (List ℝ)} {c : ℕ} (h : Np.Rect A c) (hA : A ≠ []) :
    subRow (finMat A) (colMeans (finMat A) c) = finMat (centered A c) := by
  rw [colMeans_fin h hA]
  simp only [subRow, finMat, centered, List.map_map]
  apply List.map_congr_left
  intro r hr
  have hrl := h r hr
  apply ext_getD 0 (by simp [hrl])
  intro j hj
  have hj : j < c := by simpa [hrl] using hj
  simp only [Function.comp]
  rw [getD_zipWith_lt _ _ _ 0 0 0 (by simp [hrl, hj]) (by simp [hj]), getD_map_lt _ _ 0 _ (by omega),
    getD_map_range_lt _ _ hj, List.map_map, getD_map_range_lt _ _ hj, fin_sub]
  rfl

theorem centered_rect (A : List (List ℝ)) (c : ℕ) : Np.Rect (centered A c) c := by
  intro r hr
  obtain ⟨s, _, rfl⟩ := List.mem_map.mp hr
  simp

theorem centered_length (A : List (List ℝ)) (c : ℕ) : (centered A c).length = A.length := by
  simp [centered]

theorem centered_at2 (A : List (List ℝ)) {c i j : ℕ} (hi : i < A.length) (hj : j < c) :
    Np.at2 (centered A c) i j = Np.at2 A i j - Np.mean (Np.col A j) := by
  unfold Np.at2 centered
  rw [getD_map_lt _ _ [] _ hi, getD_map_range_lt _ _ hj]

theorem mean_col (A : List (List ℝ)) (j : ℕ) :
    Np.mean (Np.col A j) = (∑ i ∈ Finset.range A.length, Np.at2 A i j) / A.length := by
  rw [Np.mean, sum_col]; simp [Np.col]

theorem mean_flatten {A : List (List ℝ)} {c : ℕ} (h : Np.Rect A c) :
    Np.mean A.flatten = (∑ i ∈ Finset.range A.length, ∑ j ∈ Finset.range c, Np.at2 A i j) /
      (A.length * c : ℝ) := by
  have := sum_flatten_map h (fun x : ℝ => x)
  rw [List.map_id'] at this
  rw [Np.mean, this, flatten_length h]; push_cast; rfl

theorem var_flatten {A : List (List ℝ)} {c : ℕ} (h : Np.Rect A c) :
    Np.var A.flatten = (∑ i ∈ Finset.range A.length, ∑ j ∈ Finset.range c,
      (Np.at2 A i j - Np.mean A.flatten) ^ 2) / (A.length * c : ℝ) := by
  rw [Np.var, sum_flatten_map h, flatten_length h]; push_cast; rfl

theorem centered_col_sum {A : List (List ℝ)} {c j : ℕ} (hA : A ≠ []) (hj : j < c) :
    ∑ i ∈ Finset.range A.length, Np.at2 (centered A c) i j = 0 := by
  have hn : (A.length : ℝ) ≠ 0 := by
    have := List.length_pos_iff.mpr hA
    exact_mod_cast this.ne'
  rw [Finset.sum_congr rfl fun i hi => centered_at2 A (Finset.mem_range.mp hi) hj,
    Finset.sum_sub_distrib, mean_col]
  simp
  field_simp
  ring

/-- Decomposition of the total sum of squares. -/
theorem ss_decomp {n c : ℕ} (hn : 0 < n) (a : ℕ → ℕ → ℝ) (m : ℝ) :
    ∑ i ∈ Finset.range n, ∑ j ∈ Finset.range c, (a i j - m) ^ 2 =
      ∑ i ∈ Finset.range n, ∑ j ∈ Finset.range c, (a i j - (∑ k ∈ Finset.range n, a k j) / n) ^ 2 +
      n * ∑ j ∈ Finset.range c, ((∑ k ∈ Finset.range n, a k j) / n - m) ^ 2 := by
  have hn' : (n:ℝ) ≠ 0 := by exact_mod_cast hn.ne'
  rw [Finset.sum_comm, Finset.sum_comm (f := fun i j => (a i j - (∑ k ∈ Finset.range n, a k j) / n) ^ 2),
    Finset.mul_sum, ← Finset.sum_add_distrib]
  apply Finset.sum_congr rfl
  intro j _
  set S := ∑ k ∈ Finset.range n, a k j with hS
  have h1 : ∀ i, (a i j - m) ^ 2 = (a i j - S / n) ^ 2 + (2 * (S / n - m) * a i j + (m ^ 2 - (S/n)^2)) := by
    intro i; ring
  rw [Finset.sum_congr rfl fun i _ => h1 i, Finset.sum_add_distrib, Finset.sum_add_distrib, ← Finset.mul_sum,
    ← hS]
  simp only [Finset.sum_const, Finset.card_range, nsmul_eq_mul]
  generalize ∑ x ∈ Finset.range n, (a x j - S / n) ^ 2 = T
  field_simp
  ring

theorem dotDiag_fin (r v : List ℝ) (hl : v.length = r.length) :
    dotDiag (r.map fin) v = (List.zipWith (· * ·) r v).map fin := by
  apply ext_getD 0 (by simp [dotDiag, hl])
  intro j hj
  have hj : j < r.length := by simpa [dotDiag, hl] using hj
  rw [dotDiag, getD_map_range_lt _ _ (by omega), getD_map_lt _ _ 0 _ (by simp [hl, hj]),
    getD_zipWith_lt _ _ _ 0 0 0 hj (by omega)]
  rw [Finset.sum_congr rfl (g := fun i => fin (if i = j then r.getD i 0 * v.getD i 0 else 0))]
  · rw [sum_fin, Finset.sum_ite_eq' , List.length_map, if_pos (Finset.mem_range.mpr hj)]
  · intro i hi
    rw [List.length_map] at hi
    rw [getD_map_lt _ _ 0 _ (Finset.mem_range.mp hi), fin_mul]
    congr 1
    split_ifs <;> ring

theorem liftVecPos_length (lift : ℝ) {c : ℕ} (hc : 0 < c) : (liftVecPos lift c).length = c := by
  simp [liftVecPos]; omega

theorem liftVecPos_getD (lift : ℝ) {c j : ℕ} (hj : j < c) :
    (liftVecPos lift c).getD j 0 = if j = 0 then 1 else (j:ℝ) ^ lift := by
  cases j with
  | zero => simp [liftVecPos]
  | succ j =>
    rw [liftVecPos, List.getD_cons_succ, getD_map_range_lt _ _ (by omega)]
    simp

section deltas
variable {α : Type} [Field α] [LinearOrder α]

theorem padRow_length (h : ℕ) (r : List α) : (padRow h r).length = r.length + 2 * h := by
  simp [padRow]; omega

/-- Position `t` clamped to `[0, n-1]`. -/
def clampIdx (n : ℕ) (t : ℤ) : ℕ := min t.toNat (n - 1)

theorem padRow_getD (h : ℕ) (r : List α) (hr : 0 < r.length) (i : ℕ) (hi : i < r.length + 2 * h) :
    (padRow h r).getD i 0 = r.getD (clampIdx r.length ((i:ℤ) - h)) 0 := by
  unfold padRow clampIdx
  rcases Nat.lt_or_ge i h with h1 | h1
  · rw [List.append_assoc, getD_append_left _ _ _ (by simpa using h1), getD_replicate', if_pos h1]
    congr 1; omega
  · obtain ⟨k, rfl⟩ := Nat.exists_eq_add_of_le h1
    rcases Nat.lt_or_ge k r.length with h2 | h2
    · rw [List.append_assoc, show h + k = (List.replicate h (r.getD 0 0)).length + k by simp,
        getD_append_right', getD_append_left _ _ _ h2]
      congr 1; simp; omega
    · obtain ⟨m, rfl⟩ := Nat.exists_eq_add_of_le h2
      rw [show h + (r.length + m) = (List.replicate h (r.getD 0 0) ++ r).length + m by simp; omega,
        getD_append_right', getD_replicate', if_pos (by omega)]
      congr 1; simp; omega

theorem deltaRow_length (h : ℕ) (r : List α) : (deltaRow h r).length = r.length := by
  simp [deltaRow, firFilter_length, padRow_length]

theorem deltaRow_getD (h : ℕ) (r : List α) (t : ℕ) (ht : t < r.length) :
    (deltaRow h r).getD t 0 =
      ∑ k ∈ Finset.Icc (-(h:ℤ)) h, (k : α) * r.getD (clampIdx r.length (t + k)) 0 := by
  rw [deltaRow, getD_take_lt _ _ ht, getD_drop', Np.firFilter, getD_map_range_lt _ _ (by rw [padRow_length]; omega)]
  have hw : (deltaWin h : List α).length = 2 * h + 1 := by simp [deltaWin]
  rw [hw]
  refine Finset.sum_nbij' (fun i : ℕ => (h:ℤ) - i) (fun k => ((h:ℤ) - k).toNat) ?_ ?_ ?_ ?_ ?_
  · intro i hi; have := Finset.mem_range.mp hi; rw [Finset.mem_Icc]; omega
  · intro k hk; have := Finset.mem_Icc.mp hk; rw [Finset.mem_range]; omega
  · intro i hi; have := Finset.mem_range.mp hi; simp
  · intro k hk; have := Finset.mem_Icc.mp hk; omega
  · intro i hi
    have hi := Finset.mem_range.mp hi
    rw [if_pos (by omega), deltaWin, getD_map_range_lt _ _ hi, padRow_getD h r (by omega) _ (by omega)]
    congr 1
    · push_cast; ring
    · congr 2; omega

end deltas

end Model
end Spafe
