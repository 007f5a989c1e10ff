import Verif.Basic.Np
import Verif.Model.Cepstral
import Verif.Lemmas.ListAux
import Mathlib.Tactic.Ring
import Mathlib.Tactic.FieldSimp
import Mathlib.Tactic.Linarith
import Mathlib.Tactic.NormNum

/-! Real matrices embedded in extended-float matrices, sums over matrices. -/

set_option linter.unusedSectionVars false

namespace Spafe
open XF Model

/-- A real matrix as an extended-float matrix. -/
def finMat (A : List (List ℝ)) : XMat := A.map fun r => r.map fin

theorem finMat_flatten (A : List (List ℝ)) : (finMat A).flatten = A.flatten.map fin := by
  simp [finMat, List.map_flatten]

theorem finMat_injective : Function.Injective finMat := by
  intro A B h
  exact List.map_injective_iff.mpr (List.map_injective_iff.mpr XF.fin_injective) h

section
variable {β : Type} [AddCommMonoid β] {γ : Type}

theorem rect_nil (c : ℕ) : Np.Rect ([] : List (List γ)) c := by intro r h; cases h

theorem rect_row {A : List (List γ)} {c : ℕ} (h : Np.Rect A c) {i : ℕ} (hi : i < A.length) :
    (A.getD i []).length = c := h _ (getD_mem _ hi)

theorem flatten_length {A : List (List γ)} {c : ℕ} (h : Np.Rect A c) : A.flatten.length = A.length * c := by
  rw [List.length_flatten]
  have : A.map List.length = List.replicate A.length c := by
    rw [List.eq_replicate_iff]
    refine ⟨by simp, fun b hb => ?_⟩
    obtain ⟨r, hr, rfl⟩ := List.mem_map.mp hb
    exact h r hr
  rw [this]; simp

theorem flatten_ne_nil {A : List (List γ)} {c : ℕ} (h : Np.Rect A c) (hA : A ≠ []) (hc : 0 < c) :
    A.flatten ≠ [] := by
  intro he
  have h1 := flatten_length h
  rw [he] at h1
  have : 0 < A.length := List.length_pos_iff.mpr hA
  have := Nat.mul_pos this hc
  rw [List.length_nil] at h1; omega

/-- Summing a function over all entries of a rectangular matrix. -/
theorem sum_flatten_map [Zero γ] {A : List (List γ)} {c : ℕ} (h : Np.Rect A c) (f : γ → β) :
    (A.flatten.map f).sum = ∑ i ∈ Finset.range A.length, ∑ j ∈ Finset.range c, f (Np.at2 A i j) := by
  induction A with
  | nil => simp
  | cons r A ih =>
    have hr : r.length = c := h r (by simp)
    have hA : Np.Rect A c := fun s hs => h s (by simp [hs])
    rw [List.flatten_cons, List.map_append, List.sum_append, ih hA, List.length_cons,
      Finset.sum_range_succ', add_comm]
    congr 1
    rw [sum_eq_sum_getD, List.length_map, hr]
    apply Finset.sum_congr rfl
    intro j hj
    rw [getD_map_lt _ _ 0 _ (by rw [hr]; exact Finset.mem_range.mp hj)]
    rfl

theorem sum_col {A : List (List β)} (j : ℕ) :
    (Np.col A j).sum = ∑ i ∈ Finset.range A.length, Np.at2 A i j := by
  rw [sum_eq_sum_getD]
  simp only [Np.col, List.length_map]
  apply Finset.sum_congr rfl
  intro i hi
  rw [getD_map_lt _ _ [] _ (Finset.mem_range.mp hi)]; rfl

/-- Two rectangular matrices of the same shape with the same entries are equal. -/
theorem mat_ext [Zero γ] {A B : List (List γ)} {c : ℕ} (hA : Np.Rect A c) (hB : Np.Rect B c)
    (hl : A.length = B.length) (h : ∀ i j, i < A.length → j < c → Np.at2 A i j = Np.at2 B i j) : A = B := by
  apply ext_getD [] hl
  intro i hi
  apply ext_getD 0 (by rw [rect_row hA hi, rect_row hB (hl ▸ hi)])
  intro j hj
  exact h i j hi (by rw [← rect_row hA hi]; exact hj)

end

theorem col_finMat {A : List (List ℝ)} {c : ℕ} (h : Np.Rect A c) {j : ℕ} (hj : j < c) :
    Np.col (finMat A) j = (Np.col A j).map fin := by
  simp only [Np.col, finMat, List.map_map]
  apply List.map_congr_left
  intro r hr
  simp only [Function.comp]
  rw [getD_map_lt _ _ 0 _ (by rw [h r hr]; exact hj)]

theorem at2_map {γ δ : Type} [Zero γ] [Zero δ] {A : List (List γ)} {c : ℕ} (h : Np.Rect A c) (f : γ → δ) {i j : ℕ}
    (hi : i < A.length) (hj : j < c) : Np.at2 (A.map fun r => r.map f) i j = f (Np.at2 A i j) := by
  unfold Np.at2
  rw [getD_map_lt _ _ [] _ hi, getD_map_lt _ _ 0 _ (by rw [rect_row h hi]; exact hj)]

theorem rect_map {γ δ : Type} {A : List (List γ)} {c : ℕ} (h : Np.Rect A c) (f : γ → δ) :
    Np.Rect (A.map fun r => r.map f) c := by
  intro r hr
  obtain ⟨s, hs, rfl⟩ := List.mem_map.mp hr
  simp [h s hs]

theorem xmean_fin {l : List ℝ} (h : l ≠ []) : xmean (l.map fin) = fin (Np.mean l) := by
  have : (l.length : ℝ) ≠ 0 := by
    have := List.length_pos_iff.mpr h
    exact_mod_cast this.ne'
  rw [xmean, xlen, list_sum_fin, List.length_map, fin_div _ _ this, Np.mean]

theorem np_var_nonneg (l : List ℝ) : 0 ≤ Np.var l := by
  unfold Np.var
  apply div_nonneg _ (Nat.cast_nonneg _)
  apply List.sum_nonneg
  intro x hx
  obtain ⟨v, _, rfl⟩ := List.mem_map.mp hx
  exact sq_nonneg _

theorem xstd_fin {l : List ℝ} (h : l ≠ []) : xstd (l.map fin) = fin (Real.sqrt (Np.var l)) := by
  have hl : (l.length : ℝ) ≠ 0 := by
    have := List.length_pos_iff.mpr h
    exact_mod_cast this.ne'
  rw [xstd, xlen, List.length_map]
  have : ((l.map fin).map fun v => (v - xmean (l.map fin)) * (v - xmean (l.map fin))) =
      (l.map fun v => (v - Np.mean l) ^ 2).map fin := by
    rw [xmean_fin h, List.map_map, List.map_map]
    apply List.map_congr_left
    intro v _
    simp [sq]
  rw [this, list_sum_fin, fin_div _ _ hl]
  have h0 := np_var_nonneg l
  unfold Np.var at h0 ⊢
  simp only [XF.sqrt, if_pos h0]

theorem xmax_fin (a : ℝ) (l : List ℝ) : xmax ((a :: l).map fin) = fin (l.foldl max a) := by
  simp only [List.map_cons, xmax]
  induction l generalizing a with
  | nil => rfl
  | cons b l ih => simp only [List.map_cons, List.foldl_cons, max2_fin]; exact ih (max a b)

theorem xmin_fin (a : ℝ) (l : List ℝ) : xmin ((a :: l).map fin) = fin (l.foldl min a) := by
  simp only [List.map_cons, xmin]
  induction l generalizing a with
  | nil => rfl
  | cons b l ih => simp only [List.map_cons, List.foldl_cons, min2_fin]; exact ih (min a b)

theorem foldl_max_spec (l : List ℝ) (a : ℝ) :
    l.foldl max a ∈ a :: l ∧ ∀ v ∈ a :: l, v ≤ l.foldl max a := by
  induction l generalizing a with
  | nil => simp
  | cons b l ih =>
    obtain ⟨h1, h2⟩ := ih (max a b)
    rw [List.foldl_cons]
    constructor
    · rcases List.mem_cons.mp h1 with h | h
      · rw [h]; rcases max_choice a b with h' | h' <;> rw [h'] <;> simp
      · exact List.mem_cons_of_mem _ (List.mem_cons_of_mem _ h)
    · intro v hv
      have hm := h2 (max a b) (by simp)
      rcases List.mem_cons.mp hv with rfl | hv
      · exact (le_max_left _ _).trans hm
      rcases List.mem_cons.mp hv with rfl | hv
      · exact (le_max_right _ _).trans hm
      · exact h2 v (List.mem_cons_of_mem _ hv)

theorem foldl_min_spec (l : List ℝ) (a : ℝ) :
    l.foldl min a ∈ a :: l ∧ ∀ v ∈ a :: l, l.foldl min a ≤ v := by
  induction l generalizing a with
  | nil => simp
  | cons b l ih =>
    obtain ⟨h1, h2⟩ := ih (min a b)
    rw [List.foldl_cons]
    constructor
    · rcases List.mem_cons.mp h1 with h | h
      · rw [h]; rcases min_choice a b with h' | h' <;> rw [h'] <;> simp
      · exact List.mem_cons_of_mem _ (List.mem_cons_of_mem _ h)
    · intro v hv
      have hm := h2 (min a b) (by simp)
      rcases List.mem_cons.mp hv with rfl | hv
      · exact hm.trans (min_le_left _ _)
      rcases List.mem_cons.mp hv with rfl | hv
      · exact hm.trans (min_le_right _ _)
      · exact h2 v (List.mem_cons_of_mem _ hv)

/-- Greatest and least entry of a non-empty list. -/
theorem xmax_xmin_fin {l : List ℝ} (h : l ≠ []) :
    ∃ M m, xmax (l.map fin) = fin M ∧ xmin (l.map fin) = fin m ∧ M ∈ l ∧ m ∈ l ∧ ∀ v ∈ l, m ≤ v ∧ v ≤ M := by
  match l with
  | [] => exact absurd rfl h
  | a :: l =>
    exact ⟨_, _, xmax_fin a l, xmin_fin a l, (foldl_max_spec l a).1, (foldl_min_spec l a).1,
      fun v hv => ⟨(foldl_min_spec l a).2 v hv, (foldl_max_spec l a).2 v hv⟩⟩

end Spafe
