import Verif.Lemmas.Filters
import Verif.Spec.Filters

/-! Properties C06–C07: `spafe/utils/filters.py`. -/

set_option linter.unusedSectionVars false

namespace Spafe
namespace Props
open Model

variable {α : Type} [Field α] [LinearOrder α] [IsStrictOrderedRing α]

/-- C06: the three scaling vectors, entry by entry. -/
theorem C06_scale_values (n : ℕ) :
    (∃ l : List α, scaleFbank "ascendant" n = .ok l ∧ l.length = n ∧
      ∀ i, i < n → l.getD i 0 = ((i : α) + 1) / n) ∧
    (∃ l : List α, scaleFbank "descendant" n = .ok l ∧ l.length = n ∧
      ∀ i, i < n → l.getD i 0 = ((n : α) - i) / n) ∧
    (∃ l : List α, scaleFbank "constant" n = .ok l ∧ l.length = n ∧ ∀ i, i < n → l.getD i 0 = 1) := by
  refine ⟨⟨_, if_pos rfl, by simp, fun i hi => getD_map_range_lt _ _ hi⟩,
    ⟨_, by rw [scaleFbank, if_neg (by decide), if_pos rfl], by simp, fun i hi => getD_map_range_lt _ _ hi⟩,
    ⟨_, by rw [scaleFbank, if_neg (by decide), if_neg (by decide), if_pos rfl], by simp, fun i hi => ?_⟩⟩
  rw [getD_replicate', if_pos hi]

/-- C06: whatever the name, a successful call gives `nfilts` factors in `(0, 1]`. -/
theorem C06_scale_range (s : String) (n : ℕ) (l : List α) (h : scaleFbank s n = .ok l) :
    l.length = n ∧ ∀ v ∈ l, 0 < v ∧ v ≤ 1 := by
  unfold scaleFbank at h
  split_ifs at h <;> injection h with h <;> subst h
  · refine ⟨by simp, fun v hv => ?_⟩
    obtain ⟨i, hi, rfl⟩ := List.mem_map.mp hv
    have hi : i < n := List.mem_range.mp hi
    have hn : (0:α) < n := by exact_mod_cast (by omega : 0 < n)
    have hin : (i:α) + 1 ≤ n := by exact_mod_cast hi
    exact ⟨by positivity, (div_le_one hn).mpr hin⟩
  · refine ⟨by simp, fun v hv => ?_⟩
    obtain ⟨i, hi, rfl⟩ := List.mem_map.mp hv
    have hi : i < n := List.mem_range.mp hi
    have hn : (0:α) < n := by exact_mod_cast (by omega : 0 < n)
    have hin : (i:α) < n := by exact_mod_cast hi
    have hi0 : (0:α) ≤ i := Nat.cast_nonneg i
    exact ⟨div_pos (by linarith) hn, (div_le_one hn).mpr (by linarith)⟩
  · refine ⟨by simp, fun v hv => ?_⟩
    rw [List.eq_of_mem_replicate hv]; exact ⟨one_pos, le_refl _⟩

/-- C06: descending is the mirror image of ascending. -/
theorem C06_scale_mirror (n : ℕ) :
    (scaleFbank "ascendant" n : Py (List α)).map List.reverse = scaleFbank "descendant" n := by
  obtain ⟨⟨a, ha, hal, hav⟩, ⟨d, hd, hdl, hdv⟩, -⟩ := C06_scale_values (α := α) n
  rw [ha, hd]
  show Except.ok _ = _
  congr 1
  apply ext_getD 0 (by simp [hal, hdl])
  intro i hi
  rw [List.length_reverse, hal] at hi
  rw [getD_reverse' _ _ (by omega), hal, hav _ (by omega), hdv _ hi]
  congr 1
  have : ((n - 1 - i : ℕ) : α) + 1 = ((n - 1 - i + 1 : ℕ) : α) := by push_cast; ring
  rw [this, show n - 1 - i + 1 = n - i by omega, Nat.cast_sub hi.le]

/-- C06: any other name raises `KeyError`. -/
theorem C06_scale_unknown (s : String) (n : ℕ)
    (h : s ≠ "ascendant" ∧ s ≠ "descendant" ∧ s ≠ "constant") :
    (scaleFbank s n : Py (List α)) = .error .keyError := by
  simp [scaleFbank, h.1, h.2.1, h.2.2]

example : (scaleFbank "descendant" 4 : Py (List ℚ)) = .ok [1, 3/4, 1/2, 1/4] := by
  simp [scaleFbank, List.range_succ]; norm_num

/-- C07: for every matrix with at least one column, `rasta_filter` returns, row by row, the RASTA response of
that row (four zeros, then the fourth-order difference with one pole at 0.94). -/
theorem C07_rasta_rows (x : List (List α)) (hx : ∀ r ∈ x, r ≠ []) :
    ∃ y, rastaFilter x = .ok y ∧ List.Forall₂ Spec.Rasta x y := by
  refine ⟨_, rastaRows_eq x hx _ rasta_zi_length, ?_⟩
  rw [List.forall₂_map_right_iff, List.forall₂_same]
  intro r _
  have hlen : (rastaRowOut r).length = r.length := by
    simp [rastaRowOut, df2t_length]; omega
  refine ⟨hlen, fun n hn hr => ?_, fun n hn hr => ?_⟩
  · rw [rastaRowOut, getD_append_left _ _ _ (by simp; omega), getD_replicate', ite_self]
  · obtain ⟨m, rfl⟩ : ∃ m, n = 4 + m := ⟨n - 4, by omega⟩
    match r with
    | a :: b :: c :: d :: t =>
      have hm : m < t.length := by simp at hr; omega
      have key := iir_spec t d c b a 0 m hm
      simp only [mul_zero] at key
      have ho : ∀ k, (rastaRowOut (a :: b :: c :: d :: t)).getD (4 + k) 0 =
          (df2t rastaNumer [1, -(94/100)] (rastaState d c b a 0) t).1.getD k 0 := by
        intro k
        exact getD_append_right' (List.replicate 4 0) _ _ k
      rw [ho, key]
      congr 1
      · have e : ∀ k, (a :: b :: c :: d :: t).getD (4 + m - k) 0 = (a :: b :: c :: d :: t).getD (m + 4 - k) 0 :=
          fun k => by rw [Nat.add_comm]
        rw [e 1, e 3, e 4, Nat.add_comm 4 m]
        rfl
      · cases m with
        | zero =>
          have : (rastaRowOut (a :: b :: c :: d :: t)).getD 3 0 = 0 := by
            rw [rastaRowOut, getD_append_left _ _ _ (by simp), getD_replicate', ite_self]
          simp only [Nat.add_zero, show 4 - 1 = 3 from rfl, this]
          rfl
        | succ m =>
          rw [show 4 + (m + 1) - 1 = 4 + m by omega, ho]
          rfl
    | [] => simp at hr
    | [_] => simp at hr
    | [_, _] => simp at hr; omega
    | [_, _, _] => simp at hr; omega

/-- C07: the specification determines the output row, hence each row's output depends on that row only
(the state carried from row to row in the code has no effect). -/
theorem C07_rasta_unique (r o o' : List α) (h : Spec.Rasta r o) (h' : Spec.Rasta r o') : o = o' := by
  apply ext_getD 0 (by rw [h.length, h'.length])
  intro i
  induction i with
  | zero =>
    intro hi
    rw [h.length] at hi
    rw [h.startup 0 (by omega) hi, h'.startup 0 (by omega) hi]
  | succ i ih =>
    intro hi
    have hr := h.length ▸ hi
    by_cases h4 : i + 1 < 4
    · rw [h.startup _ h4 hr, h'.startup _ h4 hr]
    · rw [h.rec' _ (by omega) hr, h'.rec' _ (by omega) hr, Nat.add_sub_cancel, ih (by omega)]

/-- C07: row independence, as an equation: filtering a matrix is filtering its rows one by one. -/
theorem C07_rasta_row_independent (x : List (List α)) (hx : ∀ r ∈ x, r ≠ []) (y : List (List α))
    (hy : rastaFilter x = .ok y) (i : ℕ) (hi : i < x.length) :
    rastaFilter [x.getD i []] = .ok [y.getD i []] := by
  have h1 : rastaFilter x = .ok (x.map rastaRowOut) := rastaRows_eq x hx _ rasta_zi_length
  rw [h1] at hy
  injection hy with hy
  have h2 : rastaFilter [x.getD i []] = .ok ([x.getD i []].map rastaRowOut) :=
    rastaRows_eq _ (fun r hr => by
      rw [List.mem_singleton] at hr
      rw [hr]; exact hx _ (getD_mem _ hi)) _ rasta_zi_length
  rw [h2, ← hy, getD_map_lt _ _ [] [] hi]; rfl

/-- C07: bounded input gives bounded output: `|x| ≤ B` in a row implies `|y| ≤ 10 B`. -/
theorem C07_rasta_bounded (r o : List α) (h : Spec.Rasta r o) (B : α) (hB : ∀ v ∈ r, |v| ≤ B) :
    ∀ v ∈ o, |v| ≤ 10 * B := by
  intro v hv
  obtain ⟨n, hn, rfl⟩ := (mem_iff_getD 0 v).mp hv
  rw [h.length] at hn
  clear hv
  have hg : ∀ k, k < r.length → |r.getD k 0| ≤ B := fun k hk => hB _ (getD_mem _ hk)
  have hB0 : 0 ≤ B := (abs_nonneg _).trans (hg n hn)
  induction n with
  | zero => rw [h.startup 0 (by omega) hn, abs_zero]; linarith
  | succ n ih =>
    by_cases h4 : n + 1 < 4
    · rw [h.startup _ h4 hn, abs_zero]; linarith
    · have e := h.rec' (n + 1) (by omega) hn
      have a0 := abs_le.mp (hg (n + 1) hn)
      have a1 := abs_le.mp (hg (n + 1 - 1) (by omega))
      have a3 := abs_le.mp (hg (n + 1 - 3) (by omega))
      have a4 := abs_le.mp (hg (n + 1 - 4) (by omega))
      have a5 := abs_le.mp (ih (by omega))
      rw [Nat.add_sub_cancel] at e a1
      rw [e, abs_le]
      constructor <;> linarith

/-- C07: a constant row (silence, DC) gives an all-zero output. -/
theorem C07_rasta_constant (r o : List α) (h : Spec.Rasta r o) (c : α) (hc : ∀ v ∈ r, v = c) :
    ∀ v ∈ o, v = 0 := by
  intro v hv
  obtain ⟨n, hn, rfl⟩ := (mem_iff_getD 0 v).mp hv
  rw [h.length] at hn
  clear hv
  have hg : ∀ k, k < r.length → r.getD k 0 = c := fun k hk => hc _ (getD_mem _ hk)
  induction n with
  | zero => exact h.startup 0 (by omega) hn
  | succ n ih =>
    by_cases h4 : n + 1 < 4
    · exact h.startup _ h4 hn
    · rw [h.rec' (n + 1) (by omega) hn, Nat.add_sub_cancel, ih (by omega),
        hg _ hn, hg n (by omega), hg (n + 1 - 3) (by omega), hg (n + 1 - 4) (by omega)]
      ring

/-- C07: a matrix with a row without columns raises `IndexError`. -/
theorem C07_rasta_empty_row (x : List (List α)) : rastaFilter ([] :: x) = .error .indexError := rfl

/-- A concrete non-trivial input: an impulse. -/
example : ∃ y, rastaFilter [[0, 0, 0, 0, 1, 0], ([1, 1, 1, 1, 1, 2] : List ℚ)] = .ok y ∧
    List.Forall₂ Spec.Rasta [[0, 0, 0, 0, 1, 0], [1, 1, 1, 1, 1, 2]] y :=
  C07_rasta_rows _ (by simp)

end Props
end Spafe
