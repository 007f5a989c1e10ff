import Mathlib.Algebra.BigOperators.Group.Finset.Basic
import Mathlib.Algebra.BigOperators.Intervals
import Mathlib.Algebra.Order.BigOperators.Group.Finset
import Mathlib.Data.List.Basic
import Mathlib.Data.List.GetD

/-! General list lemmas. -/

namespace Spafe

section
variable {β : Type}

theorem getD_map_range (f : ℕ → β) (n i : ℕ) (d : β) :
    ((List.range n).map f).getD i d = if i < n then f i else d := by
  by_cases h : i < n
  · rw [if_pos h, List.getD_eq_getElem _ _ (by simpa using h)]; simp
  · rw [if_neg h, List.getD_eq_default _ _ (by simpa using h)]

theorem getD_map_range_lt (f : ℕ → β) {n i : ℕ} (d : β) (h : i < n) :
    ((List.range n).map f).getD i d = f i := by rw [getD_map_range, if_pos h]

theorem ext_getD {l l' : List β} (d : β) (hl : l.length = l'.length)
    (h : ∀ i, i < l.length → l.getD i d = l'.getD i d) : l = l' := by
  apply List.ext_getElem hl
  intro i h1 h2
  have := h i h1
  rwa [List.getD_eq_getElem _ _ h1, List.getD_eq_getElem _ _ h2] at this

theorem getD_map_lt {γ : Type} (f : β → γ) (l : List β) {i : ℕ} (d : β) (d' : γ) (h : i < l.length) :
    (l.map f).getD i d' = f (l.getD i d) := by
  rw [List.getD_eq_getElem _ _ (by simpa using h), List.getD_eq_getElem _ _ h]; simp

theorem getD_zipWith_lt {γ δ : Type} (f : β → γ → δ) (l : List β) (l' : List γ) {i : ℕ}
    (d : δ) (d1 : β) (d2 : γ) (h : i < l.length) (h' : i < l'.length) :
    (List.zipWith f l l').getD i d = f (l.getD i d1) (l'.getD i d2) := by
  rw [List.getD_eq_getElem _ _ (by simp; omega), List.getD_eq_getElem _ _ h,
    List.getD_eq_getElem _ _ h']
  simp

theorem sum_eq_sum_getD [AddCommMonoid β] (l : List β) :
    l.sum = ∑ i ∈ Finset.range l.length, l.getD i 0 := by
  induction l with
  | nil => simp
  | cons a l ih =>
    rw [List.sum_cons, List.length_cons, Finset.sum_range_succ', ih, add_comm]
    simp

theorem sum_map_range [AddCommMonoid β] (f : ℕ → β) (n : ℕ) :
    ((List.range n).map f).sum = ∑ i ∈ Finset.range n, f i := by
  rw [sum_eq_sum_getD]
  simp only [List.length_map, List.length_range]
  exact Finset.sum_congr rfl fun i hi => getD_map_range_lt f 0 (Finset.mem_range.mp hi)

theorem mem_iff_getD {l : List β} (d : β) (a : β) : a ∈ l ↔ ∃ i, i < l.length ∧ l.getD i d = a := by
  rw [List.mem_iff_getElem]
  constructor
  · rintro ⟨i, h, rfl⟩; exact ⟨i, h, List.getD_eq_getElem _ _ h⟩
  · rintro ⟨i, h, rfl⟩; exact ⟨i, h, (List.getD_eq_getElem _ _ h).symm⟩

theorem getD_mem {l : List β} (d : β) {i : ℕ} (h : i < l.length) : l.getD i d ∈ l :=
  (mem_iff_getD d _).mpr ⟨i, h, rfl⟩

theorem getD_append_left (l l' : List β) (d : β) {i : ℕ} (h : i < l.length) :
    (l ++ l').getD i d = l.getD i d := by
  simp [List.getD, List.getElem?_append_left h]

theorem getD_append_right' (l l' : List β) (d : β) (i : ℕ) :
    (l ++ l').getD (l.length + i) d = l'.getD i d := by
  rw [List.getD, List.getElem?_append_right (by omega), Nat.add_sub_cancel_left, ← List.getD]

theorem getD_drop' (l : List β) (d : β) (n i : ℕ) : (l.drop n).getD i d = l.getD (n + i) d := by
  simp [List.getD]

theorem getD_take_lt (l : List β) (d : β) {n i : ℕ} (h : i < n) : (l.take n).getD i d = l.getD i d := by
  simp [List.getD, h]

theorem getD_reverse' (l : List β) (d : β) {i : ℕ} (h : i < l.length) :
    l.reverse.getD i d = l.getD (l.length - 1 - i) d := by
  rw [List.getD, List.getElem?_reverse h, ← List.getD]

theorem getD_replicate' (a d : β) (n i : ℕ) :
    (List.replicate n a).getD i d = if i < n then a else d := by
  by_cases h : i < n <;> simp [List.getD, h]

end

section mapM
variable {β γ ε : Type}

/-- `mapM` in `Except` succeeds with exactly the mapped list when every element does. -/
theorem mapM_ok (f : β → Except ε γ) (g : β → γ) (l : List β) (h : ∀ a ∈ l, f a = .ok (g a)) :
    l.mapM f = .ok (l.map g) := by
  induction l with
  | nil => rfl
  | cons a l ih =>
    rw [List.mapM_cons, h a (by simp), ih fun b hb => h b (by simp [hb])]
    rfl

theorem mapM_ok_iff (f : β → Except ε γ) (l : List β) (r : List γ) :
    l.mapM f = .ok r ↔ List.Forall₂ (fun a b => f a = .ok b) l r := by
  induction l generalizing r with
  | nil =>
    constructor
    · intro h
      have : r = [] := by
        have h' : (Except.ok [] : Except ε (List γ)) = .ok r := h
        injection h' with h'; exact h'.symm
      subst this; exact List.Forall₂.nil
    · intro h; cases h; rfl
  | cons a l ih =>
    rw [List.mapM_cons]
    cases ha : f a with
    | error e =>
      constructor
      · intro h; exact absurd h (by intro h; cases h)
      · intro h; cases h with
        | cons h1 _ => rw [ha] at h1; cases h1
    | ok b =>
      cases hl : l.mapM f with
      | error e =>
        constructor
        · intro h; exact absurd h (by intro h; cases h)
        · intro h; cases h with
          | cons h1 h2 => rw [(ih _).mpr h2] at hl; cases hl
      | ok bs =>
        constructor
        · intro h
          have h' : (Except.ok (b :: bs) : Except ε (List γ)) = .ok r := h
          injection h' with h'
          subst h'
          exact List.Forall₂.cons ha ((ih _).mp hl)
        · intro h
          cases h with
          | cons h1 h2 =>
            rw [ha] at h1
            injection h1 with h1
            rw [(ih _).mpr h2] at hl
            injection hl with hl
            subst h1; subst hl; rfl

theorem mapM_length (f : β → Except ε γ) (l : List β) (r : List γ) (h : l.mapM f = .ok r) :
    r.length = l.length := ((mapM_ok_iff f l r).mp h).length_eq.symm

theorem mapM_error (f : β → Except ε γ) (e : ε) (a : β) (l : List β) (h : f a = .error e) :
    (a :: l).mapM f = .error e := by
  rw [List.mapM_cons, h]; rfl

/-- If the only possible exception is `e` and some element raises it, so does the loop. -/
theorem mapM_eq_error (f : β → Except ε γ) (e : ε) (l : List β)
    (h : ∀ a ∈ l, (∃ b, f a = .ok b) ∨ f a = .error e) (hex : ∃ a ∈ l, f a = .error e) :
    l.mapM f = .error e := by
  induction l with
  | nil => obtain ⟨a, ha, _⟩ := hex; cases ha
  | cons a l ih =>
    rw [List.mapM_cons]
    rcases h a (by simp) with ⟨b, hb⟩ | hb
    · have : l.mapM f = .error e := by
        apply ih fun c hc => h c (by simp [hc])
        obtain ⟨c, hc, hce⟩ := hex
        rcases List.mem_cons.mp hc with rfl | hc
        · rw [hb] at hce; cases hce
        · exact ⟨c, hc, hce⟩
      rw [hb, this]; rfl
    · rw [hb]; rfl

end mapM

end Spafe
