import Verif.Model.Store
import Verif.Lemmas.Pncc
import Verif.Lemmas.Lpc2

/-! Running programs over a store. -/

set_option linter.unusedSectionVars false

namespace Spafe
namespace Store
open Model XF

theorem bind_run {α β : Type} (x : Prog α) (f : α → Prog β) (h : Heap) : (x >>= f) h = (x h >>= fun p => f p.1 p.2) := rfl
theorem pure_run {α : Type} (a : α) (h : Heap) : (pure a : Prog α) h = .ok (a, h) := rfl
theorem lift_ok {α : Type} (a : α) (h : Heap) : lift (.ok a) h = .ok (a, h) := rfl
theorem lift_error {α : Type} (e : Err) (h : Heap) : (lift (.error e) : Prog α) h = .error e := rfl
theorem alloc_run (x : XMat) (h : Heap) : alloc x h = .ok (h.length, h ++ [x]) := rfl

theorem load_run {h : Heap} {r : ℕ} {x : XMat} (hx : h[r]? = some x) : load r h = .ok (x, h) := by
  unfold load; rw [hx]

theorem getRow_run {h : Heap} {r : ℕ} {x : XMat} (hx : h[r]? = some x) {m : ℕ} (hm : m < x.length) :
    getRow r (m : ℤ) h = .ok (x.getD m [], h) := by
  unfold getRow
  rw [bind_run, load_run hx, ok_bind, pyIdx_nat _ [] hm, lift_ok]

theorem getRow_error {h : Heap} {r : ℕ} {x : XMat} (hx : h[r]? = some x) {m : ℕ} (hm : x.length ≤ m) :
    getRow r (m : ℤ) h = .error .indexError := by
  unfold getRow
  rw [bind_run, load_run hx, ok_bind, pyIdx_nat_error _ hm, lift_error]

theorem getAt_run {h : Heap} {r : ℕ} {x : XMat} (hx : h[r]? = some x) {m l : ℕ} (hm : m < x.length)
    (hl : l < (x.getD m []).length) : getAt r (m : ℤ) (l : ℤ) h = .ok ((x.getD m []).getD l 0, h) := by
  unfold getAt
  rw [bind_run, getRow_run hx hm, ok_bind, pyIdx_nat _ 0 hl, lift_ok]

theorem getAt_error {h : Heap} {r : ℕ} {x : XMat} (hx : h[r]? = some x) {m l : ℕ} (hm : m < x.length)
    (hl : (x.getD m []).length ≤ l) : getAt r (m : ℤ) (l : ℤ) h = .error .indexError := by
  unfold getAt
  rw [bind_run, getRow_run hx hm, ok_bind, pyIdx_nat_error _ hl, lift_error]

theorem setRow_run {h : Heap} {r : ℕ} {x : XMat} (hx : h[r]? = some x) {m : ℕ} (hm : m < x.length)
    {v : List (XF ℝ)} (hv : (x.getD m []).length = v.length) :
    setRow r (m : ℤ) v h = .ok ((), h.set r (x.set m v)) := by
  unfold setRow
  rw [bind_run, load_run hx, ok_bind, bind_run, pyIdx_nat _ [] hm, lift_ok, ok_bind, if_neg (not_not.mpr hv),
    bind_run, pySet_nat _ _ hm, lift_ok, ok_bind]

theorem setAt_run {h : Heap} {r : ℕ} {x : XMat} (hx : h[r]? = some x) {m l : ℕ} (hm : m < x.length)
    (hl : l < (x.getD m []).length) (v : XF ℝ) :
    setAt r (m : ℤ) (l : ℤ) v h = .ok ((), h.set r (x.set m ((x.getD m []).set l v))) := by
  unfold setAt
  rw [bind_run, load_run hx, ok_bind, bind_run, pyIdx_nat _ [] hm, lift_ok, ok_bind, bind_run, pySet_nat _ _ hl,
    lift_ok, ok_bind, bind_run, pySet_nat _ _ hm, lift_ok, ok_bind]

/-- A negative index `-1` reads the last row. -/
theorem getRow_last {h : Heap} {r : ℕ} {x : XMat} (hx : h[r]? = some x) (h0 : x ≠ []) :
    getRow r (-1) h = .ok (x.getD (x.length - 1) [], h) := by
  have hl : 0 < x.length := List.length_pos_iff.mpr h0
  unfold getRow
  rw [bind_run, load_run hx, ok_bind]
  have : pyIdx x (-1) = .ok (x.getD (x.length - 1) []) := by
    unfold pyIdx
    have e : ((x.length : ℤ) + -1).toNat = x.length - 1 := by omega
    rw [if_neg (by omega), if_pos (by omega), e, List.getElem?_eq_getElem (by omega), List.getD_eq_getElem _ _ (by omega)]
  rw [this, lift_ok]

theorem old_get {h : Heap} {r : ℕ} {x : XMat} (hx : h[r]? = some x) (t : Heap) : (h ++ t)[r]? = some x := by
  have hr : r < h.length := by
    by_contra hc
    rw [List.getElem?_eq_none (by omega)] at hx
    cases hx
  rw [List.getElem?_append_left hr, hx]

theorem new_get (h : Heap) (x : XMat) (t : Heap) : (h ++ x :: t)[h.length]? = some x := by
  rw [List.getElem?_append_right le_rfl]; simp

theorem new_set (h : Heap) (x y : XMat) (t : Heap) : (h ++ x :: t).set h.length y = h ++ y :: t := by
  rw [List.set_append_right _ _ le_rfl]; simp

theorem new_get1 (h : Heap) (x y : XMat) (t : Heap) : (h ++ x :: y :: t)[h.length + 1]? = some y := by
  rw [List.getElem?_append_right (by omega)]; simp

theorem new_set1 (h : Heap) (x y z : XMat) (t : Heap) : (h ++ x :: y :: t).set (h.length + 1) z = h ++ x :: z :: t := by
  rw [List.set_append_right _ _ (by omega)]; simp

/-- A loop whose iterations all succeed; `S m` is the store before iteration `m`. -/
theorem loop_ok {body : ℕ → Prog Unit} (S : ℕ → Heap) (a n : ℕ)
    (hb : ∀ m, a ≤ m → m < a + n → body m (S m) = .ok ((), S (m + 1))) :
    loop (List.range' a n) body (S a) = .ok ((), S (a + n)) := by
  induction n generalizing a with
  | zero => rfl
  | succ n ih =>
    rw [List.range'_succ, loop, bind_run, hb a le_rfl (by omega), ok_bind, ih (a + 1) fun m h1 h2 => hb m (by omega) (by omega)]
    rw [show a + 1 + n = a + (n + 1) by omega]

theorem loop_ok' {body : ℕ → Prog Unit} (S : ℕ → Heap) (n : ℕ)
    (hb : ∀ m < n, body m (S m) = .ok ((), S (m + 1))) : loop (List.range n) body (S 0) = .ok ((), S n) := by
  rw [List.range_eq_range', loop_ok S 0 n fun m _ h => hb m (by omega), Nat.zero_add]

/-- A loop that raises in iteration `k`. -/
theorem loop_error {body : ℕ → Prog Unit} (S : ℕ → Heap) (a n k : ℕ) (hk : k < n) (e : Err)
    (hb : ∀ m, a ≤ m → m < a + k → body m (S m) = .ok ((), S (m + 1))) (he : body (a + k) (S (a + k)) = .error e) :
    loop (List.range' a n) body (S a) = .error e := by
  induction k generalizing a n with
  | zero =>
    obtain ⟨n, rfl⟩ : ∃ n', n = n' + 1 := ⟨n - 1, by omega⟩
    rw [List.range'_succ, loop, bind_run]
    rw [Nat.add_zero] at he
    rw [he, error_bind]
  | succ k ih =>
    obtain ⟨n, rfl⟩ : ∃ n', n = n' + 1 := ⟨n - 1, by omega⟩
    rw [List.range'_succ, loop, bind_run, hb a le_rfl (by omega), ok_bind]
    exact ih (a + 1) n (by omega) (fun m h1 h2 => hb m (by omega) (by omega))
      (by rw [show a + 1 + k = a + (k + 1) by omega]; exact he)

/-- An array whose first `m` entries are final and whose others are initial. -/
def partialArr {β : Type} (out init : List β) (m : ℕ) : List β := out.take m ++ init.drop m

theorem partialArr_length {β : Type} {out init : List β} (hl : out.length = init.length) {m : ℕ} (hm : m ≤ out.length) :
    (partialArr out init m).length = out.length := by
  simp [partialArr]; omega

theorem partialArr_zero {β : Type} (out init : List β) : partialArr out init 0 = init := by simp [partialArr]

theorem partialArr_full {β : Type} {out init : List β} (hl : out.length = init.length) :
    partialArr out init out.length = out := by
  simp [partialArr, hl]

theorem partialArr_getD {β : Type} (d : β) {out init : List β} (hl : out.length = init.length) {m i : ℕ}
    (hm : m ≤ out.length) : (partialArr out init m).getD i d = if i < m then out.getD i d else init.getD i d := by
  unfold partialArr
  split_ifs with h
  · rw [List.getD_append _ _ _ _ (by simp; omega)]
    simp only [List.getD_eq_getElem?_getD, List.getElem?_take, h, if_true]
  · rw [List.getD_append_right _ _ _ _ (by simp; omega)]
    simp only [List.getD_eq_getElem?_getD, List.getElem?_drop, List.length_take]
    congr 2
    omega

theorem partialArr_set {β : Type} (d : β) {out init : List β} (hl : out.length = init.length) {m : ℕ}
    (hm : m < out.length) : (partialArr out init m).set m (out.getD m d) = partialArr out init (m + 1) := by
  apply List.ext_getElem?
  intro i
  unfold partialArr
  rw [List.getElem?_set]
  split_ifs with h1 h2
  · subst h1
    rw [List.getElem?_append_left (by simp; omega), List.getElem?_take, if_pos (by omega), List.getD_eq_getElem _ _ hm,
      List.getElem?_eq_getElem hm]
  · simp at h2; omega
  · by_cases hi : i < m
    · rw [List.getElem?_append_left (by simp; omega), List.getElem?_append_left (by simp; omega), List.getElem?_take,
        List.getElem?_take, if_pos hi, if_pos (by omega)]
    · rw [List.getElem?_append_right (by simp; omega), List.getElem?_append_right (by simp; omega), List.getElem?_drop,
        List.getElem?_drop]
      congr 1
      simp
      omega

/-- A loop that appends one value per round to what it has computed; `T acc` is the store after `acc` was computed. -/
theorem loop_fill {β : Type} (f : ℕ → Py β) (body : ℕ → Prog Unit) (T : List β → Heap) (n : ℕ) (acc : List β)
    (hb : ∀ acc' : List β, acc.length ≤ acc'.length → acc'.length < acc.length + n →
      body acc'.length (T acc') = f acc'.length >>= fun v => .ok ((), T (acc' ++ [v]))) :
    loop (List.range' acc.length n) body (T acc) =
      (List.range' acc.length n).mapM f >>= fun vs => .ok ((), T (acc ++ vs)) := by
  induction n generalizing acc with
  | zero => rw [List.range'_zero, loop, List.mapM_nil, pure_run]; show _ = Except.ok _; rw [List.append_nil]
  | succ n ih =>
    rw [List.range'_succ, loop, bind_run, hb acc le_rfl (by omega), List.mapM_cons]
    cases hf : f acc.length with
    | error e => simp only [error_bind]
    | ok v =>
      simp only [ok_bind]
      have := ih (acc ++ [v]) fun acc' h1 h2 => hb acc' (by simp at h1; omega) (by simp at h2; omega)
      rw [List.length_append, List.length_singleton] at this
      rw [this]
      cases (List.range' (acc.length + 1) n).mapM f with
      | error e => rfl
      | ok vs => simp [ok_bind, pure, Except.pure, bind, Except.bind]

theorem mapM_run_ok {α β : Type} {f : α → Prog β} (g : α → β) {h : Heap} {l : List α}
    (hf : ∀ k ∈ l, f k h = .ok (g k, h)) : (l.mapM f) h = .ok (l.map g, h) := by
  induction l with
  | nil => rw [List.mapM_nil]; rfl
  | cons a l ih =>
    rw [List.mapM_cons, bind_run, hf a (by simp), ok_bind, bind_run, ih fun k hk => hf k (by simp [hk]), ok_bind]
    rfl

theorem mapM_run_error {α β : Type} {f : α → Prog β} (g : α → β) {h : Heap} {l : List α} {e : Err}
    (hf : ∀ k ∈ l, f k h = .ok (g k, h) ∨ f k h = .error e) (he : ∃ k ∈ l, f k h = .error e) :
    (l.mapM f) h = .error e := by
  induction l with
  | nil => obtain ⟨k, hk, -⟩ := he; cases hk
  | cons a l ih =>
    rw [List.mapM_cons, bind_run]
    rcases hf a (by simp) with h1 | h1
    · rw [h1, ok_bind, bind_run]
      obtain ⟨k, hk, hk'⟩ := he
      rcases List.mem_cons.mp hk with rfl | hk
      · rw [h1] at hk'; cases hk'
      · rw [ih (fun k hk => hf k (by simp [hk])) ⟨k, hk, hk'⟩, error_bind]
    · rw [h1, error_bind]

theorem sum_Ico_range' {β : Type} [AddCommMonoid β] (f : ℕ → β) (a b : ℕ) :
    ((List.range' a (b - a)).map f).sum = ∑ k ∈ Finset.Ico a b, f k := rfl

theorem setAt_error {h : Heap} {r : ℕ} {x : XMat} (hx : h[r]? = some x) {m l : ℕ} (hm : m < x.length)
    (hl : (x.getD m []).length ≤ l) (v : XF ℝ) : setAt r (m : ℤ) (l : ℤ) v h = .error .indexError := by
  unfold setAt
  rw [bind_run, load_run hx, ok_bind, bind_run, pyIdx_nat _ [] hm, lift_ok, ok_bind, bind_run, pySet_nat_error _ _ hl,
    lift_error, error_bind]

/-- The outcome of a program that is meant to compute `res`: the exception of `res`, or a *new* array with the value of
`res`; all arrays that existed before are as they were. -/
def Computes (p : Prog ℕ) (h : Heap) (res : Py XMat) : Prop :=
  match res with
  | .error e => p h = .error e
  | .ok x => ∃ r t, p h = .ok (r, h ++ t) ∧ h.length ≤ r ∧ (h ++ t)[r]? = some x

end Store
end Spafe
