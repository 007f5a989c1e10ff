import Verif.Lemmas.Store
import Verif.Lemmas.ListAux
import Verif.Lemmas.Preprocessing

/-!
C122: the frames of `stride_trick` are views. They never share memory with the caller's signal (it is copied), but
overlapping frames share memory with each other: writing to one frame changes the others.
-/

set_option linter.unusedSectionVars false

namespace Spafe
namespace Props
open Model XF Spec Store

/-- The view that `stride_trick` returns for a signal of `n` samples. -/
def strideView (base : ℕ) (rows : ℕ) (len : ℕ) (step : ℤ) : View :=
  ⟨base, (List.range rows).map fun (i : ℕ) => (List.range len).map fun (j : ℕ) => (i : ℤ) * step + j⟩

theorem readView_run {H : Heap} {b : ℕ} {sig : List ℝ} (hb : H[b]? = some [sig.map fin]) (rows len : ℕ) (step : ℤ) :
    readView (strideView b rows len step) H =
      (((List.range rows).mapM fun (i : ℕ) => (List.range len).mapM fun (j : ℕ) =>
        let idx : ℤ := (i : ℤ) * step + j
        if 0 ≤ idx ∧ idx < sig.length then (.ok (sig.getD idx.toNat 0) : Py ℝ) else .error .outOfBounds) >>=
          fun F => .ok (F.map fun r => r.map fin, H)) := by
  have cell : ∀ k : ℤ, readCell b k H =
      ((if 0 ≤ k ∧ k < sig.length then (.ok (sig.getD k.toNat 0) : Py ℝ) else .error .outOfBounds) >>= fun x =>
        .ok (fin x, H)) := by
    intro k
    unfold readCell
    rw [bind_run, load_run hb, ok_bind]
    show (if 0 ≤ k ∧ k < (sig.map (fin (α := ℝ))).length then (pure ((sig.map fin).getD k.toNat 0) : Prog (XF ℝ)) else
      lift (.error .outOfBounds)) H = _
    by_cases hk : 0 ≤ k ∧ k < sig.length
    · rw [if_pos (by rw [List.length_map]; exact hk), if_pos hk, ok_bind, pure_run, getD_map_lt _ _ 0 _ (by omega)]
    · rw [if_neg (by rw [List.length_map]; exact hk), if_neg hk]
      rfl
  have gen : ∀ {α β γ : Type} (l : List α) (f : α → Prog β) (g : α → Py γ) (e : γ → β),
      (∀ a ∈ l, f a H = (g a >>= fun x => .ok (e x, H))) →
      (l.mapM f) H = (l.mapM g >>= fun xs => .ok (xs.map e, H)) := by
    intro α β γ l f g e hf
    induction l with
    | nil => rfl
    | cons a l ih =>
      rw [List.mapM_cons, bind_run, hf a (by simp), List.mapM_cons]
      cases g a with
      | error er => rfl
      | ok x =>
        simp only [ok_bind, bind_run]
        rw [ih fun a' h => hf a' (by simp [h])]
        cases l.mapM g with
        | error er => rfl
        | ok xs => rfl
  unfold readView strideView
  rw [List.mapM_map]
  refine gen _ _ _ _ fun i _ => ?_
  show (List.mapM (readCell b) _) H = _
  rw [List.mapM_map]
  exact gen _ _ _ _ fun j _ => cell _

theorem strideTrick_run {h : Heap} {r : ℕ} {sig : List ℝ} (hr : h[r]? = some [sig.map fin]) (len step : ℤ) :
    strideTrickP r len step h = (pyFloorDiv ((sig.length : ℤ) - len) step >>= fun q =>
      if q + 1 < 0 ∨ len < 0 then .error .valueError
      else .ok (strideView h.length (q + 1).toNat len.toNat step, h ++ [[sig.map fin]])) := by
  unfold strideTrickP
  rw [bind_run, load_run hr, ok_bind, bind_run, alloc_run, ok_bind, bind_run]
  simp only [List.headD_cons, List.length_map]
  cases pyFloorDiv ((sig.length : ℤ) - len) step with
  | error e => rfl
  | ok q =>
    simp only [ok_bind, lift_ok]
    split_ifs <;> rfl

/-- **C122** (what the frames are). Reading the view gives the frames of C15; the store has one more array, the private
copy. -/
theorem C122_frames {h : Heap} {r : ℕ} {sig : List ℝ} (hr : h[r]? = some [sig.map fin]) (len step : ℤ) :
    (strideTrickP r len step >>= readView) h =
      (strideTrick sig len step >>= fun F => .ok (F.map fun r => r.map fin, h ++ [[sig.map fin]])) := by
  rw [bind_run, strideTrick_run hr]
  unfold strideTrick
  cases pyFloorDiv ((sig.length : ℤ) - len) step with
  | error e => rfl
  | ok q =>
    simp only [ok_bind]
    split_ifs with hc
    · rfl
    · rw [ok_bind]
      exact readView_run (new_get h _ []) _ _ _

/-- **C122** (independent of the signal). The frames are views of a new array: whatever the caller writes afterwards, to the
signal or to any other array that existed, the frames stay the same. -/
theorem C122_independent {h h' : Heap} {r : ℕ} {sig : List ℝ} (hr : h[r]? = some [sig.map fin]) {len step : ℤ} {v : View}
    (hv : strideTrickP r len step h = .ok (v, h')) {i : ℕ} (hi : i < h.length) (x : XMat) :
    h'[r]? = h[r]? ∧ v.base ≠ i ∧
      (readView v (h'.set i x)).map Prod.fst = (readView v h').map Prod.fst := by
  rw [strideTrick_run hr] at hv
  obtain ⟨q, -, hv⟩ := (bind_ok_iff _ _ _).mp hv
  split_ifs at hv with hc
  injection hv with hv
  injection hv with h1 h2
  subst h1 h2
  have hget : ((h ++ [[sig.map fin]]).set i x)[h.length]? = some [sig.map fin] := by
    rw [List.getElem?_set_ne (by omega), new_get]
  refine ⟨by rw [old_get hr, hr], by simp only [strideView]; omega, ?_⟩
  rw [readView_run hget, readView_run (new_get h _ [])]
  cases (List.range (q + 1).toNat).mapM fun (i : ℕ) => (List.range len.toNat).mapM fun (j : ℕ) =>
        let idx : ℤ := (i : ℤ) * step + j
        if 0 ≤ idx ∧ idx < sig.length then (.ok (sig.getD idx.toNat 0) : Py ℝ) else .error .outOfBounds with
  | error e => rfl
  | ok F => rfl

/-- **C122** (frames share memory). Writing entry `j` of frame `i` is writing sample `i·step + j` of the copy: afterwards the
frames are those of the changed signal, so every other frame that contains the sample has changed too, and nothing else;
the caller's signal has not. -/
theorem C122_shared {h h' : Heap} {r : ℕ} {sig : List ℝ} (hr : h[r]? = some [sig.map fin]) {len step : ℕ} {v : View}
    (hv : strideTrickP r len step h = .ok (v, h')) (hs : 0 < step) (hl : len ≤ sig.length) {i j : ℕ}
    (hi : i ≤ (sig.length - len) / step) (hj : j < len) (y : ℝ) :
    ∃ h'' F, writeView v i j (fin y) h' = .ok ((), h'') ∧ h''[r]? = some [sig.map fin] ∧
      strideTrick (sig.set (i * step + j) y) len step = .ok F ∧ readView v h'' = .ok (F.map fun r => r.map fin, h'') := by
  have hs' : (step : ℤ) ≠ 0 := by exact_mod_cast hs.ne'
  have hq : pyFloorDiv ((sig.length : ℤ) - len) step = .ok (((sig.length - len) / step : ℕ) : ℤ) := by
    unfold pyFloorDiv
    rw [if_neg hs', ← Nat.cast_sub hl, Int.fdiv_eq_ediv_of_nonneg _ (by positivity), Int.natCast_ediv]
  set q : ℕ := (sig.length - len) / step with hqdef
  have hc : ¬((q : ℤ) + 1 < 0 ∨ (len : ℤ) < 0) := by omega
  have hqn : ((q : ℤ) + 1).toNat = q + 1 := by omega
  rw [strideTrick_run hr, hq, ok_bind, if_neg hc] at hv
  injection hv with hv
  injection hv with h1 h2
  subst h1 h2
  have hklt : i * step + j < sig.length := by
    have : i * step ≤ sig.length - len := (Nat.le_div_iff_mul_le hs).mp hi
    omega
  set k := i * step + j with hk
  have hrow : (strideView h.length ((q : ℤ) + 1).toNat (len : ℤ).toNat step).idx.getD i [] =
      (List.range len).map fun (j : ℕ) => (i : ℤ) * step + j := by
    unfold strideView
    rw [Int.toNat_natCast, getD_map_range_lt _ _ (by omega)]
  have hok := strideTrick_ok (sig.set k y) len step hs (by rw [List.length_set]; exact hl)
  refine ⟨h ++ [[(sig.map fin).set k (fin y)]], _, ?_, old_get hr _, hok, ?_⟩
  · unfold writeView
    rw [bind_run, pyIdx_nat _ [] (by unfold strideView; simp; omega), lift_ok, ok_bind, bind_run]
    beta_reduce
    rw [hrow, pyIdx_nat _ 0 (by simpa using hj), lift_ok, ok_bind, getD_map_range_lt _ _ hj]
    have := setAt_run (new_get h [sig.map fin] []) (m := 0) (l := k) (by simp) (by simpa using hklt) (fin y)
    rw [Nat.cast_zero, new_set] at this
    have e : ((i : ℤ) * step + j) = (k : ℤ) := by rw [hk]; push_cast; ring
    beta_reduce
    rw [e]
    exact this
  · have hset : (sig.map fin).set k (fin y) = (sig.set k y).map fin := by rw [List.map_set]
    have hst : strideTrick (sig.set k y) len step = ((List.range ((q : ℤ) + 1).toNat).mapM fun (i : ℕ) =>
        (List.range (len : ℤ).toNat).mapM fun (j : ℕ) =>
          let idx : ℤ := (i : ℤ) * step + j
          if 0 ≤ idx ∧ idx < (sig.set k y).length then (.ok ((sig.set k y).getD idx.toNat 0) : Py ℝ)
          else .error .outOfBounds) := by
      unfold strideTrick
      rw [List.length_set, hq, ok_bind]
      simp only []
      rw [if_neg hc]
    rw [hset, readView_run (new_get h _ []), ← hst, hok, ok_bind]

/-- Frames of two samples, one apart: writing the second sample of the first frame changes the first sample of the
second frame, which is the same memory cell. -/
example (h' : Heap) (v : View) (hv : strideTrickP 0 (2 : ℕ) (1 : ℕ) [[[fin 1, fin 2, fin 3]]] = .ok (v, h')) :
    ∃ h'', writeView v 0 1 (fin 9) h' = .ok ((), h'') ∧ h''[0]? = some [[fin 1, fin 2, fin 3]] ∧
      readView v h'' = .ok ([[fin 1, fin 9], [fin 9, fin 3]], h'') := by
  obtain ⟨h'', F, h1, h2, h3, h4⟩ := C122_shared (sig := [1, 2, 3]) (i := 0) (j := 1) rfl hv (by norm_num) (by simp)
    (by simp) (by norm_num) 9
  rw [strideTrick_ok _ 2 1 (by norm_num) (by simp)] at h3
  injection h3 with h3
  refine ⟨h'', h1, h2, ?_⟩
  rw [h4, ← h3]
  simp [List.range_succ]

/-- Such a view exists. -/
example : ∃ v h', strideTrickP 0 (2 : ℕ) (1 : ℕ) [[[fin 1, fin 2, fin 3]]] = .ok (v, h') := by
  exact ⟨strideView 1 2 2 1, [[[fin 1, fin 2, fin 3]], [[fin 1, fin 2, fin 3]]],
    (strideTrick_run (sig := [1, 2, 3]) rfl 2 1).trans (by rfl)⟩

end Props
end Spafe
