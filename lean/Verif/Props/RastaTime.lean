import Verif.Props.Filters
import Verif.Spec.RastaTime

/-!
C158: RASTA filtering is meant to remove what does not change in time (a fixed channel, a steady background). `rasta_filter`
(`spafe/utils/filters.py:17-47`) is documented for rows = frames and columns = bands and then filters along the rows, that is across
the bands of one frame: nothing is removed that is constant in time, and what is constant across the bands is removed instead.
-/

set_option linter.unusedSectionVars false

namespace Spafe
namespace Props
open Model Spec

variable {α : Type} [Field α] [LinearOrder α] [IsStrictOrderedRing α]

theorem course_getD (x : List (List α)) (n i : ℕ) (hi : i < x.length) : (course x n).getD i 0 = (x.getD i []).getD n 0 := by
  unfold course
  rw [getD_map_lt _ _ [] 0 hi]

theorem course_length (x : List (List α)) (n : ℕ) : (course x n).length = x.length := by
  unfold course; rw [List.length_map]

theorem forall2_getD {R : List α → List α → Prop} {x y : List (List α)} (h : List.Forall₂ R x y) (i : ℕ) (hi : i < x.length) :
    R (x.getD i []) (y.getD i []) := by
  have hy : i < y.length := by rw [← h.length_eq]; exact hi
  rw [List.getD_eq_getElem _ _ hi, List.getD_eq_getElem _ _ hy]
  exact h.get hi hy

/-- **C158**: `rasta_filter` does what is documented when it is given the transposed array (and its result is transposed back). The
full claim is `RastaInTime K x y` for `rasta_filter(x) = y`. -/
theorem C158_transposed_partial (x : List (List α)) (K : ℕ) (hx : x ≠ []) :
    ∃ z, rastaFilter (turned K x) = .ok z ∧ RastaInTime K x (turned x.length z) := by
  have hne : ∀ r ∈ turned K x, r ≠ [] := by
    intro r hr
    obtain ⟨n, -, rfl⟩ := List.mem_map.1 hr
    intro h
    have := congrArg List.length h
    rw [course_length] at this
    exact hx (List.length_eq_zero_iff.1 this)
  obtain ⟨z, h1, h2⟩ := C07_rasta_rows (turned K x) hne
  have hl : (turned K x).length = K := by unfold turned; rw [List.length_map, List.length_range]
  have hzl : z.length = K := by rw [← h2.length_eq, hl]
  refine ⟨z, h1, ?_, fun n hn => ?_⟩
  · intro r hr
    obtain ⟨i, -, rfl⟩ := List.mem_map.1 hr
    rw [course_length, hzl]
  · have h3 := forall2_getD h2 n (by rw [hl]; exact hn)
    have h4 : (turned K x).getD n [] = course x n := by
      unfold turned
      rw [getD_map_range_lt _ _ hn]
    rw [h4] at h3
    have h5 : course (turned x.length z) n = z.getD n [] := by
      have hlen : (z.getD n []).length = x.length := by rw [h3.length, course_length]
      apply ext_getD 0
      · rw [course_length, hlen]; unfold turned; rw [List.length_map, List.length_range]
      · intro i hi
        have hi' : i < x.length := by
          rw [course_length] at hi; unfold turned at hi; rw [List.length_map, List.length_range] at hi; exact hi
        rw [course_getD _ _ _ (by rw [course_length] at hi; exact hi)]
        unfold turned
        rw [getD_map_range_lt _ _ hi', course_getD _ _ _ (by rw [hzl]; exact hn)]
    rw [h5]
    exact h3

/-- The response is zero exactly when the input of the recursion is. -/
theorem rasta_zero_iff {r o : List α} (h : Rasta r o) : (∀ v ∈ o, v = 0) ↔ ∀ n, 4 ≤ n → n < r.length →
    1/5 * r.getD n 0 + 1/10 * r.getD (n-1) 0 - 1/10 * r.getD (n-3) 0 - 1/5 * r.getD (n-4) 0 = 0 := by
  have hz : (∀ v ∈ o, v = 0) ↔ ∀ i < o.length, o.getD i 0 = 0 := by
    constructor
    · intro h i hi; exact h _ (getD_mem _ hi)
    · intro h v hv
      obtain ⟨i, hi, rfl⟩ := List.getElem_of_mem hv
      rw [← List.getD_eq_getElem _ 0 hi]
      exact h i hi
  rw [hz]
  constructor
  · intro h0 n hn hr
    have h1 := h.rec' n hn hr
    rw [h0 n (by rw [h.length]; exact hr), h0 (n - 1) (by rw [h.length]; omega)] at h1
    linarith
  · intro h0 i
    induction i with
    | zero => intro hi; exact h.startup 0 (by omega) (by rw [← h.length]; exact hi)
    | succ i ih =>
      intro hi
      have hr : i + 1 < r.length := by rw [← h.length]; exact hi
      by_cases h4 : i + 1 < 4
      · exact h.startup _ h4 hr
      · have h1 := h.rec' (i + 1) (by omega) hr
        rw [h0 (i + 1) (by omega) hr, Nat.add_sub_cancel, ih (by omega)] at h1
        rw [h1]; ring

/-- **C158**, violated (steady sounds). For `T` equal frames `r` every array filtered in time is zero; `rasta_filter` returns `T` equal
frames which are zero only if `r` satisfies a linear relation across its bands. -/
theorem C158_steady (r : List α) (hr : r ≠ []) (T : ℕ) :
    ∃ o, rastaFilter (List.replicate T r) = .ok (List.replicate T o) ∧ Rasta r o ∧
      ((∀ v ∈ o, v = 0) ↔ ∀ n, 4 ≤ n → n < r.length →
        1/5 * r.getD n 0 + 1/10 * r.getD (n-1) 0 - 1/10 * r.getD (n-3) 0 - 1/5 * r.getD (n-4) 0 = 0) ∧
      ∀ z, RastaInTime r.length (List.replicate T r) z → ∀ i < T, ∀ n < r.length, (z.getD i []).getD n 0 = 0 := by
  obtain ⟨y1, e1, h1⟩ := C07_rasta_rows [r] (by simpa using hr)
  obtain ⟨o, y0, ho, h0, rfl⟩ := List.forall₂_cons_left_iff.1 h1
  refine ⟨o, ?_, ho, rasta_zero_iff ho, ?_⟩
  · obtain ⟨y, e, h⟩ := C07_rasta_rows (List.replicate T r) (fun s hs => by rw [List.eq_of_mem_replicate hs]; exact hr)
    rw [e]
    congr 1
    apply List.eq_replicate_iff.2
    refine ⟨by rw [← h.length_eq, List.length_replicate], fun s hs => ?_⟩
    obtain ⟨i, hi, rfl⟩ := List.getElem_of_mem hs
    have hiT : i < (List.replicate T r).length := by rw [h.length_eq]; exact hi
    have h2 := h.get hiT hi
    have h3 : (List.replicate T r).get ⟨i, hiT⟩ = r := by simp
    rw [h3] at h2
    exact C07_rasta_unique r _ _ h2 ho
  · intro z hz i hi n hn
    have h2 := hz.2 n hn
    have hlz : z.length = T := by
      have := h2.length
      rw [course_length, course_length, List.length_replicate] at this
      exact this
    rw [← course_getD z n i (by rw [hlz]; exact hi)]
    have hi' : i < (course z n).length := by rw [course_length, hlz]; exact hi
    refine C07_rasta_constant _ _ h2 (r.getD n 0) ?_ _ (getD_mem _ hi')
    intro v hv
    obtain ⟨s, hs, rfl⟩ := List.mem_map.1 hv
    rw [List.eq_of_mem_replicate hs]

theorem rasta_add {r s o p : List α} (h : Rasta r o) (h' : Rasta s p) (hl : s.length = r.length) :
    Rasta (List.zipWith (· + ·) r s) (List.zipWith (· + ·) o p) := by
  have g : ∀ (u v : List α), u.length = v.length → ∀ i, (List.zipWith (· + ·) u v).getD i 0 = u.getD i 0 + v.getD i 0 := by
    intro u v huv i
    by_cases hi : i < u.length
    · rw [List.getD_eq_getElem _ _ (by rw [List.length_zipWith]; omega), List.getD_eq_getElem _ _ hi,
        List.getD_eq_getElem _ _ (by omega), List.getElem_zipWith]
    · rw [List.getD_eq_default _ _ (by rw [List.length_zipWith]; omega), List.getD_eq_default _ _ (by omega),
        List.getD_eq_default _ _ (by omega), add_zero]
  have hop : o.length = p.length := by rw [h.length, h'.length, hl]
  have hrl : (List.zipWith (· + ·) r s).length = r.length := by rw [List.length_zipWith, hl, min_self]
  refine ⟨by rw [List.length_zipWith, hrl, ← hop, min_self, h.length], fun n hn hr => ?_, fun n hn hr => ?_⟩
  · rw [hrl] at hr
    rw [g _ _ hop, h.startup n hn hr, h'.startup n hn (by omega), add_zero]
  · rw [hrl] at hr
    rw [g _ _ hop, g _ _ hop, g _ _ hl.symm, g _ _ hl.symm, g _ _ hl.symm, g _ _ hl.symm, h.rec' n hn hr, h'.rec' n hn (by omega)]
    ring

/-- **C158**, violated (fixed channels). Filtering in time does not see a fixed weighting `c` of the bands; the output of `rasta_filter`
changes by the response to `c` in every frame. -/
theorem C158_channel (x : List (List α)) (c : List α) (hc : c ≠ []) (hx : ∀ r ∈ x, r.length = c.length) :
    (∃ y o, rastaFilter x = .ok y ∧ Rasta c o ∧ rastaFilter (throughChannel c x) = .ok (throughChannel o y)) ∧
    ∀ z, RastaInTime c.length x z → RastaInTime c.length (throughChannel c x) z := by
  have hne : ∀ r ∈ x, r ≠ [] := by
    intro r hr h
    have := hx r hr
    rw [h] at this
    exact hc (List.length_eq_zero_iff.1 this.symm)
  constructor
  · obtain ⟨y, e, h⟩ := C07_rasta_rows x hne
    obtain ⟨y1, e1, h1⟩ := C07_rasta_rows [c] (by simpa using hc)
    obtain ⟨o, y0, ho, h0, rfl⟩ := List.forall₂_cons_left_iff.1 h1
    refine ⟨y, o, e, ho, ?_⟩
    obtain ⟨w, e', h'⟩ := C07_rasta_rows (throughChannel c x) (by
      intro r hr
      obtain ⟨s, hs, rfl⟩ := List.mem_map.1 hr
      intro h
      have := congrArg List.length h
      rw [List.length_zipWith, hx s hs, min_self] at this
      exact hc (List.length_eq_zero_iff.1 this))
    rw [e']
    congr 1
    have hlx : y.length = x.length := h.length_eq.symm
    have hlw : w.length = x.length := by rw [← h'.length_eq]; unfold throughChannel; rw [List.length_map]
    apply ext_getD []
    · unfold throughChannel; rw [List.length_map, hlx, hlw]
    · intro i hi
      rw [hlw] at hi
      have a1 := forall2_getD h i hi
      have a2 := forall2_getD h' i (by unfold throughChannel; rw [List.length_map]; exact hi)
      unfold throughChannel at a2 ⊢
      rw [getD_map_lt _ _ [] [] hi] at a2
      rw [getD_map_lt _ _ [] [] (by rw [hlx]; exact hi)]
      exact C07_rasta_unique _ _ _ a2 (rasta_add a1 ho (hx _ (getD_mem _ hi)).symm)
  · intro z hz
    refine ⟨hz.1, fun n hn => ?_⟩
    have h2 := hz.2 n hn
    have hlen : (throughChannel c x).length = x.length := by unfold throughChannel; rw [List.length_map]
    have key : ∀ i < x.length, (course (throughChannel c x) n).getD i 0 = (course x n).getD i 0 + c.getD n 0 := by
      intro i hi
      rw [course_getD _ _ _ (by rw [hlen]; exact hi), course_getD _ _ _ hi]
      unfold throughChannel
      rw [getD_map_lt _ _ [] [] hi]
      have hr := hx _ (getD_mem [] hi)
      generalize x.getD i [] = s at hr ⊢
      rw [List.getD_eq_getElem _ _ (by rw [List.length_zipWith, hr, min_self]; exact hn), List.getElem_zipWith,
        List.getD_eq_getElem _ _ (by rw [hr]; exact hn), List.getD_eq_getElem _ _ hn]
    have hl2 : (course (throughChannel c x) n).length = (course x n).length := by
      rw [course_length, course_length, hlen]
    refine ⟨by rw [hl2]; exact h2.length, fun m hm hr => h2.startup m hm (by rw [← hl2]; exact hr), fun m hm hr => ?_⟩
    rw [hl2] at hr
    have hrx : m < x.length := by rw [course_length] at hr; exact hr
    rw [h2.rec' m hm hr, key m hrx, key (m - 1) (by omega), key (m - 3) (by omega), key (m - 4) (by omega)]
    ring

/-- Not vacuous: a steady sound with energy in the last of five bands gives 1/5 in that band in each of the seven frames. -/
example : ∃ o : List ℚ, rastaFilter (List.replicate 7 [0, 0, 0, 0, 1]) = .ok (List.replicate 7 o) ∧ ¬ ∀ v ∈ o, v = 0 := by
  obtain ⟨o, h1, -, h3, -⟩ := C158_steady ([0, 0, 0, 0, 1] : List ℚ) (by simp) 7
  refine ⟨o, h1, fun h => ?_⟩
  have := h3.1 h 4 le_rfl (by simp)
  norm_num at this

example : ∃ y o : _, rastaFilter [[1, 2, 3, 4, 5], ([2, 0, 1, 0, 1] : List ℚ)] = .ok y ∧ Rasta [3, 1, 4, 1, 5] o ∧
    rastaFilter (throughChannel [3, 1, 4, 1, 5] [[1, 2, 3, 4, 5], [2, 0, 1, 0, 1]]) = .ok (throughChannel o y) :=
  (C158_channel _ _ (by simp) (by simp)).1

end Props
end Spafe
