import Verif.Props.Lpc

/-! C165: the coefficients of `lpc` against the error and the order in its docstring (`lpc.py:103`, `lpc.py:138-140`). -/

set_option linter.unusedSectionVars false

namespace Spafe
namespace Spec

/-- The error `E` in the docstring of `lpc`, `lpc.py:140`: over the samples of the frame, with samples before the frame taken as zero. -/
noncomputable def docPredError (x : List ℝ) (p : ℕ) (b : ℕ → ℝ) : ℝ :=
  ∑ n ∈ Finset.range x.length, (ext x n - ∑ k ∈ Finset.Icc 1 p, b k * ext x ((n : ℤ) - k)) ^ 2

/-- The last `p` samples are zero. -/
def EndsQuiet (x : List ℝ) (p : ℕ) : Prop := ∀ n, x.length ≤ n + p → x.getD n 0 = 0

end Spec

namespace Props
open Model XF Spec

theorem docPredError_split (x : List ℝ) (p : ℕ) (b : ℕ → ℝ) :
    predError x p (fun k => -b k) =
      docPredError x p b + ∑ m ∈ Finset.range p, predErrorAt x p (fun k => -b k) ((x.length + m : ℕ) : ℤ) ^ 2 := by
  unfold predError docPredError
  rw [Finset.sum_range_add]
  congr 1
  refine Finset.sum_congr rfl fun n _ => ?_
  unfold predErrorAt
  congr 1
  simp only [neg_mul, Finset.sum_neg_distrib]
  ring

theorem docPredError_quiet {x : List ℝ} {p : ℕ} (h : EndsQuiet x p) (b : ℕ → ℝ) :
    docPredError x p b = predError x p (fun k => -b k) := by
  rw [docPredError_split, Finset.sum_eq_zero, add_zero]
  intro m _
  have z : ∀ k : ℕ, k ≤ p → ext x (((x.length + m : ℕ) : ℤ) - k) = 0 := by
    intro k hk
    unfold ext
    split_ifs with h1
    · exact h _ (by omega)
    · rfl
  unfold predErrorAt
  have z0 := z 0 (Nat.zero_le p)
  simp only [Nat.cast_zero, sub_zero] at z0
  rw [z0, Finset.sum_eq_zero]
  · norm_num
  · intro k hk
    rw [z k (Finset.mem_Icc.mp hk).2, mul_zero]

/-- **C165** (partial): for frames that end with `order` zeros the *negated* coefficients are the unique minimum of the documented error.
Missing: the returned coefficients themselves (`C165_sign`) and other frames (`C165_end`). -/
theorem C165_negated_partial (frame : List ℝ) (order : ℕ) (a : List ℝ) (e : ℝ) (h : lpcHelper frame order = .ok (a, e))
    (hq : EndsQuiet frame order) (b : ℕ → ℝ) :
    docPredError frame order (fun k => -a.getD k 0) ≤ docPredError frame order b ∧
      ((∃ k, 1 ≤ k ∧ k ≤ order ∧ b k ≠ -a.getD k 0) →
        docPredError frame order (fun k => -a.getD k 0) < docPredError frame order b) := by
  rw [docPredError_quiet hq, docPredError_quiet hq]
  simp only [neg_neg]
  obtain ⟨h1, h2⟩ := C60_minimal_error frame order a e h (fun k => -b k)
  exact ⟨h1, fun ⟨k, hk1, hk2, hk⟩ => h2 ⟨k, hk1, hk2, fun hc => hk (by linarith)⟩⟩

/-- **C165** (negation): for such frames the returned coefficients minimise the documented error only if they are all zero. -/
theorem C165_sign (frame : List ℝ) (order : ℕ) (a : List ℝ) (e : ℝ) (h : lpcHelper frame order = .ok (a, e))
    (hq : EndsQuiet frame order) :
    (∀ b, docPredError frame order (fun k => a.getD k 0) ≤ docPredError frame order b) ↔
      ∀ k, 1 ≤ k → k ≤ order → a.getD k 0 = 0 := by
  constructor
  · intro hm k h1 h2
    by_contra hk
    have := (C165_negated_partial frame order a e h hq (fun k => a.getD k 0)).2 ⟨k, h1, h2, fun hc => hk (by linarith)⟩
    exact absurd (hm fun k => -a.getD k 0) (not_le.mpr this)
  · intro hz b
    have e1 : docPredError frame order (fun k => a.getD k 0) = docPredError frame order (fun k => -a.getD k 0) := by
      unfold docPredError
      refine Finset.sum_congr rfl fun n _ => ?_
      congr 2
      refine Finset.sum_congr rfl fun k hk => ?_
      obtain ⟨k1, k2⟩ := Finset.mem_Icc.mp hk
      beta_reduce
      rw [hz k k1 k2, neg_zero]
    rw [e1]
    exact (C165_negated_partial frame order a e h hq b).1

private theorem single_tap {x : List ℝ} {r0 r1 : ℝ} (hx : NotSilent x) (h0 : autoCorr x 0 = r0) (h1 : autoCorr x 1 = r1)
    (hr : r0 ≠ 0) : ∃ e, lpcHelper x 1 = .ok ([1, -r1 / r0], e) := by
  obtain ⟨phi, h2, h3⟩ := lpcHelper_ok hx (p := 1) (by norm_num)
  have h3 := h3 1 le_rfl le_rfl
  rw [Finset.Icc_self, Finset.sum_singleton] at h3
  simp only [sub_self, Int.natAbs_zero, h0, h1] at h3
  have h4 : phi 0 = -r1 / r0 := by
    have : ofFin phi 1 = phi 0 := ofFin_succ phi 0
    rw [this] at h3
    rw [eq_div_iff hr, h3]
  have h5 : List.ofFn phi = [-r1 / r0] := by simp [List.ofFn_succ, h4]
  rw [h2, h5]
  exact ⟨_, rfl⟩

/-- **C165** (negation): the frame [1, 1] and one coefficient. The documented error is 13/4 with the returned coefficient, 5/4 with the
negated one and 1 with its minimum. -/
theorem C165_end : ∃ a e, lpcHelper [1, 1] 1 = .ok (a, e) ∧ docPredError [1, 1] 1 (fun k => a.getD k 0) = 13 / 4 ∧
    docPredError [1, 1] 1 (fun k => -a.getD k 0) = 5 / 4 ∧ docPredError [1, 1] 1 (fun _ => 1) = 1 := by
  obtain ⟨e, he⟩ := single_tap (x := [1, 1]) ⟨1, by simp, one_ne_zero⟩ (r0 := 2) (r1 := 1)
    (by rw [autoCorr_eq]; norm_num [Finset.sum_range_succ]) (by rw [autoCorr_eq]; norm_num [Finset.sum_range_succ]) (by norm_num)
  refine ⟨_, e, he, ?_, ?_, ?_⟩ <;> norm_num [docPredError, ext, Finset.sum_range_succ]

/-- **C165** (negation, order): `lpc` with `order = 2` predicts from one sample only. For the frame [1, 0, 1] it returns [1, 0] with documented
error 2; a model of order 2 reaches 1. -/
theorem C165_order : ∃ a e, lpc lpcDemo [1, 0, 1] = .ok ([a], [e]) ∧ lpcDemo.order = 2 ∧ a.length = 2 ∧
    docPredError [1, 0, 1] 1 (fun k => a.getD k 0) = 2 ∧ docPredError [1, 0, 1] 2 (fun k => if k = 2 then 1 else 0) = 1 := by
  obtain ⟨e, he⟩ := single_tap (x := [1, 0, 1]) ⟨1, by simp, one_ne_zero⟩ (r0 := 2) (r1 := 0)
    (by rw [autoCorr_eq]; norm_num [Finset.sum_range_succ]) (by rw [autoCorr_eq]; norm_num [Finset.sum_range_succ]) (by norm_num)
  have three : pyInt ((3 : ℝ) * 1) = ((3 : ℕ) : ℤ) := by norm_num [pyInt]
  have hf : lpcFrames lpcDemo [1, 0, 1] = .ok [[1, 0, 1]] := by
    obtain ⟨w, hw, -⟩ := (C14_window_vector "hamming" 3).1 (by simp [WindowName])
    refine (lpcFrames_ok_iff _ _ _ ?_).mpr ⟨by simp, le_refl _, 3, 3, three, three, by norm_num, by simp, ⟨w, hw⟩, ?_⟩
    · show 0 < pyInt ((3 : ℝ) * 1); rw [three]; norm_num
    · simp [Model.LpcArgs.emph, lpcDemo, List.range_succ]
  refine ⟨[1, -0 / 2], e, ?_, rfl, rfl, ?_, ?_⟩
  rotate_left
  · norm_num [docPredError, ext, Finset.sum_range_succ]
  · norm_num [docPredError, ext, Finset.sum_range_succ, Finset.sum_Icc_succ_top]
  · simp only [lpc, hf, ok_bind]
    show (List.mapM (fun f => lpcHelper f 1) [[1, 0, 1]] >>= _) = _
    rw [List.mapM_cons, he]
    rfl

/-- A frame that meets the hypotheses of `C165_sign`: [1, 1, 0] with one coefficient, which is -1/2. -/
example : ∃ a e, lpcHelper [1, 1, 0] 1 = .ok (a, e) ∧ EndsQuiet [1, 1, 0] 1 ∧ a.getD 1 0 = -1 / 2 := by
  obtain ⟨e, he⟩ := single_tap (x := [1, 1, 0]) ⟨1, by simp, one_ne_zero⟩ (r0 := 2) (r1 := 1)
    (by rw [autoCorr_eq]; norm_num [Finset.sum_range_succ]) (by rw [autoCorr_eq]; norm_num [Finset.sum_range_succ]) (by norm_num)
  refine ⟨_, e, he, fun n hn => ?_, rfl⟩
  simp only [List.length_cons, List.length_nil] at hn
  obtain rfl | h : n = 2 ∨ 3 ≤ n := by omega
  · rfl
  · exact List.getD_eq_default _ _ (by simpa using h)

end Props
end Spafe
