import Verif.Lemmas.Lpc2
import Verif.Spec.Features

/-!
Properties C59 to C65 and the `lpc`, `lpcc` parts of C47: `spafe/features/lpc.py`.
-/

set_option linter.unusedSectionVars false

namespace Spafe
namespace Props
open XF Spec Model

theorem helper_cases {x : List ℝ} {p : ℕ} {q : List ℝ × ℝ} (h : lpcHelper x p = .ok q) :
    p ≠ 0 ∧ NotSilent x := by
  by_cases h0 : x = []
  · simp [lpcHelper, h0] at h
  by_cases hp : p = 0
  · simp [lpcHelper, h0, hp] at h
  refine ⟨hp, ?_⟩
  by_contra hx
  rw [lpcHelper_silent h0 hx hp] at h
  cases h

/-! ### C59 -/

/-- C59: the coefficients start with 1 and satisfy the normal equations `Σ_k a_k r(|i-k|) = -r(i)`, `i = 1, …, p`. -/
theorem C59_normal_equations (frame : List ℝ) (order : ℕ) (a : List ℝ) (e : ℝ)
    (h : lpcHelper frame order = .ok (a, e)) :
    a.length = order + 1 ∧ a.getD 0 0 = 1 ∧ ∀ i, 1 ≤ i → i ≤ order →
      ∑ k ∈ Finset.Icc 1 order, a.getD k 0 * autoCorr frame ((i : ℤ) - (k : ℤ)).natAbs = -autoCorr frame i := by
  obtain ⟨hp, hx⟩ := helper_cases h
  obtain ⟨phi, h1, h2⟩ := lpcHelper_ok hx hp
  rw [h] at h1
  injection h1 with h1
  injection h1 with h1 h3
  subst h1
  refine ⟨by simp, rfl, fun i hi1 hi2 => ?_⟩
  rw [← h2 i hi1 hi2]
  apply Finset.sum_congr rfl
  intro k hk
  rw [getD_cons_ofFn phi (Finset.mem_Icc.mp hk).1]

/-- C59: the normal equations determine the coefficients. -/
theorem C59_unique (frame : List ℝ) (order : ℕ) (a : List ℝ) (e : ℝ) (h : lpcHelper frame order = .ok (a, e))
    (b : List ℝ) (hb : b.length = order + 1) (hb0 : b.getD 0 0 = 1)
    (heq : ∀ i, 1 ≤ i → i ≤ order →
      ∑ k ∈ Finset.Icc 1 order, b.getD k 0 * autoCorr frame ((i : ℤ) - (k : ℤ)).natAbs = -autoCorr frame i) :
    b = a := by
  obtain ⟨hp, hx⟩ := helper_cases h
  obtain ⟨h1, h2, h3⟩ := C59_normal_equations frame order a e h
  apply ext_getD 0 (by rw [h1, hb])
  intro k hk
  rcases Nat.eq_zero_or_pos k with h0 | h0
  · subst h0; rw [hb0, h2]
  · exact normal_unique hx (u := fun k => b.getD k 0) (v := fun k => a.getD k 0) heq h3 k h0 (by omega)

/-- C59 for `lpc`: row `i` of the coefficient matrix solves the normal equations of frame `i`. -/
theorem C59_lpc (a : LpcArgs) (sig : List ℝ) (A : List (List ℝ)) (E : List ℝ) (h : lpc a sig = .ok (A, E)) :
    ∃ F, lpcFrames a sig = .ok F ∧ HasShape A F.length (a.order - 1 + 1) ∧ E.length = F.length ∧
      ∀ t, t < F.length → (A.getD t []).getD 0 0 = 1 ∧ ∀ i, 1 ≤ i → i ≤ a.order - 1 →
        ∑ k ∈ Finset.Icc 1 (a.order - 1), (A.getD t []).getD k 0 *
          autoCorr (F.getD t []) ((i : ℤ) - (k : ℤ)).natAbs = -autoCorr (F.getD t []) i := by
  simp only [lpc, bind_ok_iff] at h
  obtain ⟨F, hF, rows, hrows, h⟩ := h
  injection h with h
  injection h with h1 h2
  subst h1; subst h2
  have hlen := mapM_length _ _ _ hrows
  have hrow : ∀ t, t < F.length → lpcHelper (F.getD t []) (a.order - 1) = .ok (rows.getD t ([], 0)) := by
    intro t ht
    have := ((mapM_ok_iff _ _ _).mp hrows).get ht (by omega)
    rw [List.getD_eq_getElem _ _ ht, List.getD_eq_getElem _ _ (by omega)]
    exact this
  have hA : ∀ t, t < F.length → (rows.map Prod.fst).getD t [] = (rows.getD t ([], 0)).1 := by
    intro t ht
    rw [getD_map_lt _ _ ([], 0) _ (by omega)]
  refine ⟨F, hF, ⟨by simp [hlen], fun r hr => ?_⟩, by simp [hlen], fun t ht => ?_⟩
  · obtain ⟨t, ht, rfl⟩ := (mem_iff_getD [] r).mp hr
    rw [List.length_map, hlen] at ht
    rw [hA t ht]
    exact (C59_normal_equations _ _ _ _ (hrow t ht)).1
  · rw [hA t ht]
    exact (C59_normal_equations _ _ _ _ (hrow t ht)).2

/-! ### C60 -/

/-- C60: no other coefficients give a smaller total squared prediction error, and every other choice gives a strictly
larger one. -/
theorem C60_minimal_error (frame : List ℝ) (order : ℕ) (a : List ℝ) (e : ℝ)
    (h : lpcHelper frame order = .ok (a, e)) (b : ℕ → ℝ) :
    predError frame order (fun k => a.getD k 0) ≤ predError frame order b ∧
      ((∃ k, 1 ≤ k ∧ k ≤ order ∧ b k ≠ a.getD k 0) →
        predError frame order (fun k => a.getD k 0) < predError frame order b) := by
  obtain ⟨hp, hx⟩ := helper_cases h
  have hn := (C59_normal_equations frame order a e h).2.2
  have hexp := predError_expand (u := fun k => a.getD k 0) hn b
  have h0 : 0 ≤ ∑ n ∈ Finset.range (frame.length + order),
      (∑ k ∈ Finset.Icc 1 order, (b k - a.getD k 0) * sh frame k n) ^ 2 := Finset.sum_nonneg fun _ _ => sq_nonneg _
  refine ⟨by rw [hexp]; linarith, ?_⟩
  rintro ⟨k, hk1, hk2, hk⟩
  rw [hexp]
  rcases h0.lt_or_eq with h1 | h1
  · linarith
  · exfalso
    rw [eq_comm, Finset.sum_eq_zero_iff_of_nonneg (fun _ _ => sq_nonneg _)] at h1
    have := sh_indep hx (v := fun k => b k - a.getD k 0) (p := order) (fun n hn =>
      pow_eq_zero_iff (by norm_num) |>.mp (h1 n (Finset.mem_range.mpr hn))) k hk1 hk2
    exact hk (by linarith)

/-! ### C61 -/

/-- C61: for a non-empty frame and order at least one, the coefficients exist exactly when the frame is not silent; a
silent frame raises `LinAlgError`. -/
theorem C61_defined_iff (frame : List ℝ) (order : ℕ) (h0 : frame ≠ []) (hp : 1 ≤ order) :
    ((∃ q, lpcHelper frame order = .ok q) ↔ NotSilent frame) ∧
      (¬ NotSilent frame → lpcHelper frame order = .error .linAlgError) := by
  refine ⟨⟨fun ⟨q, hq⟩ => (helper_cases hq).2, fun hx => ?_⟩, fun hx => lpcHelper_silent h0 hx (by omega)⟩
  obtain ⟨phi, h1, -⟩ := lpcHelper_ok hx (p := order) (by omega)
  exact ⟨_, h1⟩

private theorem frames_ne_nil {a : LpcArgs} {sig : List ℝ} {F : List (List ℝ)} (hF : lpcFrames a sig = .ok F)
    (hS : 0 < pyInt (a.win.winHop * a.fs)) (hL : 0 < pyInt (a.win.winLen * a.fs)) : ∀ f ∈ F, f ≠ [] := by
  obtain ⟨-, l, s, h1, h2, h3, h4, -, rfl⟩ := ((lpcFrames_ok_iff a sig F hS).mp hF).2
  intro f hf
  obtain ⟨i, hi, rfl⟩ := List.mem_map.mp hf
  have hi : i ≤ (sig.length - l) / s := by simp at hi; omega
  have h5 : i * s ≤ sig.length - l := (Nat.le_div_iff_mul_le h3).mp hi
  intro h
  have := congrArg List.length h
  rw [List.length_take, List.length_drop, lpcEmph_length, List.length_nil] at this
  omega

/-- C61 for `lpc` and `lpcc`: with order at least two, both succeed exactly when no frame is silent (`lpcc` without
liftering and normalisation), and raise `LinAlgError` otherwise. -/
theorem C61_lpc_defined_iff (a : LpcArgs) (sig : List ℝ) (F : List (List ℝ)) (hF : lpcFrames a sig = .ok F)
    (hS : 0 < pyInt (a.win.winHop * a.fs)) (hL : 0 < pyInt (a.win.winLen * a.fs)) (ho : 2 ≤ a.order) :
    ((∃ q, lpc a sig = .ok q) ↔ ∀ f ∈ F, NotSilent f) ∧
    ((∃ f ∈ F, ¬ NotSilent f) → lpc a sig = .error .linAlgError ∧ lpcc a sig = .error .linAlgError) ∧
    ((∀ f ∈ F, NotSilent f) → a.lifter = none → a.normalize = none → ∃ m, lpcc a sig = .ok m) := by
  have hne := frames_ne_nil hF hS hL
  have herr : (∃ f ∈ F, ¬ NotSilent f) → lpc a sig = .error .linAlgError ∧ lpcc a sig = .error .linAlgError := by
    rintro ⟨f, hf, hs⟩
    constructor
    · simp only [lpc, hF, ok_bind]
      rw [mapM_eq_error _ .linAlgError]
      · rfl
      · intro g hg
        by_cases hx : NotSilent g
        · exact .inl ((C61_defined_iff g (a.order - 1) (hne g hg) (by omega)).1.mpr hx)
        · exact .inr ((C61_defined_iff g (a.order - 1) (hne g hg) (by omega)).2 hx)
      · exact ⟨f, hf, (C61_defined_iff f (a.order - 1) (hne f hf) (by omega)).2 hs⟩
    · simp only [lpcc, hF, ok_bind]
      rw [mapM_eq_error _ .linAlgError]
      · rfl
      · intro g hg
        by_cases hx : NotSilent g
        · obtain ⟨phi, h1, -⟩ := lpcHelper_ok hx (p := a.order - 1) (by omega)
          obtain ⟨c, h2, -⟩ := lpc2lpcc_ok (1 :: List.ofFn phi) |lpcErr g (1 :: List.ofFn phi)|
            (nceps := a.order - 1 + 1) (by simp) (by simp) (by simp)
          rw [h1, ok_bind]
          exact .inl ⟨c, h2⟩
        · rw [(C61_defined_iff g (a.order - 1) (hne g hg) (by omega)).2 hx]; exact .inr rfl
      · exact ⟨f, hf, by rw [(C61_defined_iff f (a.order - 1) (hne f hf) (by omega)).2 hs]; rfl⟩
  refine ⟨⟨fun ⟨q, hq⟩ => ?_, fun hx => ?_⟩, herr, fun hx hl hn => ?_⟩
  · by_contra hx
    push Not at hx
    rw [(herr hx).1] at hq; cases hq
  · have : ∀ f ∈ F, ∃ q, lpcHelper f (a.order - 1) = .ok q := fun f hf =>
      (C61_defined_iff f (a.order - 1) (hne f hf) (by omega)).1.mpr (hx f hf)
    choose! g hg using this
    simp only [lpc, hF, ok_bind]
    rw [mapM_ok _ g _ hg]
    exact ⟨_, rfl⟩
  · have : ∀ f ∈ F, ∃ q, (lpcHelper f (a.order - 1) >>= fun p => lpc2lpcc p.1 p.2 (a.order - 1 + 1)) = .ok q := by
      intro f hf
      obtain ⟨phi, h1, -⟩ := lpcHelper_ok (hx f hf) (p := a.order - 1) (by omega)
      obtain ⟨c, h2, -⟩ := lpc2lpcc_ok (1 :: List.ofFn phi) |lpcErr f (1 :: List.ofFn phi)|
        (nceps := a.order - 1 + 1) (by simp) (by simp) (by simp)
      exact ⟨c, by rw [h1, ok_bind]; exact h2⟩
    choose! g hg using this
    simp only [lpcc, hF, ok_bind]
    rw [mapM_ok _ g _ hg, ok_bind, hl, hn]
    exact ⟨_, rfl⟩

/-! ### C62 -/

/-- C62: the coefficients ignore the gain and the error term is multiplied by its square (errors included). -/
theorem C62_gain (frame : List ℝ) (order : ℕ) (c : ℝ) (hc : c ≠ 0) :
    lpcHelper (frame.map (c * ·)) order = (lpcHelper frame order).map fun q => (q.1, c ^ 2 * q.2) :=
  lpcHelper_smul hc frame order

/-- C62 for `lpc`: same coefficient matrix, error column multiplied by `c²`. -/
theorem C62_lpc_gain (a : LpcArgs) (sig : List ℝ) (c : ℝ) (hc : c ≠ 0) :
    lpc a (sig.map (c * ·)) = (lpc a sig).map fun q => (q.1, q.2.map (c ^ 2 * ·)) := by
  simp only [lpc]
  rw [lpcFrames_smul]
  cases lpcFrames a sig with
  | error e => rfl
  | ok F =>
    simp only [Except.map, ok_bind]
    have h1 : (F.map (List.map (c * ·))).mapM (fun f => lpcHelper f (a.order - 1)) =
        F.mapM (fun f => lpcHelper (f.map (c * ·)) (a.order - 1)) := by
      rw [List.mapM_map]; rfl
    rw [h1, mapM_except_map (fun f => lpcHelper f (a.order - 1)) _ (fun q => (q.1, c ^ 2 * q.2)) F
      (fun f _ => lpcHelper_smul hc f _)]
    cases F.mapM (fun f => lpcHelper f (a.order - 1)) with
    | error e => rfl
    | ok rows =>
      simp only [Except.map, ok_bind, List.map_map]
      rfl

/-! ### C63 -/

/-- C63 (what the documented value is): the minimal total squared prediction error is `r(0) + Σ a_k r(k)`. -/
theorem C63_minimal_error_formula (frame : List ℝ) (order : ℕ) (a : List ℝ) (e : ℝ)
    (h : lpcHelper frame order = .ok (a, e)) :
    predError frame order (fun k => a.getD k 0) =
      autoCorr frame 0 + ∑ k ∈ Finset.Icc 1 order, a.getD k 0 * autoCorr frame k :=
  predError_min (C59_normal_equations frame order a e h).2.2

/-- C63 (what the code computes): for frames of at least `order + 2` samples the second value is
`|r(N-1) + Σ_{k ≤ order} a_k r(N-2-k)|`, the autocorrelation at the *largest* lags. -/
theorem C63_code_value (frame : List ℝ) (order : ℕ) (a : List ℝ) (e : ℝ) (h : lpcHelper frame order = .ok (a, e))
    (hN : order + 2 ≤ frame.length) :
    e = |autoCorr frame (frame.length - 1) +
      ∑ k ∈ Finset.range (order + 1), a.getD k 0 * autoCorr frame (frame.length - 2 - k)| := by
  obtain ⟨hp, hx⟩ := helper_cases h
  have h0 := notSilent_ne_nil hx
  obtain ⟨phi, h1, -⟩ := lpcHelper_ok hx hp
  rw [h] at h1
  injection h1 with h1
  injection h1 with h1 h2
  rw [h2, ← h1, lpcErr]
  congr 2
  · rw [correlateFull_neg (by omega) h0]; simp
  · have ha : a.length = order + 1 := by rw [h1]; simp
    rw [sum_eq_sum_getD]
    have hl : (List.zipWith (· * ·) ((correlateFull frame).drop 1) a).length = order + 1 := by
      rw [List.length_zipWith, List.length_drop, correlateFull_length, ha]; omega
    rw [hl]
    apply Finset.sum_congr rfl
    intro k hk
    have hk := Finset.mem_range.mp hk
    rw [getD_zipWith_lt _ _ _ 0 0 _ (by rw [List.length_drop, correlateFull_length]; omega) (by omega), getD_drop',
      correlateFull_neg (by omega) h0, mul_comm]
    congr 2; omega

/-- C63 (the part that holds): for one-sample frames the second value is the minimal prediction error.
Missing: longer frames, where it is false in general (`C63_violated`, `C63_code_value`). -/
theorem C63_one_sample_partial (x : ℝ) (order : ℕ) (a : List ℝ) (e : ℝ) (h : lpcHelper [x] order = .ok (a, e)) :
    e = predError [x] order (fun k => a.getD k 0) := by
  rw [C63_minimal_error_formula _ _ _ _ h]
  obtain ⟨hp, hx⟩ := helper_cases h
  obtain ⟨phi, h1, -⟩ := lpcHelper_ok hx hp
  rw [h] at h1
  injection h1 with h1
  injection h1 with h1 h2
  have hz : ∑ k ∈ Finset.Icc 1 order, a.getD k 0 * autoCorr [x] k = 0 := by
    apply Finset.sum_eq_zero
    intro k hk
    rw [autoCorr_large [x] (by simpa using (Finset.mem_Icc.mp hk).1), mul_zero]
  rw [hz, add_zero, h2]
  have hc : correlateFull [x] = [x * x] := by simp [correlateFull]
  rw [lpcErr, hc, autoCorr_eq]
  simp

private theorem demo_r0 : autoCorr [1, 1] 0 = 2 := by rw [autoCorr_eq]; norm_num [Finset.sum_range_succ]
private theorem demo_r1 : autoCorr [1, 1] 1 = 1 := by rw [autoCorr_eq]; norm_num [Finset.sum_range_succ]

private theorem demo_helper : lpcHelper [1, 1] 1 = .ok ([1, -1 / 2], 5 / 2) := by
  obtain ⟨phi, h1, h2⟩ := lpcHelper_ok (x := [1, 1]) ⟨1, by simp, one_ne_zero⟩ (p := 1) (by norm_num)
  have h3 := h2 1 le_rfl le_rfl
  rw [Finset.Icc_self, Finset.sum_singleton] at h3
  simp only [sub_self, Int.natAbs_zero, demo_r0, demo_r1] at h3
  have h4 : phi 0 = -1 / 2 := by
    have : ofFin phi 1 = phi 0 := ofFin_succ phi 0
    rw [this] at h3; linarith
  have h5 : List.ofFn phi = [-1 / 2] := by simp [List.ofFn_succ, h4]
  rw [h1, h5]
  have hc : correlateFull [1, 1] = [1, 2, 1] := by
    simp [correlateFull, List.range_succ, Finset.sum_range_succ]; norm_num
  rw [lpcErr, hc]
  norm_num

/-- C63 (violated): for the frame `[1, 1]` and order 1 the returned value is `5/2`, but the minimal prediction error is
`3/2`. -/
theorem C63_violated : ∃ a e, lpcHelper [1, 1] 1 = .ok (a, e) ∧ e = 5 / 2 ∧
    predError [1, 1] 1 (fun k => a.getD k 0) = 3 / 2 := by
  refine ⟨_, _, demo_helper, rfl, ?_⟩
  rw [C63_minimal_error_formula _ _ _ _ demo_helper, demo_r0]
  simp only [Finset.Icc_self, Finset.sum_singleton, demo_r1]
  norm_num

/-- The hypotheses of C59, C60 and C62 are met by the frame `[1, 1]`: its coefficients are `[1, -1/2]`. -/
theorem lpcHelper_demo : ∃ e, lpcHelper [1, 1] 1 = .ok ([1, -1 / 2], e) := ⟨_, demo_helper⟩

/-! ### C64 -/

/-- C64 (violated): for every signal, `lpc` and `lpcc` give the same result with any two of the accepted windows. -/
theorem C64_window_ignored (a : LpcArgs) (wl wh : ℝ) (t t' : String) (ht : WindowName t) (ht' : WindowName t')
    (sig : List ℝ) :
    lpc { a with window := some ⟨wl, wh, t⟩ } sig = lpc { a with window := some ⟨wl, wh, t'⟩ } sig ∧
    lpcc { a with window := some ⟨wl, wh, t⟩ } sig = lpcc { a with window := some ⟨wl, wh, t'⟩ } sig := by
  have hF : lpcFrames { a with window := some ⟨wl, wh, t⟩ } sig = lpcFrames { a with window := some ⟨wl, wh, t'⟩ } sig := by
    rw [lpcFrames_eq, lpcFrames_eq]
    refine if_congr Iff.rfl rfl ?_
    show (framing (a.emph sig) a.fs wl wh >>= _) = (framing (a.emph sig) a.fs wl wh >>= _)
    cases framing (a.emph sig) a.fs wl wh with
    | error e => rfl
    | ok p =>
      obtain ⟨w, hw, -⟩ := (C14_window_vector t p.2.toNat).1 ht
      obtain ⟨w', hw', -⟩ := (C14_window_vector t' p.2.toNat).1 ht'
      simp only [ok_bind, windowing]
      show (windowVec t p.2.toNat >>= _) >>= _ = (windowVec t' p.2.toNat >>= _) >>= _
      rw [hw, hw']; rfl
  constructor
  · simp only [lpc, hF]
  · simp only [lpcc, hF]

/-- C64 (the part that holds): the window name is at least checked, an unknown one raises `KeyError` whenever framing
succeeds. Missing: the effect of the window on the coefficients, see `C64_window_ignored`. -/
theorem C64_unknown_window_partial (a : LpcArgs) (sig : List ℝ) (hne : sig ≠ []) (h : ¬ WindowName a.win.winType)
    (p : List (List ℝ) × ℤ) (hf : framing (a.emph sig) a.fs a.win.winLen a.win.winHop = .ok p) :
    lpc a sig = .error .keyError ∧ lpcc a sig = .error .keyError := by
  have : lpcFrames a sig = .error .keyError := by
    rw [lpcFrames_eq, if_neg (fun e => hne e.2), hf, ok_bind, windowing, (C14_window_vector _ _).2 h]; rfl
  exact ⟨by simp only [lpc, this]; rfl, by simp only [lpcc, this]; rfl⟩

/-- The example signal for C64 and C47: three ones, one frame of three samples. -/
noncomputable def lpcDemo : LpcArgs :=
  { fs := 1, order := 2, preEmph := false, window := some ⟨3, 3, "hamming"⟩ }

private theorem three_len : pyInt ((3 : ℝ) * 1) = ((3 : ℕ) : ℤ) := by norm_num [pyInt]

theorem lpcDemo_frames (c : ℝ) (b : Bool) :
    lpcFrames { lpcDemo with preEmph := b, preEmphCoeff := c } [1, 1, 1] =
      .ok [if b then [1, 0.03, 0.03] else [1, 1, 1]] := by
  obtain ⟨w, hw, -⟩ := (C14_window_vector "hamming" 3).1 (by simp [WindowName])
  refine (lpcFrames_ok_iff _ _ _ ?_).mpr ⟨by simp, le_refl _, 3, 3, three_len, three_len, by norm_num, by simp, ⟨w, hw⟩, ?_⟩
  · show 0 < pyInt ((3 : ℝ) * 1); rw [three_len]; norm_num
  · cases b
    · simp [Model.LpcArgs.emph, List.range_succ]
    · simp [Model.LpcArgs.emph, preEmphasis, Np.firFilter, List.range_succ, Finset.sum_range_succ]
      norm_num

private theorem one_coeff {x : List ℝ} (hx : NotSilent x) {r0 r1 : ℝ} (h0 : autoCorr x 0 = r0) (h1 : autoCorr x 1 = r1)
    (hr : r0 ≠ 0) : ∃ e, lpcHelper x 1 = .ok ([1, -r1 / r0], e) := by
  obtain ⟨phi, h2, h3⟩ := lpcHelper_ok hx (p := 1) (by norm_num)
  have h3 := h3 1 le_rfl le_rfl
  rw [Finset.Icc_self, Finset.sum_singleton] at h3
  simp only [sub_self, Int.natAbs_zero, h0, h1] at h3
  have h4 : phi 0 = -r1 / r0 := by
    have : ofFin phi 1 = phi 0 := ofFin_succ phi 0
    rw [this] at h3
    rw [eq_div_iff hr, h3]
  have h5 : List.ofFn phi = [-r1 / r0] := by simp [List.ofFn_succ, h4]
  rw [h2, h5]
  exact ⟨_, rfl⟩

theorem ones_helper : ∃ e, lpcHelper [1, 1, 1] 1 = .ok ([1, -2 / 3], e) :=
  one_coeff ⟨1, by simp, one_ne_zero⟩ (by rw [autoCorr_eq]; norm_num [Finset.sum_range_succ])
    (by rw [autoCorr_eq]; norm_num [Finset.sum_range_succ]) (by norm_num)

theorem emph_helper : ∃ e, lpcHelper [1, 0.03, 0.03] 1 = .ok ([1, -0.0309 / 1.0018], e) :=
  one_coeff ⟨1, by simp, one_ne_zero⟩ (by rw [autoCorr_eq]; norm_num [Finset.sum_range_succ])
    (by rw [autoCorr_eq]; norm_num [Finset.sum_range_succ]) (by norm_num)

/-- C64 (violated, witness): with the Hamming window the coefficients of the windowed frame `[0.08, 1, 0.08]` are
`[1, -0.16/1.0128]`; `lpc` returns those of the raw frame, `[1, -2/3]`. -/
theorem C64_violated : ∃ e e' W,
    lpc lpcDemo [1, 1, 1] = .ok ([[1, -2 / 3]], [e]) ∧
    windowing [[1, 1, 1]] 3 "hamming" = .ok [W] ∧
    lpcHelper W 1 = .ok ([1, -0.16 / 1.0128], e') := by
  obtain ⟨e, he⟩ := ones_helper
  have hW : windowing [[1, 1, 1]] 3 "hamming" = .ok [[0.08, 1, 0.08]] := by
    have h3 : windowVec "hamming" 3 = .ok [0.08, 1, 0.08] := by
      rw [windowVec, if_neg (by decide), if_neg (by decide), if_neg (by decide), if_neg (by decide), if_pos rfl]
      have e0 : Np.hammingAt 3 0 = 0.08 := by
        have : Real.cos (Real.pi * (1 - 3) / (3 - 1)) = -1 := by
          rw [show Real.pi * (1 - 3) / (3 - 1) = -Real.pi by ring, Real.cos_neg, Real.cos_pi]
        norm_num [Np.hammingAt] at this ⊢
        rw [this]; norm_num
      have e1 : Np.hammingAt 3 1 = 1 := by norm_num [Np.hammingAt]
      have e2 : Np.hammingAt 3 2 = 0.08 := by norm_num [Np.hammingAt]
      simp [List.range_succ, e0, e1, e2]
    rw [windowing, h3]
    norm_num
  obtain ⟨e', he'⟩ := one_coeff (x := [0.08, 1, 0.08]) ⟨1, by simp, one_ne_zero⟩ (r0 := 1.0128) (r1 := 0.16)
    (by rw [autoCorr_eq]; norm_num [Finset.sum_range_succ])
    (by rw [autoCorr_eq]; norm_num [Finset.sum_range_succ]) (by norm_num)
  refine ⟨e, e', [0.08, 1, 0.08], ?_, hW, he'⟩
  have hf : lpcFrames lpcDemo [1, 1, 1] = .ok [[1, 1, 1]] := lpcDemo_frames 0.97 false
  simp only [lpc, hf, ok_bind]
  show (List.mapM (fun f => lpcHelper f 1) [[1, 1, 1]] >>= _) = _
  rw [List.mapM_cons, he]
  rfl

/-! ### C47 -/

/-- C47 (violated): `lpc` and `lpcc` do not depend on `pre_emph_coeff`. -/
theorem C47_lpc_ignored (a : LpcArgs) (c c' : ℝ) (sig : List ℝ) :
    lpc { a with preEmphCoeff := c } sig = lpc { a with preEmphCoeff := c' } sig ∧
    lpcc { a with preEmphCoeff := c } sig = lpcc { a with preEmphCoeff := c' } sig := ⟨rfl, rfl⟩

/-- C47 (violated, witness): with `pre_emph_coeff = 0`, the result of `lpc` is not that of the signal itself. -/
theorem C47_lpc_violated : lpc { lpcDemo with preEmph := true, preEmphCoeff := 0 } [1, 1, 1] ≠
    lpc { lpcDemo with preEmph := false } (preEmphasis [1, 1, 1] 0) := by
  obtain ⟨e, he⟩ := ones_helper
  obtain ⟨e', he'⟩ := emph_helper
  have h1 : lpcFrames { lpcDemo with preEmph := true, preEmphCoeff := 0 } [1, 1, 1] = .ok [[1, 0.03, 0.03]] :=
    lpcDemo_frames 0 true
  have h2 : lpcFrames { lpcDemo with preEmph := false } [1, 1, 1] = .ok [[1, 1, 1]] := lpcDemo_frames 0.97 false
  have e1 : lpc { lpcDemo with preEmph := true, preEmphCoeff := 0 } [1, 1, 1] =
      .ok ([[1, -0.0309 / 1.0018]], [e']) := by
    simp only [lpc, h1, ok_bind]
    show (List.mapM (fun f => lpcHelper f 1) [[1, 0.03, 0.03]] >>= _) = _
    rw [List.mapM_cons, he']; rfl
  have e2 : lpc { lpcDemo with preEmph := false } [1, 1, 1] = .ok ([[1, -2 / 3]], [e]) := by
    simp only [lpc, h2, ok_bind]
    show (List.mapM (fun f => lpcHelper f 1) [[1, 1, 1]] >>= _) = _
    rw [List.mapM_cons, he]; rfl
  rw [C10_pre_emphasis_zero, e1, e2]
  intro h
  injection h with h
  injection h with h _
  simp only [List.cons.injEq, and_true, true_and] at h
  norm_num at h

/-! ### C65 -/

/-- C65 (what the code computes): with `p = len(a) ≥ 1` and `p ≤ nceps ≤ p+1` the result is `log e` (zero-handled),
then `a_m + Σ_{0<k<m} (k/m) a_{m-k}` (the previous cepstral coefficient is replaced by 1), and 1 at index `p`.
The LP cepstrum recursion therefore holds at every `m < p` below which all coefficients vanish, in particular at
`m = 1`. Missing: the recursion at the other indices, see `C65_violated`. -/
theorem C65_lpc2lpcc_partial (a : List ℝ) (e : ℝ) (nceps : ℕ) (h0 : 1 ≤ a.length) (h1 : a.length ≤ nceps)
    (h2 : nceps ≤ a.length + 1) :
    ∃ c, lpc2lpcc a e nceps = .ok c ∧ c.length = nceps ∧
      c.getD 0 0 = XF.log (fin (if e = 0 then 1 / 2 ^ 52 else e)) ∧
      (∀ m, 1 ≤ m → m < a.length →
        c.getD m 0 = fin (a.getD m 0 + ∑ k ∈ Finset.Ico 1 m, (k : ℝ) / m * a.getD (m - k) 0)) ∧
      (∀ m, a.length ≤ m → m < nceps → c.getD m 0 = fin 1) ∧
      ∀ m, 1 ≤ m → m < a.length → (∀ j, 1 ≤ j → j < m → a.getD j 0 = 0) →
        LpCepstrumAt (fun k => a.getD k 0) (fun k => (c.getD k 0).toNum) m := by
  obtain ⟨c, h3, h4, h5, h6, h7⟩ := lpc2lpcc_ok a e h0 h1 h2
  refine ⟨c, h3, h4, h5, h6, h7, fun m hm1 hm2 hz => ?_⟩
  unfold LpCepstrumAt
  beta_reduce
  have e1 : ∑ k ∈ Finset.Ico 1 m, (k : ℝ) / m * a.getD (m - k) 0 = 0 := by
    apply Finset.sum_eq_zero
    intro k hk
    have := Finset.mem_Ico.mp hk
    rw [hz (m - k) (by omega) (by omega), mul_zero]
  have e2 : ∑ k ∈ Finset.Ico 1 m, (k : ℝ) / m * (c.getD k 0).toNum * a.getD (m - k) 0 = 0 := by
    apply Finset.sum_eq_zero
    intro k hk
    have := Finset.mem_Ico.mp hk
    rw [hz (m - k) (by omega) (by omega), mul_zero]
  rw [h6 m hm1 hm2, e2]
  show lpccVal a m = _
  rw [lpccVal, e1]

/-- C65: for every other `nceps` the function raises `IndexError`. -/
theorem C65_index_error (a : List ℝ) (e : ℝ) (nceps : ℕ) (h0 : 1 ≤ a.length)
    (h : nceps < a.length ∨ a.length + 1 < nceps) : lpc2lpcc a e nceps = .error .indexError :=
  h.elim (lpc2lpcc_short a e) (lpc2lpcc_long a e h0)

/-- C65 (violated): already at index 2 the recursion holds only if `a_1` is 0 or 1. -/
theorem C65_index_two (a : List ℝ) (e : ℝ) (nceps : ℕ) (h0 : 3 ≤ a.length) (c : List (XF ℝ))
    (h : lpc2lpcc a e nceps = .ok c) :
    LpCepstrumAt (fun k => a.getD k 0) (fun k => (c.getD k 0).toNum) 2 ↔ a.getD 1 0 = 0 ∨ a.getD 1 0 = 1 := by
  have hb : a.length ≤ nceps ∧ nceps ≤ a.length + 1 := by
    by_contra hb
    rw [C65_index_error a e nceps (by omega) (by omega)] at h; cases h
  obtain ⟨c', h3, -, -, h6, -⟩ := C65_lpc2lpcc_partial a e nceps (by omega) hb.1 hb.2
  rw [h] at h3
  injection h3 with h3
  subst h3
  unfold LpCepstrumAt
  beta_reduce
  rw [h6 2 (by norm_num) (by omega)]
  have hI : Finset.Ico 1 2 = {1} := rfl
  simp only [hI, Finset.sum_singleton]
  rw [h6 1 le_rfl (by omega)]
  simp only [Finset.Ico_self, Finset.sum_empty, add_zero, XF.toNum, Nat.cast_one, Nat.cast_ofNat]
  generalize a.getD 1 0 = u
  constructor
  · intro h
    have : u * (u - 1) = 0 := by linarith
    rcases mul_eq_zero.mp this with h | h
    · exact .inl h
    · exact .inr (by linarith)
  · rintro (h | h) <;> rw [h] <;> ring

/-- C65 (violated, witness): for `a = [1, 1/2, 0]` the recursion fails in both sign conventions (`a` as predictor
coefficients, or as coefficients of the prediction error filter). -/
theorem C65_violated : ∃ c, lpc2lpcc [1, 1 / 2, 0] 1 3 = .ok c ∧
    ¬ (∀ m, 1 ≤ m → m < 3 → LpCepstrumAt (fun k => [1, 1 / 2, 0].getD k 0) (fun k => (c.getD k 0).toNum) m) ∧
    ¬ (∀ m, 1 ≤ m → m < 3 → LpCepstrumAt (fun k => -[1, 1 / 2, 0].getD k 0) (fun k => (c.getD k 0).toNum) m) := by
  obtain ⟨c, h1, -, -, h2, -⟩ := C65_lpc2lpcc_partial [1, 1 / 2, 0] 1 3 (by simp) (by simp) (by simp)
  refine ⟨c, h1, fun h => ?_, fun h => ?_⟩
  · have := (C65_index_two [1, 1 / 2, 0] 1 3 (by simp) c h1).mp (h 2 (by norm_num) (by norm_num))
    norm_num at this
  · have := h 1 le_rfl (by norm_num)
    unfold LpCepstrumAt at this
    beta_reduce at this
    rw [h2 1 le_rfl (by simp)] at this
    norm_num [XF.toNum] at this

end Props
end Spafe
