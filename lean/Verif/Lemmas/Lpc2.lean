import Verif.Lemmas.Lpc

/-! Helper lemmas for `lpc`, `lpcc` and `lpc2lpcc`. -/

set_option linter.unusedSectionVars false

namespace Spafe
open Model XF Spec

/-- The signal after the optional pre-emphasis of `lpc`. -/
noncomputable def Model.LpcArgs.emph (a : LpcArgs) (sig : List ℝ) : List ℝ :=
  if a.preEmph then preEmphasis sig 0.97 else sig

theorem lpcEmph_length (a : LpcArgs) (sig : List ℝ) : (a.emph sig).length = sig.length := by
  unfold Model.LpcArgs.emph; split_ifs
  · exact preEmphasis_length _ _
  · rfl

theorem lpcFrames_eq (a : LpcArgs) (sig : List ℝ) :
    lpcFrames a sig = if a.preEmph = true ∧ sig = [] then .error .valueError else
      framing (a.emph sig) a.fs a.win.winLen a.win.winHop >>= fun p =>
        windowing p.1 p.2.toNat a.win.winType >>= fun _ => .ok p.1 := by
  unfold lpcFrames Model.LpcArgs.emph preEmphasisPy
  by_cases h : a.preEmph = true
  · by_cases h2 : sig = []
    · rw [if_pos h, if_pos h2, if_pos ⟨h, h2⟩, error_bind]
    · rw [if_pos h, if_neg h2, if_neg (fun h3 => h2 h3.2), if_pos h, ok_bind]
  · rw [if_neg h, if_neg (fun h3 => h h3.1), if_neg h, ok_bind]

/-- Explicit form of the frames for a positive hop. -/
theorem lpcFrames_ok_iff (a : LpcArgs) (sig : List ℝ) (F : List (List ℝ))
    (hS : 0 < pyInt (a.win.winHop * a.fs)) :
    lpcFrames a sig = .ok F ↔
      ¬ (a.preEmph = true ∧ sig = []) ∧ a.win.winHop ≤ a.win.winLen ∧
      ∃ l s : ℕ, pyInt (a.win.winLen * a.fs) = l ∧ pyInt (a.win.winHop * a.fs) = s ∧ 0 < s ∧
        l ≤ sig.length ∧ (∃ w, windowVec a.win.winType l = .ok w) ∧
        F = (List.range ((sig.length - l) / s + 1)).map fun (i : ℕ) => ((a.emph sig).drop (i * s)).take l := by
  rw [lpcFrames_eq]
  by_cases he : a.preEmph = true ∧ sig = []
  · rw [if_pos he]
    constructor
    · intro h; simp at h
    · intro h; exact absurd he h.1
  rw [if_neg he, bind_ok_iff, and_iff_right he]
  constructor
  · rintro ⟨⟨fr, L⟩, h1, h2⟩
    obtain ⟨hle, l, s, rfl, h3, h4, hs, hl, rfl⟩ := (framing_ok_iff hS _ _ _).mp h1
    simp only [windowing, bind_ok_iff, Int.toNat_natCast] at h2
    obtain ⟨W, ⟨w, hw, h5⟩, h6⟩ := h2
    injection h6 with h6
    rw [lpcEmph_length] at hl h6
    exact ⟨hle, l, s, h3, h4, hs, hl, ⟨w, hw⟩, h6.symm⟩
  · rintro ⟨hle, l, s, h3, h4, hs, hl, ⟨w, hw⟩, rfl⟩
    refine ⟨(_, _), (framing_ok_iff hS _ _ _).mpr ⟨hle, l, s, rfl, h3, h4, hs, by simpa [lpcEmph_length] using hl, rfl⟩, ?_⟩
    simp only [windowing, bind_ok_iff, Int.toNat_natCast]
    exact ⟨_, ⟨w, hw, rfl⟩, by rw [lpcEmph_length]⟩

theorem lpcFrames_ne_nil {a : LpcArgs} {sig : List ℝ} {F : List (List ℝ)} (h : lpcFrames a sig = .ok F) : F ≠ [] := by
  rw [lpcFrames_eq] at h
  split_ifs at h
  rw [bind_ok_iff] at h
  obtain ⟨⟨fr, L⟩, h1, h2⟩ := h
  rw [bind_ok_iff] at h2
  obtain ⟨W, -, h3⟩ := h2
  injection h3 with h3
  subst h3
  unfold framing framingR at h1
  split_ifs at h1 with h
  simp only [bind_ok_iff] at h1
  obtain ⟨f, -, h4⟩ := h1
  split_ifs at h4 with h5
  injection h4 with h4
  injection h4 with h4
  rw [← h4]
  intro h
  exact h5 (by rw [show f = [] from h]; rfl)

theorem lpcEmph_smul (a : LpcArgs) (c : ℝ) (sig : List ℝ) : a.emph (sig.map (c * ·)) = (a.emph sig).map (c * ·) := by
  unfold Model.LpcArgs.emph
  split_ifs
  · exact Props.C10_pre_emphasis_smul _ _ _
  · rfl

theorem lpcFrames_smul (a : LpcArgs) (c : ℝ) (sig : List ℝ) :
    lpcFrames a (sig.map (c * ·)) = (lpcFrames a sig).map (List.map (List.map (c * ·))) := by
  rw [lpcFrames_eq, lpcFrames_eq, lpcEmph_smul, framing_smul]
  simp only [List.map_eq_nil_iff]
  by_cases he : a.preEmph = true ∧ sig = []
  · rw [if_pos he, if_pos he]; rfl
  rw [if_neg he, if_neg he]
  cases framing (a.emph sig) a.fs a.win.winLen a.win.winHop with
  | error e => rfl
  | ok p =>
    simp only [Except.map, ok_bind, windowing]
    cases windowVec a.win.winType p.2.toNat with
    | error e => rfl
    | ok w => rfl

/-! ### `lpc2lpcc` -/

theorem pyIdx_nat {β : Type} (l : List β) (d : β) {i : ℕ} (h : i < l.length) : pyIdx l (i : ℤ) = .ok (l.getD i d) := by
  unfold pyIdx
  rw [if_pos (by omega), Int.toNat_natCast, List.getElem?_eq_getElem h, List.getD_eq_getElem _ _ h]

theorem pyIdx_nat_error {β : Type} (l : List β) {i : ℕ} (h : l.length ≤ i) : pyIdx l (i : ℤ) = .error .indexError := by
  unfold pyIdx
  rw [if_pos (by omega), Int.toNat_natCast, List.getElem?_eq_none h]

theorem pySet_nat {β : Type} (l : List β) (v : β) {i : ℕ} (h : i < l.length) : pySet l (i : ℤ) v = .ok (l.set i v) := by
  unfold pySet
  rw [if_pos (by omega), if_pos (by exact_mod_cast h), Int.toNat_natCast]

theorem pySet_nat_error {β : Type} (l : List β) (v : β) {i : ℕ} (h : l.length ≤ i) :
    pySet l (i : ℤ) v = .error .indexError := by
  unfold pySet
  rw [if_pos (by omega), if_neg (by push_cast; omega)]

theorem getD_set_eq {β : Type} (l : List β) (v d : β) {i : ℕ} (h : i < l.length) : (l.set i v).getD i d = v := by
  rw [List.getD_eq_getElem _ _ (by simpa using h)]; simp

theorem getD_set_ne {β : Type} (l : List β) (v d : β) {i j : ℕ} (h : i ≠ j) : (l.set i v).getD j d = l.getD j d := by
  simp [List.getElem?_set, h]

theorem sum_map_range' (f : ℕ → ℝ) (s n : ℕ) :
    ((List.range' s n).map fun k => fin (f k)).sum = fin (∑ k ∈ Finset.Ico s (s + n), f k) := by
  induction n generalizing s with
  | zero => simp; rfl
  | succ n ih =>
    rw [List.range'_succ, List.map_cons, List.sum_cons, ih, Finset.sum_eq_sum_Ico_succ_bot (a := s) (b := s + (n + 1)) (by omega),
      XF.fin_add, show s + 1 + n = s + (n + 1) by omega]

/-- The inner sum of `lpc2lpcc` while `c[m]` still has its initial value 1. -/
theorem lpccSum_ok (a : List ℝ) (c : List (XF ℝ)) {m lo : ℕ} (hm : m < c.length) (hc : c.getD m 0 = fin 1)
    (hlo : lo ≤ m) (ha : m < lo + a.length) :
    lpccSum (a.map fin) c m lo = .ok (fin (∑ k ∈ Finset.Ico lo m, (k : ℝ) / m * a.getD (m - k) 0)) := by
  unfold lpccSum
  rw [mapM_ok _ (fun (k : ℕ) => fin ((k : ℝ) / m * a.getD (m - k) 0)), ok_bind]
  · rw [sum_map_range' (fun (k : ℕ) => (k : ℝ) / m * a.getD (m - k) 0), show lo + (m - lo) = m by omega]
  · intro k hk
    rw [List.mem_range'_1] at hk
    unfold idxX
    rw [pyIdx_nat c 0 hm, ok_bind, hc, pyIdx_nat _ 0 (by rw [List.length_map]; omega), ok_bind,
      getD_map_lt _ _ 0 _ (by omega), XF.fin_mul, XF.fin_mul, mul_one]

/-- The value the first loop of `lpc2lpcc` stores at index `m`. -/
noncomputable def lpccVal (a : List ℝ) (m : ℕ) : ℝ :=
  a.getD m 0 + ∑ k ∈ Finset.Ico 1 m, (k : ℝ) / m * a.getD (m - k) 0

theorem lpccLoop1_ok (a : List ℝ) (n : ℕ) : ∀ (s : ℕ) (c : List (XF ℝ)), 1 ≤ s → s + n ≤ a.length →
    s + n ≤ c.length → (∀ m, s ≤ m → m < c.length → c.getD m 0 = fin 1) →
    ∃ c', lpccLoop1 (a.map fin) (List.range' s n) c = .ok c' ∧ c'.length = c.length ∧
      (∀ m, s ≤ m → m < s + n → c'.getD m 0 = fin (lpccVal a m)) ∧
      ∀ m, (m < s ∨ s + n ≤ m) → c'.getD m 0 = c.getD m 0 := by
  induction n with
  | zero =>
    intro s c _ _ _ _
    exact ⟨c, rfl, rfl, fun m h1 h2 => by omega, fun m _ => rfl⟩
  | succ n ih =>
    intro s c hs ha hc h1
    rw [List.range'_succ]
    simp only [lpccLoop1]
    rw [idxX, pyIdx_nat _ 0 (by rw [List.length_map]; omega), ok_bind,
      lpccSum_ok a c (by omega) (h1 s le_rfl (by omega)) (by omega) (by omega), ok_bind,
      pySet_nat _ _ (by omega), ok_bind, getD_map_lt _ _ 0 _ (by omega), XF.fin_add]
    obtain ⟨c', h2, h3, h4, h5⟩ := ih (s + 1) (c.set s (fin (a.getD s 0 + ∑ k ∈ Finset.Ico 1 s, (k : ℝ) / s * a.getD (s - k) 0)))
      (by omega) (by omega) (by rw [List.length_set]; omega) (fun m hm1 hm2 => by
        rw [getD_set_ne _ _ _ (by omega)]
        exact h1 m (by omega) (by simpa using hm2))
    refine ⟨c', h2, by rw [h3, List.length_set], fun m hm1 hm2 => ?_, fun m hm => ?_⟩
    · rcases Nat.eq_or_lt_of_le hm1 with h | h
      · subst h
        rw [h5 s (by omega), getD_set_eq _ _ _ (by omega)]; rfl
      · exact h4 m (by omega) (by omega)
    · rw [h5 m (by omega), getD_set_ne _ _ _ (by omega)]

/-- The first loop runs past the end of `c`. -/
theorem lpccLoop1_error (a : List ℝ) (n : ℕ) : ∀ (s : ℕ) (c : List (XF ℝ)), 1 ≤ s → s + n ≤ a.length →
    s ≤ c.length → c.length < s + n → (∀ m, s ≤ m → m < c.length → c.getD m 0 = fin 1) →
    lpccLoop1 (a.map fin) (List.range' s n) c = .error .indexError := by
  induction n with
  | zero => intro s c _ _ _ h; omega
  | succ n ih =>
    intro s c hs ha hc hc' h1
    rw [List.range'_succ]
    simp only [lpccLoop1]
    rw [idxX, pyIdx_nat _ 0 (by rw [List.length_map]; omega), ok_bind]
    rcases Nat.lt_or_ge s c.length with h | h
    · rw [lpccSum_ok a c (by omega) (h1 s le_rfl (by omega)) (by omega) (by omega), ok_bind,
        pySet_nat _ _ (by omega), ok_bind]
      apply ih _ _ (by omega) (by omega) (by rw [List.length_set]; omega) (by rw [List.length_set]; omega)
      intro m hm1 hm2
      rw [getD_set_ne _ _ _ (by omega)]
      exact h1 m (by omega) (by simpa using hm2)
    · have hcs : c.length = s := by omega
      cases hsum : lpccSum (a.map fin) c s 1 with
      | ok v => rw [ok_bind, pySet_nat_error _ _ h]; rfl
      | error e =>
        rw [error_bind]
        unfold lpccSum at hsum
        rcases Nat.lt_or_ge 1 s with h2 | h2
        · have hm : ∀ f : ℕ → Py (XF ℝ), f 1 = .error .indexError →
              (List.range' 1 (s - 1)).mapM f = .error .indexError := by
            intro f hf
            rw [show s - 1 = (s - 2) + 1 by omega, List.range'_succ, List.mapM_cons, hf]; rfl
          rw [hm _ (by rw [idxX, pyIdx_nat_error _ h]; rfl)] at hsum
          rw [error_bind] at hsum
          injection hsum with hsum
          rw [← hsum]
        · rw [show s - 1 = 0 by omega] at hsum
          cases hsum

/-- The complete result of `lpc2lpcc` in the cases in which it succeeds (`p = len(a) ≥ 1`). -/
theorem lpc2lpcc_ok (a : List ℝ) (e : ℝ) {nceps : ℕ} (h0 : 1 ≤ a.length) (h1 : a.length ≤ nceps)
    (h2 : nceps ≤ a.length + 1) :
    ∃ c, lpc2lpcc a e nceps = .ok c ∧ c.length = nceps ∧ c.getD 0 0 = XF.log (xZeroHandling (fin e)) ∧
      (∀ m, 1 ≤ m → m < a.length → c.getD m 0 = fin (lpccVal a m)) ∧
      ∀ m, a.length ≤ m → m < nceps → c.getD m 0 = fin 1 := by
  simp only [lpc2lpcc]
  have := pySet_nat (List.replicate nceps (fin (1 : ℝ))) (XF.log (xZeroHandling (fin e))) (i := 0)
    (by rw [List.length_replicate]; omega)
  rw [Nat.cast_zero] at this
  rw [this, ok_bind]
  obtain ⟨c, h3, h4, h5, h6⟩ := lpccLoop1_ok a (a.length - 1) 1
    ((List.replicate nceps (fin (1 : ℝ))).set 0 (XF.log (xZeroHandling (fin e)))) le_rfl (by omega)
    (by rw [List.length_set, List.length_replicate]; omega) (fun m hm1 hm2 => by
      rw [List.length_set, List.length_replicate] at hm2
      rw [getD_set_ne _ _ _ (by omega), getD_replicate', if_pos hm2])
  rw [List.length_set, List.length_replicate] at h4
  have hl : lpccLoop2 (a.map fin) a.length (List.range' (a.length + 1) (nceps - (a.length + 1))) c = .ok c := by
    rw [show nceps - (a.length + 1) = 0 by omega]; rfl
  refine ⟨c, ?_, h4, ?_, fun m hm1 hm2 => h5 m hm1 (by omega), fun m hm1 hm2 => ?_⟩
  · rw [h3, ok_bind]
    split_ifs
    · exact hl
    · rfl
  · rw [h6 0 (by omega), getD_set_eq _ _ _ (by rw [List.length_replicate]; omega)]
  · rw [h6 m (by omega), getD_set_ne _ _ _ (by omega), getD_replicate', if_pos hm2]

theorem lpc2lpcc_short (a : List ℝ) (e : ℝ) {nceps : ℕ} (h : nceps < a.length) :
    lpc2lpcc a e nceps = .error .indexError := by
  simp only [lpc2lpcc]
  rcases Nat.eq_zero_or_pos nceps with h0 | h0
  · subst h0; rfl
  · have := pySet_nat (List.replicate nceps (fin (1 : ℝ))) (XF.log (xZeroHandling (fin e))) (i := 0)
      (by rw [List.length_replicate]; omega)
    rw [Nat.cast_zero] at this
    rw [this, ok_bind, lpccLoop1_error a (a.length - 1) 1 _ le_rfl (by omega)
      (by rw [List.length_set, List.length_replicate]; omega)
      (by rw [List.length_set, List.length_replicate]; omega) (fun m hm1 hm2 => by
        rw [List.length_set, List.length_replicate] at hm2
        rw [getD_set_ne _ _ _ (by omega), getD_replicate', if_pos hm2])]
    rfl

theorem lpc2lpcc_long (a : List ℝ) (e : ℝ) {nceps : ℕ} (h0 : 1 ≤ a.length) (h : a.length + 1 < nceps) :
    lpc2lpcc a e nceps = .error .indexError := by
  simp only [lpc2lpcc]
  have := pySet_nat (List.replicate nceps (fin (1 : ℝ))) (XF.log (xZeroHandling (fin e))) (i := 0)
    (by rw [List.length_replicate]; omega)
  rw [Nat.cast_zero] at this
  rw [this, ok_bind]
  obtain ⟨c, h3, h4, h5, h6⟩ := lpccLoop1_ok a (a.length - 1) 1
    ((List.replicate nceps (fin (1 : ℝ))).set 0 (XF.log (xZeroHandling (fin e)))) le_rfl (by omega)
    (by rw [List.length_set, List.length_replicate]; omega) (fun m hm1 hm2 => by
      rw [List.length_set, List.length_replicate] at hm2
      rw [getD_set_ne _ _ _ (by omega), getD_replicate', if_pos hm2])
  rw [List.length_set, List.length_replicate] at h4
  rw [h3, ok_bind, if_pos (by omega), show nceps - (a.length + 1) = (nceps - (a.length + 2)) + 1 by omega,
    List.range'_succ]
  simp only [lpccLoop2]
  have hs : lpccSum (a.map fin) c (a.length + 1) (a.length + 1 - a.length) = .error .indexError := by
    unfold lpccSum
    rw [show a.length + 1 - (a.length + 1 - a.length) = (a.length - 1) + 1 by omega,
      show a.length + 1 - a.length = 1 by omega, List.range'_succ, List.mapM_cons, idxX, pyIdx_nat c 0 (by omega),
      ok_bind, idxX, pyIdx_nat_error _ (by rw [List.length_map]; omega)]
    rfl
  rw [hs]; rfl

/-- Only the first cepstral coefficient depends on the error term. -/
theorem lpc2lpcc_error_term (a : List ℝ) (e e' : ℝ) {nceps : ℕ} (h0 : 1 ≤ a.length) (h1 : a.length ≤ nceps)
    (h2 : nceps ≤ a.length + 1) : ∃ c c', lpc2lpcc a e nceps = .ok c ∧ lpc2lpcc a e' nceps = .ok c' ∧
      c'.drop 1 = c.drop 1 := by
  obtain ⟨c, h3, h4, -, h5, h6⟩ := lpc2lpcc_ok a e h0 h1 h2
  obtain ⟨c', h3', h4', -, h5', h6'⟩ := lpc2lpcc_ok a e' h0 h1 h2
  refine ⟨c, c', h3, h3', ?_⟩
  apply ext_getD 0 (by simp [h4, h4'])
  intro i hi
  rw [List.length_drop, h4'] at hi
  rw [getD_drop', getD_drop']
  rcases Nat.lt_or_ge (1 + i) a.length with h | h
  · rw [h5 _ (by omega) h, h5' _ (by omega) h]
  · rw [h6 _ h (by omega), h6' _ h (by omega)]

end Spafe
