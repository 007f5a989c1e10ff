import Verif.Lemmas.Features
import Verif.Props.Preprocessing

/-! Helper lemmas for the front end: explicit frames, gain, prefix, DFT basics. -/

set_option linter.unusedSectionVars false

namespace Spafe
open Model XF

theorem windowVec_length {name : String} {M : ℕ} {w : List ℝ} (h : windowVec name M = .ok w) : w.length = M := by
  unfold windowVec at h
  split_ifs at h <;> (injection h with h; rw [← h]; simp)

/-- The signal after optional pre-emphasis. -/
noncomputable def emph (a : Args) (coeff : ℝ) (sig : List ℝ) : List ℝ :=
  if a.preEmph then preEmphasis sig coeff else sig

@[simp] theorem emph_length (a : Args) (coeff : ℝ) (sig : List ℝ) : (emph a coeff sig).length = sig.length := by
  unfold emph; split_ifs
  · exact preEmphasis_length _ _
  · rfl

/-- The check of `lfilter` on an empty array comes first, then framing and windowing. -/
theorem frontEnd_eq (a : Args) (coeff : ℝ) (sig : List ℝ) :
    frontEnd a coeff sig = if a.preEmph = true ∧ sig = [] then .error .valueError else
      framing (emph a coeff sig) a.fs a.win.winLen a.win.winHop >>= fun p =>
        windowing p.1 p.2.toNat a.win.winType := by
  unfold frontEnd emph preEmphasisPy
  by_cases h : a.preEmph = true
  · by_cases h2 : sig = []
    · rw [if_pos h, if_pos h2, if_pos ⟨h, h2⟩, error_bind]
    · rw [if_pos h, if_neg h2, if_neg (fun h3 => h2 h3.2), if_pos h, ok_bind]
  · rw [if_neg h, if_neg (fun h3 => h h3.1), if_neg h, ok_bind]

/-- Explicit form of `framing` for a positive hop. -/
theorem framing_ok_iff {fs wl wh : ℝ} (hS : 0 < pyInt (wh * fs)) (y : List ℝ) (fr : List (List ℝ)) (L : ℤ) :
    framing y fs wl wh = .ok (fr, L) ↔
      wh ≤ wl ∧ ∃ l s : ℕ, L = l ∧ pyInt (wl * fs) = l ∧ pyInt (wh * fs) = s ∧ 0 < s ∧
        l ≤ y.length ∧ fr = (List.range ((y.length - l) / s + 1)).map fun (i : ℕ) => (y.drop (i * s)).take l := by
  constructor
  · intro h
    have hle : wh ≤ wl := by
      by_contra hlt
      rw [framing, framingR, if_pos (not_le.mp hlt)] at h; simp at h
    obtain ⟨l, s, h1, h2, h3, h4, h5, h6⟩ := Props.C11_framing_content id y fs _ _ fr L hS h
    refine ⟨hle, l, s, h1, h2, h3, ?_, h4, ?_⟩
    · simp only [id] at h3; rw [h3] at hS; exact_mod_cast hS
    · apply ext_getD [] (by simp [h5])
      intro i hi
      rw [(h6 i hi).2.1, getD_map_range_lt _ _ (by omega)]
  · rintro ⟨hle, l, s, rfl, h1, h2, hs, hl, rfl⟩
    rw [framing, framingR, if_neg (not_lt.mpr hle)]
    simp only [id, h1, h2, strideTrick_ok y l s hs hl, ok_bind, List.length_map, List.length_range,
      Nat.succ_ne_zero, if_false]
    congr 2
    apply List.map_congr_left
    intro i hi
    have hi : i ≤ (y.length - l) / s := by simp at hi; omega
    have h3 : i * s ≤ y.length - l := (Nat.le_div_iff_mul_le hs).mp hi
    exact window_eq_drop_take y _ _ (by omega)

/-- Explicit form of the front end for a positive hop. -/
theorem frontEnd_ok_iff (a : Args) (coeff : ℝ) (sig : List ℝ) (W : List (List ℝ))
    (hS : 0 < pyInt (a.win.winHop * a.fs)) :
    frontEnd a coeff sig = .ok W ↔
      ¬ (a.preEmph = true ∧ sig = []) ∧ a.win.winHop ≤ a.win.winLen ∧
      ∃ l s : ℕ, ∃ w, pyInt (a.win.winLen * a.fs) = l ∧ pyInt (a.win.winHop * a.fs) = s ∧ 0 < s ∧
        l ≤ sig.length ∧ windowVec a.win.winType l = .ok w ∧ w.length = l ∧
        W = (List.range ((sig.length - l) / s + 1)).map fun (i : ℕ) =>
          List.zipWith (· * ·) w (((emph a coeff sig).drop (i * s)).take l) := by
  rw [frontEnd_eq]
  by_cases he : a.preEmph = true ∧ sig = []
  · rw [if_pos he]
    constructor
    · intro h; simp at h
    · intro h; exact absurd he h.1
  rw [if_neg he, bind_ok_iff, and_iff_right he]
  constructor
  · rintro ⟨⟨fr, L⟩, h1, h2⟩
    obtain ⟨hle, l, s, rfl, h3, h4, hs, hl, rfl⟩ := (framing_ok_iff hS _ _ _).mp h1
    simp only [windowing, bind_ok_iff, Int.toNat_natCast] at h2
    obtain ⟨w, hw, h5⟩ := h2
    injection h5 with h5
    rw [emph_length] at hl h5
    refine ⟨hle, l, s, w, h3, h4, hs, hl, hw, windowVec_length hw, ?_⟩
    rw [← h5, List.map_map]; rfl
  · rintro ⟨hle, l, s, w, h3, h4, hs, hl, hw, hwl, rfl⟩
    refine ⟨(_, _), (framing_ok_iff hS _ _ _).mpr ⟨hle, l, s, rfl, h3, h4, hs, by simpa using hl, rfl⟩, ?_⟩
    simp only [windowing, bind_ok_iff, Int.toNat_natCast]
    refine ⟨w, hw, ?_⟩
    rw [List.map_map, emph_length]; rfl

/-! ### Gain -/

theorem mapM_except_map {β γ : Type} (f f' : β → Py γ) (g : γ → γ) (l : List β)
    (h : ∀ b ∈ l, f' b = (f b).map g) : l.mapM f' = (l.mapM f).map (List.map g) := by
  induction l with
  | nil => rfl
  | cons b l ih =>
    rw [List.mapM_cons, List.mapM_cons, h b (by simp), ih (fun b hb => h b (by simp [hb]))]
    cases f b with
    | error e => rfl
    | ok v =>
      cases l.mapM f with
      | error e => rfl
      | ok vs => rfl

theorem getD_map_zero (c : ℝ) (x : List ℝ) (j : ℕ) : (x.map (c * ·)).getD j 0 = c * x.getD j 0 := by
  rcases Nat.lt_or_ge j x.length with h | h
  · rw [getD_map_lt _ _ 0 _ h]
  · rw [List.getD_eq_default _ _ (by simpa using h), List.getD_eq_default _ _ h, mul_zero]

theorem strideTrick_smul (c : ℝ) (x : List ℝ) (L S : ℤ) :
    strideTrick (x.map (c * ·)) L S = (strideTrick x L S).map (List.map (List.map (c * ·))) := by
  unfold strideTrick
  simp only [List.length_map]
  cases pyFloorDiv ((x.length : ℤ) - L) S with
  | error e => rfl
  | ok q =>
    simp only [ok_bind]
    split_ifs with h
    · rfl
    · apply mapM_except_map
      intro i _
      apply mapM_except_map
      intro j _
      split_ifs with h1
      · simp only [Except.map, getD_map_zero]
      · rfl

theorem framing_smul (c : ℝ) (x : List ℝ) (fs wl wh : ℝ) :
    framing (x.map (c * ·)) fs wl wh =
      (framing x fs wl wh).map (fun p => (p.1.map (List.map (c * ·)), p.2)) := by
  unfold framing framingR
  split_ifs with h
  · rfl
  · simp only [strideTrick_smul]
    cases strideTrick x (pyInt (id (wl * fs))) (pyInt (id (wh * fs))) with
    | error e => rfl
    | ok f =>
      simp only [Except.map, ok_bind, List.length_map]
      split_ifs <;> rfl

theorem emph_smul (a : Args) (coeff c : ℝ) (sig : List ℝ) :
    emph a coeff (sig.map (c * ·)) = (emph a coeff sig).map (c * ·) := by
  unfold emph
  split_ifs
  · exact Props.C10_pre_emphasis_smul _ _ _
  · rfl

theorem zipWith_smul (c : ℝ) (w f : List ℝ) :
    List.zipWith (· * ·) w (f.map (c * ·)) = (List.zipWith (· * ·) w f).map (c * ·) := by
  induction w generalizing f with
  | nil => rfl
  | cons v w ih =>
    cases f with
    | nil => rfl
    | cons y f => simp only [List.map_cons, List.zipWith_cons_cons, ih]; congr 1; ring

/-- The front end is homogeneous. -/
theorem frontEnd_smul (a : Args) (coeff c : ℝ) (sig : List ℝ) :
    frontEnd a coeff (sig.map (c * ·)) = (frontEnd a coeff sig).map (List.map (List.map (c * ·))) := by
  rw [frontEnd_eq, frontEnd_eq, emph_smul, framing_smul]
  simp only [List.map_eq_nil_iff]
  by_cases he : a.preEmph = true ∧ sig = []
  · rw [if_pos he, if_pos he]; rfl
  rw [if_neg he, if_neg he]
  cases framing (emph a coeff sig) a.fs a.win.winLen a.win.winHop with
  | error e => rfl
  | ok p =>
    simp only [Except.map, ok_bind, windowing]
    cases windowVec a.win.winType p.2.toNat with
    | error e => rfl
    | ok w =>
      simp only [ok_bind]
      rw [List.map_map, List.map_map]
      congr 1
      apply List.map_congr_left
      intro f _
      exact zipWith_smul c w f

theorem frontEnd_smul_ok {a : Args} {coeff : ℝ} {sig : List ℝ} {W : List (List ℝ)}
    (h : frontEnd a coeff sig = .ok W) (c : ℝ) :
    frontEnd a coeff (sig.map (c * ·)) = .ok (W.map (List.map (c * ·))) := by
  rw [frontEnd_smul, h]; rfl

/-- The DFT is homogeneous. -/
theorem dft_smul (c : ℝ) (x : List ℝ) (n k : ℕ) : Np.dft (x.map (c * ·)) n k = c * Np.dft x n k := by
  unfold Np.dft Np.dftC
  rw [Finset.mul_sum]
  apply Finset.sum_congr rfl
  intro j _
  beta_reduce
  rw [getD_map_zero]; push_cast; ring

theorem absRfft_smul (c : ℝ) (n : ℕ) (x : List ℝ) :
    Np.absRfft n (x.map (c * ·)) = (Np.absRfft n x).map (|c| * ·) := by
  unfold Np.absRfft
  rw [List.map_map]
  apply List.map_congr_left
  intro k _
  simp [dft_smul]

theorem powRow_smul (c : ℝ) (n : ℕ) (x : List ℝ) : powRow n (x.map (c * ·)) = (powRow n x).map (c ^ 2 * ·) := by
  unfold powRow
  rw [absRfft_smul, List.map_map, List.map_map]
  apply List.map_congr_left
  intro v _
  simp only [Function.comp]
  rw [← sq_abs c]; ring

/-! ### Extended-float scaling by a positive number -/

theorem fin_mul_add {s : ℝ} (hs : 0 < s) (u v : XF ℝ) : fin s * (u + v) = fin s * u + fin s * v := by
  have h1 : ¬ -s = 0 := by linarith
  have h2 : ¬ 0 < -s := by linarith
  cases u <;> cases v <;>
    simp [XF.add_def, XF.mul_def, XF.add, XF.mul, XF.infMul, hs, hs.ne', h1, h2, mul_add]

theorem fin_mul_zero (s : ℝ) : fin s * (0 : XF ℝ) = 0 := by
  show fin (s * 0) = fin 0
  rw [mul_zero]

theorem fin_mul_assoc {s : ℝ} (hs : 0 < s) (x : ℝ) (v : XF ℝ) : fin (s * x) * v = fin s * (fin x * v) := by
  have h2 : ¬ 0 < -s := by linarith
  cases v with
  | nan => rfl
  | fin y => simp [mul_assoc]
  | pinf =>
    rcases lt_trichotomy x 0 with h | h | h
    · have : s * x < 0 := mul_neg_of_pos_of_neg hs h
      simp [XF.mul_def, XF.mul, XF.infMul, this.ne, this.not_gt, h.ne, h.not_gt, hs.le, hs.ne']
    · simp [XF.mul_def, XF.mul, XF.infMul, h]
    · have : 0 < s * x := mul_pos hs h
      simp [XF.mul_def, XF.mul, XF.infMul, this.ne', this, h.ne', h, hs, hs.ne']
  | ninf =>
    rcases lt_trichotomy x 0 with h | h | h
    · have : s * x < 0 := mul_neg_of_pos_of_neg hs h
      simp [XF.mul_def, XF.mul, XF.infMul, this.ne, this, h.ne, h, hs, hs.ne']
    · simp [XF.mul_def, XF.mul, XF.infMul, h]
    · have : 0 < s * x := mul_pos hs h
      simp [XF.mul_def, XF.mul, XF.infMul, this.ne', this.le, h.ne', h.le, hs, hs.ne', this.not_gt, h.not_gt, h2]

theorem dot_smul {s : ℝ} (hs : 0 < s) (r : List ℝ) (f : List (XF ℝ)) :
    Np.dot ((r.map (s * ·)).map fin) f = fin s * Np.dot (r.map fin) f := by
  unfold Np.dot
  induction r generalizing f with
  | nil => exact (fin_mul_zero s).symm
  | cons x r ih =>
    cases f with
    | nil => exact (fin_mul_zero s).symm
    | cons v f =>
      simp only [List.map_cons, List.zipWith_cons_cons, List.sum_cons]
      rw [ih f, fin_mul_add hs, fin_mul_assoc hs]

/-- The filter outputs scale with the square of the gain. -/
theorem specRow_smul {c : ℝ} (hc : c ≠ 0) (nfft : ℕ) (fb : XMat) (w : List ℝ) :
    specRow nfft fb (w.map (c * ·)) = (specRow nfft fb w).map (fin (c ^ 2) * ·) := by
  unfold specRow
  rw [List.map_map, powRow_smul]
  apply List.map_congr_left
  intro f _
  exact dot_smul (by positivity) _ _

/-- A sum of extended floats scales by a positive number. -/
theorem fin_mul_sum {s : ℝ} (hs : 0 < s) (t : Finset ℕ) (f : ℕ → XF ℝ) :
    fin s * ∑ i ∈ t, f i = ∑ i ∈ t, fin s * f i := by
  classical
  induction t using Finset.induction_on with
  | empty => simpa using fin_mul_zero s
  | insert i t hi ih => rw [Finset.sum_insert hi, Finset.sum_insert hi, fin_mul_add hs, ih]

theorem fin_mul_comm' {s : ℝ} (hs : 0 < s) (x : ℝ) (v : XF ℝ) : fin x * (fin s * v) = fin s * (fin x * v) := by
  have h2 : ¬ 0 < -s := by linarith
  rw [← fin_mul_assoc hs]
  cases v with
  | nan => rfl
  | fin y => simp; ring
  | pinf =>
    rcases lt_trichotomy x 0 with h | h | h
    · have : s * x < 0 := mul_neg_of_pos_of_neg hs h
      simp [XF.mul_def, XF.mul, XF.infMul, this.ne, this.not_gt, h.ne, h.not_gt, hs, hs.ne']
    · simp [XF.mul_def, XF.mul, XF.infMul, h, hs, hs.ne']
    · have : 0 < s * x := mul_pos hs h
      simp [XF.mul_def, XF.mul, XF.infMul, this.ne', this, h.ne', h, hs, hs.ne']
  | ninf =>
    rcases lt_trichotomy x 0 with h | h | h
    · have : s * x < 0 := mul_neg_of_pos_of_neg hs h
      simp [XF.mul_def, XF.mul, XF.infMul, this.ne, this, h.ne, h, hs.not_gt, hs.ne']
    · simp [XF.mul_def, XF.mul, XF.infMul, h, hs.ne', hs.not_gt]
    · have : 0 < s * x := mul_pos hs h
      simp [XF.mul_def, XF.mul, XF.infMul, this.ne', h.ne', hs.ne', this.not_gt, h.not_gt, hs.not_gt]

/-- The DCT of a positively scaled row. -/
theorem dctRow_smul {s : ℝ} (hs : 0 < s) (t : ℕ) (r : List (XF ℝ)) :
    Np.dctRow t (r.map (fin s * ·)) = (Np.dctRow t r).map (fin s * ·) := by
  unfold Np.dctRow
  rw [List.map_map, List.length_map]
  apply List.map_congr_left
  intro k _
  simp only [Function.comp]
  rw [fin_mul_sum hs]
  apply Finset.sum_congr rfl
  intro n hn
  rw [getD_map_lt _ _ 0 _ (Finset.mem_range.mp hn), fin_mul_comm' hs]

end Spafe
