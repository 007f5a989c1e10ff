import Verif.Model.Dominant
import Verif.Spec.Dominant
import Verif.Lemmas.FrontEnd
import Verif.Lemmas.Spfeats
import Verif.Props.Features

/-! Helper lemmas for the dominant frequencies: `argmax`, rounding, the form of the result. -/

set_option linter.unusedSectionVars false

namespace Spafe
namespace Model

theorem argmax_spec (l : List ℝ) (h : l ≠ []) :
    Np.argmax l < l.length ∧ (∀ j < l.length, l.getD j 0 ≤ l.getD (Np.argmax l) 0) ∧
      ∀ j < Np.argmax l, l.getD j 0 < l.getD (Np.argmax l) 0 := by
  have hl : 0 < l.length := List.length_pos_iff.mpr h
  have key : ∀ n ≤ l.length,
      let b := (List.range n).foldl (fun best i => if l.getD best 0 < l.getD i 0 then i else best) 0
      b < l.length ∧ (∀ j < n, l.getD j 0 ≤ l.getD b 0) ∧ (b = 0 ∨ b < n) ∧ ∀ j < b, l.getD j 0 < l.getD b 0 := by
    intro n
    induction n with
    | zero => intro _; simp [hl]
    | succ n ih =>
      intro hn
      obtain ⟨h1, h2, h3, h4⟩ := ih (by omega)
      simp only [List.range_succ, List.foldl_append, List.foldl_cons, List.foldl_nil] at h1 h2 h3 h4 ⊢
      generalize (List.range n).foldl (fun best i => if l.getD best 0 < l.getD i 0 then i else best) 0 = b at *
      split_ifs with hb
      · refine ⟨by omega, fun j hj => ?_, Or.inr (by omega), fun j hj => (h2 j hj).trans_lt hb⟩
        rcases Nat.lt_succ_iff_lt_or_eq.mp hj with hj | rfl
        · exact (h2 j hj).trans hb.le
        · exact le_rfl
      · refine ⟨h1, fun j hj => ?_, by omega, h4⟩
        rcases Nat.lt_succ_iff_lt_or_eq.mp hj with hj | rfl
        · exact h2 j hj
        · exact not_lt.mp hb
  obtain ⟨h1, h2, -, h4⟩ := key l.length le_rfl
  exact ⟨h1, h2, h4⟩

theorem argmax_unique (l : List ℝ) {k : ℕ} (hk : k < l.length) (h1 : ∀ j < l.length, l.getD j 0 ≤ l.getD k 0)
    (h2 : ∀ j < k, l.getD j 0 < l.getD k 0) : Np.argmax l = k := by
  have hl : l ≠ [] := by rintro rfl; simp at hk
  obtain ⟨a1, a2, a3⟩ := argmax_spec l hl
  rcases lt_trichotomy (Np.argmax l) k with h | h | h
  · exact absurd (h2 _ h) (not_lt.mpr (a2 k hk))
  · exact h
  · exact absurd (a3 _ h) (not_lt.mpr (h1 _ a1))

/-! ### Rounding -/

theorem roundHalfEven_int (n : ℤ) : roundHalfEven (n : ℝ) = n := by
  unfold roundHalfEven
  rw [Int.floor_intCast, sub_self, if_pos (by norm_num)]

theorem abs_roundHalfEven_sub (x : ℝ) : |(roundHalfEven x : ℝ) - x| ≤ 1 / 2 := by
  have h1 := Int.floor_le x
  have h2 := Int.lt_floor_add_one x
  unfold roundHalfEven
  rw [abs_le]
  split_ifs <;> push_cast <;> constructor <;> linarith

theorem roundHalfEven_mono_int {x : ℝ} {n : ℤ} : (x ≤ n → roundHalfEven x ≤ n) ∧ ((n : ℝ) ≤ x → n ≤ roundHalfEven x) := by
  have h := abs_le.mp (abs_roundHalfEven_sub x)
  constructor
  · intro hx
    by_contra hc
    have : n + 1 ≤ roundHalfEven x := by omega
    have h3 : (n : ℝ) + 1 ≤ roundHalfEven x := by exact_mod_cast this
    linarith
  · intro hx
    by_contra hc
    have : roundHalfEven x + 1 ≤ n := by omega
    have h3 : (roundHalfEven x : ℝ) + 1 ≤ n := by exact_mod_cast this
    linarith

theorem round3_rounded (x : ℝ) : Spec.Rounded3 x (round3 x) := by
  refine ⟨⟨_, rfl⟩, ?_⟩
  have h := abs_le.mp (abs_roundHalfEven_sub (x * 1000))
  unfold round3
  rw [abs_le]
  constructor <;> linarith

theorem round3_nonneg {x : ℝ} (h : 0 ≤ x) : 0 ≤ round3 x := by
  have := (roundHalfEven_mono_int (x := x * 1000) (n := 0)).2 (by push_cast; linarith)
  have h2 : (0 : ℝ) ≤ (roundHalfEven (x * 1000) : ℝ) := by exact_mod_cast this
  unfold round3; linarith

theorem round3_nonpos {x : ℝ} (h : x ≤ 0) : round3 x ≤ 0 := by
  have := (roundHalfEven_mono_int (x := x * 1000) (n := 0)).1 (by push_cast; linarith)
  have h2 : (roundHalfEven (x * 1000) : ℝ) ≤ 0 := by exact_mod_cast this
  unfold round3; linarith

theorem round3_zero : round3 0 = 0 := le_antisymm (round3_nonpos le_rfl) (round3_nonneg le_rfl)

theorem round3_le_int {x : ℝ} {n : ℤ} (h : x ≤ n / 1000) : round3 x ≤ n / 1000 := by
  have := (roundHalfEven_mono_int (x := x * 1000) (n := n)).1 (by linarith)
  have h2 : (roundHalfEven (x * 1000) : ℝ) ≤ n := by exact_mod_cast this
  unfold round3; linarith

/-! ### One frame -/

theorem strongest_exists (nfft : ℕ) (w : List ℝ) : ∃ k, Spec.StrongestBin nfft w k := by
  have hl : (Np.absRfft nfft w).length = nfft / 2 + 1 := by simp [Np.absRfft]
  obtain ⟨h1, h2, h3⟩ := argmax_spec (Np.absRfft nfft w) (by rw [← List.length_pos_iff, hl]; omega)
  rw [hl] at h1 h2
  have e : ∀ j < nfft / 2 + 1, (Np.absRfft nfft w).getD j 0 = ‖Np.dft w nfft j‖ := fun j hj => by
    rw [Np.absRfft, getD_map_range_lt _ _ hj]
  refine ⟨Np.argmax (Np.absRfft nfft w), by omega, fun j hj => ?_, fun j hj => ?_⟩
  · have := h2 j (by omega); rwa [e j (by omega), e _ h1] at this
  · have := h3 j hj; rwa [e j (by omega), e _ h1] at this

theorem strongest_unique {nfft : ℕ} {w : List ℝ} {k k' : ℕ} (h : Spec.StrongestBin nfft w k)
    (h' : Spec.StrongestBin nfft w k') : k = k' := by
  rcases lt_trichotomy k k' with hk | hk | hk
  · exact absurd (h'.2.2 _ hk) (not_lt.mpr (h.2.1 _ h'.1))
  · exact hk
  · exact absurd (h.2.2 _ hk) (not_lt.mpr (h'.2.1 _ h.1))

theorem strongest_smul {nfft : ℕ} {w : List ℝ} {k : ℕ} {c : ℝ} (hc : c ≠ 0) (h : Spec.StrongestBin nfft w k) :
    Spec.StrongestBin nfft (w.map (c * ·)) k := by
  have e : ∀ j, ‖Np.dft (w.map (c * ·)) nfft j‖ = |c| * ‖Np.dft w nfft j‖ := fun j => by
    rw [dft_smul, norm_mul, Complex.norm_real, Real.norm_eq_abs]
  have hp : 0 < |c| := abs_pos.mpr hc
  refine ⟨h.1, fun j hj => ?_, fun j hj => ?_⟩
  · rw [e, e]; exact mul_le_mul_of_nonneg_left (h.2.1 j hj) hp.le
  · rw [e, e]; exact mul_lt_mul_of_pos_left (h.2.2 j hj) hp

theorem strongest_zero {w : List ℝ} (hw : ∀ j, w.getD j 0 = 0) (nfft : ℕ) : Spec.StrongestBin nfft w 0 := by
  refine ⟨Nat.zero_le _, fun j _ => ?_, fun j hj => absurd hj (Nat.not_lt_zero j)⟩
  rw [Props.dft_silence hw, Props.dft_silence hw]

theorem argmax_power {nfft : ℕ} (hn : nfft ≠ 0) {w : List ℝ} {k : ℕ} (h : Spec.StrongestBin nfft w k) :
    Np.argmax (((Np.absRfft nfft w).map fun v => 1 / (nfft : ℝ) * v).map fun v => 1 / (nfft : ℝ) * v ^ 2) = k := by
  have hn' : (0 : ℝ) < nfft := by exact_mod_cast Nat.pos_of_ne_zero hn
  have hl : (Np.absRfft nfft w).length = nfft / 2 + 1 := by simp [Np.absRfft]
  have e : ∀ j < nfft / 2 + 1,
      (((Np.absRfft nfft w).map fun v => 1 / (nfft : ℝ) * v).map fun v => 1 / (nfft : ℝ) * v ^ 2).getD j 0 =
        1 / (nfft : ℝ) * (1 / (nfft : ℝ) * ‖Np.dft w nfft j‖) ^ 2 := fun j hj => by
    rw [List.map_map, getD_map_lt _ _ 0 _ (by rw [hl]; exact hj), Np.absRfft, getD_map_range_lt _ _ hj]
    rfl
  have hk := h.1
  refine argmax_unique _ (by simp [hl]; omega) (fun j hj => ?_) (fun j hj => ?_)
  · have hj : j < nfft / 2 + 1 := by simpa [hl] using hj
    rw [e j hj, e k (by omega)]
    have := h.2.1 j (by omega)
    gcongr
  · rw [e j (by omega), e k (by omega)]
    have := h.2.2 j hj
    gcongr

theorem dominantOf_eq {nfft : ℕ} (hn : nfft ≠ 0) {fs : ℝ} (hfs : fs ≠ 0) {w : List ℝ} {k : ℕ}
    (h : Spec.StrongestBin nfft w k) : dominantOf nfft fs w = .ok (Spec.gridFreq fs nfft k) := by
  have hk := h.1
  simp only [dominantOf]
  rw [if_neg hn, if_neg hfs, argmax_power hn h]
  have hl : (((Np.absRfft nfft w).map fun v => 1 / (nfft : ℝ) * v).map fun v => 1 / (nfft : ℝ) * v ^ 2).length =
      nfft / 2 + 1 := by simp [Np.absRfft]
  rw [hl, Np.fftfreq, getD_map_range_lt _ _ (by omega), Spec.gridFreq]
  congr 1
  have hN : (((nfft / 2 + 1 : ℕ)) : ℝ) ≠ 0 := by exact_mod_cast Nat.succ_ne_zero (nfft / 2)
  by_cases hc : k ≤ (nfft / 2 + 1 - 1) / 2
  · rw [if_pos hc, if_pos (by omega)]
  · rw [if_neg hc, if_neg (by omega)]
    field_simp

theorem gridFreq_zero (fs : ℝ) (nfft : ℕ) : Spec.gridFreq fs nfft 0 = 0 := by
  unfold Spec.gridFreq; rw [if_pos (by omega)]; simp

theorem gridFreq_le {fs : ℝ} (hfs : 0 < fs) {nfft k : ℕ} (hk : k ≤ nfft / 2) : Spec.gridFreq fs nfft k ≤ fs / 2 := by
  have hN : (0 : ℝ) < ((nfft / 2 + 1 : ℕ) : ℝ) := by positivity
  unfold Spec.gridFreq
  split_ifs with h
  · have : (2 : ℝ) * k ≤ ((nfft / 2 + 1 : ℕ) : ℝ) := by exact_mod_cast (by omega : 2 * k ≤ nfft / 2 + 1)
    rw [div_le_iff₀ hN]; nlinarith
  · have : (k : ℝ) ≤ ((nfft / 2 + 1 : ℕ) : ℝ) := by exact_mod_cast (by omega : k ≤ nfft / 2 + 1)
    have h2 : k * fs / ((nfft / 2 + 1 : ℕ) : ℝ) ≤ fs := by rw [div_le_iff₀ hN]; nlinarith
    linarith

/-- In the lower half the value is at least a third too high. -/
theorem gridFreq_lower {fs : ℝ} (hfs : 0 < fs) {nfft k : ℕ} (hn : 3 ≤ nfft) (hk : 2 * k ≤ nfft / 2) :
    4 / 3 * Spec.trueFreq fs nfft k ≤ Spec.gridFreq fs nfft k := by
  have hN : (0 : ℝ) < ((nfft / 2 + 1 : ℕ) : ℝ) := by positivity
  have hn' : (0 : ℝ) < nfft := by exact_mod_cast (by omega : 0 < nfft)
  unfold Spec.gridFreq Spec.trueFreq
  rw [if_pos hk, mul_div_assoc', div_le_div_iff₀ hn' hN]
  have h : (4 : ℝ) * ((nfft / 2 + 1 : ℕ) : ℝ) ≤ 3 * nfft := by exact_mod_cast (by omega : 4 * (nfft / 2 + 1) ≤ 3 * nfft)
  have : 0 ≤ (k : ℝ) * fs := by positivity
  nlinarith

/-- In the upper half the value is negative, at most `-fs / nfft`. -/
theorem gridFreq_upper {fs : ℝ} (hfs : 0 < fs) {nfft k : ℕ} (hk : nfft / 2 < 2 * k) (hk' : k ≤ nfft / 2) :
    Spec.gridFreq fs nfft k ≤ -(fs / nfft) := by
  have hN : (0 : ℝ) < ((nfft / 2 + 1 : ℕ) : ℝ) := by positivity
  have hn : (0 : ℝ) < nfft := by exact_mod_cast (by omega : 0 < nfft)
  unfold Spec.gridFreq
  rw [if_neg (by omega)]
  have h1 : (k : ℝ) + 1 ≤ ((nfft / 2 + 1 : ℕ) : ℝ) := by exact_mod_cast (by omega : k + 1 ≤ nfft / 2 + 1)
  have h2 : k * fs / ((nfft / 2 + 1 : ℕ) : ℝ) ≤ fs - fs / ((nfft / 2 + 1 : ℕ) : ℝ) := by
    rw [le_sub_iff_add_le, ← add_div, div_le_iff₀ hN]; nlinarith
  have h3 : fs / nfft ≤ fs / ((nfft / 2 + 1 : ℕ) : ℝ) :=
    div_le_div_of_nonneg_left hfs.le hN (by exact_mod_cast (by omega : nfft / 2 + 1 ≤ nfft))
  linarith

/-! ### The whole function -/

/-- The front end without pre-emphasis. -/
noncomputable def domArgs (fs : ℝ) (win : SlidingWindow) : Args := { fs := fs, preEmph := false, window := some win }

theorem getDominant_eq (filt : List ℝ → Py (List ℝ)) (sig : List ℝ) (fs : ℝ) (nfft : ℕ) (win : SlidingWindow) (op : Bool) :
    getDominant filt sig fs nfft win op = (filt sig >>= fun x => frontEnd (domArgs fs win) 0 x >>= fun W =>
      W.mapM (dominantOf nfft fs) >>= fun ds =>
        .ok (if op then (ds.map round3).filter (fun d => decide (0 ≤ d)) else ds.map round3)) := by
  unfold getDominant frontEnd
  cases filt sig with
  | error e => rfl
  | ok x =>
    simp only [ok_bind, domArgs, Bool.false_eq_true, if_false, Args.win, Option.getD_some]
    cases framing x fs win.winLen win.winHop with
    | error e => rfl
    | ok p => rfl

theorem dominant_loop {nfft : ℕ} (hn : nfft ≠ 0) {fs : ℝ} (hfs : fs ≠ 0) (W : List (List ℝ)) :
    ∃ ks : List ℕ, List.Forall₂ (Spec.StrongestBin nfft) W ks ∧
      W.mapM (dominantOf nfft fs) = .ok (ks.map (Spec.gridFreq fs nfft)) := by
  choose g hg using strongest_exists nfft
  refine ⟨W.map g, ?_, ?_⟩
  · rw [List.forall₂_map_right_iff, List.forall₂_same]; exact fun w _ => hg w
  · rw [mapM_ok _ (fun w => Spec.gridFreq fs nfft (g w)) W fun w _ => dominantOf_eq hn hfs (hg w), List.map_map]; rfl

end Model
end Spafe
