import Verif.Props.RoundingLpc
import Verif.Props.LpMeaning
import Verif.Props.NoisyTone
import Verif.Props.RoundingSpfeats

/-! C193: small changes of the signal cause small changes of the predictor. C194: the same for `lpcc`, which jumps where the
residual is zero. -/

set_option linter.unusedSectionVars false

namespace Spafe
namespace Props
open Model XF Spec

/-- How much the autocorrelations of a frame of energy `r` change when the frame moves by `ε` in Euclidean norm. -/
noncomputable def corrChange (ε r : ℝ) : ℝ := ε * (2 * √r + ε)

theorem autoCorr_zero_eq (x : List ℝ) : autoCorr x 0 = ∑ n ∈ Finset.range x.length, x.getD n 0 ^ 2 := by
  rw [autoCorr_eq]
  simp [sq]

theorem abs_sum_mul_le (N : ℕ) (u v : ℕ → ℝ) :
    |∑ n ∈ Finset.range N, u n * v n| ≤ √(∑ n ∈ Finset.range N, u n ^ 2) * √(∑ n ∈ Finset.range N, v n ^ 2) := by
  refine (Finset.abs_sum_le_sum_abs _ _).trans ?_
  have := Real.sum_mul_le_sqrt_mul_sqrt (Finset.range N) (fun n => |u n|) (fun n => |v n|)
  simpa only [sq_abs, ← abs_mul] using this

theorem shifted_le (N k : ℕ) (u : ℕ → ℝ) : ∑ n ∈ Finset.range (N - k), u (n + k) ^ 2 ≤ ∑ n ∈ Finset.range N, u n ^ 2 := by
  by_cases h : k ≤ N
  · have e : ∑ n ∈ Finset.range N, u n ^ 2 = ∑ n ∈ Finset.range k, u n ^ 2 + ∑ n ∈ Finset.range (N - k), u (n + k) ^ 2 := by
      conv_lhs => rw [show N = k + (N - k) by omega, Finset.sum_range_add]
      simp only [add_comm]
    rw [e]
    have : 0 ≤ ∑ n ∈ Finset.range k, u n ^ 2 := Finset.sum_nonneg fun _ _ => sq_nonneg _
    linarith
  · rw [show N - k = 0 by omega, Finset.sum_range_zero]
    exact Finset.sum_nonneg fun _ _ => sq_nonneg _

theorem prefix_le (N k : ℕ) (u : ℕ → ℝ) : ∑ n ∈ Finset.range (N - k), u n ^ 2 ≤ ∑ n ∈ Finset.range N, u n ^ 2 :=
  Finset.sum_le_sum_of_subset_of_nonneg (Finset.range_subset_range.mpr (by omega)) fun _ _ _ => sq_nonneg _

theorem autoCorr_eq_short (x : List ℝ) (k : ℕ) :
    autoCorr x k = ∑ n ∈ Finset.range (x.length - k), x.getD n 0 * x.getD (n + k) 0 := by
  rw [autoCorr_eq]
  symm
  refine Finset.sum_subset (Finset.range_subset_range.mpr (by omega)) fun n _ hn => ?_
  rw [Finset.mem_range, not_lt] at hn
  rw [List.getD_eq_default _ _ (show x.length ≤ n + k by omega), mul_zero]

/-- The autocorrelations of two frames at distance `ε`. -/
theorem autoCorr_sub_le {x y : List ℝ} (hl : y.length = x.length) {ε : ℝ} (hε : 0 ≤ ε)
    (hd : ∑ n ∈ Finset.range x.length, (y.getD n 0 - x.getD n 0) ^ 2 ≤ ε ^ 2) (k : ℕ) :
    |autoCorr y k - autoCorr x k| ≤ corrChange ε (autoCorr x 0) := by
  have hde : √(∑ n ∈ Finset.range x.length, (y.getD n 0 - x.getD n 0) ^ 2) ≤ ε := Real.sqrt_le_iff.mpr ⟨hε, hd⟩
  have hy : √(∑ n ∈ Finset.range x.length, y.getD n 0 ^ 2) ≤ √(autoCorr x 0) + ε := by
    have := (abs_le.mp (sqrt_sum_sub x.length (fun n => y.getD n 0) (fun n => x.getD n 0))).2
    rw [autoCorr_zero_eq]
    linarith
  have hx : √(∑ n ∈ Finset.range x.length, x.getD n 0 ^ 2) = √(autoCorr x 0) := by rw [autoCorr_zero_eq]
  rw [autoCorr_eq_short, autoCorr_eq_short x k, hl, ← Finset.sum_sub_distrib]
  have e : ∀ n ∈ Finset.range (x.length - k), y.getD n 0 * y.getD (n + k) 0 - x.getD n 0 * x.getD (n + k) 0 =
      y.getD n 0 * (y.getD (n + k) 0 - x.getD (n + k) 0) + (y.getD n 0 - x.getD n 0) * x.getD (n + k) 0 := fun n _ => by ring
  rw [Finset.sum_congr rfl e, Finset.sum_add_distrib]
  refine (abs_add_le _ _).trans ?_
  have h1 := abs_sum_mul_le (x.length - k) (fun n => y.getD n 0) (fun n => y.getD (n + k) 0 - x.getD (n + k) 0)
  have h2 := abs_sum_mul_le (x.length - k) (fun n => y.getD n 0 - x.getD n 0) (fun n => x.getD (n + k) 0)
  have a1 := (Real.sqrt_le_sqrt (prefix_le x.length k fun n => y.getD n 0)).trans hy
  have a2 := (Real.sqrt_le_sqrt (shifted_le x.length k fun n => y.getD n 0 - x.getD n 0)).trans hde
  have a3 := (Real.sqrt_le_sqrt (prefix_le x.length k fun n => y.getD n 0 - x.getD n 0)).trans hde
  have a4 := (Real.sqrt_le_sqrt (shifted_le x.length k fun n => x.getD n 0)).trans hx.le
  have b1 := mul_le_mul a1 a2 (Real.sqrt_nonneg _) (add_nonneg (Real.sqrt_nonneg _) hε)
  have b2 := mul_le_mul a3 a4 (Real.sqrt_nonneg _) hε
  beta_reduce at h1 h2 b1 b2
  unfold corrChange
  linarith

theorem predictor_helper {x : List ℝ} {p : ℕ} {a : ℕ → ℝ} (hp : 1 ≤ p) (hx : NotSilent x) (ha : IsPredictor x p a) :
    ∃ co e, lpcHelper x p = .ok (co, e) ∧ ∀ k ≤ p, co.getD k 0 = a k := by
  have hx0 : x ≠ [] := by
    rintro rfl
    obtain ⟨v, hv, -⟩ := hx
    simp at hv
  obtain ⟨⟨co, e⟩, h⟩ := (C61_defined_iff x p hx0 hp).1.mpr hx
  obtain ⟨h1, h2, h3⟩ := C59_normal_equations x p co e h
  exact ⟨co, e, h, C107_predictor_unique x hx p (fun k => co.getD k 0) a ⟨h2, h3⟩ ha⟩

theorem BoundedBelow.notSilent {x : List ℝ} {p : ℕ} {m : ℝ} (hp : 1 ≤ p) (hm : 0 < m) (hB : BoundedBelow x p m) : NotSilent x :=
  (C175_lower_bound x p hp).1.mp ⟨m, hm, hB⟩

/-- The change of the coefficients, per coefficient. -/
noncomputable def coefChange (ε r m S : ℝ) : ℝ := 2 * (corrChange ε r * (1 + S)) / m

/-- C193 for one frame: `x` and `y` are frames at distance `ε`, with predictors `a` and `b`. -/
theorem C193_frame {x y : List ℝ} (hl : y.length = x.length) {p : ℕ} (hp : 1 ≤ p) {a b : ℕ → ℝ} (ha : IsPredictor x p a)
    (hb : IsPredictor y p b) {m ε : ℝ} (hm : 0 < m) (hB : BoundedBelow x p m) (hε : 0 ≤ ε)
    (hd : ∑ n ∈ Finset.range x.length, (y.getD n 0 - x.getD n 0) ^ 2 ≤ ε ^ 2) (hs : 2 * p * corrChange ε (autoCorr x 0) ≤ m) :
    ∑ k ∈ Finset.Icc 1 p, (b k - a k) ^ 2 ≤ p * coefChange ε (autoCorr x 0) m (∑ k ∈ Finset.Icc 1 p, |a k|) ^ 2 ∧
      |lpResidual y p b - lpResidual x p a| ≤
        corrChange ε (autoCorr x 0) * (2 + ∑ k ∈ Finset.Icc 1 p, |a k| +
          p * coefChange ε (autoCorr x 0) m (∑ k ∈ Finset.Icc 1 p, |a k|)) +
        autoCorr x 0 * (p * coefChange ε (autoCorr x 0) m (∑ k ∈ Finset.Icc 1 p, |a k|)) := by
  obtain ⟨co, e0, hco, hcoa⟩ := predictor_helper hp (hB.notSilent hp hm) ha
  have hr := autoCorr_sub_le hl hε hd
  have hG0 : 0 ≤ corrChange ε (autoCorr x 0) := (abs_nonneg _).trans (hr 0)
  have hpr : (1 : ℝ) ≤ p := by exact_mod_cast hp
  generalize hG : corrChange ε (autoCorr x 0) = G at *
  have hD : ∀ i, 1 ≤ i → i ≤ p →
      |∑ k ∈ Finset.Icc 1 p, b k * autoCorr x ((i : ℤ) - (k : ℤ)).natAbs + autoCorr x i| ≤ G * (1 + ∑ k ∈ Finset.Icc 1 p, |b k|) := by
    intro i h1 h2
    have h3 := hb.normal i h1 h2
    have e : ∑ k ∈ Finset.Icc 1 p, b k * autoCorr x ((i : ℤ) - (k : ℤ)).natAbs + autoCorr x i =
        -(∑ k ∈ Finset.Icc 1 p, b k * (autoCorr y ((i : ℤ) - (k : ℤ)).natAbs - autoCorr x ((i : ℤ) - (k : ℤ)).natAbs)) -
          (autoCorr y i - autoCorr x i) := by
      simp only [mul_sub, Finset.sum_sub_distrib]
      linarith
    rw [e]
    have h4 : |∑ k ∈ Finset.Icc 1 p, b k * (autoCorr y ((i : ℤ) - (k : ℤ)).natAbs - autoCorr x ((i : ℤ) - (k : ℤ)).natAbs)| ≤
        G * ∑ k ∈ Finset.Icc 1 p, |b k| := by
      refine (Finset.abs_sum_le_sum_abs _ _).trans ?_
      rw [Finset.mul_sum]
      refine Finset.sum_le_sum fun k _ => ?_
      rw [abs_mul, mul_comm]
      exact mul_le_mul_of_nonneg_right (hr _) (abs_nonneg _)
    have h5 := hr i
    have h6 := abs_sub (-(∑ k ∈ Finset.Icc 1 p, b k *
      (autoCorr y ((i : ℤ) - (k : ℤ)).natAbs - autoCorr x ((i : ℤ) - (k : ℤ)).natAbs))) (autoCorr y i - autoCorr x i)
    rw [abs_neg] at h6
    linarith
  have h1 := (residual_bounds hco hm hB b hD).1
  rw [Finset.sum_congr rfl fun k hk => by rw [hcoa k (Finset.mem_Icc.mp hk).2]] at h1
  obtain ⟨S, hS⟩ : ∃ S, S = ∑ k ∈ Finset.Icc 1 p, |a k| := ⟨_, rfl⟩
  obtain ⟨D, hDd⟩ : ∃ D, D = G * (1 + ∑ k ∈ Finset.Icc 1 p, |b k|) := ⟨_, rfl⟩
  have hb0 : 0 ≤ ∑ k ∈ Finset.Icc 1 p, |b k| := Finset.sum_nonneg fun _ _ => abs_nonneg _
  have hS0 : 0 ≤ S := by rw [hS]; exact Finset.sum_nonneg fun _ _ => abs_nonneg _
  have hD0 : 0 ≤ D := by rw [hDd]; positivity
  rw [← hDd] at h1
  rw [← hS]
  have hsub : ∀ {W : ℝ}, 0 ≤ W → ∑ k ∈ Finset.Icc 1 p, (b k - a k) ^ 2 ≤ p * W ^ 2 → ∑ k ∈ Finset.Icc 1 p, |b k - a k| ≤ p * W := by
    intro W hW hle
    have e2 : (∑ k ∈ Finset.Icc 1 p, |b k - a k|) ^ 2 ≤ (p * W) ^ 2 := by
      have := sq_sum_le_card_mul_sum_sq (s := Finset.Icc 1 p) (f := fun k => |b k - a k|)
      simp only [sq_abs, Nat.card_Icc, Nat.add_sub_cancel] at this
      refine this.trans ?_
      have := mul_le_mul_of_nonneg_left hle (show (0 : ℝ) ≤ p by positivity)
      exact this.trans (le_of_eq (by ring))
    exact (abs_le_of_sq_le_sq' e2 (by positivity)).2
  have htri : ∑ k ∈ Finset.Icc 1 p, |b k| ≤ S + ∑ k ∈ Finset.Icc 1 p, |b k - a k| := by
    rw [hS, ← Finset.sum_add_distrib]
    refine Finset.sum_le_sum fun k _ => ?_
    have := abs_add_le (a k) (b k - a k)
    rwa [add_sub_cancel] at this
  have hDle : D ≤ 2 * (G * (1 + S)) := by
    have h2 := hsub (by positivity) h1
    have h3 : G * (p * (D / m)) ≤ D / 2 := by
      have : G * (p * (D / m)) = (2 * p * G) * (D / m) / 2 := by ring
      rw [this]
      have h4 : (2 * p * G) * (D / m) ≤ m * (D / m) := mul_le_mul_of_nonneg_right hs (by positivity)
      rw [mul_div_cancel₀ _ hm.ne'] at h4
      linarith
    have h5 := mul_le_mul_of_nonneg_left (htri.trans (add_le_add_right h2 S)) hG0
    nlinarith
  have hW : coefChange ε (autoCorr x 0) m S = 2 * (G * (1 + S)) / m := by unfold coefChange; rw [hG]
  have hW0 : 0 ≤ coefChange ε (autoCorr x 0) m S := by rw [hW]; positivity
  have hmain : ∑ k ∈ Finset.Icc 1 p, (b k - a k) ^ 2 ≤ p * coefChange ε (autoCorr x 0) m S ^ 2 := by
    refine h1.trans (mul_le_mul_of_nonneg_left (pow_le_pow_left₀ (by positivity) ?_ 2) (by positivity))
    rw [hW]
    exact div_le_div_of_nonneg_right hDle hm.le
  refine ⟨hmain, ?_⟩
  have hd1 := hsub hW0 hmain
  generalize coefChange ε (autoCorr x 0) m S = W at *
  unfold lpResidual
  rw [hl]
  refine (abs_abs_sub_abs_le _ _).trans ?_
  rw [show ∀ p q r s : ℝ, p + q - (r + s) = (p - r) + (q - s) from fun p q r s => by ring, ← Finset.sum_sub_distrib]
  refine (abs_add_le _ _).trans ?_
  have hr0 : ∀ k, |autoCorr x k| ≤ autoCorr x 0 := fun k => by
    refine le_trans ?_ (autoCorr_abs_le x k)
    rw [autoCorr_eq_short]
    exact Finset.abs_sum_le_sum_abs _ _
  have hr00 : 0 ≤ autoCorr x 0 := (abs_nonneg _).trans (hr0 0)
  have hterm : |∑ k ∈ Finset.range (min (p + 1) (2 * x.length - 2)), (b k * autoCorr y ((x.length : ℤ) - 2 - k).natAbs -
      a k * autoCorr x ((x.length : ℤ) - 2 - k).natAbs)| ≤ ∑ k ∈ Finset.range (p + 1), (|b k| * G + |b k - a k| * autoCorr x 0) := by
    refine (Finset.abs_sum_le_sum_abs _ _).trans ?_
    refine (Finset.sum_le_sum_of_subset_of_nonneg (Finset.range_subset_range.mpr (min_le_left (p + 1) _))
      fun _ _ _ => abs_nonneg _).trans (Finset.sum_le_sum fun k _ => ?_)
    rw [show ∀ u v : ℝ, b k * u - a k * v = b k * (u - v) + (b k - a k) * v from fun u v => by ring]
    refine (abs_add_le _ _).trans ?_
    rw [abs_mul, abs_mul]
    exact add_le_add (mul_le_mul_of_nonneg_left (hr _) (abs_nonneg _)) (mul_le_mul_of_nonneg_left (hr0 _) (abs_nonneg _))
  rw [Finset.sum_range_succ', ha.one, hb.one, sub_self, abs_zero, abs_one, zero_mul, add_zero, one_mul, Finset.sum_add_distrib,
    ← Finset.sum_mul, ← Finset.sum_mul] at hterm
  have e1 : ∀ f : ℕ → ℝ, ∑ k ∈ Finset.range p, f (k + 1) = ∑ k ∈ Finset.Icc 1 p, f k := fun f => by
    rw [← Finset.Ico_add_one_right_eq_Icc, Finset.sum_Ico_eq_sum_range]
    simp only [Nat.add_sub_cancel, add_comm]
  rw [e1 (fun k => |b k|), e1 (fun k => |b k - a k|)] at hterm
  have h7 := hr (x.length - 1)
  have h8 := mul_le_mul_of_nonneg_right (htri.trans (add_le_add_right hd1 S)) hG0
  have h9 := mul_le_mul_of_nonneg_right hd1 hr00
  linarith

/-- `sig'` has the length of `sig` and differs from it by at most `η` in every sample. -/
def NearSignal (sig sig' : List ℝ) (η : ℝ) : Prop :=
  sig'.length = sig.length ∧ ∀ t < sig.length, |sig'.getD t 0 - sig.getD t 0| ≤ η

/-- The frame `i` on which `lpc` and `lpcc` compute the predictor (`lpc.py:178-196`): not windowed, see C107. -/
noncomputable def lpFrame (on : Bool) (sig : List ℝ) (l s i : ℕ) : List ℝ :=
  (List.range l).map fun (j : ℕ) => emphasised on 0.97 sig (i * s + j)

theorem lpFrame_length (on : Bool) (sig : List ℝ) (l s i : ℕ) : (lpFrame on sig l s i).length = l := by
  simp [lpFrame]

/-- How far the frames of two signals are apart. -/
noncomputable def frameChange (on : Bool) (l : ℕ) (η : ℝ) : ℝ := √l * (emphMax on 0.97 * η)

theorem frameChange_nonneg (on : Bool) (l : ℕ) {η : ℝ} (hη : 0 ≤ η) : 0 ≤ frameChange on l η := by
  unfold frameChange emphMax
  split_ifs <;> positivity

theorem lpFrame_diff {on : Bool} {sig sig' : List ℝ} {η : ℝ} (hn : NearSignal sig sig' η) {l s i : ℕ}
    (hb : i * s + l ≤ sig.length) :
    ∑ n ∈ Finset.range l, ((lpFrame on sig' l s i).getD n 0 - (lpFrame on sig l s i).getD n 0) ^ 2 ≤ frameChange on l η ^ 2 := by
  have h : ∀ n ∈ Finset.range l, ((lpFrame on sig' l s i).getD n 0 - (lpFrame on sig l s i).getD n 0) ^ 2 ≤
      (emphMax on 0.97 * η) ^ 2 := by
    intro n hn'
    have hn' := Finset.mem_range.mp hn'
    unfold lpFrame
    rw [getD_map_range_lt _ _ hn', getD_map_range_lt _ _ hn']
    refine sq_le_sq' ?_ ?_
    all_goals
      have := abs_le.mp (emphasised_diff_le (x := sig') (y := sig) (fun t ht => hn.2 t (hn.1 ▸ ht)) on 0.97
        (t := i * s + n) (by rw [hn.1]; omega))
      obtain ⟨h1, h2⟩ := this
      linarith
  refine (Finset.sum_le_sum h).trans ?_
  rw [Finset.sum_const, Finset.card_range, nsmul_eq_mul]
  unfold frameChange
  rw [mul_pow (√(l : ℝ)), Real.sq_sqrt (Nat.cast_nonneg l)]

theorem lp_frame_inside {n l s i : ℕ} (hl : l ≤ n) (hi : i < (n - l) / s + 1) : i * s + l ≤ n := by
  have h1 : i ≤ (n - l) / s := by omega
  have h2 := Nat.mul_le_mul_right s h1
  have h3 := Nat.div_mul_le_self (n - l) s
  omega

/-- What `lpc` needs in order to have frames: the same conditions for signals of the same length. -/
theorem lpcFrames_near {a : LpcArgs} {sig sig' : List ℝ} {l s : ℕ} (hl : pyInt (a.win.winLen * a.fs) = l)
    (hs : pyInt (a.win.winHop * a.fs) = s) (hs0 : 0 < s) (hlen : sig'.length = sig.length) {F : List (List ℝ)}
    (hF : lpcFrames a sig = .ok F) :
    lpcFrames a sig' = .ok ((List.range ((sig.length - l) / s + 1)).map (lpFrame a.preEmph sig' l s)) := by
  have hS : 0 < pyInt (a.win.winHop * a.fs) := by rw [hs]; exact_mod_cast hs0
  obtain ⟨h1, h2, l1, s1, e1, e2, e3, e4, e5, -⟩ := (lpcFrames_ok_iff a sig F hS).mp hF
  have h1' : ¬ (a.preEmph = true ∧ sig' = []) := fun h => h1 ⟨h.1, List.length_eq_zero_iff.mp (by rw [← hlen, h.2]; rfl)⟩
  have hF' := (lpcFrames_ok_iff a sig' _ hS).mpr ⟨h1', h2, l1, s1, e1, e2, e3, by rw [hlen]; exact e4, e5, rfl⟩
  obtain ⟨-, e6⟩ := lpcFrames_meaning hl hs hs0 hF'
  rw [hF', e6, hlen]
  rfl

theorem lpc_frames_exist {a : LpcArgs} {sig : List ℝ} {q} (h : lpc a sig = .ok q) : ∃ F, lpcFrames a sig = .ok F := by
  unfold lpc at h
  rcases hF : lpcFrames a sig with e | F
  · rw [hF] at h; cases h
  · exact ⟨F, rfl⟩

theorem lpcc_frames_exist {a : LpcArgs} {sig : List ℝ} {q} (h : lpcc a sig = .ok q) : ∃ F, lpcFrames a sig = .ok F := by
  unfold lpcc at h
  rcases hF : lpcFrames a sig with e | F
  · rw [hF] at h; cases h
  · exact ⟨F, rfl⟩

/-- One frame, qualitatively. -/
theorem frame_continuous {x : List ℝ} (hx : NotSilent x) {p : ℕ} (hp : 1 ≤ p) {a : ℕ → ℝ} (ha : IsPredictor x p a) {tol : ℝ}
    (ht : 0 < tol) : ∃ δ > 0, ∀ y : List ℝ, y.length = x.length → ∀ ε, 0 ≤ ε → ε ≤ δ →
      ∑ n ∈ Finset.range x.length, (y.getD n 0 - x.getD n 0) ^ 2 ≤ ε ^ 2 →
      NotSilent y ∧ ∀ b, IsPredictor y p b → (∀ k ≤ p, |b k - a k| ≤ tol) ∧ |lpResidual y p b - lpResidual x p a| ≤ tol := by
  obtain ⟨m, hm, hB⟩ := (C175_lower_bound x p hp).1.mpr hx
  have hpr : (1 : ℝ) ≤ p := by exact_mod_cast hp
  obtain ⟨S, hS⟩ : ∃ S, S = ∑ k ∈ Finset.Icc 1 p, |a k| := ⟨_, rfl⟩
  have hS0 : 0 ≤ S := by rw [hS]; exact Finset.sum_nonneg fun _ _ => abs_nonneg _
  have hr0 : 0 < autoCorr x 0 := by
    obtain ⟨v, hv, hv0⟩ := hx
    obtain ⟨n, hn, rfl⟩ := List.mem_iff_getElem.mp hv
    rw [autoCorr_zero_eq]
    refine Finset.sum_pos' (fun _ _ => sq_nonneg _) ⟨n, Finset.mem_range.mpr hn, ?_⟩
    rw [List.getD_eq_getElem _ _ hn]
    positivity
  let f : ℝ → ℝ := fun ε => 2 * p * corrChange ε (autoCorr x 0)
  let g : ℝ → ℝ := fun ε => p * coefChange ε (autoCorr x 0) m S
  let q : ℝ → ℝ := fun ε => corrChange ε (autoCorr x 0) * (2 + S + p * coefChange ε (autoCorr x 0) m S) +
    autoCorr x 0 * (p * coefChange ε (autoCorr x 0) m S)
  have cG : Continuous fun ε => corrChange ε (autoCorr x 0) := by unfold corrChange; fun_prop
  have cW : Continuous fun ε => coefChange ε (autoCorr x 0) m S := by unfold coefChange; fun_prop
  have hG0 : corrChange 0 (autoCorr x 0) = 0 := by simp [corrChange]
  have hW0 : coefChange 0 (autoCorr x 0) m S = 0 := by simp [coefChange, hG0]
  have hf : Filter.Tendsto f (nhds 0) (nhds (f 0)) := (by fun_prop : Continuous f).tendsto 0
  have hg : Filter.Tendsto g (nhds 0) (nhds (g 0)) := (by fun_prop : Continuous g).tendsto 0
  have hq : Filter.Tendsto q (nhds 0) (nhds (q 0)) := (by fun_prop : Continuous q).tendsto 0
  rw [show f 0 = 0 by simp [f, hG0]] at hf
  rw [show g 0 = 0 by simp [g, hW0]] at hg
  rw [show q 0 = 0 by simp [q, hG0, hW0]] at hq
  have hev := ((hf.eventually (gt_mem_nhds hm)).and (hf.eventually (gt_mem_nhds hr0))).and
    ((hg.eventually (gt_mem_nhds ht)).and (hq.eventually (gt_mem_nhds ht)))
  obtain ⟨r, hr, hball⟩ := Metric.eventually_nhds_iff.mp hev
  refine ⟨r / 2, by positivity, ?_⟩
  intro y hl ε hε hεr hd
  have hdist : dist ε 0 < r := by rw [dist_zero_right, Real.norm_eq_abs, abs_of_nonneg hε]; linarith
  obtain ⟨⟨b1, b2⟩, b3, b4⟩ := hball hdist
  simp only [f, g, q] at b1 b2 b3 b4
  have hGn : 0 ≤ corrChange ε (autoCorr x 0) := by unfold corrChange; positivity
  have hWn : 0 ≤ coefChange ε (autoCorr x 0) m S := by unfold coefChange; positivity
  refine ⟨?_, fun b hb => ?_⟩
  · by_contra hy
    have h1 := (abs_le.mp (autoCorr_sub_le hl hε hd 0)).1
    rw [autoCorr_silent hy] at h1
    nlinarith
  · obtain ⟨c1, c2⟩ := C193_frame hl hp ha hb hm hB hε hd b1.le
    rw [← hS] at c1 c2
    refine ⟨fun k hk => ?_, c2.trans b4.le⟩
    rcases Nat.eq_zero_or_pos k with rfl | hk0
    · rw [ha.one, hb.one, sub_self, abs_zero]; exact ht.le
    have hone : (b k - a k) ^ 2 ≤ ∑ k ∈ Finset.Icc 1 p, (b k - a k) ^ 2 :=
      Finset.single_le_sum (f := fun k => (b k - a k) ^ 2) (fun _ _ => sq_nonneg _) (Finset.mem_Icc.mpr ⟨hk0, hk⟩)
    have h2 : (b k - a k) ^ 2 ≤ (p * coefChange ε (autoCorr x 0) m S) ^ 2 := by
      refine (hone.trans c1).trans ?_
      rw [mul_pow, sq (p : ℝ)]
      exact mul_le_mul_of_nonneg_right (by nlinarith) (sq_nonneg _)
    exact (abs_le_of_sq_le_sq h2 (by positivity)).trans b3.le

/-- Finitely many frames have a common distance. -/
theorem common_pos (R : ℕ) (P : ℕ → ℝ → Prop) (h : ∀ i < R, ∃ δ > 0, ∀ η, 0 ≤ η → η ≤ δ → P i η) :
    ∃ δ > 0, ∀ η, 0 ≤ η → η ≤ δ → ∀ i < R, P i η := by
  induction R with
  | zero => exact ⟨1, one_pos, fun _ _ _ i hi => absurd hi (by omega)⟩
  | succ R ih =>
    obtain ⟨δ, hδ, h1⟩ := ih fun i hi => h i (by omega)
    obtain ⟨δ', hδ', h2⟩ := h R (by omega)
    refine ⟨min δ δ', lt_min hδ hδ', fun η h0 hη i hi => ?_⟩
    rcases Nat.lt_succ_iff_lt_or_eq.mp hi with h3 | rfl
    · exact h1 η h0 (hη.trans (min_le_left _ _)) i h3
    · exact h2 η h0 (hη.trans (min_le_right _ _))

/-- All frames of a signal. -/
theorem frames_continuous {on : Bool} {sig : List ℝ} {l s p : ℕ} (hp : 1 ≤ p) (hlen : l ≤ sig.length)
    (hx : ∀ i < (sig.length - l) / s + 1, NotSilent (lpFrame on sig l s i)) (a : ℕ → ℕ → ℝ)
    (ha : ∀ i < (sig.length - l) / s + 1, IsPredictor (lpFrame on sig l s i) p (a i)) {tol : ℝ} (ht : 0 < tol) :
    ∃ η > 0, ∀ sig', NearSignal sig sig' η → ∀ i < (sig.length - l) / s + 1, NotSilent (lpFrame on sig' l s i) ∧
      ∀ b, IsPredictor (lpFrame on sig' l s i) p b → (∀ k ≤ p, |b k - a i k| ≤ tol) ∧
        |lpResidual (lpFrame on sig' l s i) p b - lpResidual (lpFrame on sig l s i) p (a i)| ≤ tol := by
  have key := common_pos ((sig.length - l) / s + 1) (fun i η => ∀ sig', NearSignal sig sig' η →
    NotSilent (lpFrame on sig' l s i) ∧ ∀ b, IsPredictor (lpFrame on sig' l s i) p b → (∀ k ≤ p, |b k - a i k| ≤ tol) ∧
        |lpResidual (lpFrame on sig' l s i) p b - lpResidual (lpFrame on sig l s i) p (a i)| ≤ tol) ?_
  · obtain ⟨δ, hδ, h⟩ := key
    exact ⟨δ, hδ, fun sig' hn i hi => h δ hδ.le le_rfl i hi sig' hn⟩
  intro i hi
  obtain ⟨δ, hδ, h⟩ := frame_continuous (hx i hi) hp (ha i hi) ht
  have hM : 0 ≤ √(l : ℝ) * emphMax on 0.97 := by unfold emphMax; split_ifs <;> positivity
  refine ⟨δ / (√(l : ℝ) * emphMax on 0.97 + 1), by positivity, fun η h0 hη sig' hn => ?_⟩
  refine h _ (by rw [lpFrame_length, lpFrame_length]) (frameChange on l η) (frameChange_nonneg _ _ h0) ?_ ?_
  · have h1 : η * (√(l : ℝ) * emphMax on 0.97 + 1) ≤ δ := (le_div_iff₀ (by positivity)).mp hη
    unfold frameChange
    nlinarith
  · rw [lpFrame_length]
    exact lpFrame_diff hn (lp_frame_inside hlen hi)

theorem frames_sound {a : LpcArgs} {sig : List ℝ} {l s : ℕ} (hl : pyInt (a.win.winLen * a.fs) = l)
    (hs : pyInt (a.win.winHop * a.fs) = s) (hs0 : 0 < s) {F : List (List ℝ)} (hF : lpcFrames a sig = .ok F) :
    F = (List.range ((sig.length - l) / s + 1)).map (lpFrame a.preEmph sig l s) := by
  have := lpcFrames_near hl hs hs0 (sig := sig) (sig' := sig) rfl hF
  rw [hF] at this
  exact Except.ok.inj this

/-- C193: `lpc` is continuous wherever it returns. For every tolerance there is a distance such that all signals that near
have coefficients, and all their coefficients and error values are within the tolerance. -/
theorem C193_lpc_continuous (a : LpcArgs) (sig : List ℝ) (l s : ℕ) (hl : pyInt (a.win.winLen * a.fs) = l)
    (hs : pyInt (a.win.winHop * a.fs) = s) (hl0 : 0 < l) (hs0 : 0 < s) (ho : 2 ≤ a.order) (A : List (List ℝ)) (E : List ℝ)
    (h : lpc a sig = .ok (A, E)) (tol : ℝ) (ht : 0 < tol) :
    ∃ η > 0, ∀ sig', NearSignal sig sig' η → ∃ A' E', lpc a sig' = .ok (A', E') ∧ A'.length = A.length ∧ E'.length = E.length ∧
      ∀ i < A.length, (∀ k < a.order, |(A'.getD i []).getD k 0 - (A.getD i []).getD k 0| ≤ tol) ∧
        |E'.getD i 0 - E.getD i 0| ≤ tol := by
  have hS : 0 < pyInt (a.win.winHop * a.fs) := by rw [hs]; exact_mod_cast hs0
  have hL : 0 < pyInt (a.win.winLen * a.fs) := by rw [hl]; exact_mod_cast hl0
  obtain ⟨F, hF⟩ := lpc_frames_exist h
  obtain ⟨hlen, -⟩ := lpcFrames_meaning hl hs hs0 hF
  obtain ⟨hA, hE, hrow⟩ := C107_lpc_meaning a sig l s hl hs hs0 A E h
  have hsil := (C61_lpc_defined_iff a sig F hF hS hL ho).1.mp ⟨_, h⟩
  rw [frames_sound hl hs hs0 hF] at hsil
  obtain ⟨η, hη, hc⟩ := frames_continuous (p := a.order - 1) (by omega) hlen
    (fun i hi => hsil _ (List.mem_map.mpr ⟨i, List.mem_range.mpr hi, rfl⟩)) (fun i k => (A.getD i []).getD k 0)
    (fun i hi => (hrow i hi _ rfl).1) ht
  refine ⟨η, hη, fun sig' hn => ?_⟩
  have hF' := lpcFrames_near hl hs hs0 hn.1 hF
  obtain ⟨⟨A', E'⟩, h'⟩ := (C61_lpc_defined_iff a sig' _ hF' hS hL ho).1.mpr (by
    intro f hf
    obtain ⟨i, hi, rfl⟩ := List.mem_map.mp hf
    exact (hc sig' hn i (List.mem_range.mp hi)).1)
  obtain ⟨hA', hE', hrow'⟩ := C107_lpc_meaning a sig' l s hl hs hs0 A' E' h'
  rw [hn.1] at hA' hE' hrow'
  refine ⟨A', E', h', by rw [hA.1, hA'.1], by rw [hE, hE'], fun i hi => ?_⟩
  rw [hA.1] at hi
  obtain ⟨p1, p2⟩ := hrow i hi _ rfl
  obtain ⟨p1', p2'⟩ := hrow' i hi _ rfl
  obtain ⟨c1, c2⟩ := (hc sig' hn i hi).2 _ p1'
  exact ⟨fun k hk => c1 k (by omega), by rw [p2, p2']; exact c2⟩

/-- C193: how large the change is. `m` is a lower bound of the eigenvalues of the autocorrelation matrix of frame `i`. -/
theorem C193_lpc_bound (a : LpcArgs) (sig sig' : List ℝ) (l s : ℕ) (hl : pyInt (a.win.winLen * a.fs) = l)
    (hs : pyInt (a.win.winHop * a.fs) = s) (hs0 : 0 < s) (ho : 2 ≤ a.order) (A A' : List (List ℝ)) (E E' : List ℝ)
    (h : lpc a sig = .ok (A, E)) (h' : lpc a sig' = .ok (A', E')) (η : ℝ) (hη : 0 ≤ η) (hn : NearSignal sig sig' η) (i : ℕ)
    (hi : i < A.length) (m : ℝ) (hm : 0 < m) (hB : BoundedBelow (lpFrame a.preEmph sig l s i) (a.order - 1) m) (Δ W : ℝ)
    (hΔ : Δ = corrChange (frameChange a.preEmph l η) (autoCorr (lpFrame a.preEmph sig l s i) 0))
    (hW : W = 2 * (Δ * (1 + ∑ k ∈ Finset.Icc 1 (a.order - 1), |(A.getD i []).getD k 0|)) / m)
    (hsmall : 2 * (a.order - 1 : ℕ) * Δ ≤ m) :
    ∑ k ∈ Finset.Icc 1 (a.order - 1), ((A'.getD i []).getD k 0 - (A.getD i []).getD k 0) ^ 2 ≤ (a.order - 1 : ℕ) * W ^ 2 ∧
      |E'.getD i 0 - E.getD i 0| ≤ Δ * (2 + ∑ k ∈ Finset.Icc 1 (a.order - 1), |(A.getD i []).getD k 0| + (a.order - 1 : ℕ) * W) +
        autoCorr (lpFrame a.preEmph sig l s i) 0 * ((a.order - 1 : ℕ) * W) := by
  obtain ⟨F, hF⟩ := lpc_frames_exist h
  obtain ⟨hlen, -⟩ := lpcFrames_meaning hl hs hs0 hF
  obtain ⟨hA, hE, hrow⟩ := C107_lpc_meaning a sig l s hl hs hs0 A E h
  obtain ⟨hA', hE', hrow'⟩ := C107_lpc_meaning a sig' l s hl hs hs0 A' E' h'
  rw [hn.1] at hA' hE' hrow'
  rw [hA.1] at hi
  obtain ⟨p1, p2⟩ := hrow i hi _ rfl
  obtain ⟨p1', p2'⟩ := hrow' i hi _ rfl
  have := C193_frame (x := lpFrame a.preEmph sig l s i) (y := lpFrame a.preEmph sig' l s i)
    (by rw [lpFrame_length, lpFrame_length]) (by omega) p1 p1' hm hB (frameChange_nonneg a.preEmph l hη)
    (by rw [lpFrame_length]; exact lpFrame_diff hn (lp_frame_inside hlen hi)) (by rw [← hΔ]; exact hsmall)
  unfold coefChange at this
  rw [← hΔ, ← hW] at this
  rw [p2, p2']
  exact this

/-! ### C194 -/

theorem lpCoefficient_sub_le {a b : ℕ → ℝ} {e e' τ : ℝ} {m : ℕ} (hm : 1 ≤ m) (h : ∀ k ≤ m, |b k - a k| ≤ τ) :
    |lpCoefficient b e' m - lpCoefficient a e m| ≤ m * τ := by
  have hτ : 0 ≤ τ := (abs_nonneg _).trans (h 0 (by omega))
  unfold lpCoefficient
  rw [if_neg (by omega), if_neg (by omega), add_sub_add_comm, ← Finset.sum_sub_distrib]
  refine (abs_add_le _ _).trans ?_
  have h1 := h m le_rfl
  have h2 : |∑ k ∈ Finset.Ico 1 m, ((k : ℝ) / m * b (m - k) - (k : ℝ) / m * a (m - k))| ≤ ∑ k ∈ Finset.Ico 1 m, τ := by
    refine (Finset.abs_sum_le_sum_abs _ _).trans (Finset.sum_le_sum fun k hk => ?_)
    have hk := (Finset.mem_Ico.mp hk).2
    have hm0 : (0 : ℝ) < m := by exact_mod_cast hm
    rw [← mul_sub, abs_mul, abs_of_nonneg (by positivity)]
    have h3 : (k : ℝ) / m ≤ 1 := by
      rw [div_le_one hm0]
      exact_mod_cast hk.le
    exact (mul_le_of_le_one_left (abs_nonneg _) h3).trans (h (m - k) (by omega))
  rw [Finset.sum_const, Nat.card_Ico, nsmul_eq_mul, Nat.cast_sub hm, Nat.cast_one] at h2
  linarith

theorem logFloor_near {e : ℝ} (he : e ≠ 0) {tol : ℝ} (ht : 0 < tol) :
    ∃ δ > 0, ∀ e', |e' - e| ≤ δ → |logFloor e' - logFloor e| ≤ tol := by
  obtain ⟨r, hr, h⟩ := Metric.continuousAt_iff.mp (Real.continuousAt_log he) tol ht
  refine ⟨min (r / 2) (|e| / 2), by positivity, fun e' h' => ?_⟩
  have h1 := h'.trans (min_le_left _ _)
  have h2 := h'.trans (min_le_right _ _)
  have he' : e' ≠ 0 := by
    rintro rfl
    rw [zero_sub, abs_neg] at h2
    have := abs_pos.mpr he
    linarith
  unfold logFloor
  rw [if_neg he, if_neg he', ← Real.dist_eq]
  exact (h (by rw [Real.dist_eq]; linarith)).le

/-- C194: the coefficients `1, 2, …` of `lpcc` are continuous, and so is coefficient `0` when no frame has the residual
zero. Missing from the property: coefficient `0` of a frame with the residual zero (`C194_violated`). -/
theorem C194_lpcc_partial (a : LpcArgs) (sig : List ℝ) (l s : ℕ) (hl : pyInt (a.win.winLen * a.fs) = l)
    (hs : pyInt (a.win.winHop * a.fs) = s) (hl0 : 0 < l) (hs0 : 0 < s) (ho : 2 ≤ a.order) (hlift : a.lifter = none)
    (hnorm : a.normalize = none) (M : XMat) (h : lpcc a sig = .ok M) (tol : ℝ) (ht : 0 < tol) :
    ∃ η > 0, ∀ sig', NearSignal sig sig' η → ∃ M', lpcc a sig' = .ok M' ∧ M'.length = M.length ∧
      ∀ i < M.length, ∀ k < a.order,
        (1 ≤ k ∨ ∀ p, IsPredictor (lpFrame a.preEmph sig l s i) (a.order - 1) p →
          lpResidual (lpFrame a.preEmph sig l s i) (a.order - 1) p ≠ 0) →
        ∃ u v, (M.getD i []).getD k nan = fin u ∧ (M'.getD i []).getD k nan = fin v ∧ |v - u| ≤ tol := by
  have hS : 0 < pyInt (a.win.winHop * a.fs) := by rw [hs]; exact_mod_cast hs0
  have hL : 0 < pyInt (a.win.winLen * a.fs) := by rw [hl]; exact_mod_cast hl0
  obtain ⟨F, hF⟩ := lpcc_frames_exist h
  obtain ⟨hlen, -⟩ := lpcFrames_meaning hl hs hs0 hF
  obtain ⟨hA, hrow⟩ := C107_lpcc_meaning a sig l s hl hs hs0 hlift hnorm M h
  have hsil : ∀ f ∈ F, NotSilent f := by
    by_contra hc
    push Not at hc
    have := ((C61_lpc_defined_iff a sig F hF hS hL ho).2.1 hc).2
    rw [h] at this
    cases this
  rw [frames_sound hl hs hs0 hF] at hsil
  choose! q hq using fun i (hi : i < (sig.length - l) / s + 1) => hrow i hi _ rfl
  have hlog := common_pos ((sig.length - l) / s + 1) (fun i δ =>
    lpResidual (lpFrame a.preEmph sig l s i) (a.order - 1) (q i) ≠ 0 → ∀ e',
      |e' - lpResidual (lpFrame a.preEmph sig l s i) (a.order - 1) (q i)| ≤ δ →
      |logFloor e' - logFloor (lpResidual (lpFrame a.preEmph sig l s i) (a.order - 1) (q i))| ≤ tol) (by
    intro i _
    by_cases h0 : lpResidual (lpFrame a.preEmph sig l s i) (a.order - 1) (q i) = 0
    · exact ⟨1, one_pos, fun _ _ _ hc => absurd h0 hc⟩
    · obtain ⟨δ, hδ, h1⟩ := logFloor_near h0 ht
      exact ⟨δ, hδ, fun η _ hη _ e' he' => h1 e' (he'.trans hη)⟩)
  obtain ⟨δ, hδ, hlog⟩ := hlog
  have hlog := hlog δ hδ.le le_rfl
  have hop : (0 : ℝ) < a.order := by exact_mod_cast (by omega : 0 < a.order)
  obtain ⟨η, hη, hc⟩ := frames_continuous (on := a.preEmph) (p := a.order - 1) (by omega) hlen
    (fun i hi => hsil _ (List.mem_map.mpr ⟨i, List.mem_range.mpr hi, rfl⟩)) q (fun i hi => (hq i hi).1)
    (show 0 < min δ (tol / a.order) by positivity)
  refine ⟨η, hη, fun sig' hn => ?_⟩
  have hF' := lpcFrames_near hl hs hs0 hn.1 hF
  obtain ⟨M', h'⟩ := (C61_lpc_defined_iff a sig' _ hF' hS hL ho).2.2 (by
    intro f hf
    obtain ⟨i, hi, rfl⟩ := List.mem_map.mp hf
    exact (hc sig' hn i (List.mem_range.mp hi)).1) hlift hnorm
  obtain ⟨hA', hrow'⟩ := C107_lpcc_meaning a sig' l s hl hs hs0 hlift hnorm M' h'
  rw [hn.1] at hA' hrow'
  refine ⟨M', h', by rw [hA.1, hA'.1], fun i hi k hk hcase => ?_⟩
  rw [hA.1] at hi
  obtain ⟨p', p1', p2'⟩ := hrow' i hi _ rfl
  obtain ⟨c1, c2⟩ := (hc sig' hn i hi).2 _ p1'
  refine ⟨_, _, (hq i hi).2 k (by omega), p2' k (by omega), ?_⟩
  rcases Nat.eq_zero_or_pos k with rfl | hk0
  · have h0 := (hcase.resolve_left (by omega)) _ (hq i hi).1
    simp only [lpCoefficient, if_true]
    exact hlog i hi h0 _ (c2.trans (min_le_left _ _))
  · refine (lpCoefficient_sub_le hk0 fun j hj => (c1 j (by omega)).trans (min_le_right _ _)).trans ?_
    have hk1 : (k : ℝ) ≤ a.order := by exact_mod_cast hk.le
    calc (k : ℝ) * (tol / a.order) ≤ a.order * (tol / a.order) := mul_le_mul_of_nonneg_right hk1 (by positivity)
      _ = tol := by field_simp

/-- Frames of three samples with one coefficient: the residual is `|x₀ x₂|`. -/
theorem residual_three (x y z : ℝ) {p : ℕ → ℝ} (hp : IsPredictor [x, y, z] 1 p) : lpResidual [x, y, z] 1 p = |x * z| := by
  have h0 : p 0 = 1 := hp.one
  have h1 := hp.normal 1 le_rfl le_rfl
  simp only [Finset.Icc_self, Finset.sum_singleton, Nat.cast_one, sub_self, Int.natAbs_zero] at h1
  have h2 : autoCorr [x, y, z] 2 = x * z := by rw [autoCorr_eq]; simp [Finset.sum_range_succ]
  have e : (min (1 + 1) (2 * [x, y, z].length - 2)) = 2 := rfl
  unfold lpResidual
  rw [e, Finset.sum_range_succ, Finset.sum_range_one, h0]
  have e1 : (([x, y, z].length : ℤ) - 2 - ((0 : ℕ) : ℤ)).natAbs = 1 := rfl
  have e2 : (([x, y, z].length : ℤ) - 2 - ((1 : ℕ) : ℤ)).natAbs = 0 := rfl
  have e3 : [x, y, z].length - 1 = 2 := rfl
  rw [e1, e2, e3, h2, h1]
  congr 1
  ring

private theorem three_int : pyInt ((3 : ℝ) * 1) = ((3 : ℕ) : ℤ) := by norm_num [pyInt]

theorem lpcDemo_frame_ok (x y z : ℝ) : lpcFrames lpcDemo [x, y, z] = .ok [[x, y, z]] := by
  obtain ⟨w, hw, -⟩ := (C14_window_vector "hamming" 3).1 (by simp [WindowName])
  refine (lpcFrames_ok_iff _ _ _ ?_).mpr ⟨by simp, le_refl _, 3, 3, three_int, three_int, by norm_num, by simp, ⟨w, hw⟩, ?_⟩
  · show 0 < pyInt ((3 : ℝ) * 1); rw [three_int]; norm_num
  · simp [Model.LpcArgs.emph, lpcDemo, List.range_succ]

theorem lpcDemo_lpcc {x : ℝ} (hx : x ≠ 0) (y z : ℝ) : ∃ M, lpcc lpcDemo [x, y, z] = .ok M ∧
    (M.getD 0 []).getD 0 nan = fin (logFloor |x * z|) := by
  have hS : 0 < pyInt (lpcDemo.win.winHop * lpcDemo.fs) := by show 0 < pyInt ((3 : ℝ) * 1); rw [three_int]; norm_num
  obtain ⟨M, hM⟩ := (C61_lpc_defined_iff lpcDemo [x, y, z] _ (lpcDemo_frame_ok x y z) hS hS le_rfl).2.2 (by
    intro f hf
    rw [List.mem_singleton.mp hf]
    exact ⟨x, by simp, hx⟩) rfl rfl
  obtain ⟨-, h⟩ := C107_lpcc_meaning lpcDemo [x, y, z] 3 3 three_int three_int (by norm_num) rfl rfl M hM
  obtain ⟨p, h1, h2⟩ := h 0 (by simp) [x, y, z] (by simp [lpcDemo, emphasised, List.range_succ])
  refine ⟨M, hM, ?_⟩
  rw [h2 0 (by simp [lpcDemo])]
  have h1 : IsPredictor [x, y, z] 1 p := h1
  have e : lpResidual [x, y, z] (lpcDemo.order - 1) p = |x * z| := residual_three x y z h1
  simp only [lpCoefficient, if_true]
  rw [e]

/-- C194 (violated): at the signal `1, 1, 0` the first coefficient of `lpcc` jumps. In every neighbourhood there are
signals for which it differs by more than any bound. -/
theorem C194_violated : ∃ M u, lpcc lpcDemo [1, 1, 0] = .ok M ∧ (M.getD 0 []).getD 0 nan = fin u ∧
    ∀ η > 0, ∀ B, ∃ sig' M' v, NearSignal [1, 1, 0] sig' η ∧ lpcc lpcDemo sig' = .ok M' ∧
      (M'.getD 0 []).getD 0 nan = fin v ∧ v < u - B := by
  obtain ⟨M, hM, hu⟩ := lpcDemo_lpcc one_ne_zero 1 0
  refine ⟨M, _, hM, hu, fun η hη B => ?_⟩
  obtain ⟨d, hd0, hd1, hd2⟩ : ∃ d : ℝ, 0 < d ∧ d ≤ η ∧ Real.log d < logFloor |1 * 0| - B := by
    refine ⟨min η (Real.exp (logFloor |1 * 0| - B - 1)), by positivity, min_le_left _ _, ?_⟩
    have := Real.log_le_log (show 0 < min η (Real.exp (logFloor |1 * 0| - B - 1)) by positivity) (min_le_right _ _)
    rw [Real.log_exp] at this
    linarith
  obtain ⟨M', hM', hv⟩ := lpcDemo_lpcc one_ne_zero 1 d
  refine ⟨[1, 1, d], M', _, ⟨rfl, fun t ht => ?_⟩, hM', hv, ?_⟩
  · simp only [List.length_cons, List.length_nil] at ht
    interval_cases t
    · simpa using hη.le
    · simpa using hη.le
    · simpa [abs_of_pos hd0] using hd1
  · rw [one_mul, abs_of_pos hd0]
    unfold logFloor at hd2 ⊢
    rw [if_neg hd0.ne']
    exact hd2

/-- Near three ones: when no sample moves by more than `1/100`, the coefficient `-2/3` moves by at most `0.067`. -/
example : ∃ A E, lpc lpcDemo [1, 1, 1] = .ok (A, E) ∧ (A.getD 0 []).getD 1 0 = -2 / 3 ∧
    ∀ sig' A' E', NearSignal [1, 1, 1] sig' (1 / 100) → lpc lpcDemo sig' = .ok (A', E') →
      |(A'.getD 0 []).getD 1 0 - -2 / 3| ≤ 0.067 := by
  obtain ⟨e, -, -, hm, -⟩ := C64_violated
  refine ⟨_, _, hm, rfl, fun sig' A' E' hn h' => ?_⟩
  have hf : lpFrame lpcDemo.preEmph [1, 1, 1] 3 3 0 = [1, 1, 1] := by simp [lpFrame, lpcDemo, emphasised, List.range_succ]
  have hr : autoCorr [1, 1, 1] 0 = 3 := by rw [autoCorr_eq]; norm_num [Finset.sum_range_succ]
  have h3 : √(3 : ℝ) ^ 2 = 3 := Real.sq_sqrt (by norm_num)
  have hΔ : (0.0603 : ℝ) = corrChange (frameChange lpcDemo.preEmph 3 (1 / 100)) (autoCorr (lpFrame lpcDemo.preEmph [1, 1, 1] 3 3 0) 0) := by
    rw [hf, hr]
    simp only [corrChange, frameChange, emphMax, lpcDemo, Bool.false_eq_true, if_false, Nat.cast_ofNat]
    nlinarith
  have hB : BoundedBelow (lpFrame lpcDemo.preEmph [1, 1, 1] 3 3 0) (lpcDemo.order - 1) 3 := by
    intro y
    rw [hf]
    show 3 * ∑ k ∈ Finset.Icc 1 1, y k ^ 2 ≤ ∑ i ∈ Finset.Icc 1 1, ∑ k ∈ Finset.Icc 1 1, y i * y k * autoCorr [1, 1, 1] ((i : ℤ) - (k : ℤ)).natAbs
    simp only [Finset.Icc_self, Finset.sum_singleton, sub_self, Int.natAbs_zero, hr]
    linarith [sq_nonneg (y 1), sq (y 1)]
  have := (C193_lpc_bound lpcDemo [1, 1, 1] sig' 3 3 three_int three_int (by norm_num) le_rfl _ A' _ E' hm h' (1 / 100) (by norm_num)
    hn 0 (by simp) 3 (by norm_num) hB 0.0603 0.067 hΔ (by
      show (0.067 : ℝ) = 2 * (0.0603 * (1 + ∑ k ∈ Finset.Icc 1 1, |([1, -2 / 3] : List ℝ).getD k 0|)) / 3
      simp only [Finset.Icc_self, Finset.sum_singleton]
      norm_num [abs_of_neg]) (by
      show 2 * ((1 : ℕ) : ℝ) * 0.0603 ≤ 3
      norm_num)).1
  have e1 : lpcDemo.order - 1 = 1 := rfl
  simp only [e1, Finset.Icc_self, Finset.sum_singleton, Nat.cast_one, one_mul] at this
  exact abs_le_of_sq_le_sq this (by norm_num)

/-- Three ones also meet the hypotheses of the continuity theorems. -/
example : ∃ η > 0, ∀ sig', NearSignal [1, 1, 1] sig' η → ∃ A' E', lpc lpcDemo sig' = .ok (A', E') ∧
    |(A'.getD 0 []).getD 1 0 - -2 / 3| ≤ 1 / 1000 := by
  obtain ⟨e, -, -, hm, -⟩ := C64_violated
  obtain ⟨η, hη, h⟩ := C193_lpc_continuous lpcDemo [1, 1, 1] 3 3 three_int three_int (by norm_num) (by norm_num) le_rfl _ _ hm
    (1 / 1000) (by norm_num)
  refine ⟨η, hη, fun sig' hn => ?_⟩
  obtain ⟨A', E', h1, -, -, h2⟩ := h sig' hn
  exact ⟨A', E', h1, (h2 0 (by simp)).1 1 (by simp [lpcDemo])⟩

example : ∃ M, lpcc lpcDemo [1, 1, 1] = .ok M ∧ ∃ η > 0, ∀ sig', NearSignal [1, 1, 1] sig' η → ∃ M', lpcc lpcDemo sig' = .ok M' ∧
    ∃ u v, (M.getD 0 []).getD 0 nan = fin u ∧ (M'.getD 0 []).getD 0 nan = fin v ∧ |v - u| ≤ 1 / 1000 := by
  obtain ⟨M, hM, -⟩ := lpcDemo_lpcc one_ne_zero 1 1
  obtain ⟨η, hη, h⟩ := C194_lpcc_partial lpcDemo [1, 1, 1] 3 3 three_int three_int (by norm_num) (by norm_num) le_rfl rfl rfl _ hM
    (1 / 1000) (by norm_num)
  refine ⟨M, hM, η, hη, fun sig' hn => ?_⟩
  obtain ⟨M', h1, -, h2⟩ := h sig' hn
  have hlen : 0 < M.length := by
    have := (C107_lpcc_meaning lpcDemo [1, 1, 1] 3 3 three_int three_int (by norm_num) rfl rfl M hM).1.1
    omega
  refine ⟨M', h1, h2 0 hlen 0 (by simp [lpcDemo]) (Or.inr fun p hp => ?_)⟩
  have hf : lpFrame lpcDemo.preEmph [1, 1, 1] 3 3 0 = [1, 1, 1] := by simp [lpFrame, lpcDemo, emphasised, List.range_succ]
  rw [hf] at hp ⊢
  have : lpResidual [1, 1, 1] (lpcDemo.order - 1) p = |1 * 1| := residual_three 1 1 1 hp
  rw [this]
  norm_num

end Props
end Spafe
