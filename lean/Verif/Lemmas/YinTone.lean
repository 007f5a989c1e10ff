import Verif.Spec.Yin
import Mathlib.Analysis.SpecialFunctions.Trigonometric.Bounds
import Mathlib.Analysis.Real.Pi.Bounds

/-! The YIN difference function of a sine wave. -/

set_option linter.unusedSectionVars false

namespace Spafe
open Spec Real

/-- A frame of `w` samples of a sine wave with angular frequency `2 h` per sample. -/
def ToneFrame (x : List ℝ) (w : ℕ) (A h φ : ℝ) : Prop := x.length = w ∧ ∀ j < w, x.getD j 0 = A * cos (2 * h * j + φ)

theorem sum_cos (h θ : ℝ) (n : ℕ) : (∑ j ∈ Finset.range n, cos (4 * h * j + θ)) * sin (2 * h) =
    sin (2 * h * n) * cos (2 * h * (n - 1) + θ) := by
  induction n with
  | zero => simp
  | succ n ih =>
    rw [Finset.sum_range_succ, add_mul, ih]
    have e1 : sin (2 * h * n) * cos (2 * h * (n - 1) + θ) = (sin (4 * h * n - 2 * h + θ) + sin (2 * h - θ)) / 2 := by
      have := sin_add_sin (4 * h * n - 2 * h + θ) (2 * h - θ)
      rw [this]
      ring_nf
    have e2 : cos (4 * h * n + θ) * sin (2 * h) = (sin (4 * h * n + 2 * h + θ) - sin (4 * h * n - 2 * h + θ)) / 2 := by
      have := sin_sub_sin (4 * h * n + 2 * h + θ) (4 * h * n - 2 * h + θ)
      rw [this]
      ring_nf
    have e3 : sin (2 * h * ((n + 1 : ℕ) : ℝ)) * cos (2 * h * (((n + 1 : ℕ) : ℝ) - 1) + θ) =
        (sin (4 * h * n + 2 * h + θ) + sin (2 * h - θ)) / 2 := by
      have := sin_add_sin (4 * h * n + 2 * h + θ) (2 * h - θ)
      rw [this]
      push_cast
      ring_nf
    rw [e1, e2, e3]
    ring

/-- The slowly varying factor of the difference function. -/
noncomputable def toneN (w : ℕ) (h φ : ℝ) (τ : ℕ) : ℝ :=
  ((w - τ : ℕ) : ℝ) - sin (2 * h * (w - τ : ℕ)) * cos (2 * h * (w - 1) + 2 * φ) / sin (2 * h)

theorem yinDiff_tone {x : List ℝ} {w : ℕ} {A h φ : ℝ} (hx : ToneFrame x w A h φ) (hs : sin (2 * h) ≠ 0) {τ : ℕ} (hτ : τ ≤ w) :
    yinDiff x τ = 2 * A ^ 2 * sin (h * τ) ^ 2 * toneN w h φ τ := by
  obtain ⟨hl, hv⟩ := hx
  unfold yinDiff
  rw [hl]
  have e : ∀ j ∈ Finset.range (w - τ), (x.getD j 0 - x.getD (j + τ) 0) ^ 2 =
      2 * A ^ 2 * sin (h * τ) ^ 2 * (1 - cos (4 * h * j + (2 * h * τ + 2 * φ))) := by
    intro j hj
    rw [Finset.mem_range] at hj
    rw [hv j (by omega), hv (j + τ) (by omega), ← mul_sub, cos_sub_cos]
    have e1 : (2 * h * j + φ + (2 * h * ((j + τ : ℕ) : ℝ) + φ)) / 2 = 2 * h * j + h * τ + φ := by push_cast; ring
    have e2 : (2 * h * j + φ - (2 * h * ((j + τ : ℕ) : ℝ) + φ)) / 2 = -(h * τ) := by push_cast; ring
    have e3 : cos (4 * h * j + (2 * h * τ + 2 * φ)) = 1 - 2 * sin (2 * h * j + h * τ + φ) ^ 2 := by
      have := cos_two_mul (2 * h * j + h * τ + φ)
      have h2 := sin_sq_add_cos_sq (2 * h * j + h * τ + φ)
      rw [show 4 * h * j + (2 * h * τ + 2 * φ) = 2 * (2 * h * j + h * τ + φ) by ring, this]
      linarith
    rw [e1, e2, e3, sin_neg]
    ring
  rw [Finset.sum_congr rfl e, ← Finset.mul_sum, Finset.sum_sub_distrib]
  congr 1
  unfold toneN
  rw [Finset.sum_const, Finset.card_range, nsmul_eq_mul, mul_one]
  congr 1
  rw [eq_div_iff hs, sum_cos]
  congr 2
  rw [Nat.cast_sub hτ]
  ring

/-- The constants used below: a period `π / h` of at least ten samples, a frame of at least four periods. -/
structure ToneSize (w : ℕ) (h P : ℝ) : Prop where
  hP : 10 ≤ P
  hh : h * P = π
  hw : 4 * P ≤ w

variable {w : ℕ} {h P φ A : ℝ}

theorem ToneSize.h_pos (H : ToneSize w h P) : 0 < h := by
  have := H.hh; have := H.hP; have := pi_pos
  by_contra hc
  push Not at hc
  nlinarith

theorem ToneSize.h_eq (H : ToneSize w h P) : h = π / P := by
  have := H.hP
  rw [eq_div_iff (by linarith)]
  exact H.hh

theorem ToneSize.h_le (H : ToneSize w h P) : h ≤ 0.315 := by
  have h1 := H.hP
  have h2 := pi_lt_d2
  rw [H.h_eq, div_le_iff₀ (by linarith)]
  nlinarith

/-- `sin (2 h) ≥ 5.8 / P`. -/
theorem ToneSize.sin_ge (H : ToneSize w h P) : 5.8 ≤ sin (2 * h) * P := by
  have h0 := H.h_pos
  have h1 := H.h_le
  have h2 := pi_gt_d2
  have hs := sin_gt_sub_cube (x := 2 * h) (by linarith)
  have hP : 0 < P := by linarith [H.hP]
  have e : (2 * h - (2 * h) ^ 3 / 6) * P = π * (2 - 4 / 3 * h ^ 2) := by rw [← H.hh]; ring
  have h3 : (2 * h - (2 * h) ^ 3 / 6) * P ≤ sin (2 * h) * P := by nlinarith
  have h4 : h ^ 2 ≤ 0.1 := by nlinarith
  nlinarith

theorem ToneSize.sin_pos (H : ToneSize w h P) : 0 < sin (2 * h) := by
  have := H.sin_ge
  have := H.hP
  by_contra hc
  push Not at hc
  nlinarith

theorem ToneSize.inv_sin (H : ToneSize w h P) : 1 / sin (2 * h) ≤ P / 5.8 := by
  have := H.sin_ge
  rw [div_le_div_iff₀ H.sin_pos (by norm_num)]
  linarith

theorem toneN_near (H : ToneSize w h P) (φ : ℝ) (τ : ℕ) : |toneN w h φ τ - ((w - τ : ℕ) : ℝ)| ≤ P / 5.8 := by
  unfold toneN
  rw [sub_sub_cancel_left, abs_neg, abs_div, abs_mul, abs_of_pos H.sin_pos]
  refine le_trans ?_ H.inv_sin
  apply div_le_div_of_nonneg_right _ H.sin_pos.le
  have h1 := abs_sin_le_one (2 * h * (w - τ : ℕ))
  have h2 := abs_cos_le_one (2 * h * (w - 1) + 2 * φ)
  calc _ ≤ 1 * 1 := mul_le_mul h1 h2 (abs_nonneg _) zero_le_one
    _ = 1 := one_mul 1

/-- Up to one period and two lags the factor is between `0.6 w` and `1.1 w`. -/
theorem toneN_bounds (H : ToneSize w h P) (φ : ℝ) {τ : ℕ} (hτ : (τ : ℝ) ≤ P + 2) :
    0.6 * w ≤ toneN w h φ τ ∧ toneN w h φ τ ≤ 1.1 * w := by
  have h1 := toneN_near H φ τ
  have h2 := H.hw
  have h3 := H.hP
  have hle : τ ≤ w := by
    have : (τ : ℝ) ≤ w := by linarith
    exact_mod_cast this
  rw [abs_le, Nat.cast_sub hle] at h1
  obtain ⟨h4, h5⟩ := h1
  have h6 : P / 5.8 ≤ 0.1725 * P := by rw [div_le_iff₀ (by norm_num)]; nlinarith
  have h7 : (0 : ℝ) ≤ τ := Nat.cast_nonneg τ
  constructor <;> nlinarith

theorem ToneSize.cos_ge (H : ToneSize w h P) : 0.95 ≤ cos h := by
  have := one_sub_sq_div_two_le_cos (x := h)
  have h0 := H.h_pos
  have h1 := H.h_le
  nlinarith

theorem toneN_step (H : ToneSize w h P) (φ : ℝ) {τ : ℕ} (hτ : τ + 1 ≤ w) :
    |toneN w h φ (τ + 1) - toneN w h φ τ + 1| ≤ 1 / cos h := by
  have hc : 0 < cos h := by linarith [H.cos_ge]
  have hs : 0 < sin h := sin_pos_of_pos_of_lt_pi H.h_pos (by linarith [H.h_le, pi_gt_d2])
  have e2 : sin (2 * h) = 2 * sin h * cos h := sin_two_mul h
  unfold toneN
  have e : (w - τ : ℕ) = (w - (τ + 1) : ℕ) + 1 := by omega
  rw [e]
  generalize (w - (τ + 1) : ℕ) = n
  have e3 : ((n : ℕ) : ℝ) - sin (2 * h * n) * cos (2 * h * (w - 1) + 2 * φ) / sin (2 * h) -
      (((n + 1 : ℕ) : ℝ) - sin (2 * h * (n + 1 : ℕ)) * cos (2 * h * (w - 1) + 2 * φ) / sin (2 * h)) + 1 =
      (sin (2 * h * (n + 1 : ℕ)) - sin (2 * h * n)) * cos (2 * h * (w - 1) + 2 * φ) / sin (2 * h) := by
    push_cast
    ring
  rw [e3, sin_sub_sin, abs_div, abs_mul, abs_mul, abs_mul, abs_of_pos H.sin_pos, div_le_div_iff₀ H.sin_pos hc]
  have e4 : (2 * h * (n + 1 : ℕ) - 2 * h * n) / 2 = h := by push_cast; ring
  rw [e4, abs_of_pos hs, abs_of_pos (by norm_num : (0 : ℝ) < 2), one_mul, e2]
  have h1 := abs_cos_le_one ((2 * h * (n + 1 : ℕ) + 2 * h * n) / 2)
  have h2 := abs_cos_le_one (2 * h * (w - 1) + 2 * φ)
  have h3 := mul_le_mul h1 h2 (abs_nonneg _) zero_le_one
  have h4 : 0 ≤ 2 * sin h * cos h := by positivity
  nlinarith [mul_le_mul_of_nonneg_left h3 h4]

theorem toneN_step' (H : ToneSize w h P) (φ : ℝ) {τ : ℕ} (hτ : τ + 1 ≤ w) :
    toneN w h φ (τ + 1) ≤ toneN w h φ τ + 0.06 ∧ toneN w h φ τ - 2.06 ≤ toneN w h φ (τ + 1) := by
  have h1 := toneN_step H φ hτ
  have h2 : 1 / cos h ≤ 1.06 := by
    have := H.cos_ge
    rw [div_le_iff₀ (by linarith)]
    linarith
  have h3 := abs_le.mp (h1.trans h2)
  constructor <;> linarith [h3.1, h3.2]

/-! ### The normalised difference near one period -/

theorem yinCum_succ (x : List ℝ) (τ : ℕ) : yinCum x (τ + 1) = yinCum x τ + yinDiff x (τ + 1) := Finset.sum_range_succ ..

theorem yinDiff_nonneg' (x : List ℝ) (τ : ℕ) : 0 ≤ yinDiff x τ := Finset.sum_nonneg fun _ _ => sq_nonneg _

theorem yinCum_mono (x : List ℝ) {a b : ℕ} (hab : a ≤ b) : yinCum x a ≤ yinCum x b :=
  Finset.sum_le_sum_of_subset_of_nonneg (Finset.range_subset_range.mpr hab) fun _ _ _ => yinDiff_nonneg' x _

variable {x : List ℝ}

theorem tone_le_w (H : ToneSize w h P) {τ : ℕ} (hτ : (τ : ℝ) ≤ P + 2) : τ ≤ w := by
  have h2 := H.hw
  have h3 := H.hP
  have : (τ : ℝ) ≤ w := by linarith
  exact_mod_cast this

/-- The difference at lag `τ` is `2 A² sin² (h τ)` times something between `0.6 w` and `1.1 w`. -/
theorem diff_bounds (H : ToneSize w h P) (hx : ToneFrame x w A h φ) {τ : ℕ} (hτ : (τ : ℝ) ≤ P + 2) :
    2 * A ^ 2 * sin (h * τ) ^ 2 * (0.6 * w) ≤ yinDiff x τ ∧ yinDiff x τ ≤ 2 * A ^ 2 * sin (h * τ) ^ 2 * (1.1 * w) := by
  rw [yinDiff_tone hx H.sin_pos.ne' (tone_le_w H hτ)]
  have := toneN_bounds H φ hτ
  have h0 : 0 ≤ 2 * A ^ 2 * sin (h * τ) ^ 2 := by positivity
  exact ⟨mul_le_mul_of_nonneg_left this.1 h0, mul_le_mul_of_nonneg_left this.2 h0⟩

theorem ToneSize.w_pos (H : ToneSize w h P) : (0 : ℝ) < w := by linarith [H.hP, H.hw]

theorem diff_pos (H : ToneSize w h P) (hA : A ≠ 0) (hx : ToneFrame x w A h φ) {τ : ℕ} (hτ : (τ : ℝ) ≤ P + 2)
    (hs : sin (h * τ) ≠ 0) : 0 < yinDiff x τ := by
  have := (diff_bounds H hx hτ).1
  have hw := H.w_pos
  have : 0 < 2 * A ^ 2 * sin (h * τ) ^ 2 * (0.6 * w) := by positivity
  linarith

theorem cum_pos (H : ToneSize w h P) (hA : A ≠ 0) (hx : ToneFrame x w A h φ) {τ : ℕ} (h1 : 1 ≤ τ) : 0 < yinCum x τ := by
  have h2 : 0 < yinDiff x 1 := by
    apply diff_pos H hA hx
    · push_cast; linarith [H.hP]
    · push_cast
      rw [mul_one]
      exact (sin_pos_of_pos_of_lt_pi H.h_pos (by linarith [H.h_le, pi_gt_d2])).ne'
  have h3 : yinCum x 1 = yinDiff x 1 := by simp [yinCum]
  have := yinCum_mono x h1
  linarith

theorem cmnd_eq {τ : ℕ} (h1 : 1 ≤ τ) : yinCmnd x τ = τ * yinDiff x τ / yinCum x τ := by
  unfold yinCmnd
  rw [if_neg (by omega), div_div_eq_mul_div, mul_comm]

/-- Up to half a period the normalised difference is above `1 / 2`. -/
theorem cmnd_rising (H : ToneSize w h P) (hA : A ≠ 0) (hx : ToneFrame x w A h φ) {τ : ℕ} (h1 : 1 ≤ τ) (hτ : h * τ ≤ π / 2) :
    1 / 2 ≤ yinCmnd x τ := by
  have hS := cum_pos H hA hx h1
  have h0 := H.h_pos
  have hP := H.hP
  have hhP := H.hh
  have hτP : (τ : ℝ) ≤ P := by
    by_contra hc
    push Not at hc
    have := mul_lt_mul_of_pos_left hc h0
    linarith [pi_pos]
  have hd := (diff_bounds H hx (τ := τ) (by linarith)).1
  have hS' : yinCum x τ ≤ τ * (2 * A ^ 2 * sin (h * τ) ^ 2 * (1.1 * w)) := by
    unfold yinCum
    calc _ ≤ ∑ j ∈ Finset.range τ, 2 * A ^ 2 * sin (h * τ) ^ 2 * (1.1 * w) := by
          apply Finset.sum_le_sum
          intro j hj
          rw [Finset.mem_range] at hj
          have hjτ : ((j + 1 : ℕ) : ℝ) ≤ τ := by exact_mod_cast hj
          refine ((diff_bounds H hx (τ := j + 1) (by linarith)).2).trans ?_
          have hw := H.w_pos
          have hs0 : 0 ≤ sin (h * (j + 1 : ℕ)) := by
            apply sin_nonneg_of_nonneg_of_le_pi (by positivity)
            have := mul_le_mul_of_nonneg_left hjτ h0.le
            linarith [pi_pos]
          have hs1 : sin (h * (j + 1 : ℕ)) ≤ sin (h * τ) := by
            have h2 := mul_le_mul_of_nonneg_left hjτ h0.le
            have h3 : 0 ≤ h * ((j + 1 : ℕ) : ℝ) := by positivity
            apply sin_le_sin_of_le_of_le_pi_div_two _ hτ h2
            linarith [pi_pos]
          have : sin (h * (j + 1 : ℕ)) ^ 2 ≤ sin (h * τ) ^ 2 := pow_le_pow_left₀ hs0 hs1 2
          have h5 : (0 : ℝ) ≤ 2 * A ^ 2 := by positivity
          have h6 : (0 : ℝ) ≤ 1.1 * w := by positivity
          exact mul_le_mul_of_nonneg_right (mul_le_mul_of_nonneg_left this h5) h6
      _ = _ := by rw [Finset.sum_const, Finset.card_range, nsmul_eq_mul]
  rw [cmnd_eq h1, le_div_iff₀ hS]
  have hτ0 : (0 : ℝ) < τ := by exact_mod_cast h1
  have h7 := mul_le_mul_of_nonneg_left hd hτ0.le
  have h8 : 0 ≤ (τ : ℝ) * (2 * A ^ 2 * sin (h * τ) ^ 2 * w) := by positivity
  nlinarith

set_option maxHeartbeats 1600000 in
/-- Between half a period and the period, once below `1 / 4` the normalised difference goes down. -/
theorem cmnd_falling (H : ToneSize w h P) (hA : A ≠ 0) (hx : ToneFrame x w A h φ) {τ : ℕ} (h1 : 1 ≤ τ) (hτ : π / 2 ≤ h * τ)
    (hτ2 : (τ : ℝ) + 1 ≤ P) (hlow : yinCmnd x τ < 1 / 4) : yinCmnd x (τ + 1) < yinCmnd x τ := by
  have hS := cum_pos H hA hx h1
  have h0 := H.h_pos
  have hP := H.hP
  have hhP := H.hh
  have hw := H.w_pos
  have hA2 : 0 < A ^ 2 := by positivity
  have hτ0 : (0 : ℝ) < τ := by exact_mod_cast h1
  have hy1 : h * τ + h ≤ π := by
    have := mul_le_mul_of_nonneg_left hτ2 h0.le
    linarith
  have hs0 : 0 < sin (h * τ) := sin_pos_of_pos_of_lt_pi (by positivity) (by linarith)
  have hS' : yinCum x τ ≤ τ * (2 * A ^ 2 * (1.1 * w)) := by
    unfold yinCum
    calc _ ≤ ∑ j ∈ Finset.range τ, 2 * A ^ 2 * (1.1 * w) := by
          apply Finset.sum_le_sum
          intro j hj
          rw [Finset.mem_range] at hj
          have hjτ : ((j + 1 : ℕ) : ℝ) ≤ τ := by exact_mod_cast hj
          refine ((diff_bounds H hx (τ := j + 1) (by linarith)).2).trans ?_
          have h2 := sin_sq_le_one (h * (j + 1 : ℕ))
          have h5 : (0 : ℝ) ≤ 2 * A ^ 2 * (1.1 * w) := by positivity
          nlinarith
      _ = _ := by rw [Finset.sum_const, Finset.card_range, nsmul_eq_mul]
  have hd := (diff_bounds H hx (τ := τ) (by linarith)).1
  have hsq : sin (h * τ) ^ 2 ≤ 1 / 2 := by
    rw [cmnd_eq h1, div_lt_iff₀ hS] at hlow
    have h7 := mul_le_mul_of_nonneg_left hd hτ0.le
    by_contra hc
    push Not at hc
    have h8 : 0 < (τ : ℝ) * (2 * A ^ 2 * w) := by positivity
    nlinarith [mul_lt_mul_of_pos_left hc h8]
  have hcos : cos (h * τ) ≤ -sin (h * τ) := by
    have h2 : cos (h * τ) ≤ 0 := cos_nonpos_of_pi_div_two_le_of_le hτ (by linarith [pi_pos])
    have h3 := sin_sq_add_cos_sq (h * τ)
    by_contra hc
    push Not at hc
    nlinarith
  have hsh : 0 < sin h := sin_pos_of_pos_of_lt_pi h0 (by linarith [H.h_le, pi_gt_d2])
  have e1 : h * ((τ + 1 : ℕ) : ℝ) = h * τ + h := by push_cast; ring
  have hs1 : sin (h * (τ + 1 : ℕ)) ^ 2 ≤ (1 - sin (2 * h)) * sin (h * τ) ^ 2 := by
    rw [e1]
    have h2 : 0 ≤ sin (h * τ + h) := sin_nonneg_of_nonneg_of_le_pi (by positivity) hy1
    have h3 : sin (h * τ + h) ≤ sin (h * τ) * (cos h - sin h) := by
      rw [sin_add]
      nlinarith
    have h4 := pow_le_pow_left₀ h2 h3 2
    have h5 := sin_sq_add_cos_sq h
    rw [mul_pow, show (cos h - sin h) ^ 2 = 1 - sin (2 * h) by rw [sin_two_mul]; nlinarith] at h4
    linarith
  have hle1 : τ + 1 ≤ w := tone_le_w H (by push_cast; linarith)
  have hN := (toneN_step' H φ hle1).1
  have hNb := toneN_bounds H φ (τ := τ) (by linarith)
  have hNb1 := toneN_bounds H φ (τ := τ + 1) (by push_cast; linarith)
  have hdec : (τ + 1 : ℝ) * yinDiff x (τ + 1) < τ * yinDiff x τ := by
    rw [yinDiff_tone hx H.sin_pos.ne' hle1, yinDiff_tone hx H.sin_pos.ne' (by omega)]
    have hsg := H.sin_ge
    have hτP : P / 2 ≤ τ := by
      by_contra hc
      push Not at hc
      have := mul_lt_mul_of_pos_left hc h0
      linarith
    have key : (τ + 1 : ℝ) * ((1 - sin (2 * h)) * toneN w h φ (τ + 1)) < τ * toneN w h φ τ := by
      have hsl : sin (2 * h) ≤ 1 := sin_le_one _
      have h2 : (1 - sin (2 * h)) * toneN w h φ (τ + 1) ≤ (1 - sin (2 * h)) * toneN w h φ τ + 0.06 := by
        have := H.sin_pos
        nlinarith
      have h3 : 2.9 ≤ (τ + 1 : ℝ) * sin (2 * h) := by
        have := H.sin_pos
        nlinarith
      have h4 : (τ + 1 : ℝ) * 0.06 < 0.1 * toneN w h φ τ := by linarith [H.hw, hNb.1]
      have h5 : 0 < toneN w h φ τ := by linarith [hNb.1]
      nlinarith [mul_le_mul_of_nonneg_left h2 (by positivity : (0 : ℝ) ≤ τ + 1), mul_le_mul_of_nonneg_right h3 h5.le]
    have h6 : 0 < toneN w h φ (τ + 1) := by linarith [hNb1.1]
    have h7 := mul_le_mul_of_nonneg_right hs1 h6.le
    have h8 : 0 < 2 * A ^ 2 * sin (h * τ) ^ 2 := by positivity
    have h9 := mul_lt_mul_of_pos_left key h8
    have h10 : 0 ≤ 2 * A ^ 2 * ((τ : ℝ) + 1) := by positivity
    nlinarith [mul_le_mul_of_nonneg_left h7 h10]
  rw [cmnd_eq h1, cmnd_eq (by omega)]
  have hS1 : yinCum x τ ≤ yinCum x (τ + 1) := yinCum_mono x (by omega)
  push_cast
  calc ((τ : ℝ) + 1) * yinDiff x (τ + 1) / yinCum x (τ + 1) ≤ ((τ : ℝ) + 1) * yinDiff x (τ + 1) / yinCum x τ := by
        apply div_le_div_of_nonneg_left _ hS hS1
        have := yinDiff_nonneg' x (τ + 1)
        positivity
    _ < _ := div_lt_div_of_pos_right hdec hS

set_option maxHeartbeats 1600000 in
/-- From the first lag after the period to the next the normalised difference does not go down. -/
theorem cmnd_after (H : ToneSize w h P) (hA : A ≠ 0) (hx : ToneFrame x w A h φ) {m : ℕ} (hm : P ≤ m) (hm1 : (m : ℝ) ≤ P + 1) :
    yinCmnd x m ≤ yinCmnd x (m + 1) := by
  have h0 := H.h_pos
  have hP := H.hP
  have hhP := H.hh
  have hw := H.w_pos
  have hm0 : (0 : ℝ) < m := by linarith
  have h1 : 1 ≤ m := by exact_mod_cast hm0
  have hS := cum_pos H hA hx h1
  have hle1 : m + 1 ≤ w := tone_le_w H (by push_cast; linarith)
  obtain ⟨β, hβ⟩ : ∃ β, β = h * (m - P) := ⟨_, rfl⟩
  have hβ0 : 0 ≤ β := by rw [hβ]; apply mul_nonneg h0.le; linarith
  have hβ1 : β ≤ h := by rw [hβ]; nlinarith
  have e0 : h * m = β + π := by rw [hβ, ← hhP]; ring
  have e1 : h * ((m + 1 : ℕ) : ℝ) = β + h + π := by push_cast; linarith
  have hsm : sin (h * m) ^ 2 = sin β ^ 2 := by rw [e0, sin_add_pi]; ring
  have hsm1 : sin (h * (m + 1 : ℕ)) ^ 2 = sin (β + h) ^ 2 := by rw [e1, sin_add_pi]; ring
  have hhpi : h < π / 2 := by linarith [H.h_le, pi_gt_d2]
  have hsβ : 0 ≤ sin β := sin_nonneg_of_nonneg_of_le_pi hβ0 (by linarith)
  have hsβh : sin β ≤ sin h := sin_le_sin_of_le_of_le_pi_div_two (by linarith) hhpi.le hβ1
  have hcβ : cos h ≤ cos β := cos_le_cos_of_nonneg_of_le_pi hβ0 (by linarith) hβ1
  have hc := H.cos_ge
  have h2 : 1.9 * sin β ≤ sin (β + h) := by
    rw [sin_add]
    nlinarith
  have h3 : 3.6 * sin β ^ 2 ≤ sin (β + h) ^ 2 := by nlinarith
  have hd1 : 2 * yinDiff x m ≤ yinDiff x (m + 1) := by
    rw [yinDiff_tone hx H.sin_pos.ne' hle1, yinDiff_tone hx H.sin_pos.ne' (by omega), hsm, hsm1]
    have hN := (toneN_step' H φ hle1).2
    have hNb := toneN_bounds H φ (τ := m) (by linarith)
    have hNb1 := toneN_bounds H φ (τ := m + 1) (by push_cast; linarith)
    have h4 : toneN w h φ m ≤ 1.2 * toneN w h φ (m + 1) := by linarith [H.hw, hNb1.1]
    have h5 : 0 ≤ toneN w h φ (m + 1) := by linarith [hNb1.1]
    have h6 : 0 ≤ 2 * A ^ 2 := by positivity
    have h7 : sin β ^ 2 * toneN w h φ m ≤ sin β ^ 2 * (1.2 * toneN w h φ (m + 1)) := mul_le_mul_of_nonneg_left h4 (sq_nonneg _)
    have h8 := mul_le_mul_of_nonneg_right h3 h5
    have h9 : 0 ≤ sin β ^ 2 * toneN w h φ (m + 1) := mul_nonneg (sq_nonneg _) h5
    have h10 : 2 * (sin β ^ 2 * toneN w h φ m) ≤ sin (β + h) ^ 2 * toneN w h φ (m + 1) := by nlinarith
    nlinarith [mul_le_mul_of_nonneg_left h10 h6]
  have hSm : 2 * yinDiff x m ≤ yinCum x m := by
    obtain ⟨j, hj⟩ : ∃ j : ℕ, j = ⌊P / 2⌋₊ := ⟨_, rfl⟩
    have hj1 : (j : ℝ) ≤ P / 2 := by rw [hj]; exact Nat.floor_le (by linarith)
    have hj2 : P / 2 < j + 1 := by rw [hj]; exact Nat.lt_floor_add_one _
    have hj3 : 2 ≤ j := by
      have : (1 : ℝ) < j := by linarith
      exact_mod_cast this
    have hjm : j < m := by
      have : (j : ℝ) < m := by linarith
      exact_mod_cast this
    have h4 : yinDiff x m ≤ yinDiff x j := by
      refine ((diff_bounds H hx (τ := m) (by linarith)).2).trans (le_trans ?_ (diff_bounds H hx (τ := j) (by linarith)).1)
      rw [hsm]
      have h5 : cos h ≤ sin (h * j) := by
        rw [← cos_pi_div_two_sub]
        apply cos_le_cos_of_nonneg_of_le_pi
        · have := mul_le_mul_of_nonneg_left hj1 h0.le
          rw [← hhP]; linarith
        · linarith
        · have := mul_lt_mul_of_pos_left hj2 h0
          rw [← hhP]; linarith
      have h6 : 0.9 ≤ sin (h * j) ^ 2 := by nlinarith
      have h7 : sin β ^ 2 ≤ 0.1 := by
        have := sin_sq_add_cos_sq β
        nlinarith
      have h8 : 0 ≤ 2 * A ^ 2 * w := by positivity
      nlinarith [mul_le_mul_of_nonneg_left h6 h8, mul_le_mul_of_nonneg_left h7 h8]
    have h5 : yinCum x m = yinCum x (m - 1) + yinDiff x m := by
      have := yinCum_succ x (m - 1)
      rwa [show m - 1 + 1 = m by omega] at this
    have h6 : yinDiff x j ≤ yinCum x (m - 1) := by
      have h7 : yinCum x j = yinCum x (j - 1) + yinDiff x j := by
        have := yinCum_succ x (j - 1)
        rwa [show j - 1 + 1 = j by omega] at this
      have h8 : 0 ≤ yinCum x (j - 1) := Finset.sum_nonneg fun _ _ => yinDiff_nonneg' x _
      have h9 := yinCum_mono x (show j ≤ m - 1 by omega)
      linarith
    linarith
  rw [cmnd_eq h1, cmnd_eq (by omega), yinCum_succ]
  have hd0 := yinDiff_nonneg' x m
  have hd0' := yinDiff_nonneg' x (m + 1)
  rw [div_le_div_iff₀ hS (by linarith)]
  push_cast
  have key : yinDiff x m * (yinCum x m + yinDiff x (m + 1)) ≤ yinDiff x (m + 1) * yinCum x m := by nlinarith
  have k1 := mul_le_mul_of_nonneg_left key hm0.le
  have k2 : 0 ≤ yinDiff x (m + 1) * yinCum x m := by positivity
  nlinarith

theorem sum_cos' (h : ℝ) (n : ℕ) : (∑ j ∈ Finset.range n, cos (2 * h * (j + 1))) * (2 * sin h) =
    sin (2 * h * n + h) - sin h := by
  induction n with
  | zero => simp
  | succ n ih =>
    rw [Finset.sum_range_succ, add_mul, ih]
    have := sin_sub_sin (2 * h * (n + 1) + h) (2 * h * n + h)
    rw [show (2 * h * (n + 1) + h - (2 * h * n + h)) / 2 = h by ring,
      show (2 * h * (n + 1) + h + (2 * h * n + h)) / 2 = 2 * h * (n + 1) by ring] at this
    push_cast
    linarith

set_option maxHeartbeats 1600000 in
/-- At the lag nearest to the period the normalised difference is below `1 / 10`. -/
theorem cmnd_nearest (H : ToneSize w h P) (hA : A ≠ 0) (hx : ToneFrame x w A h φ) {r : ℕ} (hr : |(r : ℝ) - P| ≤ 1 / 2) :
    yinCmnd x r < 1 / 10 := by
  have h0 := H.h_pos
  have hP := H.hP
  have hhP := H.hh
  have hw := H.w_pos
  obtain ⟨hr1, hr2⟩ := abs_le.mp hr
  have hr0 : (0 : ℝ) < r := by linarith
  have h1 : 1 ≤ r := by exact_mod_cast hr0
  have hS := cum_pos H hA hx h1
  have hsh : 0 < sin h := sin_pos_of_pos_of_lt_pi h0 (by linarith [H.h_le, pi_gt_d2])
  have hA2 : 0 < A ^ 2 := by positivity
  have hsum : (r : ℝ) / 2 - 1 / 4 ≤ ∑ j ∈ Finset.range r, sin (h * (j + 1 : ℕ)) ^ 2 := by
    have e : ∀ j ∈ Finset.range r, sin (h * (j + 1 : ℕ)) ^ 2 = 1 / 2 - 1 / 2 * cos (2 * h * (j + 1)) := by
      intro j _
      have h2 := cos_two_mul (h * (j + 1))
      have h3 := sin_sq_add_cos_sq (h * ((j : ℝ) + 1))
      push_cast
      rw [show 2 * h * ((j : ℝ) + 1) = 2 * (h * (j + 1)) by ring, h2]
      linarith
    rw [Finset.sum_congr rfl e, Finset.sum_sub_distrib, Finset.sum_const, Finset.card_range, nsmul_eq_mul, ← Finset.mul_sum]
    have h2 := sum_cos' h r
    have h3 : sin (2 * h * r + h) ≤ 2 * sin h := by
      have e2 : 2 * h * r + h = (2 * h * (r - P + 1 / 2)) + 2 * π := by rw [← hhP]; ring
      rw [e2, sin_add_two_pi]
      have h4 : sin (2 * h * (r - P + 1 / 2)) ≤ sin (2 * h) := by
        apply sin_le_sin_of_le_of_le_pi_div_two
        · have : 0 ≤ 2 * h * (r - P + 1 / 2) := by apply mul_nonneg <;> linarith
          linarith [pi_pos]
        · linarith [H.h_le, pi_gt_d2]
        · nlinarith
      refine h4.trans ?_
      rw [sin_two_mul]
      nlinarith [cos_le_one h]
    have h5 : ∑ j ∈ Finset.range r, cos (2 * h * (j + 1)) ≤ 1 / 2 := by
      by_contra hc
      push Not at hc
      nlinarith
    linarith
  have hSr : 2 * A ^ 2 * (0.6 * w) * (r / 2 - 1 / 4) ≤ yinCum x r := by
    refine (mul_le_mul_of_nonneg_left hsum (by positivity)).trans ?_
    rw [Finset.mul_sum]
    unfold yinCum
    apply Finset.sum_le_sum
    intro j hj
    rw [Finset.mem_range] at hj
    have hjr : ((j + 1 : ℕ) : ℝ) ≤ r := by exact_mod_cast hj
    have := (diff_bounds H hx (τ := j + 1) (by linarith)).1
    linarith
  have hdr : yinDiff x r ≤ 2 * A ^ 2 * (h / 2) ^ 2 * (1.1 * w) := by
    refine ((diff_bounds H hx (τ := r) (by linarith)).2).trans ?_
    have e : sin (h * r) ^ 2 = sin (h * (r - P)) ^ 2 := by
      rw [show h * (r : ℝ) = h * (r - P) + π by rw [← hhP]; ring, sin_add_pi]
      ring
    have h2 : sin (h * (r - P)) ^ 2 ≤ (h / 2) ^ 2 := by
      have h3 : |sin (h * (r - P))| ≤ h / 2 := by
        refine (abs_sin_le_abs).trans ?_
        rw [abs_mul, abs_of_pos h0]
        nlinarith
      rw [← sq_abs]
      exact pow_le_pow_left₀ (abs_nonneg _) h3 2
    rw [e]
    have h4 : 0 ≤ 2 * A ^ 2 * (1.1 * w) := by positivity
    nlinarith [mul_le_mul_of_nonneg_left h2 h4]
  rw [cmnd_eq h1, div_lt_iff₀ hS]
  have hh2 : (h / 2) ^ 2 ≤ 0.0249 := by
    have := H.h_le
    nlinarith
  have h8 : 0 < 2 * A ^ 2 * w := by positivity
  have k1 := mul_le_mul_of_nonneg_left hdr hr0.le
  have k2 : (r : ℝ) * (2 * A ^ 2 * (h / 2) ^ 2 * (1.1 * w)) < 1 / 10 * (2 * A ^ 2 * (0.6 * w) * (r / 2 - 1 / 4)) := by
    have k3 : (r : ℝ) * (h / 2) ^ 2 * 1.1 < 1 / 10 * 0.6 * (r / 2 - 1 / 4) := by nlinarith
    nlinarith [mul_lt_mul_of_pos_left k3 h8]
  linarith

end Spafe
