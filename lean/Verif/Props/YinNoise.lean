import Verif.Props.YinTone
import Verif.Props.RoundingSpfeats

/-! C192: `compute_yin` on a disturbed tone. -/

set_option linter.unusedSectionVars false

namespace Spafe
namespace Props
open Model XF Spec Real

/-- The frame differs from a tone by at most `ρ` in every sample. -/
def NoisyFrame (x : List ℝ) (w : ℕ) (A h φ ρ : ℝ) : Prop :=
  x.length = w ∧ ∀ j < w, |x.getD j 0 - A * cos (2 * h * j + φ)| ≤ ρ

section Frame

variable {w : ℕ} {h P φ A ρ : ℝ} {x t : List ℝ}

theorem diff_bounds' (H : ToneSize w h P) (ht : ToneFrame t w A h φ) {τ : ℕ} (hτ : (τ : ℝ) ≤ 1.4 * P) :
    2 * A ^ 2 * sin (h * τ) ^ 2 * (0.6 * w) ≤ yinDiff t τ ∧ yinDiff t τ ≤ 2 * A ^ 2 * sin (h * τ) ^ 2 * (1.1 * w) := by
  have h2 := H.hw
  have h3 := H.hP
  have hle : τ ≤ w := by
    have : (τ : ℝ) ≤ w := by linarith
    exact_mod_cast this
  rw [yinDiff_tone ht H.sin_pos.ne' hle]
  have h1 := toneN_near H φ τ
  rw [abs_le, Nat.cast_sub hle] at h1
  obtain ⟨h4, h5⟩ := h1
  have h6 : P / 5.8 ≤ 0.1725 * P := by rw [div_le_iff₀ (by norm_num)]; nlinarith
  have h7 : (0 : ℝ) ≤ τ := Nat.cast_nonneg τ
  have h0 : 0 ≤ 2 * A ^ 2 * sin (h * τ) ^ 2 := by positivity
  exact ⟨mul_le_mul_of_nonneg_left (by linarith) h0, mul_le_mul_of_nonneg_left (by linarith) h0⟩

/-- The root of the difference function of the tone. -/
theorem root_bounds (H : ToneSize w h P) (ht : ToneFrame t w A h φ) {τ : ℕ} (hτ : (τ : ℝ) ≤ 1.4 * P) :
    0.774 * |sin (h * τ)| * √(2 * A ^ 2 * w) ≤ √(yinDiff t τ) ∧ √(yinDiff t τ) ≤ 1.049 * |sin (h * τ)| * √(2 * A ^ 2 * w) := by
  obtain ⟨h1, h2⟩ := diff_bounds' H ht hτ
  have hD : 0 ≤ 2 * A ^ 2 * w := by positivity
  have e : ∀ c : ℝ, (c * |sin (h * τ)| * √(2 * A ^ 2 * w)) ^ 2 = c ^ 2 * (2 * A ^ 2 * sin (h * τ) ^ 2 * w) := fun c => by
    rw [mul_pow, mul_pow, sq_abs, sq_sqrt hD]
    ring
  have h3 : 0 ≤ 2 * A ^ 2 * sin (h * τ) ^ 2 * w := by positivity
  constructor
  · rw [le_sqrt (by positivity) (yinDiff_nonneg' t τ), e]
    linarith
  · rw [sqrt_le_iff, e]
    exact ⟨by positivity, by linarith⟩

/-- A disturbance changes the root of the difference function by at most `1.415 ρ / |A|` of its scale. -/
theorem root_noise (hA : A ≠ 0) (hx : NoisyFrame x w A h φ ρ) (ht : ToneFrame t w A h φ) (τ : ℕ) :
    |√(yinDiff x τ) - √(yinDiff t τ)| ≤ 1.415 * (ρ / |A|) * √(2 * A ^ 2 * w) := by
  obtain ⟨hl, hv⟩ := hx
  obtain ⟨hl', hv'⟩ := ht
  have hA0 := abs_pos.mpr hA
  unfold yinDiff
  rw [hl, hl']
  refine (sqrt_sum_sub (w - τ) (fun j => x.getD j 0 - x.getD (j + τ) 0) (fun j => t.getD j 0 - t.getD (j + τ) 0)).trans ?_
  by_cases hw : w - τ = 0
  · rw [hw, Finset.sum_range_zero, sqrt_zero]
    by_cases h0 : w = 0
    · rw [h0]; simp
    · have : 0 ≤ ρ := (abs_nonneg _).trans (hv 0 (by omega))
      positivity
  have hρ : 0 ≤ ρ := (abs_nonneg _).trans (hv 0 (by omega))
  have hD : 0 ≤ 2 * A ^ 2 * w := by positivity
  rw [sqrt_le_iff]
  refine ⟨by positivity, ?_⟩
  rw [mul_pow, mul_pow, div_pow, sq_abs, sq_sqrt hD]
  have h1 : ∑ k ∈ Finset.range (w - τ), (x.getD k 0 - x.getD (k + τ) 0 - (t.getD k 0 - t.getD (k + τ) 0)) ^ 2 ≤
      ∑ k ∈ Finset.range (w - τ), (2 * ρ) ^ 2 := by
    apply Finset.sum_le_sum
    intro k hk
    rw [Finset.mem_range] at hk
    rw [sq_le_sq, abs_of_nonneg (by linarith : 0 ≤ 2 * ρ), hv' k (by omega), hv' (k + τ) (by omega)]
    have a1 := abs_le.mp (hv k (by omega))
    have a2 := abs_le.mp (hv (k + τ) (by omega))
    rw [abs_le]
    constructor <;> linarith [a1.1, a1.2, a2.1, a2.2]
  refine h1.trans ?_
  rw [Finset.sum_const, Finset.card_range, nsmul_eq_mul]
  have h2 : ((w - τ : ℕ) : ℝ) ≤ w := by exact_mod_cast Nat.sub_le w τ
  have e : 1.415 ^ 2 * (ρ ^ 2 / A ^ 2) * (2 * A ^ 2 * w) = 1.415 ^ 2 * 2 * (ρ ^ 2 * w) := by field_simp
  rw [e]
  have h3 := mul_le_mul_of_nonneg_right h2 (sq_nonneg ρ)
  have h4 : 0 ≤ ρ ^ 2 * w := by positivity
  nlinarith

/-- A bound from below for the normalised difference. -/
theorem cmnd_ge {τ : ℕ} {R lo hi c : ℝ} (h1 : 1 ≤ τ) (hR : 0 < R) (hlo : 0 < lo) (hhi : 0 ≤ hi) (hc : c * hi ^ 2 ≤ lo ^ 2) (hc0 : 0 ≤ c)
    (hd : lo * R ≤ √(yinDiff x τ)) (hu : ∀ j, 1 ≤ j → j ≤ τ → √(yinDiff x j) ≤ hi * R) : c ≤ yinCmnd x τ := by
  have hd' : (lo * R) ^ 2 ≤ yinDiff x τ := (le_sqrt (by positivity) (yinDiff_nonneg' x τ)).mp hd
  have hdp : 0 < yinDiff x τ := lt_of_lt_of_le (by positivity) hd'
  have hcum : yinDiff x τ ≤ yinCum x τ := by
    have := yinCum_succ x (τ - 1)
    rw [show τ - 1 + 1 = τ by omega] at this
    have h0 : 0 ≤ yinCum x (τ - 1) := Finset.sum_nonneg fun _ _ => yinDiff_nonneg' x _
    linarith
  have hS : yinCum x τ ≤ τ * (hi * R) ^ 2 := by
    unfold yinCum
    calc _ ≤ ∑ j ∈ Finset.range τ, (hi * R) ^ 2 := Finset.sum_le_sum fun j hj =>
          (sqrt_le_iff.mp (hu (j + 1) (by omega) (by have := Finset.mem_range.mp hj; omega))).2
      _ = _ := by rw [Finset.sum_const, Finset.card_range, nsmul_eq_mul]
  rw [cmnd_eq h1, le_div_iff₀ (by linarith)]
  have hτ : (0 : ℝ) < τ := by exact_mod_cast h1
  calc c * yinCum x τ ≤ c * (τ * (hi * R) ^ 2) := mul_le_mul_of_nonneg_left hS hc0
    _ = c * hi ^ 2 * (τ * R ^ 2) := by ring
    _ ≤ lo ^ 2 * (τ * R ^ 2) := mul_le_mul_of_nonneg_right hc (by positivity)
    _ = τ * (lo * R) ^ 2 := by ring
    _ ≤ τ * yinDiff x τ := mul_le_mul_of_nonneg_left hd' hτ.le

/-- The size of the tone and of the disturbance. -/
structure NoiseSize (w a : ℕ) (h P A ρ : ℝ) : Prop where
  tone : ToneSize w h P
  twenty : 20 ≤ P
  loud : A ≠ 0
  small : ρ / |A| ≤ 1 / 25
  start : ρ / |A| * P ≤ 2 / 5 * a

theorem NoiseSize.scale_pos {a : ℕ} (H : NoiseSize w a h P A ρ) : 0 < √(2 * A ^ 2 * w) := by
  have := H.tone.w_pos
  have := H.loud
  positivity

theorem NoisyFrame.nonneg (hx : NoisyFrame x w A h φ ρ) (hw : 0 < w) : 0 ≤ ρ := (abs_nonneg _).trans (hx.2 0 hw)

theorem exists_tone (w : ℕ) (A h φ : ℝ) : ∃ t, ToneFrame t w A h φ :=
  ⟨(List.range w).map fun (j : ℕ) => A * cos (2 * h * j + φ), by simp, fun j hj => getD_map_range_lt _ _ hj⟩

/-- On the way up, from the first lag searched to half a period, a disturbed tone stays above the threshold. -/
theorem noisy_rising {a τ : ℕ} (H : NoiseSize w a h P A ρ) (hx : NoisyFrame x w A h φ ρ) (h1 : 1 ≤ τ) (ha : a ≤ τ)
    (hτ : h * τ ≤ π / 2) : 1 / 8 ≤ yinCmnd x τ := by
  obtain ⟨t, ht⟩ := exists_tone w A h φ
  have T := H.tone
  have h0 := T.h_pos
  have hP := T.hP
  have hhP := T.hh
  have hw : 0 < w := by exact_mod_cast T.w_pos
  have hρ := hx.nonneg hw
  have hq : 0 ≤ ρ / |A| := by positivity
  have hτP : (τ : ℝ) ≤ P / 2 := by
    by_contra hc
    push Not at hc
    have := mul_lt_mul_of_pos_left hc h0
    linarith
  have hτ0 : (0 : ℝ) < τ := by exact_mod_cast h1
  have hs : 2 * τ / P ≤ sin (h * τ) := by
    have := mul_le_sin (x := h * τ) (by positivity) hτ
    refine le_trans (le_of_eq ?_) this
    rw [T.h_eq]
    field_simp
  have hat : (a : ℝ) ≤ τ := by exact_mod_cast ha
  have hqs : ρ / |A| ≤ 0.2 * sin (h * τ) := by
    have : ρ / |A| ≤ 0.2 * (2 * τ / P) := by
      rw [show 0.2 * (2 * τ / P) = 2 / 5 * τ / P by ring, le_div_iff₀ (by linarith)]
      linarith [H.start]
    linarith
  have hsp : 0 < sin (h * τ) := lt_of_lt_of_le (by positivity) hs
  generalize hQ : ρ / |A| = q at *
  refine cmnd_ge (R := √(2 * A ^ 2 * w)) (lo := 0.774 * sin (h * τ) - 1.415 * q) (hi := 1.049 * sin (h * τ) + 1.415 * q) h1 H.scale_pos
    (by linarith) (by positivity) ?_ (by norm_num) ?_ ?_
  · have k1 : 1.049 * sin (h * τ) + 1.415 * q ≤ 1.332 * sin (h * τ) := by linarith
    have k2 : 0.491 * sin (h * τ) ≤ 0.774 * sin (h * τ) - 1.415 * q := by linarith
    have k3 := pow_le_pow_left₀ (by positivity) k1 2
    have k4 := pow_le_pow_left₀ (by positivity) k2 2
    nlinarith [sq_nonneg (sin (h * τ))]
  · have k1 := (root_bounds T ht (τ := τ) (by linarith)).1
    have k2 := (abs_le.mp (root_noise H.loud hx ht τ)).1
    rw [abs_of_pos hsp] at k1
    rw [hQ] at k2
    linarith
  · intro j hj1 hj2
    have hjτ : (j : ℝ) ≤ τ := by exact_mod_cast hj2
    have k1 := (root_bounds T ht (τ := j) (by linarith)).2
    have k2 := (abs_le.mp (root_noise H.loud hx ht j)).2
    rw [hQ] at k2
    have h3 := mul_le_mul_of_nonneg_left hjτ h0.le
    have h4 : 0 ≤ h * (j : ℝ) := by positivity
    have hs0 : 0 ≤ sin (h * j) := sin_nonneg_of_nonneg_of_le_pi h4 (by linarith [pi_pos])
    have hs1 : sin (h * j) ≤ sin (h * τ) := sin_le_sin_of_le_of_le_pi_div_two (by linarith [pi_pos]) hτ h3
    rw [abs_of_nonneg hs0] at k1
    have h5 := mul_le_mul_of_nonneg_right (mul_le_mul_of_nonneg_left hs1 (by norm_num : (0 : ℝ) ≤ 1.049)) H.scale_pos.le
    linarith

/-- At lags where the sine of the tone is large a disturbed tone stays above the threshold. -/
theorem noisy_far {a τ : ℕ} (H : NoiseSize w a h P A ρ) (hx : NoisyFrame x w A h φ ρ) (h1 : 1 ≤ τ) (hτ : (τ : ℝ) ≤ 1.4 * P)
    (hs : 0.7 ≤ |sin (h * τ)|) : 1 / 8 ≤ yinCmnd x τ := by
  obtain ⟨t, ht⟩ := exists_tone w A h φ
  have T := H.tone
  have hw : 0 < w := by exact_mod_cast T.w_pos
  have hρ := hx.nonneg hw
  have hq : 0 ≤ ρ / |A| := by positivity
  have hq1 := H.small
  generalize hQ : ρ / |A| = q at *
  refine cmnd_ge (R := √(2 * A ^ 2 * w)) (lo := 0.48) (hi := 1.11) h1 H.scale_pos
    (by norm_num) (by norm_num) (by norm_num) (by norm_num) ?_ ?_
  · have k1 := (root_bounds T ht (τ := τ) hτ).1
    have k2 := (abs_le.mp (root_noise H.loud hx ht τ)).1
    rw [hQ] at k2
    have h5 : 0.48 * √(2 * A ^ 2 * w) ≤ (0.774 * |sin (h * τ)| - 1.415 * q) * √(2 * A ^ 2 * w) :=
      mul_le_mul_of_nonneg_right (by linarith) H.scale_pos.le
    linarith
  · intro j hj1 hj2
    have hjτ : (j : ℝ) ≤ τ := by exact_mod_cast hj2
    have k1 := (root_bounds T ht (τ := j) (by linarith)).2
    have k2 := (abs_le.mp (root_noise H.loud hx ht j)).2
    rw [hQ] at k2
    have hs1 := abs_sin_le_one (h * j)
    have h5 : (1.049 * |sin (h * j)| + 1.415 * q) * √(2 * A ^ 2 * w) ≤ 1.11 * √(2 * A ^ 2 * w) :=
      mul_le_mul_of_nonneg_right (by linarith) H.scale_pos.le
    linarith

theorem sin_sum_ge (H : ToneSize w h P) {r : ℕ} (hr : |(r : ℝ) - P| ≤ 1 / 2) :
    (r : ℝ) / 2 - 1 / 4 ≤ ∑ j ∈ Finset.range r, sin (h * (j + 1 : ℕ)) ^ 2 := by
  have h0 := H.h_pos
  have hP := H.hP
  have hhP := H.hh
  obtain ⟨hr1, hr2⟩ := abs_le.mp hr
  have hsh : 0 < sin h := sin_pos_of_pos_of_lt_pi h0 (by linarith [H.h_le, pi_gt_d2])
  have e : ∀ j ∈ Finset.range r, sin (h * (j + 1 : ℕ)) ^ 2 = 1 / 2 - 1 / 2 * cos (2 * h * (j + 1)) := by
    intro j _
    have h2 := cos_two_mul (h * (j + 1))
    have h3 := sin_sq_add_cos_sq (h * ((j : ℝ) + 1))
    push_cast
    rw [show 2 * h * ((j : ℝ) + 1) = 2 * (h * (j + 1)) by ring, h2]
    linarith
  rw [Finset.sum_congr rfl e, Finset.sum_sub_distrib, Finset.sum_const, Finset.card_range, nsmul_eq_mul, ← Finset.mul_sum]
  have h2 := sum_cos' h r
  have h3 : sin (2 * h * r + h) ≤ 2 * sin h := by
    have e2 : 2 * h * r + h = (2 * h * (r - P + 1 / 2)) + 2 * π := by rw [← hhP]; ring
    rw [e2, sin_add_two_pi]
    have h4 : sin (2 * h * (r - P + 1 / 2)) ≤ sin (2 * h) := by
      apply sin_le_sin_of_le_of_le_pi_div_two
      · have : 0 ≤ 2 * h * (r - P + 1 / 2) := by apply mul_nonneg <;> linarith
        linarith [pi_pos]
      · linarith [H.h_le, pi_gt_d2]
      · nlinarith
    refine h4.trans ?_
    rw [sin_two_mul]
    nlinarith [cos_le_one h]
  have h5 : ∑ j ∈ Finset.range r, cos (2 * h * (j + 1)) ≤ 1 / 2 := by
    by_contra hc
    push Not at hc
    nlinarith
  linarith

/-- At the lag nearest to the period a disturbed tone is below the threshold. -/
theorem noisy_nearest {a r : ℕ} (H : NoiseSize w a h P A ρ) (hx : NoisyFrame x w A h φ ρ) (hr : |(r : ℝ) - P| ≤ 1 / 2) :
    yinCmnd x r < 1 / 10 := by
  obtain ⟨t, ht⟩ := exists_tone w A h φ
  have T := H.tone
  have h0 := T.h_pos
  have hP := H.twenty
  have hhP := T.hh
  have hw : 0 < w := by exact_mod_cast T.w_pos
  have hρ := hx.nonneg hw
  have hq : 0 ≤ ρ / |A| := by positivity
  have hq1 := H.small
  have hR := H.scale_pos
  have hD : 0 ≤ 2 * A ^ 2 * w := by positivity
  have hsum := sin_sum_ge T hr
  obtain ⟨hr1, hr2⟩ := abs_le.mp hr
  have hr0 : (0 : ℝ) < r := by linarith
  have h1 : 1 ≤ r := by exact_mod_cast hr0
  have hr19 : (19.5 : ℝ) ≤ r := by linarith
  have hRsq := sq_sqrt hD
  have hroot := root_noise H.loud hx ht
  generalize hQ : ρ / |A| = q at *
  -- the cumulative sum
  have hSt : 2 * A ^ 2 * w * (0.29 * r) ≤ yinCum t r := by
    have h2 : 2 * A ^ 2 * (0.6 * w) * (r / 2 - 1 / 4) ≤ yinCum t r := by
      refine (mul_le_mul_of_nonneg_left hsum (by positivity)).trans ?_
      rw [Finset.mul_sum]
      unfold yinCum
      apply Finset.sum_le_sum
      intro j hj
      rw [Finset.mem_range] at hj
      have hjr : ((j + 1 : ℕ) : ℝ) ≤ r := by exact_mod_cast hj
      have := (diff_bounds' T ht (τ := j + 1) (by linarith)).1
      linarith
    refine le_trans ?_ h2
    nlinarith
  have hSx : √(yinCum t r) ≤ √(yinCum x r) + √(r : ℝ) * (1.415 * q * √(2 * A ^ 2 * w)) := by
    have e1 : ∀ y : List ℝ, yinCum y r = ∑ j ∈ Finset.range r, √(yinDiff y (j + 1)) ^ 2 := fun y =>
      Finset.sum_congr rfl fun j _ => (sq_sqrt (yinDiff_nonneg' y _)).symm
    have h3 := (abs_le.mp (sqrt_sum_sub r (fun j => √(yinDiff x (j + 1))) (fun j => √(yinDiff t (j + 1))))).1
    rw [← e1, ← e1] at h3
    have h4 : √(∑ k ∈ Finset.range r, (√(yinDiff x (k + 1)) - √(yinDiff t (k + 1))) ^ 2) ≤
        √(r : ℝ) * (1.415 * q * √(2 * A ^ 2 * w)) := by
      rw [sqrt_le_iff]
      refine ⟨by positivity, ?_⟩
      rw [mul_pow, sq_sqrt hr0.le]
      calc _ ≤ ∑ k ∈ Finset.range r, (1.415 * q * √(2 * A ^ 2 * w)) ^ 2 := Finset.sum_le_sum fun k _ => by
            rw [← sq_abs]
            exact pow_le_pow_left₀ (abs_nonneg _) (hroot _) 2
        _ = _ := by rw [Finset.sum_const, Finset.card_range, nsmul_eq_mul]
    linarith
  have hsr : 0 < √(r : ℝ) := sqrt_pos.mpr hr0
  have hX : 0 < √(r : ℝ) * √(2 * A ^ 2 * w) := by positivity
  have hSx' : 0.48 * (√(r : ℝ) * √(2 * A ^ 2 * w)) ≤ √(yinCum x r) := by
    have h5 : 0.538 * (√(r : ℝ) * √(2 * A ^ 2 * w)) ≤ √(yinCum t r) := by
      rw [le_sqrt (by positivity) (show 0 ≤ yinCum t r from Finset.sum_nonneg fun _ _ => yinDiff_nonneg' t _), mul_pow, mul_pow, sq_sqrt hr0.le, hRsq]
      nlinarith
    have h6 : √(r : ℝ) * (1.415 * q * √(2 * A ^ 2 * w)) ≤ 0.057 * (√(r : ℝ) * √(2 * A ^ 2 * w)) := by
      nlinarith
    linarith
  -- the difference
  have hd : √(yinDiff x r) ≤ 0.14 * √(2 * A ^ 2 * w) := by
    have k1 := (root_bounds T ht (τ := r) (by linarith)).2
    have k2 := (abs_le.mp (hroot r)).2
    have hh : h ≤ 0.15708 := by
      rw [T.h_eq, div_le_iff₀ (by linarith)]
      linarith [pi_lt_d4]
    have e : |sin (h * r)| ≤ 0.07854 := by
      rw [show h * (r : ℝ) = h * (r - P) + π by rw [← hhP]; ring, sin_add_pi, abs_neg]
      refine (abs_sin_le_abs).trans ?_
      rw [abs_mul, abs_of_pos h0]
      nlinarith
    have h5 : (1.049 * |sin (h * r)| + 1.415 * q) * √(2 * A ^ 2 * w) ≤ 0.14 * √(2 * A ^ 2 * w) :=
      mul_le_mul_of_nonneg_right (by linarith) hR.le
    linarith
  have hd2 := (sqrt_le_iff.mp hd).2
  have hS2 := (le_sqrt (by positivity) (show 0 ≤ yinCum x r from Finset.sum_nonneg fun _ _ => yinDiff_nonneg' x _)).mp hSx'
  rw [mul_pow, hRsq] at hd2
  rw [mul_pow, mul_pow, sq_sqrt hr0.le, hRsq] at hS2
  have hDp : 0 < 2 * A ^ 2 * w := sqrt_pos.mp hR
  have hrD : 0 < (r : ℝ) * (2 * A ^ 2 * w) := by positivity
  rw [cmnd_eq h1, div_lt_iff₀ (by linarith)]
  have k1 := mul_le_mul_of_nonneg_left hd2 hr0.le
  linarith

/-- The lag that YIN picks on a frame of a disturbed tone is within a quarter of the period. -/
theorem pitchLag_noisy {a T p : ℕ} {thr : ℝ} (H : NoiseSize w a h P A ρ) (hx : NoisyFrame x w A h φ ρ)
    (ha : 1 ≤ a) (haP : a ≤ ⌊P⌋₊) (hT : ⌈P⌉₊ < T) (h1 : 1 / 10 ≤ thr) (h2 : thr ≤ 1 / 8)
    (hp : PitchLag 0 (yinCmnd x) a T thr p) : p ≠ 0 ∧ |(p : ℝ) - P| < P / 4 ∧ yinCmnd x p < thr := by
  have hP := H.twenty
  have T' := H.tone
  have h0 := T'.h_pos
  have hhP := T'.hh
  have f1 : ((⌊P⌋₊ : ℕ) : ℝ) ≤ P := Nat.floor_le (by linarith)
  have c1 : P ≤ (⌈P⌉₊ : ℕ) := Nat.le_ceil P
  have hfc : ⌊P⌋₊ ≤ ⌈P⌉₊ := Nat.floor_le_ceil P
  obtain ⟨r, hr, hr1, hr2⟩ : ∃ r : ℕ, |(r : ℝ) - P| ≤ 1 / 2 ∧ ⌊P⌋₊ ≤ r ∧ r ≤ ⌈P⌉₊ := by
    by_cases h : P - (⌊P⌋₊ : ℕ) ≤ 1 / 2
    · exact ⟨⌊P⌋₊, abs_le.mpr ⟨by linarith, by linarith⟩, le_rfl, hfc⟩
    · refine ⟨⌈P⌉₊, abs_le.mpr ⟨by linarith, ?_⟩, hfc, le_rfl⟩
      have : ⌈P⌉₊ ≤ ⌊P⌋₊ + 1 := Nat.ceil_le_floor_add_one P
      have : ((⌈P⌉₊ : ℕ) : ℝ) ≤ (⌊P⌋₊ : ℕ) + 1 := by exact_mod_cast this
      linarith
  have hcr := noisy_nearest H hx hr
  have hs2 : (0.7 : ℝ) ≤ √2 / 2 := by
    have : (1.4 : ℝ) ≤ √2 := by rw [le_sqrt (by norm_num) (by norm_num)]; norm_num
    linarith
  rcases hp with ⟨-, hno⟩ | ⟨t0, k1, k2, k3, k4, k5, k6, k7⟩
  · have := hno r (by omega) (by omega)
    linarith
  · have ht0 : t0 ≤ r := by
      by_contra hc
      have := k5 r (by omega) (by omega)
      linarith
    have hcp : ∀ t, t0 ≤ t → t ≤ p → yinCmnd x t < thr := by
      intro t ht
      induction t, ht using Nat.le_induction with
      | base => intro _; linarith
      | succ t ht ih =>
        intro h3
        have := k6 t ht (by omega)
        have := ih (by omega)
        linarith
    refine ⟨by omega, ?_, hcp p k2 le_rfl⟩
    have hlow : 3 / 4 * P < t0 := by
      by_contra hc
      push Not at hc
      have h3 := hcp t0 le_rfl k2
      have h4 := mul_le_mul_of_nonneg_left hc h0.le
      rw [show h * (3 / 4 * P) = 3 / 4 * π by rw [← hhP]; ring] at h4
      by_cases h5 : h * t0 ≤ π / 2
      · have := noisy_rising H hx (by omega) k1 h5
        linarith
      · have hs : 0.7 ≤ |sin (h * t0)| := by
          have h6 : sin (π / 4) ≤ sin (h * t0) := by
            rw [← sin_pi_sub (h * t0)]
            apply sin_le_sin_of_le_of_le_pi_div_two <;> linarith [pi_pos]
          rw [sin_pi_div_four] at h6
          exact hs2.trans (h6.trans (le_abs_self _))
        have := noisy_far H hx (by omega) (by linarith) hs
        linarith
    have hhigh : (p : ℝ) < 5 / 4 * P := by
      by_contra hc
      push Not at hc
      have g1 : 5 / 4 * P ≤ (⌈5 / 4 * P⌉₊ : ℕ) := Nat.le_ceil _
      have g2 : ((⌈5 / 4 * P⌉₊ : ℕ) : ℝ) < 5 / 4 * P + 1 := Nat.ceil_lt_add_one (by linarith)
      have g3 : ⌈5 / 4 * P⌉₊ ≤ p := Nat.ceil_le.mpr hc
      generalize ⌈5 / 4 * P⌉₊ = m at g1 g2 g3
      have g4 : t0 ≤ m := by
        have h3 : (r : ℝ) ≤ m := by linarith [(abs_le.mp hr).2]
        exact ht0.trans (by exact_mod_cast h3)
      have h3 := hcp m g4 g3
      have h4 := mul_le_mul_of_nonneg_left g1 h0.le
      have h5 := mul_le_mul_of_nonneg_left g2.le h0.le
      rw [show h * (5 / 4 * P) = 5 / 4 * π by rw [← hhP]; ring] at h4
      rw [show h * (5 / 4 * P + 1) = 5 / 4 * π + h by rw [← hhP]; ring] at h5
      have hs : 0.7 ≤ |sin (h * m)| := by
        have h6 : sin (π / 4) ≤ sin (h * m - π) :=
          sin_le_sin_of_le_of_le_pi_div_two (by linarith [pi_pos]) (by linarith [pi_gt_d2, T'.h_le]) (by linarith)
        rw [sin_pi_div_four, sin_sub_pi] at h6
        exact hs2.trans (h6.trans (neg_le_abs _))
      have := noisy_far H hx (by omega) (by linarith) hs
      linarith
    have k2' : (t0 : ℝ) ≤ p := by exact_mod_cast k2
    rw [abs_lt]
    constructor <;> linarith

end Frame

/-- A tone, the arguments of `compute_yin` and a relative disturbance `q`: at least twenty samples per period and four periods per
window, the frequency inside the search range, a threshold between `0.1` (the default) and `0.125`, a disturbance of at most
4 per cent of the amplitude, and less for periods much longer than the first lag searched. -/
structure YinNoise (fs winLen winHop low high thr f q : ℝ) : Prop where
  valid : YinValid fs winLen winHop low high
  f_pos : 0 < f
  twenty : 20 * f ≤ fs
  window : 4 * (fs / f) ≤ ⌊winLen * fs⌋₊
  le_high : f ≤ high
  high_fs : high ≤ fs
  above_low : ⌈fs / f⌉₊ < ⌊fs / low⌋₊
  lags : ⌊fs / low⌋₊ ≤ ⌊winLen * fs⌋₊
  thr_ge : 1 / 10 ≤ thr
  thr_le : thr ≤ 1 / 8
  small : q ≤ 1 / 25
  start : q * (fs / f) ≤ 2 / 5 * ⌊fs / high⌋₊

/-- C192: a window whose samples are within `q |A|` of a tone gets the pitch `fs / p` for a lag `p` within a quarter of the period:
no octave errors, whatever the disturbance is. -/
theorem C192_tone (sig : List ℝ) {fs winLen winHop low high thr f q A φ : ℝ} (H : YinNoise fs winLen winHop low high thr f q)
    (hA : A ≠ 0) :
    ∃ R, computeYin sig fs winLen winHop low high thr = .ok R ∧ ∀ i < R.pitches.length,
      (∀ t, i * ⌊winHop * fs⌋₊ ≤ t → t < i * ⌊winHop * fs⌋₊ + ⌊winLen * fs⌋₊ →
        |sig.getD t 0 - A * cos (2 * π * f * t / fs + φ)| ≤ q * |A|) →
      ∃ (p : ℕ) (hr : ℝ), R.pitches.getD i nan = fin (fs / p) ∧ |(p : ℝ) - fs / f| < fs / f / 4 ∧
        R.harmonicRates.getD i nan = fin hr ∧ hr < thr := by
  have hfs := H.valid.1
  have hf := H.f_pos
  have hA0 := abs_pos.mpr hA
  have hlow : low ≤ fs := by
    have h1 : 1 ≤ ⌊fs / low⌋₊ := by have := H.above_low; omega
    have h2 : (1 : ℝ) ≤ fs / low := by
      have := (Nat.le_floor_iff (div_nonneg hfs.le H.valid.2.1.le)).mp h1
      simpa using this
    rwa [le_div_iff₀ H.valid.2.1, one_mul] at h2
  obtain ⟨R, hR, hlen, hmain⟩ := C124_meaning sig (thr := thr) H.valid hlow H.lags
  refine ⟨R, hR, fun i hi htone => ?_⟩
  have hin := (hlen i).mp hi
  obtain ⟨w, hw⟩ : ∃ w, w = ⌊winLen * fs⌋₊ := ⟨_, rfl⟩
  obtain ⟨s, hs⟩ : ∃ s, s = ⌊winHop * fs⌋₊ := ⟨_, rfl⟩
  have hP : 20 ≤ fs / f := by rw [le_div_iff₀ hf]; exact H.twenty
  have hq : q * |A| / |A| = q := by field_simp
  have hsize : NoiseSize w ⌊fs / high⌋₊ (π * f / fs) (fs / f) A (q * |A|) :=
    ⟨⟨by linarith, by field_simp, by rw [hw]; exact H.window⟩, hP, hA, by rw [hq]; exact H.small, by rw [hq]; exact H.start⟩
  have hframe : NoisyFrame (yinWindow sig w s i) w A (π * f / fs) (2 * π * f * (i * s : ℕ) / fs + φ) (q * |A|) := by
    rw [← hw, ← hs] at hin
    refine ⟨by simp [yinWindow]; omega, fun j hj => ?_⟩
    have := htone (i * s + j) (by rw [hs]; omega) (by rw [← hw, ← hs]; omega)
    rw [yinWindow, getD_take_lt _ _ hj, getD_drop']
    refine le_trans (le_of_eq ?_) this
    congr 4
    push_cast
    field_simp
    ring
  have ha : 1 ≤ ⌊fs / high⌋₊ := Nat.le_floor (by
    rw [Nat.cast_one, le_div_iff₀ H.valid.2.2.1, one_mul]; exact H.high_fs)
  have haP : ⌊fs / high⌋₊ ≤ ⌊fs / f⌋₊ := Nat.floor_le_floor (div_le_div_of_nonneg_left hfs.le hf H.le_high)
  have hnc : NotConst (yinWindow sig w s i) := by
    by_contra hc
    obtain ⟨m, hm⟩ : ∃ m : ℕ, m = ⌈5 / 4 * (fs / f)⌉₊ := ⟨_, rfl⟩
    have g1 : 5 / 4 * (fs / f) ≤ m := by rw [hm]; exact Nat.le_ceil _
    have g2 : (m : ℝ) < 5 / 4 * (fs / f) + 1 := by rw [hm]; exact Nat.ceil_lt_add_one (by linarith)
    have hm1 : 1 ≤ m := by
      have : (0 : ℝ) < m := by linarith
      exact_mod_cast this
    have hT := hsize.tone
    have h4 := mul_le_mul_of_nonneg_left g1 hT.h_pos.le
    have h5 := mul_le_mul_of_nonneg_left g2.le hT.h_pos.le
    have hsin : 0.7 ≤ |sin (π * f / fs * m)| := by
      have e : π * f / fs * (5 / 4 * (fs / f)) = 5 / 4 * π := by field_simp
      rw [mul_add, e] at h5
      rw [e] at h4
      have h6 : sin (π / 4) ≤ sin (π * f / fs * m - π) :=
        sin_le_sin_of_le_of_le_pi_div_two (by linarith [pi_pos]) (by linarith [pi_gt_d2, hT.h_le]) (by linarith)
      rw [sin_pi_div_four, sin_sub_pi] at h6
      have hs2 : (1.4 : ℝ) ≤ √2 := by rw [le_sqrt (by norm_num) (by norm_num)]; norm_num
      have := neg_le_abs (sin (π * f / fs * m))
      linarith
    have h1 := noisy_far hsize hframe hm1 (by linarith) hsin
    rw [cmnd_eq hm1, yinDiff_const _ hc, mul_zero, zero_div] at h1
    norm_num at h1
  rw [hw, hs] at hnc
  obtain ⟨p, k, hp, -, r1, r2, -⟩ := hmain i hi hnc
  rw [← hw, ← hs] at hp
  obtain ⟨hp0, q1, q3⟩ := pitchLag_noisy hsize hframe ha haP H.above_low H.thr_ge H.thr_le hp
  rw [if_neg hp0] at r1 r2
  exact ⟨p, _, r1, q1, r2, by rw [← hw, ← hs]; exact q3⟩

/-- C192 in Hertz: the pitch is between `4/5` and `4/3` of the frequency. -/
theorem C192_hertz (sig : List ℝ) {fs winLen winHop low high thr f q A φ : ℝ} (H : YinNoise fs winLen winHop low high thr f q)
    (hA : A ≠ 0) :
    ∃ R, computeYin sig fs winLen winHop low high thr = .ok R ∧ ∀ i < R.pitches.length,
      (∀ t, i * ⌊winHop * fs⌋₊ ≤ t → t < i * ⌊winHop * fs⌋₊ + ⌊winLen * fs⌋₊ →
        |sig.getD t 0 - A * cos (2 * π * f * t / fs + φ)| ≤ q * |A|) →
      ∃ v, R.pitches.getD i nan = fin v ∧ 4 / 5 * f < v ∧ v < 4 / 3 * f := by
  obtain ⟨R, hR, h⟩ := C192_tone sig H hA (φ := φ)
  refine ⟨R, hR, fun i hi ht => ?_⟩
  obtain ⟨p, -, h1, h2, -⟩ := h i hi ht
  have hfs := H.valid.1
  have hf := H.f_pos
  have hP : 0 < fs / f := div_pos hfs hf
  have h2 := abs_lt.mp h2
  have hp0 : (0 : ℝ) < p := by linarith [h2.1]
  have e : f * (fs / f) = fs := by field_simp
  refine ⟨_, h1, ?_, ?_⟩
  · rw [lt_div_iff₀ hp0]
    have := mul_lt_mul_of_pos_left h2.2 hf
    nlinarith
  · rw [div_lt_iff₀ hp0]
    have := mul_lt_mul_of_pos_left h2.1 hf
    nlinarith

/-- The defaults at 16 kHz: all tones from 134 Hz to 800 Hz, with disturbances of up to `f / 8000` of the amplitude and at most
4 per cent. -/
theorem default_yinNoise {f q : ℝ} (h1 : 134 ≤ f) (h2 : f ≤ 800) (h3 : q ≤ 1 / 25) (h4 : q ≤ f / 8000) :
    YinNoise 16000 0.03 0.015 50 3000 0.1 f q := by
  have H := default_yinTone h1 (by linarith)
  have hf : 0 < f := by linarith
  refine ⟨H.valid, hf, by linarith, H.window, H.le_high, H.high_fs, H.above_low, H.lags, by norm_num, by norm_num, h3, ?_⟩
  rw [show ⌊(16000 : ℝ) / 3000⌋₊ = 5 by rw [Nat.floor_eq_iff (by norm_num)]; norm_num]
  rw [show q * (16000 / f) = q * 16000 / f by ring, div_le_iff₀ hf]
  push_cast
  linarith

/-- One second of a tone at 440 Hz with a hum at 50 Hz of 4 per cent: every one of the 65 pitches is between 352 and 587 Hz. -/
example : ∃ R, computeYin ((List.range 16000).map fun (t : ℕ) => 25 * cos (2 * π * 440 * t / 16000 + 1) + cos (2 * π * 50 * t / 16000))
      16000 0.03 0.015 50 3000 0.1 = .ok R ∧
    ∀ i < 65, ∃ v, R.pitches.getD i nan = fin v ∧ 352 < v ∧ v < 587 := by
  obtain ⟨e1, e2, e3, e4⟩ := default_sizes
  obtain ⟨R, hR, h⟩ := C192_hertz ((List.range 16000).map fun (t : ℕ) => 25 * cos (2 * π * 440 * t / 16000 + 1) + cos (2 * π * 50 * t / 16000))
    (default_yinNoise (f := 440) (q := 1 / 25) (by norm_num) (by norm_num) (by norm_num) (by norm_num)) (by norm_num : (25 : ℝ) ≠ 0) (φ := 1)
  refine ⟨R, hR, fun i hi => ?_⟩
  obtain ⟨l1, -, -, l4, -⟩ := C80_shape _ default_valid R hR
  have hil : i < R.pitches.length := by
    rw [l1, l4 i, e1, e2]
    simp
    omega
  obtain ⟨v, v1, v2, v3⟩ := h i hil (by
    intro t t1 t2
    rw [e1, e2] at t2
    rw [getD_map_range_lt _ _ (by omega), add_sub_cancel_left]
    exact (abs_cos_le_one _).trans (by norm_num))
  exact ⟨v, v1, by linarith, by linarith⟩

end Props
end Spafe
