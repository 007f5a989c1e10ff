import Verif.Model.RoundingBank
import Verif.Props.Rounding
import Verif.Props.Float64
import Verif.Props.MelFbanks
import Mathlib.Analysis.Complex.ExponentialBounds

/-! C147: the mel and linear filter banks in floating point. -/

set_option linter.unusedSectionVars false

namespace Spafe
namespace Props
open Model XF Spec

section
variable {u v : ℝ} {fl lg p10 : ℝ → ℝ}

theorem fl_close (h : Rounding u fl) {x y e : ℝ} (hxy : |x - y| ≤ e) : |fl x - y| ≤ u * |y| + (1 + u) * e := by
  have h1 := h.err x
  have h2 : |x| ≤ |y| + e := by
    have := abs_sub_abs_le_abs_sub x y
    linarith
  have h3 : |fl x - y| ≤ |fl x - x| + |x - y| := abs_sub_le _ _ _
  nlinarith [h.nonneg, mul_le_mul_of_nonneg_left h2 h.nonneg]

/-- The same with a bound `B` of the exact value: the form in which errors of successive operations add up. -/
theorem fl_close_le (h : Rounding u fl) {x y B g e : ℝ} (hB : |y| ≤ B) (hxy : |x - y| ≤ (g - 1) * B + g * e) :
    |fl x - y| ≤ ((1 + u) * g - 1) * B + (1 + u) * g * e := by
  have := fl_close h hxy
  nlinarith [h.nonneg, mul_le_mul_of_nonneg_left hB h.nonneg]

/-- C147, `n + 2` points from computed bounds: if the bounds are within `E` of numbers `low`, `high` of `[0, H]` then
every point is within `((1+u)^4 - 1) H + 3 (1+u)^4 E` of the exact one. -/
theorem C147_points (h : Rounding u fl) {low high low' high' H E : ℝ} (h0 : 0 ≤ low) (h1 : low ≤ high) (h2 : high ≤ H)
    (hl : |low' - low| ≤ E) (hh : |high' - high| ≤ E) {n j : ℕ} (hj : j ≤ n + 1) :
    |flPoint fl low' high' n j - linPoint low high n j| ≤ ((1 + u) ^ 4 - 1) * H + 3 * (1 + u) ^ 4 * E := by
  have hE : 0 ≤ E := (abs_nonneg _).trans hl
  have hu := h.nonneg
  have hH : 0 ≤ H := by linarith
  have hn : (0 : ℝ) < n + 1 := by positivity
  have hj' : (j : ℝ) / (n + 1) ≤ 1 := by
    rw [div_le_one hn]; exact_mod_cast hj
  have hj0 : 0 ≤ (j : ℝ) / (n + 1) := by positivity
  -- the difference
  have a1 : |(high' - low') - (high - low)| ≤ (1 - 1) * H + 1 * (2 * E) := by
    rw [show (high' - low') - (high - low) = (high' - high) - (low' - low) by ring]
    have := abs_sub (high' - high) (low' - low)
    linarith
  have hD : |high - low| ≤ H := by rw [abs_of_nonneg (by linarith)]; linarith
  have a2 := fl_close_le h hD a1
  rw [mul_one] at a2
  have a3 : |(|fl (high' - low')|) - (high - low)| ≤ ((1 + u) - 1) * H + (1 + u) * (2 * E) := by
    refine le_trans ?_ a2
    have := abs_abs_sub_abs_le (fl (high' - low')) (high - low)
    rwa [abs_of_nonneg (show 0 ≤ high - low by linarith)] at this
  -- the step, taken `j` times
  have key : ∀ t z : ℝ, |t - (high - low) / (n + 1)| ≤ z / (n + 1) → |t * j - j * (high - low) / (n + 1)| ≤ z := by
    intro t z ht
    have hz : 0 ≤ z / (n + 1) := (abs_nonneg _).trans ht
    rw [show t * j - j * (high - low) / (n + 1) = (t - (high - low) / (n + 1)) * j by ring, abs_mul,
      abs_of_nonneg (Nat.cast_nonneg (α := ℝ) j)]
    calc _ ≤ z / (n + 1) * j := by gcongr
      _ ≤ z / (n + 1) * (n + 1) := by gcongr; exact_mod_cast hj
      _ = z := by field_simp
  have a4 : |(|fl (high' - low')|) / (n + 1) - (high - low) / (n + 1)| ≤ ((1 + u) - 1) * (H / (n + 1)) +
      (1 + u) * (2 * E / (n + 1)) := by
    rw [← sub_div, abs_div, abs_of_pos hn]
    calc _ ≤ (((1 + u) - 1) * H + (1 + u) * (2 * E)) / (n + 1) := by gcongr
      _ = _ := by ring
  have hD2 : |(high - low) / (n + 1)| ≤ H / (n + 1) := by
    rw [abs_div, abs_of_pos hn]; gcongr
  have a5 := fl_close_le h hD2 a4
  have a6 := key _ (((1 + u) * (1 + u) - 1) * H + (1 + u) * (1 + u) * (2 * E)) (a5.trans (le_of_eq (by ring)))
  have hz : |(j : ℝ) * (high - low) / (n + 1)| ≤ H := by
    rw [mul_div_right_comm, abs_mul, abs_of_nonneg hj0]
    calc _ ≤ 1 * H := by gcongr
      _ = H := one_mul _
  have a7 := fl_close_le h hz a6
  -- the sum
  have hp : |linPoint low high n j| ≤ H := by
    have hz' : (j : ℝ) * (high - low) / (n + 1) ≤ high - low := by
      rw [mul_div_right_comm]
      exact mul_le_of_le_one_left (by linarith) hj'
    have hz0 : 0 ≤ (j : ℝ) * (high - low) / (n + 1) := by
      have : 0 ≤ high - low := by linarith
      positivity
    unfold linPoint
    rw [abs_of_nonneg (by linarith)]
    linarith
  have g1 : 1 ≤ (1 + u) * ((1 + u) * (1 + u)) := by nlinarith [mul_nonneg hu hu, mul_nonneg (mul_nonneg hu hu) hu]
  have a8 : |low' + fl (fl (|fl (high' - low')| / (n + 1)) * j) - linPoint low high n j| ≤
      ((1 + u) * ((1 + u) * (1 + u)) - 1) * H + (1 + u) * ((1 + u) * (1 + u)) * (3 * E) := by
    unfold linPoint
    generalize fl (fl (|fl (high' - low')| / (n + 1)) * j) = x at *
    generalize (j : ℝ) * (high - low) / (n + 1) = z at *
    rw [show low' + x - (low + z) = (low' - low) + (x - z) by ring]
    refine (abs_add_le _ _).trans ?_
    nlinarith [mul_le_mul_of_nonneg_right g1 hE]
  have a9 := fl_close_le h hp a8
  unfold flPoint
  refine a9.trans (le_of_eq (by ring))

/-- C147 for the grid: every column frequency is within `((1+u)^4 - 1) high` of the exact one. -/
theorem C147_grid (h : Rounding u fl) {low high : ℝ} (h0 : 0 ≤ low) (h1 : low ≤ high) {nfft k : ℕ} (hM : 2 ≤ nfft)
    (hk : k ≤ nfft / 2) :
    |flGrid fl low high (nfft / 2) k - colFreq low high nfft k| ≤ ((1 + u) ^ 4 - 1) * high := by
  have hu := h.nonneg
  have hH : 0 ≤ high := by linarith
  have hMp : 0 < nfft / 2 := by omega
  have hM' : (0 : ℝ) < (nfft / 2 : ℕ) := by exact_mod_cast hMp
  unfold flGrid colFreq
  generalize nfft / 2 = M at *
  have g0 : 1 ≤ (1 + u) ^ 4 := one_le_pow₀ (by linarith)
  split_ifs with hkM
  · subst hkM
    rw [show high - (low + k * (high - low) / k) = 0 by field_simp; ring, abs_zero]
    nlinarith
  · have a1 : |(high - low) - (high - low)| ≤ (1 - 1) * high + 1 * 0 := by simp
    have hD : |high - low| ≤ high := by rw [abs_of_nonneg (by linarith)]; linarith
    have a2 := fl_close_le h hD a1
    simp only [mul_zero, add_zero, mul_one] at a2
    have a3 : |fl (high - low) / M - (high - low) / M| ≤ ((1 + u) - 1) * (high / M) + (1 + u) * 0 := by
      rw [← sub_div, abs_div, abs_of_pos hM']
      calc _ ≤ (((1 + u) - 1) * high) / M := by gcongr
        _ = _ := by ring
    have hD2 : |(high - low) / M| ≤ high / M := by rw [abs_div, abs_of_pos hM']; gcongr
    have a4 := fl_close_le h hD2 a3
    simp only [mul_zero, add_zero] at a4
    have hkr : (k : ℝ) ≤ M := by exact_mod_cast hk
    have hk1 : (k : ℝ) / M ≤ 1 := by rwa [div_le_one hM']
    have a5 : |k * fl (fl (high - low) / M) - k * (high - low) / M| ≤ ((1 + u) * (1 + u) - 1) * high +
        (1 + u) * (1 + u) * 0 := by
      rw [mul_div_assoc, ← mul_sub, abs_mul, abs_of_nonneg (Nat.cast_nonneg (α := ℝ) k)]
      have : 0 ≤ ((1 + u) * (1 + u) - 1) * (high / M) := (abs_nonneg _).trans a4
      calc _ ≤ (M : ℝ) * (((1 + u) * (1 + u) - 1) * (high / M)) := by gcongr
        _ = _ := by field_simp; ring
    have hz : |(k : ℝ) * (high - low) / M| ≤ high := by
      rw [mul_div_right_comm, abs_mul, abs_of_nonneg (by positivity : (0 : ℝ) ≤ k / M)]
      calc _ ≤ 1 * high := by gcongr
        _ = high := one_mul _
    have a6 := fl_close_le h hz a5
    simp only [mul_zero, add_zero] at a6
    have hz2 : (k : ℝ) * (high - low) / M ≤ high - low := by
      rw [mul_div_right_comm]
      exact mul_le_of_le_one_left (by linarith) hk1
    have hz0 : 0 ≤ (k : ℝ) * (high - low) / M := by
      have : 0 ≤ high - low := by linarith
      positivity
    have hp : |low + k * (high - low) / M| ≤ high := by rw [abs_of_nonneg (by linarith)]; linarith
    have a7 : |fl (k * fl (fl (high - low) / M)) + low - (low + k * (high - low) / M)| ≤
        ((1 + u) * ((1 + u) * (1 + u)) - 1) * high + (1 + u) * ((1 + u) * (1 + u)) * 0 := by
      rw [show fl (k * fl (fl (high - low) / M)) + low - (low + k * (high - low) / M) =
        fl (k * fl (fl (high - low) / M)) - k * (high - low) / M by ring]
      simpa using a6
    have a8 := fl_close_le h hp a7
    refine a8.trans (le_of_eq (by ring))

/-- Error of the argument of the logarithm in `hz2mel`. -/
noncomputable def logArgErr (u : ℝ) : ℝ := ((1 + u) ^ 2 - 1) / (1 - ((1 + u) ^ 2 - 1))

theorem log_ten_ge_one : 1 ≤ Real.log 10 := by
  rw [Real.le_log_iff_exp_le (by norm_num)]
  linarith [Real.exp_one_lt_d9]

theorem logb_close {t t' q : ℝ} (ht : 0 < t) (hq0 : 0 ≤ q) (hq : q < 1) (h : |t' - t| ≤ q * t) :
    |Real.logb 10 t' - Real.logb 10 t| ≤ q / (1 - q) := by
  have h1 := abs_le.mp h
  have hlo : (1 - q) * t ≤ t' := by linarith [h1.1]
  have hhi : t' ≤ (1 + q) * t := by linarith [h1.2]
  have hq1 : 0 < 1 - q := by linarith
  have ht' : 0 < t' := lt_of_lt_of_le (mul_pos hq1 ht) hlo
  have hl : |Real.log t' - Real.log t| ≤ q / (1 - q) := by
    rw [← Real.log_div ht'.ne' ht.ne', abs_le]
    have hr : 0 < t' / t := div_pos ht' ht
    constructor
    · have e1 := Real.one_sub_inv_le_log_of_pos hr
      rw [inv_div] at e1
      have e2 : t / t' ≤ 1 / (1 - q) := by
        rw [div_le_div_iff₀ ht' hq1]; linarith
      have e3 : 1 / (1 - q) = 1 + q / (1 - q) := by field_simp; ring
      linarith
    · have e1 := Real.log_le_sub_one_of_pos hr
      have e2 : t' / t ≤ 1 + q := by rw [div_le_iff₀ ht]; exact hhi
      have e3 : q ≤ q / (1 - q) := by rw [le_div_iff₀ hq1]; nlinarith
      linarith
  have hd : Real.logb 10 t' - Real.logb 10 t = (Real.log t' - Real.log t) / Real.log 10 := by
    unfold Real.logb; ring
  rw [hd, abs_div, abs_of_pos (a := Real.log 10) (by linarith [log_ten_ge_one])]
  exact (div_le_self (abs_nonneg _) log_ten_ge_one).trans hl

/-- C147 for `hz2mel`: relative error `(1+u)(1+v) - 1` plus the error of the rounded argument of the logarithm. -/
theorem C147_hz2mel (h : Rounding u fl) (hu : u ≤ 1 / 10) (hL : LogPow v lg p10) {a b f : ℝ} (ha : 0 < a) (hb : 0 < b)
    (hf : 0 ≤ f) :
    |flMel fl lg a b f - mel a b f| ≤ ((1 + u) * (1 + v) - 1) * mel a b f + a * ((1 + u) * (1 + v) * logArgErr u) := by
  have hu0 := h.nonneg
  have hv0 := hL.nonneg
  have hfb : 0 ≤ f / b := by positivity
  obtain ⟨t, ht⟩ : ∃ t, t = 1 + f / b := ⟨_, rfl⟩
  obtain ⟨t', ht'⟩ : ∃ t', t' = fl (1 + fl (f / b)) := ⟨_, rfl⟩
  have ht1 : 1 ≤ t := by linarith
  have e1 : |fl (f / b) - f / b| ≤ u * (f / b) := by
    have := h.err (f / b)
    rwa [abs_of_nonneg hfb] at this
  have e2 : |1 + fl (f / b) - t| ≤ u * t := by
    rw [ht, show 1 + fl (f / b) - (1 + f / b) = fl (f / b) - f / b by ring]
    nlinarith
  have e3 : |t' - t| ≤ ((1 + u) ^ 2 - 1) * t := by
    have := fl_close h e2
    rw [abs_of_nonneg (by linarith : (0 : ℝ) ≤ t)] at this
    rw [ht']
    refine this.trans (le_of_eq (by ring))
  have hq0 : 0 ≤ (1 + u) ^ 2 - 1 := by nlinarith
  have hq1 : (1 + u) ^ 2 - 1 < 1 := by nlinarith
  have hq2 : (1 + u) ^ 2 - 1 ≤ 1 / 2 := by nlinarith
  have e4 : |Real.logb 10 t' - Real.logb 10 t| ≤ logArgErr u := logb_close (by linarith) hq0 hq1 e3
  have hhalf : 1 / 2 ≤ t' := by
    have := (abs_le.mp e3).1
    nlinarith
  have e5 := hL.log_err t' hhalf
  have hlt : 0 ≤ Real.logb 10 t := Real.logb_nonneg (by norm_num) ht1
  have e6 : |Real.logb 10 t'| ≤ Real.logb 10 t + logArgErr u := by
    have := abs_sub_abs_le_abs_sub (Real.logb 10 t') (Real.logb 10 t)
    rw [abs_of_nonneg hlt] at this
    linarith
  have e7 : |lg t' - Real.logb 10 t| ≤ ((1 + v) - 1) * Real.logb 10 t + (1 + v) * logArgErr u := by
    have := abs_sub_le (lg t') (Real.logb 10 t') (Real.logb 10 t)
    nlinarith
  have e8 : |a * lg t' - a * Real.logb 10 t| ≤ ((1 + v) - 1) * (a * Real.logb 10 t) + (1 + v) * (a * logArgErr u) := by
    rw [← mul_sub, abs_mul, abs_of_pos ha]
    calc _ ≤ a * (((1 + v) - 1) * Real.logb 10 t + (1 + v) * logArgErr u) := by gcongr
      _ = _ := by ring
  have e9 := fl_close_le h (B := a * Real.logb 10 t) (by rw [abs_of_nonneg (by positivity)]) e8
  unfold flMel mel
  rw [← ht', ← ht]
  refine e9.trans (le_of_eq (by ring))

theorem pow_close {x y Q : ℝ} (h : |x - y| ≤ Q) : |(10 : ℝ) ^ x - (10 : ℝ) ^ y| ≤ (10 : ℝ) ^ y * ((10 : ℝ) ^ Q - 1) := by
  have hQ : 0 ≤ Q := (abs_nonneg _).trans h
  obtain ⟨h1, h2⟩ := abs_le.mp h
  have hy : (0 : ℝ) < 10 ^ y := by positivity
  have e : (10 : ℝ) ^ x = 10 ^ y * 10 ^ (x - y) := by rw [← Real.rpow_add (by norm_num)]; congr 1; ring
  have hup : (10 : ℝ) ^ (x - y) ≤ 10 ^ Q := Real.rpow_le_rpow_of_exponent_le (by norm_num) h2
  have hdn : (10 : ℝ) ^ (-Q) ≤ 10 ^ (x - y) := Real.rpow_le_rpow_of_exponent_le (by norm_num) h1
  have hq1 : 1 ≤ (10 : ℝ) ^ Q := Real.one_le_rpow (by norm_num) hQ
  have hneg : 2 - (10 : ℝ) ^ Q ≤ 10 ^ (-Q) := by
    rw [Real.rpow_neg (by norm_num), ← one_div, le_div_iff₀ (by linarith)]
    nlinarith [sq_nonneg ((10 : ℝ) ^ Q - 1)]
  rw [e, show (10 : ℝ) ^ y * 10 ^ (x - y) - 10 ^ y = 10 ^ y * (10 ^ (x - y) - 1) by ring, abs_mul, abs_of_pos hy]
  gcongr
  rw [abs_le]
  constructor <;> linarith

/-- C147 for `mel2hz`, from a mel value known to within `P`, `0 ≤ m ≤ H`. -/
theorem C147_mel2hz (h : Rounding u fl) (hL : LogPow v lg p10) {a b m m' P H : ℝ} (ha : 0 < a) (hb : 0 < b) (h0 : 0 ≤ m)
    (hH : m ≤ H) (hP : |m' - m| ≤ P) :
    |flMelInv fl p10 a b m' - melInv a b m| ≤
      (b + melInv a b m) * ((1 + u) ^ 2 * (1 + v) * (10 : ℝ) ^ ((u * H + (1 + u) * P) / a) - 1) := by
  have hu := h.nonneg
  have hv := hL.nonneg
  have e1 : |m' / a - m / a| ≤ P / a := by
    rw [← sub_div, abs_div, abs_of_pos ha]; gcongr
  have e2 : |fl (m' / a) - m / a| ≤ (u * H + (1 + u) * P) / a := by
    refine (fl_close h e1).trans ?_
    rw [abs_of_nonneg (by positivity)]
    calc u * (m / a) + (1 + u) * (P / a) ≤ u * (H / a) + (1 + u) * (P / a) := by gcongr
      _ = _ := by ring
  generalize (u * H + (1 + u) * P) / a = Q at *
  have hQ : 0 ≤ Q := (abs_nonneg _).trans e2
  have e3 := pow_close e2
  obtain ⟨T, hT⟩ : ∃ T, T = (10 : ℝ) ^ (m / a) := ⟨_, rfl⟩
  have hT1 : 1 ≤ T := by rw [hT]; exact Real.one_le_rpow (by norm_num) (by positivity)
  have hq1 : 1 ≤ (10 : ℝ) ^ Q := Real.one_le_rpow (by norm_num) hQ
  rw [← hT] at e3
  have e4 := hL.pow_err (fl (m' / a))
  have e5 : |p10 (fl (m' / a)) - T| ≤ T * ((1 + v) * 10 ^ Q - 1) := by
    have k1 := abs_sub_le (p10 (fl (m' / a))) ((10 : ℝ) ^ fl (m' / a)) T
    have k2 : (10 : ℝ) ^ fl (m' / a) ≤ T * 10 ^ Q := by
      have := (abs_le.mp e3).2
      nlinarith
    have k3 := mul_le_mul_of_nonneg_left k2 hv
    nlinarith
  have e6 : |p10 (fl (m' / a)) - 1 - (T - 1)| ≤ T * ((1 + v) * 10 ^ Q - 1) := by
    rwa [show p10 (fl (m' / a)) - 1 - (T - 1) = p10 (fl (m' / a)) - T by ring]
  have e7 := fl_close h e6
  have e8 : |b * fl (p10 (fl (m' / a)) - 1) - b * (T - 1)| ≤ b * (u * |T - 1| + (1 + u) * (T * ((1 + v) * 10 ^ Q - 1))) := by
    rw [← mul_sub, abs_mul, abs_of_pos hb]
    gcongr
  have e9 := fl_close h e8
  have hTm : |T - 1| = T - 1 := abs_of_nonneg (by linarith)
  rw [abs_mul, abs_of_pos hb, hTm] at e9
  have eT : b + melInv a b m = b * T := by unfold melInv; rw [← hT]; ring
  rw [eT]
  unfold flMelInv melInv
  rw [← hT]
  refine e9.trans ?_
  have : 0 ≤ b * (1 + u) ^ 2 := by positivity
  nlinarith [mul_nonneg hb.le hu, mul_nonneg (mul_nonneg hb.le hu) hu]

/-- The error of a filter edge relative to `b` plus its frequency, where `L = log10(1 + high / b)`. -/
noncomputable def edgeErr (u v L : ℝ) : ℝ :=
  (1 + u) ^ 2 * (1 + v) * (10 : ℝ) ^ (u * L + (1 + u) * (((1 + u) ^ 4 - 1) * L + 3 * (1 + u) ^ 4 *
    (((1 + u) * (1 + v) - 1) * L + (1 + u) * (1 + v) * logArgErr u))) - 1

/-- C147 for the filter edges of the mel bank. -/
theorem C147_mel_edges (h : Rounding u fl) (hu : u ≤ 1 / 10) (hL : LogPow v lg p10) {a b low high : ℝ} (ha : 0 < a) (hb : 0 < b)
    (h0 : 0 ≤ low) (h1 : low ≤ high) {n j : ℕ} (hj : j ≤ n + 1) :
    |flMelPoint fl lg p10 a b low high n j - melPoint a b low high n j| ≤
      (b + melPoint a b low high n j) * edgeErr u v (Real.logb 10 (1 + high / b)) := by
  have hu0 := h.nonneg
  have hv0 := hL.nonneg
  have mono : ∀ {x y : ℝ}, 0 ≤ x → x ≤ y → mel a b x ≤ mel a b y := by
    intro x y hx hxy
    unfold mel
    have : 0 < 1 + x / b := by positivity
    have h2 : 1 + x / b ≤ 1 + y / b := by gcongr
    have := Real.logb_le_logb_of_le (by norm_num : (1 : ℝ) < 10) this h2
    gcongr
  have hl0 : 0 ≤ mel a b low := by
    unfold mel
    have := Real.logb_nonneg (by norm_num : (1 : ℝ) < 10) (show 1 ≤ 1 + low / b by linarith [div_nonneg h0 hb.le])
    positivity
  have hlh := mono h0 h1
  have k1 := C147_hz2mel h hu hL ha hb h0
  have k2 := C147_hz2mel h hu hL ha hb (h0.trans h1)
  have g1 : 0 ≤ (1 + u) * (1 + v) - 1 := by nlinarith [mul_nonneg hu0 hv0]
  have k1' := k1.trans (add_le_add_left (mul_le_mul_of_nonneg_left hlh g1) _)
  have k3 := C147_points h hl0 hlh (le_refl _) k1' k2 hj
  have hj' : (j : ℝ) / (n + 1) ≤ 1 := by
    rw [div_le_one (by positivity)]; exact_mod_cast hj
  have hp0 : 0 ≤ linPoint (mel a b low) (mel a b high) n j := by
    unfold linPoint
    have : 0 ≤ mel a b high - mel a b low := by linarith
    positivity
  have hpH : linPoint (mel a b low) (mel a b high) n j ≤ mel a b high := by
    unfold linPoint
    have : (j : ℝ) * (mel a b high - mel a b low) / (n + 1) ≤ mel a b high - mel a b low := by
      rw [mul_div_right_comm]
      exact mul_le_of_le_one_left (by linarith) hj'
    linarith
  have k4 := C147_mel2hz h hL ha hb hp0 hpH k3
  unfold flMelPoint melPoint
  refine k4.trans (le_of_eq ?_)
  unfold edgeErr
  congr 4
  unfold mel
  field_simp

theorem ratio_close {l c f l' c' f' ε d : ℝ} (hd : 0 < d) (hdc : d ≤ c - l) (hl : |l' - l| ≤ ε) (hc : |c' - c| ≤ ε)
    (hf : |f' - f| ≤ ε) (h1 : l' ≤ f') (h2 : f' ≤ c') (h3 : l' < c') :
    |(f' - l') / (c' - l') - (f - l) / (c - l)| ≤ 4 * ε / d := by
  obtain ⟨r, hr⟩ : ∃ r, r = (f' - l') / (c' - l') := ⟨_, rfl⟩
  have hcl' : 0 < c' - l' := by linarith
  have hcl : 0 < c - l := by linarith
  have hr0 : 0 ≤ r := by rw [hr]; exact div_nonneg (by linarith) hcl'.le
  have hr1 : r ≤ 1 := by rw [hr, div_le_one hcl']; linarith
  have er : r * (c' - l') = f' - l' := by rw [hr]; field_simp
  have e : r - (f - l) / (c - l) = ((f' - f) - (l' - l) - r * ((c' - c) - (l' - l))) / (c - l) := by
    field_simp
    linarith
  rw [← hr, e, abs_div, abs_of_pos hcl]
  have b1 : |(f' - f) - (l' - l) - r * ((c' - c) - (l' - l))| ≤ 4 * ε := by
    have k1 := abs_sub ((f' - f) - (l' - l)) (r * ((c' - c) - (l' - l)))
    have k2 := abs_sub (f' - f) (l' - l)
    have k3 := abs_sub (c' - c) (l' - l)
    rw [abs_mul, abs_of_nonneg hr0] at k1
    have k4 : r * |(c' - c) - (l' - l)| ≤ 1 * (2 * ε) := by
      gcongr
      linarith
    linarith
  have hε : 0 ≤ ε := (abs_nonneg _).trans hf
  calc _ ≤ 4 * ε / (c - l) := by gcongr
    _ ≤ 4 * ε / d := by gcongr

/-- The quotient of two rounded differences, rounded: close to the exact quotient and within `[0, 1]`. -/
theorem fl_ratio (h : Rounding u fl) (hu : u < 1) (hm : Monotone fl) (h1 : fl 1 = 1) {x y : ℝ} (hx : 0 ≤ x) (hxy : x ≤ y)
    (hy : 0 < y) :
    0 ≤ fl (fl x / fl y) ∧ fl (fl x / fl y) ≤ 1 ∧ |fl (fl x / fl y) - x / y| ≤ (1 + u) ^ 2 / (1 - u) - 1 := by
  have hu0 := h.nonneg
  have z := h.zero
  have fx : 0 ≤ fl x := by rw [← z]; exact hm hx
  have fxy : fl x ≤ fl y := hm hxy
  have ey := h.err y
  have ex := h.err x
  rw [abs_of_pos hy] at ey
  rw [abs_of_nonneg hx] at ex
  have fy : (1 - u) * y ≤ fl y := by linarith [(abs_le.mp ey).1]
  have fy2 : fl y ≤ (1 + u) * y := by linarith [(abs_le.mp ey).2]
  have fx1 : (1 - u) * x ≤ fl x := by linarith [(abs_le.mp ex).1]
  have fx2 : fl x ≤ (1 + u) * x := by linarith [(abs_le.mp ex).2]
  have hu1 : 0 < 1 - u := by linarith
  have fyp : 0 < fl y := lt_of_lt_of_le (mul_pos hu1 hy) fy
  have q0 : 0 ≤ fl x / fl y := div_nonneg fx fyp.le
  have q1 : fl x / fl y ≤ 1 := (div_le_one fyp).mpr fxy
  refine ⟨by rw [← z]; exact hm q0, by rw [← h1]; exact hm q1, ?_⟩
  obtain ⟨r, hr⟩ : ∃ r, r = x / y := ⟨_, rfl⟩
  have hr0 : 0 ≤ r := by rw [hr]; positivity
  have hr1 : r ≤ 1 := by rw [hr, div_le_one hy]; exact hxy
  have ex' : x = r * y := by rw [hr]; field_simp
  have up : fl x / fl y ≤ (1 + u) / (1 - u) * r := by
    rw [div_le_iff₀ fyp]
    have : r * ((1 + u) * y) ≤ r * ((1 + u) / (1 - u) * fl y) := by
      refine mul_le_mul_of_nonneg_left ?_ hr0
      rw [div_mul_eq_mul_div, le_div_iff₀ hu1]
      nlinarith
    calc fl x ≤ (1 + u) * x := fx2
      _ = r * ((1 + u) * y) := by rw [ex']; ring
      _ ≤ _ := this
      _ = _ := by ring
  have dn : (1 - u) / (1 + u) * r ≤ fl x / fl y := by
    rw [le_div_iff₀ fyp]
    have : r * ((1 - u) / (1 + u) * fl y) ≤ r * ((1 - u) * y) := by
      refine mul_le_mul_of_nonneg_left ?_ hr0
      rw [div_mul_eq_mul_div, div_le_iff₀ (by linarith)]
      nlinarith
    calc (1 - u) / (1 + u) * r * fl y = r * ((1 - u) / (1 + u) * fl y) := by ring
      _ ≤ r * ((1 - u) * y) := this
      _ = (1 - u) * x := by rw [ex']; ring
      _ ≤ fl x := fx1
  have hG : 2 - (1 + u) / (1 - u) ≤ (1 - u) / (1 + u) := by
    rw [← sub_nonneg]
    have : (1 - u) / (1 + u) - (2 - (1 + u) / (1 - u)) = (2 * u) ^ 2 / ((1 - u) * (1 + u)) := by
      field_simp
      ring
    rw [this]
    have : 0 < (1 - u) * (1 + u) := mul_pos hu1 (by linarith)
    positivity
  have hq : |fl x / fl y - r| ≤ (1 + u) / (1 - u) - 1 := by
    have g1 : 1 ≤ (1 + u) / (1 - u) := by rw [le_div_iff₀ hu1]; linarith
    rw [abs_le]
    constructor <;> nlinarith
  have := fl_close h hq
  rw [abs_of_nonneg hr0] at this
  rw [← hr]
  refine this.trans ?_
  have : (1 + u) * ((1 + u) / (1 - u) - 1) = (1 + u) ^ 2 / (1 - u) - 1 - u := by field_simp; ring
  rw [this]
  nlinarith

/-- C147 for one entry of the filter loop: between 0 and 1, and close to the triangle on the exact edges if the computed
edges and the computed frequency are within `ε` and the exact edges at least `d` apart. -/
theorem C147_entry (h : Rounding u fl) (hu : u < 1) (hm : Monotone fl) (h1 : fl 1 = 1) {l c r f l' c' r' f' ε d : ℝ}
    (hd : 2 * ε < d) (hlc : d ≤ c - l) (hcr : d ≤ r - c) (el : |l' - l| ≤ ε) (ec : |c' - c| ≤ ε) (er : |r' - r| ≤ ε)
    (ef : |f' - f| ≤ ε) :
    0 ≤ flEntry fl l' c' r' f' ∧ flEntry fl l' c' r' f' ≤ 1 ∧
      |flEntry fl l' c' r' f' - tri l c r f| ≤ 4 * ε / d + ((1 + u) ^ 2 / (1 - u) - 1) := by
  have hu0 := h.nonneg
  have hε : 0 ≤ ε := (abs_nonneg _).trans ef
  have hd0 : 0 < d := by linarith
  have hlc' : l' < c' := by
    have := (abs_le.mp el).2
    have := (abs_le.mp ec).1
    linarith
  have hcr' : c' < r' := by
    have := (abs_le.mp ec).2
    have := (abs_le.mp er).1
    linarith
  have hG : 0 ≤ (1 + u) ^ 2 / (1 - u) - 1 := by
    rw [sub_nonneg, le_div_iff₀ (by linarith)]; nlinarith
  have hcl0 : 0 < c - l := by linarith
  have hrc0 : 0 < r - c := by linarith
  have h4 : 0 ≤ 4 * ε / d := by positivity
  have h24 : 2 * ε / d ≤ 4 * ε / d := by gcongr; linarith
  obtain ⟨el1, el2⟩ := abs_le.mp el
  obtain ⟨ec1, ec2⟩ := abs_le.mp ec
  obtain ⟨er1, er2⟩ := abs_le.mp er
  obtain ⟨ef1, ef2⟩ := abs_le.mp ef
  have small : ∀ x w : ℝ, x ≤ 2 * ε → d ≤ w → x / w ≤ 2 * ε / d := by
    intro x w hx hw
    calc x / w ≤ 2 * ε / w := by gcongr; linarith
      _ ≤ 2 * ε / d := by gcongr
  unfold flEntry
  by_cases c1 : c' ≤ f'
  · by_cases c2 : f' ≤ r'
    · -- right slope
      simp only [c1, c2, decide_true, beq_self_eq_true, if_true]
      obtain ⟨b1, b2, b3⟩ := fl_ratio h hu hm h1 (x := r' - f') (y := r' - c') (by linarith) (by linarith) (by linarith)
      refine ⟨b1, b2, ?_⟩
      have b4 := ratio_close (l := -r) (c := -c) (f := -f) (l' := -r') (c' := -c') (f' := -f') (ε := ε) hd0 (by linarith)
        (by rwa [show -r' - -r = -(r' - r) by ring, abs_neg]) (by rwa [show -c' - -c = -(c' - c) by ring, abs_neg])
        (by rwa [show -f' - -f = -(f' - f) by ring, abs_neg]) (by linarith) (by linarith) (by linarith)
      rw [show (-f' - -r') / (-c' - -r') = (r' - f') / (r' - c') by congr 1 <;> ring,
        show (-f - -r) / (-c - -r) = (r - f) / (r - c) by congr 1 <;> ring] at b4
      have hR0 : 0 ≤ (r' - f') / (r' - c') := div_nonneg (by linarith) (by linarith)
      have hR1 : (r' - f') / (r' - c') ≤ 1 := (div_le_one (by linarith)).mpr (by linarith)
      have hL : 1 - 2 * ε / d ≤ (f - l) / (c - l) := by
        have k := small (c - f) (c - l) (by linarith) hlc
        have e : (f - l) / (c - l) = 1 - (c - f) / (c - l) := by field_simp; ring
        linarith
      obtain ⟨b41, b42⟩ := abs_le.mp b4
      have htri : |(r' - f') / (r' - c') - tri l c r f| ≤ 4 * ε / d := by
        unfold tri
        rw [abs_le]
        constructor
        · have : max 0 (min ((f - l) / (c - l)) ((r - f) / (r - c))) ≤ max 0 ((r - f) / (r - c)) :=
            max_le_max le_rfl (min_le_right _ _)
          have k : max 0 ((r - f) / (r - c)) ≤ (r' - f') / (r' - c') + 4 * ε / d := max_le (by linarith) (by linarith)
          linarith
        · have : (r' - f') / (r' - c') - 4 * ε / d ≤ min ((f - l) / (c - l)) ((r - f) / (r - c)) :=
            le_min (by linarith) (by linarith)
          have := le_max_right 0 (min ((f - l) / (c - l)) ((r - f) / (r - c)))
          linarith
      have := abs_sub_le (fl (fl (r' - f') / fl (r' - c'))) ((r' - f') / (r' - c')) (tri l c r f)
      linarith
    · -- beyond the upper edge
      have c3 : ¬ f' ≤ c' := by intro hh; push Not at c2; linarith
      have c4 : l' ≤ f' := by linarith
      simp only [c1, c2, c3, c4, decide_true, decide_false]
      push Not at c2
      refine ⟨by simp, by simp, ?_⟩
      have hR : (r - f) / (r - c) ≤ 2 * ε / d := small _ _ (by linarith) hcr
      have ht : tri l c r f ≤ 2 * ε / d := by
        unfold tri
        exact max_le (by positivity) ((min_le_right _ _).trans hR)
      have ht0 : 0 ≤ tri l c r f := le_max_left _ _
      simp only [Bool.true_eq_false, beq_iff_eq, if_false]
      rw [zero_sub, abs_neg, abs_of_nonneg ht0]
      linarith
  · have c2 : f' ≤ r' := by push Not at c1; linarith
    simp only [c1, c2, decide_true, decide_false]
    push Not at c1
    by_cases c3 : l' ≤ f'
    · -- left slope
      have c4 : f' ≤ c' := c1.le
      simp only [c3, c4, decide_true, beq_self_eq_true, if_true, Bool.false_eq_true, beq_iff_eq, if_false]
      obtain ⟨b1, b2, b3⟩ := fl_ratio h hu hm h1 (x := f' - l') (y := c' - l') (by linarith) (by linarith) (by linarith)
      refine ⟨b1, b2, ?_⟩
      have b4 := ratio_close hd0 hlc el ec ef c3 c4 hlc'
      have hR0 : 0 ≤ (f' - l') / (c' - l') := div_nonneg (by linarith) (by linarith)
      have hR1 : (f' - l') / (c' - l') ≤ 1 := (div_le_one (by linarith)).mpr (by linarith)
      have hL : 1 - 2 * ε / d ≤ (r - f) / (r - c) := by
        have k := small (f - c) (r - c) (by linarith) hcr
        have e : (r - f) / (r - c) = 1 - (f - c) / (r - c) := by field_simp; ring
        linarith
      obtain ⟨b41, b42⟩ := abs_le.mp b4
      have htri : |(f' - l') / (c' - l') - tri l c r f| ≤ 4 * ε / d := by
        unfold tri
        rw [abs_le]
        constructor
        · have : max 0 (min ((f - l) / (c - l)) ((r - f) / (r - c))) ≤ max 0 ((f - l) / (c - l)) :=
            max_le_max le_rfl (min_le_left _ _)
          have k : max 0 ((f - l) / (c - l)) ≤ (f' - l') / (c' - l') + 4 * ε / d := max_le (by linarith) (by linarith)
          linarith
        · have : (f' - l') / (c' - l') - 4 * ε / d ≤ min ((f - l) / (c - l)) ((r - f) / (r - c)) :=
            le_min (by linarith) (by linarith)
          have := le_max_right 0 (min ((f - l) / (c - l)) ((r - f) / (r - c)))
          linarith
      have := abs_sub_le (fl (fl (f' - l') / fl (c' - l'))) ((f' - l') / (c' - l')) (tri l c r f)
      linarith
    · -- below the lower edge
      have c4 : f' ≤ c' := c1.le
      simp only [c3, c4, decide_true, decide_false, Bool.false_eq_true, beq_iff_eq, if_false]
      push Not at c3
      refine ⟨le_refl _, zero_le_one, ?_⟩
      have hR : (f - l) / (c - l) ≤ 2 * ε / d := small _ _ (by linarith) hlc
      have ht : tri l c r f ≤ 2 * ε / d := by
        unfold tri
        exact max_le (by positivity) ((min_le_left _ _).trans hR)
      have ht0 : 0 ≤ tri l c r f := le_max_left _ _
      rw [zero_sub, abs_neg, abs_of_nonneg ht0]
      linarith

/-- C147, with the scale factor. -/
theorem C147_weight (h : Rounding u fl) (hu : u < 1) (hm : Monotone fl) (h1 : fl 1 = 1) {p p' : ℕ → ℝ} {low high ε d s : ℝ}
    {nfft j k : ℕ} (hs0 : 0 ≤ s) (hs1 : s ≤ 1) (hd : 2 * ε < d) (h01 : d ≤ p (j + 1) - p j) (h12 : d ≤ p (j + 2) - p (j + 1))
    (e0 : |p' j - p j| ≤ ε) (e1 : |p' (j + 1) - p (j + 1)| ≤ ε) (e2 : |p' (j + 2) - p (j + 2)| ≤ ε)
    (ef : |flGrid fl low high (nfft / 2) k - colFreq low high nfft k| ≤ ε) :
    0 ≤ flWeight fl p' low high s nfft j k ∧ flWeight fl p' low high s nfft j k ≤ 1 ∧
      |flWeight fl p' low high s nfft j k - s * tri (p j) (p (j + 1)) (p (j + 2)) (colFreq low high nfft k)| ≤
        4 * ε / d + ((1 + u) ^ 2 / (1 - u) - 1) + ((1 + u) ^ 2 - 1) := by
  have hu0 := h.nonneg
  obtain ⟨a0, a1, a2⟩ := C147_entry h hu hm h1 hd h01 h12 e0 e1 e2 ef
  unfold flWeight
  generalize flEntry fl (p' j) (p' (j + 1)) (p' (j + 2)) (flGrid fl low high (nfft / 2) k) = x at *
  generalize tri (p j) (p (j + 1)) (p (j + 2)) (colFreq low high nfft k) = t at *
  have z := h.zero
  have fs0 : 0 ≤ fl s := by rw [← z]; exact hm hs0
  have fs1 : fl s ≤ 1 := by rw [← h1]; exact hm hs1
  have hx1 : x * fl s ≤ 1 := mul_le_one₀ a1 fs0 fs1
  refine ⟨by rw [← z]; exact hm (mul_nonneg a0 fs0), by rw [← h1]; exact hm hx1, ?_⟩
  have es := h.err s
  rw [abs_of_nonneg hs0] at es
  have k1 : |x * fl s - x * s| ≤ u * (x * s) := by
    rw [← mul_sub, abs_mul, abs_of_nonneg a0]
    nlinarith
  have k2 := fl_close h k1
  have hxs : x * s ≤ 1 := mul_le_one₀ a1 hs0 hs1
  have hxs0 : 0 ≤ x * s := mul_nonneg a0 hs0
  rw [abs_of_nonneg hxs0] at k2
  have k3 : |x * s - s * t| ≤ 4 * ε / d + ((1 + u) ^ 2 / (1 - u) - 1) := by
    rw [show x * s - s * t = s * (x - t) by ring, abs_mul, abs_of_nonneg hs0]
    exact (mul_le_of_le_one_left (abs_nonneg _) hs1).trans a2
  have k4 := abs_sub_le (fl (x * fl s)) (x * s) (s * t)
  have k5 : u * (x * s) + (1 + u) * (u * (x * s)) ≤ (1 + u) ^ 2 - 1 := by
    have : ((1 + u) ^ 2 - 1) * (x * s) ≤ ((1 + u) ^ 2 - 1) * 1 := by
      refine mul_le_mul_of_nonneg_left hxs ?_
      nlinarith
    nlinarith
  linarith

/-- The edges of a mel bank form a geometric sequence around `-b`, with ratio `e^r`. -/
theorem mel_geometric {a b low high : ℝ} (ha : 0 < a) (hb : 0 < b) (h0 : 0 ≤ low) (h1 : low ≤ high) (n j : ℕ) :
    b + melPoint a b low high n (j + 1) =
      (b + melPoint a b low high n j) * Real.exp (Real.log ((b + high) / (b + low)) / (n + 1)) := by
  have hb1 : 0 < b + low := by linarith
  have hb2 : 0 < b + high := by linarith
  obtain ⟨m, hm⟩ : ∃ m, m = linPoint (mel a b low) (mel a b high) n j := ⟨_, rfl⟩
  obtain ⟨D, hD⟩ : ∃ D, D = (mel a b high - mel a b low) / (n + 1) := ⟨_, rfl⟩
  have eD : Real.log 10 * (D / a) = Real.log ((b + high) / (b + low)) / (n + 1) := by
    have h10 : 0 < Real.log 10 := by linarith [log_ten_ge_one]
    rw [hD, mel, mel, Real.log_div hb2.ne' hb1.ne', Real.logb, Real.logb]
    have e1 : Real.log (1 + high / b) = Real.log (b + high) - Real.log b := by
      rw [← Real.log_div hb2.ne' hb.ne']; congr 1; field_simp
    have e2 : Real.log (1 + low / b) = Real.log (b + low) - Real.log b := by
      rw [← Real.log_div hb1.ne' hb.ne']; congr 1; field_simp
    rw [e1, e2]
    field_simp
    ring
  have em : linPoint (mel a b low) (mel a b high) n (j + 1) = m + D := by
    rw [hm, hD, linPoint, linPoint]; push_cast; ring
  have e10 : ∀ x : ℝ, (10 : ℝ) ^ x = Real.exp (Real.log 10 * x) := fun x => Real.rpow_def_of_pos (by norm_num) x
  unfold melPoint
  rw [em, ← hm, ← eD, ← e10]
  unfold melInv
  have e2 : (10 : ℝ) ^ ((m + D) / a) = 10 ^ (m / a) * 10 ^ (D / a) := by
    rw [← Real.rpow_add (by norm_num)]; congr 1; ring
  rw [e2]
  ring

theorem scale_range {scale : String} {w : ℕ → ℕ → ℝ} (hs : Scale scale w) {n j : ℕ} (hj : j < n) : 0 ≤ w n j ∧ w n j ≤ 1 := by
  have hn : (0 : ℝ) < n := by exact_mod_cast (by omega : 0 < n)
  have hj' : (j : ℝ) + 1 ≤ n := by exact_mod_cast hj
  have hj0 : (0 : ℝ) ≤ j := Nat.cast_nonneg j
  cases hs
  · exact ⟨by positivity, (div_le_one hn).mpr hj'⟩
  · exact ⟨div_nonneg (by linarith) hn.le, (div_le_one hn).mpr (by linarith)⟩
  · exact ⟨zero_le_one, le_refl _⟩

theorem melConst_bounds {ap : String} {a b : ℝ} (hm : MelConst ap a b) : 0 < a ∧ 0 < b ∧ 625 ≤ b ∧ b ≤ 700 := by
  cases hm <;> norm_num

/-- The logarithmic distance of two neighbouring edges of a mel bank of `n` filters. -/
noncomputable def melStep (b low high : ℝ) (n : ℕ) : ℝ := Real.log ((b + high) / (b + low)) / (n + 1)

/-- The error of the edges and of the grid of a mel bank, relative to `b` plus the frequency. -/
noncomputable def bankErr (u v b low high : ℝ) : ℝ :=
  max (edgeErr u v (Real.logb 10 (1 + high / b))) (((1 + u) ^ 4 - 1) * high / (b + low))

/-- The error of a weight when edges and grid are off by at most `ε` and the edges are at least `d` apart. -/
noncomputable def weightErr (u ε d : ℝ) : ℝ := 4 * ε / d + ((1 + u) ^ 2 / (1 - u) - 1) + ((1 + u) ^ 2 - 1)

theorem mel_entry (h : Rounding u fl) (hu : u ≤ 1 / 10) (hmono : Monotone fl) (h1 : fl 1 = 1) (hL : LogPow v lg p10)
    {approach : String} {w : ℕ → ℕ → ℝ} {scale : String} {a b low high r e : ℝ} (hs : Scale scale w)
    (hm : MelConst approach a b) (h0 : 0 ≤ low) (hlh : low < high) {n nfft j k : ℕ} (hnf : 2 ≤ nfft) (hj : j < n)
    (hk : k < nfft / 2 + 1) (hr : r = melStep b low high n) (he : bankErr u v b low high * Real.exp (2 * r) ≤ e)
    (hd : 2 * e < r) :
    0 ≤ flWeight fl (flMelPoint fl lg p10 a b low high n) low high (w n j) nfft j k ∧
    flWeight fl (flMelPoint fl lg p10 a b low high n) low high (w n j) nfft j k ≤ 1 ∧
    |flWeight fl (flMelPoint fl lg p10 a b low high n) low high (w n j) nfft j k - w n j *
        tri (melPoint a b low high n j) (melPoint a b low high n (j + 1)) (melPoint a b low high n (j + 2))
          (colFreq low high nfft k)| ≤ weightErr u e r := by
  obtain ⟨ha, hb, -, -⟩ := melConst_bounds hm
  have hu0 := h.nonneg
  obtain ⟨hs0, hs1⟩ := scale_range hs hj
  obtain ⟨hbot, -, hst⟩ := C26_mel_edges hm h0 hlh n
  have low_le : ∀ i, low ≤ melPoint a b low high n i := fun i => hbot.ge.trans (hst.monotone (Nat.zero_le i))
  have g1 := mel_geometric ha hb h0 hlh.le n j
  have g2 := mel_geometric ha hb h0 hlh.le n (j + 1)
  have er : Real.log ((b + high) / (b + low)) / (n + 1) = r := hr.symm
  rw [er] at g1 g2
  have hB0 : 0 ≤ bankErr u v b low high := by
    refine le_trans ?_ (le_max_right _ _)
    have : 1 ≤ (1 + u) ^ 4 := one_le_pow₀ (by linarith)
    exact div_nonneg (mul_nonneg (by linarith) (by linarith)) (by linarith)
  have hr0 : 0 < r := by
    have : 0 ≤ bankErr u v b low high * Real.exp (2 * r) := by positivity
    linarith
  obtain ⟨P, hP⟩ : ∃ P, P = b + melPoint a b low high n j := ⟨_, rfl⟩
  have hP0 : 0 < P := by linarith [low_le j]
  rw [← hP] at g1
  have hexp : r + 1 ≤ Real.exp r := Real.add_one_le_exp r
  have e2r : Real.exp (2 * r) = Real.exp r * Real.exp r := by rw [← Real.exp_add]; congr 1; ring
  have le1 : P ≤ P * Real.exp (2 * r) := le_mul_of_one_le_right hP0.le (Real.one_le_exp (by linarith))
  have le2 : P * Real.exp r ≤ P * Real.exp (2 * r) := by gcongr; linarith
  -- the edges, up to the third one
  have edge : ∀ i, i ≤ j + 2 → |flMelPoint fl lg p10 a b low high n i - melPoint a b low high n i| ≤ P * e := by
    intro i hi
    have k1 := C147_mel_edges h hu hL ha hb h0 hlh.le (show i ≤ n + 1 by omega)
    have k2 : b + melPoint a b low high n i ≤ P * Real.exp (2 * r) := by
      have : melPoint a b low high n i ≤ melPoint a b low high n (j + 2) := hst.monotone hi
      have e3 : b + melPoint a b low high n (j + 2) = P * Real.exp (2 * r) := by rw [g2, g1, e2r]; ring
      linarith
    have k3 : 0 < b + melPoint a b low high n i := by linarith [low_le i]
    calc _ ≤ (b + melPoint a b low high n i) * edgeErr u v (Real.logb 10 (1 + high / b)) := k1
      _ ≤ (b + melPoint a b low high n i) * bankErr u v b low high := by gcongr; exact le_max_left _ _
      _ ≤ P * Real.exp (2 * r) * bankErr u v b low high := by gcongr
      _ = P * (bankErr u v b low high * Real.exp (2 * r)) := by ring
      _ ≤ P * e := by gcongr
  have grid : |flGrid fl low high (nfft / 2) k - colFreq low high nfft k| ≤ P * e := by
    have k1 := C147_grid h h0 hlh.le hnf (k := k) (by omega)
    have k2 : ((1 + u) ^ 4 - 1) * high ≤ (b + low) * bankErr u v b low high := by
      rw [mul_comm (b + low), ← div_le_iff₀ (by linarith)]
      exact le_max_right _ _
    calc _ ≤ (b + low) * bankErr u v b low high := k1.trans k2
      _ ≤ P * bankErr u v b low high := by
        have := low_le j
        gcongr
        linarith
      _ ≤ P * Real.exp (2 * r) * bankErr u v b low high := by gcongr
      _ = P * (bankErr u v b low high * Real.exp (2 * r)) := by ring
      _ ≤ P * e := by gcongr
  have key := C147_weight h (by linarith) hmono h1 hs0 hs1 (ε := P * e) (d := P * r) (by nlinarith)
    (show P * r ≤ melPoint a b low high n (j + 1) - melPoint a b low high n j by nlinarith)
    (show P * r ≤ melPoint a b low high n (j + 2) - melPoint a b low high n (j + 1) by
      rw [g1] at g2
      have : P * (Real.exp r * r) ≤ P * (Real.exp r * (Real.exp r - 1)) := by gcongr; linarith
      have h3 : P * (1 * r) ≤ P * (Real.exp r * r) := by gcongr; linarith
      have e4 : melPoint a b low high n (j + 2) - melPoint a b low high n (j + 1) =
        P * (Real.exp r * (Real.exp r - 1)) := by
        have : melPoint a b low high n (j + 2) = P * Real.exp r * Real.exp r - b := by linarith
        rw [this]; linarith
      rw [e4]; linarith)
    (edge _ (by omega)) (edge _ (by omega)) (edge _ (by omega)) grid
  have e5 : 4 * (P * e) / (P * r) = 4 * e / r := by field_simp
  rw [e5] at key
  exact key

/-- C147 for `mel_filter_banks`: computed in floating point every weight is a number between 0 and 1 and close to the weight
that the exact function returns. -/
theorem C147_mel (h : Rounding u fl) (hu : u ≤ 1 / 10) (hmono : Monotone fl) (h1 : fl 1 = 1) (hL : LogPow v lg p10)
    {approach : String} {w : ℕ → ℕ → ℝ} {scale : String} {a b fs low high : ℝ} {hf : Option ℝ} (hs : Scale scale w)
    (hm : MelConst approach a b) (he : EffHigh fs hf high) (h0 : 0 ≤ low) (hlh : low < high) (h2 : high ≤ fs / 2) (n nfft : ℕ)
    (hnf : 2 ≤ nfft) {r e : ℝ} (hr : r = melStep b low high n) (hbe : bankErr u v b low high * Real.exp (2 * r) ≤ e)
    (hd : 2 * e < r) :
    ∃ bank cs, melFilterBanks n nfft fs low hf scale approach = .ok (bank, cs) ∧
      ∀ j < n, ∀ k < nfft / 2 + 1, ∃ x, (bank.getD j []).getD k (fin 0) = fin x ∧
        ∀ W, W = flWeight fl (flMelPoint fl lg p10 a b low high n) low high (w n j) nfft j k → 0 ≤ W ∧ W ≤ 1 ∧ |W - x| ≤ weightErr u e r := by
  obtain ⟨bank, cs, hbank, hM, -⟩ := C26_mel_triangles hs hm he h0 hlh h2 n nfft
  refine ⟨bank, cs, hbank, fun j hj k hk => ⟨_, hM.2.2 j k hj hk, fun W hW => ?_⟩⟩
  subst hW
  exact mel_entry h hu hmono h1 hL hs hm h0 hlh hnf hj hk hr hbe hd

/-- C147 for `inverse_mel_filter_banks`, which reverses the rows of the mel bank with the opposite scale (and takes absolute
values): nothing is lost by that. -/
theorem C147_inverse (h : Rounding u fl) (hu : u ≤ 1 / 10) (hmono : Monotone fl) (h1 : fl 1 = 1) (hL : LogPow v lg p10)
    {approach : String} {w : ℕ → ℕ → ℝ} {scale scale' : String} {a b fs low high : ℝ} (hsw : SwapScale scale scale')
    (hs : Scale scale' w) (hm : MelConst approach a b) (h0 : 0 ≤ low) (hlh : low < high) (h2 : high ≤ fs / 2) (n nfft : ℕ)
    (hnf : 2 ≤ nfft) {r e : ℝ} (hr : r = melStep b low high n) (hbe : bankErr u v b low high * Real.exp (2 * r) ≤ e)
    (hd : 2 * e < r) :
    ∃ bank cs, inverseMelFilterBanks n nfft fs low (some high) scale approach = .ok (bank, cs) ∧
      ∀ j < n, ∀ k < nfft / 2 + 1, ∃ x, (bank.getD j []).getD k (fin 0) = fin x ∧
        ∀ W, W = |flWeight fl (flMelPoint fl lg p10 a b low high n) low high (w n j) nfft j (nfft / 2 - k)| →
          0 ≤ W ∧ W ≤ 1 ∧ |W - x| ≤ weightErr u e r := by
  obtain ⟨bank, cs, hbank, hM⟩ := C31_inverse_mel_weights hsw hs hm h0 hlh h2 n nfft hnf
  refine ⟨bank, cs, hbank, fun j hj k hk => ⟨_, hM.2.2 j k hj hk, fun W hW => ?_⟩⟩
  have hMp : (0 : ℝ) < (nfft / 2 : ℕ) := by exact_mod_cast (by omega : 0 < nfft / 2)
  have e : low + high - colFreq low high nfft k = colFreq low high nfft (nfft / 2 - k) := by
    unfold colFreq
    rw [Nat.cast_sub (by omega)]
    field_simp
    ring
  obtain ⟨b0, b1, b2⟩ := mel_entry h hu hmono h1 hL hs hm h0 hlh hnf hj (k := nfft / 2 - k) (by omega) hr hbe hd
  rw [abs_of_nonneg b0] at hW
  rw [hW]
  beta_reduce
  rw [e]
  exact ⟨b0, b1, b2⟩

theorem lin_entry (h : Rounding u fl) (hu : u ≤ 1 / 10) (hmono : Monotone fl) (h1 : fl 1 = 1)
    {w : ℕ → ℕ → ℝ} {scale : String} {low high : ℝ} (hs : Scale scale w) (h0 : 0 ≤ low) (hlh : low < high) {n nfft j k : ℕ}
    (hnf : 2 ≤ nfft) (hj : j < n) (hk : k < nfft / 2 + 1) (hd : 2 * (((1 + u) ^ 4 - 1) * high) < (high - low) / (n + 1)) :
    0 ≤ flWeight fl (flPoint fl low high n) low high (w n j) nfft j k ∧
    flWeight fl (flPoint fl low high n) low high (w n j) nfft j k ≤ 1 ∧
    |flWeight fl (flPoint fl low high n) low high (w n j) nfft j k - w n j *
        tri (linPoint low high n j) (linPoint low high n (j + 1)) (linPoint low high n (j + 2)) (colFreq low high nfft k)| ≤
      weightErr u (((1 + u) ^ 4 - 1) * high) ((high - low) / (n + 1)) := by
  obtain ⟨hs0, hs1⟩ := scale_range hs hj
  have edge : ∀ i, i ≤ n + 1 → |flPoint fl low high n i - linPoint low high n i| ≤ ((1 + u) ^ 4 - 1) * high := by
    intro i hi
    have := C147_points h h0 hlh.le (le_refl high) (low' := low) (high' := high) (E := 0) (by simp) (by simp) hi
    linarith
  have gap : ∀ i : ℕ, (high - low) / (n + 1) ≤ linPoint low high n (i + 1) - linPoint low high n i := by
    intro i
    unfold linPoint
    push_cast
    exact le_of_eq (by ring)
  exact C147_weight h (by linarith) hmono h1 hs0 hs1 hd (gap j) (gap (j + 1))
    (edge j (by omega)) (edge (j + 1) (by omega)) (edge (j + 2) (by omega)) (C147_grid h h0 hlh.le hnf (k := k) (by omega))

/-- C147 for `linear_filter_banks`. -/
theorem C147_linear (h : Rounding u fl) (hu : u ≤ 1 / 10) (hmono : Monotone fl) (h1 : fl 1 = 1)
    {w : ℕ → ℕ → ℝ} {scale : String} {fs low high : ℝ} {hf : Option ℝ} (hs : Scale scale w)
    (he : EffHigh fs hf high) (h0 : 0 ≤ low) (hlh : low < high) (h2 : high ≤ fs / 2) (n nfft : ℕ)
    (hnf : 2 ≤ nfft) (hd : 2 * (((1 + u) ^ 4 - 1) * high) < (high - low) / (n + 1)) :
    ∃ bank cs, linearFilterBanks n nfft fs low hf scale = .ok (bank, cs) ∧
      ∀ j < n, ∀ k < nfft / 2 + 1, ∃ x, (bank.getD j []).getD k (fin 0) = fin x ∧
        ∀ W, W = |flWeight fl (flPoint fl low high n) low high (w n j) nfft j k| → 0 ≤ W ∧ W ≤ 1 ∧ |W - x| ≤
          weightErr u (((1 + u) ^ 4 - 1) * high) ((high - low) / (n + 1)) := by
  obtain ⟨bank, cs, hbank, hM, -⟩ := C30_linear_triangles hs he h0 hlh h2 n nfft
  refine ⟨bank, cs, hbank, fun j hj k hk => ⟨_, hM.2.2 j k hj hk, fun W hW => ?_⟩⟩
  obtain ⟨b0, b1, b2⟩ := lin_entry h hu hmono h1 hs h0 hlh hnf hj hk hd
  rw [abs_of_nonneg b0] at hW
  rw [hW]
  exact ⟨b0, b1, b2⟩

theorem exp_le_inv {x : ℝ} (hx : x < 1) : Real.exp x ≤ 1 / (1 - x) := by
  have h := Real.one_sub_le_exp_neg x
  rw [Real.exp_neg] at h
  rw [le_div_iff₀ (by linarith)]
  have := mul_le_mul_of_nonneg_left h (Real.exp_pos x).le
  rwa [mul_inv_cancel₀ (Real.exp_pos x).ne'] at this

theorem log_ten_le : Real.log 10 ≤ 2.31 := by
  rw [show (10 : ℝ) = 2 ^ 3 * (5 / 4) by norm_num, Real.log_mul (by norm_num) (by norm_num), Real.log_pow]
  have h1 := Real.log_two_lt_d9
  have h2 : Real.log (5 / 4) ≤ 0.23 := by
    rw [Real.log_le_iff_le_exp (by norm_num)]
    have := Real.quadratic_le_exp_of_nonneg (x := 0.23) (by norm_num)
    refine le_trans ?_ this
    norm_num
  push_cast
  linarith

/-- The edges in binary64 with `log10` and `10 **` accurate to `4·2⁻⁵³`, for frequencies up to 600 kHz. -/
theorem edgeErr_double {L : ℝ} (h0 : 0 ≤ L) (h1 : L ≤ 3) : edgeErr (1 / 2 ^ 53) (4 / 2 ^ 53) L ≤ 1.9 / 10 ^ 14 := by
  unfold edgeErr logArgErr
  generalize hQ : (1 / 2 ^ 53 : ℝ) * L + (1 + 1 / 2 ^ 53) * (((1 + 1 / 2 ^ 53) ^ 4 - 1) * L + 3 * (1 + 1 / 2 ^ 53) ^ 4 *
    (((1 + 1 / 2 ^ 53) * (1 + 4 / 2 ^ 53) - 1) * L + (1 + 1 / 2 ^ 53) * (1 + 4 / 2 ^ 53) *
      (((1 + 1 / 2 ^ 53) ^ 2 - 1) / (1 - ((1 + 1 / 2 ^ 53) ^ 2 - 1))))) = Q
  have hQ1 : Q ≤ 67 / 2 ^ 53 := by
    rw [← hQ]
    refine le_trans (b := (1 / 2 ^ 53 : ℝ) * 3 + (1 + 1 / 2 ^ 53) * (((1 + 1 / 2 ^ 53) ^ 4 - 1) * 3 + 3 * (1 + 1 / 2 ^ 53) ^ 4 *
      (((1 + 1 / 2 ^ 53) * (1 + 4 / 2 ^ 53) - 1) * 3 + (1 + 1 / 2 ^ 53) * (1 + 4 / 2 ^ 53) *
      (((1 + 1 / 2 ^ 53) ^ 2 - 1) / (1 - ((1 + 1 / 2 ^ 53) ^ 2 - 1)))))) ?_ (by norm_num)
    have k1 : (0 : ℝ) ≤ (1 + 1 / 2 ^ 53) ^ 4 - 1 := by norm_num
    have k2 : (0 : ℝ) ≤ (1 + 1 / 2 ^ 53) * (1 + 4 / 2 ^ 53) - 1 := by norm_num
    gcongr
  have h3 : (10 : ℝ) ^ Q ≤ 1 / (1 - 155 / 2 ^ 53) := by
    rw [Real.rpow_def_of_pos (by norm_num)]
    refine le_trans ?_ (exp_le_inv (by norm_num))
    rw [Real.exp_le_exp]
    have a1 := log_ten_le
    have a2 := log_ten_ge_one
    rcases le_or_gt 0 Q with hq | hq
    · calc Real.log 10 * Q ≤ 2.31 * (67 / 2 ^ 53) := by gcongr
        _ ≤ _ := by norm_num
    · have : Real.log 10 * Q ≤ 0 := mul_nonpos_of_nonneg_of_nonpos (by linarith) hq.le
      refine this.trans (by norm_num)
  have h4 : (1 + 1 / 2 ^ 53 : ℝ) ^ 2 * (1 + 4 / 2 ^ 53) * (10 : ℝ) ^ Q ≤
      (1 + 1 / 2 ^ 53) ^ 2 * (1 + 4 / 2 ^ 53) * (1 / (1 - 155 / 2 ^ 53)) := by gcongr
  refine le_trans (sub_le_sub_right h4 1) (by norm_num)

theorem bankErr_double {b low high : ℝ} (hb : 625 ≤ b) (h0 : 0 ≤ low) (hlh : low ≤ high) (h1 : high ≤ 40 * (b + low))
    (h6 : high ≤ 600000) : bankErr (1 / 2 ^ 53) (4 / 2 ^ 53) b low high ≤ 1.9 / 10 ^ 14 := by
  have hb0 : 0 < b := by linarith
  have hh : 0 ≤ high := h0.trans hlh
  have hq : high / b ≤ 960 := by rw [div_le_iff₀ hb0]; linarith
  have hq0 : 0 ≤ high / b := by positivity
  have hL : Real.logb 10 (1 + high / b) ≤ 3 := by
    rw [Real.logb_le_iff_le_rpow (by norm_num) (by linarith)]
    norm_num
    linarith
  have hL0 : 0 ≤ Real.logb 10 (1 + high / b) := Real.logb_nonneg (by norm_num) (by linarith)
  refine max_le (edgeErr_double hL0 hL) ?_
  rw [div_le_iff₀ (by linarith)]
  have : ((1 + 1 / 2 ^ 53 : ℝ) ^ 4 - 1) ≤ 4.5 / 10 ^ 16 := by norm_num
  calc ((1 + 1 / 2 ^ 53 : ℝ) ^ 4 - 1) * high ≤ 4.5 / 10 ^ 16 * (40 * (b + low)) := by gcongr
    _ = 1.8 / 10 ^ 14 * (b + low) := by ring
    _ ≤ _ := by gcongr; norm_num

theorem weightErr_double {e r : ℝ} : weightErr (1 / 2 ^ 53) e r ≤ 4 * e / r + 1 / 10 ^ 15 := by
  unfold weightErr
  have h2 : ((1 + 1 / 2 ^ 53 : ℝ) ^ 2 / (1 - 1 / 2 ^ 53) - 1) + ((1 + 1 / 2 ^ 53) ^ 2 - 1) ≤ 1 / 10 ^ 15 := by norm_num
  linarith

/-- C147 in double precision: IEEE binary64 arithmetic with a `log10` and a `10 **` accurate to four units `2⁻⁵³`. -/
theorem C147_double (hL : LogPow (4 / 2 ^ 53) lg p10)
    {approach : String} {w : ℕ → ℕ → ℝ} {scale : String} {a b fs low high r : ℝ} {hf : Option ℝ} (hs : Scale scale w)
    (hm : MelConst approach a b) (he : EffHigh fs hf high) (h0 : 0 ≤ low) (hlh : low < high) (h2 : high ≤ fs / 2)
    (h6 : high ≤ 600000) (h7 : high ≤ 40 * (b + low)) (n nfft : ℕ) (hnf : 2 ≤ nfft) (hr : r = melStep b low high n)
    (hd : 4 * Real.exp (2 * r) < 10 ^ 14 * r) :
    ∃ bank cs, melFilterBanks n nfft fs low hf scale approach = .ok (bank, cs) ∧
      ∀ j < n, ∀ k < nfft / 2 + 1, ∃ x, (bank.getD j []).getD k (fin 0) = fin x ∧
        ∀ W, W = flWeight fl64 (flMelPoint fl64 lg p10 a b low high n) low high (w n j) nfft j k →
          0 ≤ W ∧ W ≤ 1 ∧ |W - x| ≤ 8 / 10 ^ 14 * Real.exp (2 * r) / r := by
  obtain ⟨hR, hmono, -, -, -, hint⟩ := C130_binary64
  have e1 : fl64 1 = 1 := by simpa using hint 1 (by norm_num)
  obtain ⟨-, -, hb, -⟩ := melConst_bounds hm
  have hB := bankErr_double hb h0 hlh.le h7 h6
  have hX := Real.exp_pos (2 * r)
  have hr0 : 0 < r := by
    by_contra hcon
    push Not at hcon
    nlinarith
  obtain ⟨bank, cs, hbank, hall⟩ := C147_mel hR (by norm_num) hmono e1 hL hs hm he h0 hlh h2 n nfft hnf hr
    (mul_le_mul_of_nonneg_right hB hX.le) (by
      rw [show (2 : ℝ) * (1.9 / 10 ^ 14 * Real.exp (2 * r)) = 3.8 * Real.exp (2 * r) / 10 ^ 14 by ring,
        div_lt_iff₀ (by positivity)]
      linarith)
  refine ⟨bank, cs, hbank, fun j hj k hk => ?_⟩
  obtain ⟨x, hx, hW⟩ := hall j hj k hk
  refine ⟨x, hx, fun W hW' => ?_⟩
  obtain ⟨c0, c1, c2⟩ := hW W hW'
  refine ⟨c0, c1, (c2.trans weightErr_double).trans ?_⟩
  -- the last term is smaller than the rest since `r ≤ e^(2r)`
  have h8 : r ≤ Real.exp (2 * r) := by linarith [Real.add_one_le_exp (2 * r)]
  have h9 : 1 / 10 ^ 15 ≤ (1 / 10 ^ 15 : ℝ) * Real.exp (2 * r) / r := by
    rw [le_div_iff₀ hr0]
    gcongr
  have e9 : 8 / 10 ^ 14 * Real.exp (2 * r) / r =
      4 * (1.9 / 10 ^ 14 * Real.exp (2 * r)) / r + 4 * (1 / 10 ^ 15 * Real.exp (2 * r) / r) := by ring
  have : 0 ≤ (1 / 10 ^ 15 : ℝ) * Real.exp (2 * r) / r := by positivity
  linarith

theorem melStep_default : 0.1 ≤ melStep 700 0 8000 24 ∧ melStep 700 0 8000 24 ≤ 0.12 := by
  unfold melStep
  have h1 := Real.log_two_gt_d9
  have h2 := Real.log_two_lt_d9
  have e : Real.log ((700 + 8000) / (700 + 0)) = Real.log 12 + Real.log (29 / 28) := by
    rw [← Real.log_mul (by norm_num) (by norm_num)]
    congr 1
    norm_num
  have h3 : Real.log (29 / 28) ≤ 29 / 28 - 1 := Real.log_le_sub_one_of_pos (by norm_num)
  have h4 : 1 - (29 / 28 : ℝ)⁻¹ ≤ Real.log (29 / 28) := Real.one_sub_inv_le_log_of_pos (by norm_num)
  have h5 : Real.log 12 ≤ Real.log (2 ^ 4) := Real.log_le_log (by norm_num) (by norm_num)
  have h6 : 2.5 ≤ Real.log ((700 + 8000) / (700 + 0)) := by
    rw [Real.le_log_iff_exp_le (by norm_num), show (2.5 : ℝ) = 1 + 1 + 1 / 2 by norm_num, Real.exp_add, Real.exp_add]
    have a1 := Real.exp_one_lt_d9
    have a2 := Real.exp_one_gt_d9
    have a3 : Real.exp (1 / 2) ≤ 1.65 := by
      have : Real.exp (1 / 2) * Real.exp (1 / 2) = Real.exp 1 := by rw [← Real.exp_add]; norm_num
      by_contra hcon
      push Not at hcon
      nlinarith
    have a4 : Real.exp 1 * Real.exp 1 ≤ 7.39 := by nlinarith
    have a5 := Real.exp_pos (1 / 2)
    calc Real.exp 1 * Real.exp 1 * Real.exp (1 / 2) ≤ 7.39 * 1.65 := by gcongr
      _ ≤ _ := by norm_num
  rw [Real.log_pow] at h5
  push_cast at h5 ⊢
  constructor
  · rw [le_div_iff₀ (by norm_num)]; linarith
  · rw [div_le_iff₀ (by norm_num), e]; norm_num at h3; linarith

/-- C147: the default bank of `mel_filter_banks` and of the feature functions (24 filters, 512 points, 16 kHz, O'Shaughnessy)
in double precision: no weight is off by more than `1.1·10⁻¹²`. -/
theorem C147_default (hL : LogPow (4 / 2 ^ 53) lg p10) {w : ℕ → ℕ → ℝ} {scale : String} (hs : Scale scale w) :
    ∃ bank cs, melFilterBanks 24 512 16000 0 none scale "Oshaghnessy" = .ok (bank, cs) ∧
      ∀ j < 24, ∀ k < 257, ∃ x, (bank.getD j []).getD k (fin 0) = fin x ∧
        ∀ W, W = flWeight fl64 (flMelPoint fl64 lg p10 2595 700 0 8000 24) 0 8000 (w 24 j) 512 j k →
          0 ≤ W ∧ W ≤ 1 ∧ |W - x| ≤ 1.1 / 10 ^ 12 := by
  obtain ⟨r, hr⟩ : ∃ r, r = melStep 700 0 8000 24 := ⟨_, rfl⟩
  obtain ⟨r1, r2⟩ := melStep_default
  rw [← hr] at r1 r2
  have hX : Real.exp (2 * r) ≤ 1 / (1 - 0.24) :=
    (Real.exp_le_exp.mpr (by linarith)).trans (exp_le_inv (by norm_num))
  obtain ⟨bank, cs, hbank, hall⟩ := C147_double (fs := 16000) (low := 0) (high := 8000) (hf := none) hL hs
    MelConst.oshaghnessy (by convert EffHigh.none (fs := 16000) using 1; norm_num) le_rfl (by norm_num) (by norm_num)
    (by norm_num) (by norm_num) 24 512 (by norm_num) hr (by norm_num at hX ⊢; linarith)
  refine ⟨bank, cs, hbank, fun j hj k hk => ?_⟩
  obtain ⟨x, hx, hW⟩ := hall j hj k (by omega)
  refine ⟨x, hx, fun W hW' => ?_⟩
  obtain ⟨c0, c1, c2⟩ := hW W hW'
  refine ⟨c0, c1, c2.trans ?_⟩
  calc 8 / 10 ^ 14 * Real.exp (2 * r) / r ≤ 8 / 10 ^ 14 * (1 / (1 - 0.24)) / 0.1 := by gcongr
    _ ≤ _ := by norm_num

/-- Non-vacuity: correctly rounded `log10` and `10 **` meet the assumption. -/
example : LogPow (4 / 2 ^ 53) (fun t => fl64 (Real.logb 10 t)) (fun t => fl64 ((10 : ℝ) ^ t)) := by
  refine ⟨by positivity, fun t _ => ?_, fun t => ?_⟩
  · refine (fl64_err _).trans ?_
    gcongr
    norm_num
  · refine (fl64_err _).trans ?_
    have : (0 : ℝ) < 10 ^ t := by positivity
    rw [abs_of_pos this]
    gcongr
    norm_num

end

end Props
end Spafe
