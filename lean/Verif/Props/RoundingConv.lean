import Verif.Model.RoundingConv
import Verif.Props.RoundingBank
import Mathlib.Analysis.SpecialFunctions.Trigonometric.Series

/-! C180: the round trips through the mel, ERB and Bark scales in floating point. -/

set_option linter.unusedSectionVars false

namespace Spafe
namespace Props
open Model XF Spec

variable {u v : ℝ} {fl lg p10 as sh : ℝ → ℝ}

/-! ### Mel and ERB -/

/-- The error of the round trip relative to `b` plus the frequency, where `L = log10(1 + f / b)`. -/
noncomputable def roundTripErr (u v L : ℝ) : ℝ :=
  (1 + u) ^ 2 * (1 + v) * (10 : ℝ) ^ (u * L + (1 + u) * (((1 + u) * (1 + v) - 1) * L + (1 + u) * (1 + v) * logArgErr u)) - 1

/-- C180: `mel2hz(hz2mel(f))` in floating point, for any scale `a log10(1 + f / b)`. -/
theorem C180_mel (h : Rounding u fl) (hu : u ≤ 1 / 10) (hL : LogPow v lg p10) {a b f : ℝ} (ha : 0 < a) (hb : 0 < b)
    (hf : 0 ≤ f) :
    |flMelInv fl p10 a b (flMel fl lg a b f) - f| ≤ (b + f) * roundTripErr u v (Real.logb 10 (1 + f / b)) := by
  have hL0 : 0 ≤ Real.logb 10 (1 + f / b) := Real.logb_nonneg (by norm_num) (by linarith [div_nonneg hf hb.le])
  have hm : 0 ≤ mel a b f := by unfold mel; positivity
  have hinv : melInv a b (mel a b f) = f := by
    unfold melInv mel
    rw [mul_div_cancel_left₀ _ ha.ne', Real.rpow_logb (by norm_num) (by norm_num) (by positivity)]
    field_simp
    ring
  have h1 := C147_mel2hz h hL ha hb hm le_rfl (C147_hz2mel h hu hL ha hb hf)
  rw [hinv] at h1
  refine h1.trans (le_of_eq ?_)
  unfold roundTripErr
  congr 4
  unfold mel
  field_simp

theorem roundTripErr_double {L : ℝ} (h0 : 0 ≤ L) (h1 : L ≤ 3) : roundTripErr (1 / 2 ^ 53) (4 / 2 ^ 53) L ≤ 7 / 10 ^ 15 := by
  unfold roundTripErr logArgErr
  generalize hQ : (1 / 2 ^ 53 : ℝ) * L + (1 + 1 / 2 ^ 53) * (((1 + 1 / 2 ^ 53) * (1 + 4 / 2 ^ 53) - 1) * L +
    (1 + 1 / 2 ^ 53) * (1 + 4 / 2 ^ 53) * (((1 + 1 / 2 ^ 53) ^ 2 - 1) / (1 - ((1 + 1 / 2 ^ 53) ^ 2 - 1)))) = Q
  have hQ1 : Q ≤ 20.1 / 2 ^ 53 := by
    rw [← hQ]
    refine le_trans (b := (1 / 2 ^ 53 : ℝ) * 3 + (1 + 1 / 2 ^ 53) * (((1 + 1 / 2 ^ 53) * (1 + 4 / 2 ^ 53) - 1) * 3 +
      (1 + 1 / 2 ^ 53) * (1 + 4 / 2 ^ 53) * (((1 + 1 / 2 ^ 53) ^ 2 - 1) / (1 - ((1 + 1 / 2 ^ 53) ^ 2 - 1))))) ?_ (by norm_num)
    have k2 : (0 : ℝ) ≤ (1 + 1 / 2 ^ 53) * (1 + 4 / 2 ^ 53) - 1 := by norm_num
    gcongr
  have h3 : (10 : ℝ) ^ Q ≤ 1 / (1 - 47 / 2 ^ 53) := by
    rw [Real.rpow_def_of_pos (by norm_num)]
    refine le_trans ?_ (exp_le_inv (by norm_num))
    rw [Real.exp_le_exp]
    have a1 := log_ten_le
    have a2 := log_ten_ge_one
    rcases le_or_gt 0 Q with hq | hq
    · calc Real.log 10 * Q ≤ 2.31 * (20.1 / 2 ^ 53) := by gcongr
        _ ≤ _ := by norm_num
    · have : Real.log 10 * Q ≤ 0 := mul_nonpos_of_nonneg_of_nonpos (by linarith) hq.le
      refine this.trans (by norm_num)
  have h4 : (1 + 1 / 2 ^ 53 : ℝ) ^ 2 * (1 + 4 / 2 ^ 53) * (10 : ℝ) ^ Q ≤
      (1 + 1 / 2 ^ 53) ^ 2 * (1 + 4 / 2 ^ 53) * (1 / (1 - 47 / 2 ^ 53)) := by gcongr
  refine le_trans (sub_le_sub_right h4 1) (by norm_num)

/-- C180 in double precision: for every frequency up to 600 kHz the round trip through either mel formula is off by at most
`7e-15 (b + f)`, less than 1e-9 Hz up to 100 kHz. -/
theorem C180_mel_double (hL : LogPow (4 / 2 ^ 53) lg p10) {approach : String} {a b f : ℝ} (hm : MelConst approach a b)
    (hf : 0 ≤ f) (h6 : f ≤ 600000) :
    |flMelInv fl64 p10 a b (flMel fl64 lg a b f) - f| ≤ 7 / 10 ^ 15 * (b + f) := by
  have hab : 0 < a ∧ 625 ≤ b := by cases hm <;> norm_num
  obtain ⟨ha, hb⟩ := hab
  have hb0 : 0 < b := by linarith
  have hq : f / b ≤ 960 := by rw [div_le_iff₀ hb0]; linarith
  have hq0 : 0 ≤ f / b := by positivity
  have hL3 : Real.logb 10 (1 + f / b) ≤ 3 := by
    rw [Real.logb_le_iff_le_rpow (by norm_num) (by linarith)]
    norm_num
    linarith
  have hL0 : 0 ≤ Real.logb 10 (1 + f / b) := Real.logb_nonneg (by norm_num) (by linarith)
  refine (C180_mel C130_binary64.1 (by norm_num) hL ha hb0 hf).trans ?_
  rw [mul_comm]
  gcongr
  exact roundTripErr_double hL0 hL3

theorem flErb_eq (fl lg : ℝ → ℝ) (A : ℝ) {k : ℝ} (f : ℝ) : flErb fl lg A k f = flMel fl lg A (1 / k) f := by
  unfold flErb flMel
  congr 6
  rw [div_div_eq_mul_div, div_one]

theorem flErbInv_eq (fl p10 : ℝ → ℝ) (A : ℝ) {k : ℝ} (e : ℝ) : flErbInv fl p10 A k e = flMelInv fl p10 A (1 / k) e := by
  unfold flErbInv flMelInv
  congr 1
  ring

/-- C180: `erb2hz(hz2erb(f))` in double precision, whatever positive values the constants `A` and `k` (about 0.00437) are
stored with: off by at most `7e-15 (1/k + f)` up to 200 kHz. -/
theorem C180_erb_double (hL : LogPow (4 / 2 ^ 53) lg p10) {A k f : ℝ} (hA : 0 < A) (hk0 : 0 < k) (hk : k ≤ 0.0044)
    (hf : 0 ≤ f) (h6 : f ≤ 200000) :
    |flErbInv fl64 p10 A k (flErb fl64 lg A k f) - f| ≤ 7 / 10 ^ 15 * (1 / k + f) := by
  rw [flErb_eq, flErbInv_eq]
  have hq : f / (1 / k) ≤ 960 := by
    rw [div_div_eq_mul_div, div_one]
    calc f * k ≤ 200000 * 0.0044 := by gcongr
      _ ≤ _ := by norm_num
  have hb0 : 0 < 1 / k := by positivity
  have hq0 : 0 ≤ f / (1 / k) := by positivity
  have hL3 : Real.logb 10 (1 + f / (1 / k)) ≤ 3 := by
    rw [Real.logb_le_iff_le_rpow (by norm_num) (by linarith)]
    norm_num at hq ⊢
    linarith
  have hL0 : 0 ≤ Real.logb 10 (1 + f / (1 / k)) := Real.logb_nonneg (by norm_num) (by linarith)
  refine (C180_mel C130_binary64.1 (by norm_num) hL hA hb0 hf).trans ?_
  rw [mul_comm]
  gcongr
  exact roundTripErr_double hL0 hL3

/-! ### Bark -/

theorem sinh_le_mul_cosh {x : ℝ} (hx : 0 ≤ x) : Real.sinh x ≤ x * Real.cosh x := by
  have hd : ∀ y : ℝ, HasDerivAt (fun y => y * Real.cosh y - Real.sinh y) (y * Real.sinh y) y := by
    intro y
    have h1 := ((hasDerivAt_id' y).fun_mul (Real.hasDerivAt_cosh y)).fun_sub (Real.hasDerivAt_sinh y)
    have e : 1 * Real.cosh y + y * Real.sinh y - Real.cosh y = y * Real.sinh y := by ring
    rwa [e] at h1
  have hm : MonotoneOn (fun y => y * Real.cosh y - Real.sinh y) (Set.Ici 0) := by
    apply monotoneOn_of_deriv_nonneg (convex_Ici 0)
    · exact fun y _ => (hd y).continuousAt.continuousWithinAt
    · exact fun y _ => (hd y).differentiableAt.differentiableWithinAt
    · intro y hy
      rw [(hd y).deriv]
      have hy0 : 0 ≤ y := by
        rw [interior_Ici] at hy
        exact (Set.mem_Ioi.mp hy).le
      exact mul_nonneg hy0 (Real.sinh_nonneg_iff.mpr hy0)
  have := hm (Set.mem_Ici.mpr le_rfl) (Set.mem_Ici.mpr hx) hx
  simp at this
  linarith

theorem sinh_mul_ge {x t : ℝ} (hx : 0 ≤ x) (ht : 0 ≤ t) : (1 + t) * Real.sinh x ≤ Real.sinh ((1 + t) * x) := by
  rw [show (1 + t) * x = x + t * x by ring, Real.sinh_add]
  have h1 : t * x ≤ Real.sinh (t * x) := Real.self_le_sinh_iff.mpr (by positivity)
  have h2 := Real.one_le_cosh (t * x)
  have h3 := sinh_le_mul_cosh hx
  have h4 := Real.sinh_nonneg_iff.mpr hx
  have h5 := Real.cosh_pos x
  nlinarith [mul_le_mul_of_nonneg_left h1 h5.le, mul_le_mul_of_nonneg_left h2 h4, mul_le_mul_of_nonneg_left h3 ht]

/-- A relative error of the argument is at most the same relative error of `arsinh`. -/
theorem arsinh_close {t t' q : ℝ} (ht : 0 ≤ t) (hq0 : 0 ≤ q) (hq1 : q < 1) (h : |t' - t| ≤ q * t) :
    |Real.arsinh t' - Real.arsinh t| ≤ q * Real.arsinh t := by
  obtain ⟨h1, h2⟩ := abs_le.mp h
  have hx : 0 ≤ Real.arsinh t := Real.arsinh_nonneg_iff.mpr ht
  obtain ⟨x, hxd⟩ : ∃ x, x = Real.arsinh t := ⟨_, rfl⟩
  have hs : Real.sinh x = t := by rw [hxd, Real.sinh_arsinh]
  rw [← hxd] at hx ⊢
  have up : Real.arsinh t' ≤ (1 + q) * x := by
    rw [← Real.arsinh_sinh ((1 + q) * x)]
    apply Real.arsinh_le_arsinh.mpr
    have := sinh_mul_ge hx hq0
    rw [hs] at this
    linarith
  have dn : (1 - q) * x ≤ Real.arsinh t' := by
    rw [← Real.arsinh_sinh ((1 - q) * x)]
    apply Real.arsinh_le_arsinh.mpr
    have hq2 : 0 < 1 - q := by linarith
    have h3 := sinh_mul_ge (x := (1 - q) * x) (t := 1 / (1 - q) - 1) (by positivity) (by
      rw [sub_nonneg, le_div_iff₀ hq2]; linarith)
    have e : (1 + (1 / (1 - q) - 1)) * ((1 - q) * x) = x := by field_simp; ring
    rw [e, hs] at h3
    have h4 : Real.sinh ((1 - q) * x) ≤ (1 - q) * t := by
      have h5 : 1 + (1 / (1 - q) - 1) = 1 / (1 - q) := by ring
      rw [h5] at h3
      calc Real.sinh ((1 - q) * x) = (1 - q) * (1 / (1 - q) * Real.sinh ((1 - q) * x)) := by field_simp
        _ ≤ _ := by gcongr
    linarith
  rw [abs_le]
  constructor <;> linarith

/-- A relative error `q` of the argument `x` of `sinh` costs about `q (1 + x)`. -/
theorem sinh_close {x x' q : ℝ} (hx : 0 ≤ x) (h : |x' - x| ≤ q * x) :
    |Real.sinh x' - Real.sinh x| ≤ Real.sinh x * (Real.cosh (q * x) * (1 + q * (1 + x)) - 1) := by
  obtain ⟨d, hd⟩ : ∃ d, d = x' - x := ⟨_, rfl⟩
  have e : x' = x + d := by rw [hd]; ring
  rw [← hd] at h
  have hqx : 0 ≤ q * x := (abs_nonneg d).trans h
  have hs := Real.sinh_nonneg_iff.mpr hx
  rw [e, Real.sinh_add, show Real.sinh x * Real.cosh d + Real.cosh x * Real.sinh d - Real.sinh x =
    Real.sinh x * (Real.cosh d - 1) + Real.cosh x * Real.sinh d by ring]
  have h1 : Real.cosh d ≤ Real.cosh (q * x) := by
    rw [Real.cosh_le_cosh, abs_of_nonneg hqx]; exact h
  have h2 : |Real.sinh d| ≤ q * x * Real.cosh (q * x) := by
    rw [Real.abs_sinh]
    exact (Real.sinh_le_sinh.mpr h).trans (sinh_le_mul_cosh hqx)
  have h3 : x * Real.cosh x ≤ Real.sinh x * (1 + x) := by
    have k1 : Real.cosh x = Real.sinh x + Real.exp (-x) := by
      have := Real.cosh_sub_sinh x
      linarith
    have k2 : Real.exp (-x) ≤ 1 := Real.exp_le_one_iff.mpr (by linarith)
    have k3 : x ≤ Real.sinh x := Real.self_le_sinh_iff.mpr hx
    rw [k1]
    nlinarith
  have h4 := Real.one_le_cosh d
  have h5 := Real.cosh_pos (q * x)
  have hq : 0 ≤ q ∨ x = 0 := by
    rcases eq_or_lt_of_le hx with h | h
    · right; exact h.symm
    · left; exact nonneg_of_mul_nonneg_left hqx h
  have h6 : Real.cosh x * (q * x * Real.cosh (q * x)) ≤ Real.sinh x * (1 + x) * q * Real.cosh (q * x) := by
    rcases hq with hq | hq
    · calc Real.cosh x * (q * x * Real.cosh (q * x)) = (x * Real.cosh x) * q * Real.cosh (q * x) := by ring
        _ ≤ _ := by gcongr
    · subst hq; simp
  calc |Real.sinh x * (Real.cosh d - 1) + Real.cosh x * Real.sinh d| ≤
      |Real.sinh x * (Real.cosh d - 1)| + |Real.cosh x * Real.sinh d| := abs_add_le _ _
    _ = Real.sinh x * (Real.cosh d - 1) + Real.cosh x * |Real.sinh d| := by
        rw [abs_mul, abs_mul, abs_of_nonneg hs, abs_of_nonneg (by linarith : (0 : ℝ) ≤ Real.cosh d - 1),
          abs_of_pos (Real.cosh_pos x)]
    _ ≤ Real.sinh x * (Real.cosh (q * x) - 1) + Real.cosh x * (q * x * Real.cosh (q * x)) := by
        have := Real.cosh_pos x
        gcongr
    _ ≤ Real.sinh x * (Real.cosh (q * x) - 1) + Real.sinh x * (1 + x) * q * Real.cosh (q * x) := by gcongr
    _ = _ := by ring

/-- The relative error of the Bark round trip at `x = arsinh(f / d)`. -/
noncomputable def barkTripErr (u v x : ℝ) : ℝ :=
  (1 + u) * (1 + v) * (Real.cosh (((1 + u) ^ 3 * (1 + v) - 1) * x) * (1 + ((1 + u) ^ 3 * (1 + v) - 1) * (1 + x))) - 1

theorem rel_step {x y g e : ℝ} (hy : 0 ≤ y) (he : 0 ≤ e) (h1 : |x - y| ≤ (g - 1) * y) {z : ℝ} (h2 : |z - x| ≤ e * |x|) :
    |z - y| ≤ ((1 + e) * g - 1) * y := by
  have h3 : |x| ≤ g * y := by
    have := abs_sub_abs_le_abs_sub x y
    rw [abs_of_nonneg hy] at this
    linarith
  have h4 := abs_sub_le z x y
  nlinarith [mul_le_mul_of_nonneg_left h3 he]

/-- C180: `bark2hz(hz2bark(f))` for Wang and Schroeder in floating point: the relative error is small at every frequency. -/
theorem C180_bark (h : Rounding u fl) (hu : u < 1) (hS : AsinhSinh v as sh) {c d f : ℝ} (hc : 0 < c) (hd : 0 < d) (hf : 0 ≤ f) :
    |flBarkInv fl sh c d (flBark fl as c d f) - f| ≤ barkTripErr u v (Real.arsinh (f / d)) * f := by
  have hu0 := h.nonneg
  have hv0 := hS.nonneg
  obtain ⟨t, ht⟩ : ∃ t, t = f / d := ⟨_, rfl⟩
  have ht0 : 0 ≤ t := by rw [ht]; positivity
  obtain ⟨x, hx⟩ : ∃ x, x = Real.arsinh t := ⟨_, rfl⟩
  have hx0 : 0 ≤ x := by rw [hx]; exact Real.arsinh_nonneg_iff.mpr ht0
  have e1 : |fl t - t| ≤ u * t := by
    have := h.err t
    rwa [abs_of_nonneg ht0] at this
  have e2 : |Real.arsinh (fl t) - x| ≤ ((1 + u) - 1) * x := by
    rw [hx]
    have := arsinh_close ht0 hu0 hu e1
    linarith
  have e3 := rel_step hx0 hv0 e2 (hS.as_err (fl t))
  have e4 : |c * as (fl t) - c * x| ≤ ((1 + v) * (1 + u) - 1) * (c * x) := by
    rw [← mul_sub, abs_mul, abs_of_pos hc]
    calc _ ≤ c * (((1 + v) * (1 + u) - 1) * x) := by gcongr
      _ = _ := by ring
  have e5 := rel_step (by positivity) hu0 e4 (h.err (c * as (fl t)))
  obtain ⟨m, hm⟩ : ∃ m, m = fl (c * as (fl t)) := ⟨_, rfl⟩
  rw [← hm] at e5
  have e6 : |m / c - x| ≤ ((1 + u) * ((1 + v) * (1 + u)) - 1) * x := by
    have : m / c - x = (m - c * x) / c := by field_simp
    rw [this, abs_div, abs_of_pos hc, div_le_iff₀ hc]
    refine e5.trans (le_of_eq (by ring))
  have e7 := rel_step hx0 hu0 e6 (h.err (m / c))
  have e7' : |fl (m / c) - x| ≤ ((1 + u) ^ 3 * (1 + v) - 1) * x := e7.trans (le_of_eq (by ring))
  have e8 := sinh_close hx0 e7'
  have hst : Real.sinh x = t := by rw [hx, Real.sinh_arsinh]
  obtain ⟨K, hK⟩ : ∃ K, K = Real.cosh (((1 + u) ^ 3 * (1 + v) - 1) * x) * (1 + ((1 + u) ^ 3 * (1 + v) - 1) * (1 + x)) := ⟨_, rfl⟩
  rw [← hK, hst, mul_comm] at e8
  have e9 := rel_step ht0 hv0 e8 (hS.sh_err (fl (m / c)))
  have e10 : |d * sh (fl (m / c)) - d * t| ≤ ((1 + v) * K - 1) * (d * t) := by
    rw [← mul_sub, abs_mul, abs_of_pos hd]
    calc _ ≤ d * (((1 + v) * K - 1) * t) := by gcongr
      _ = _ := by ring
  have e11 := rel_step (by positivity) hu0 e10 (h.err (d * sh (fl (m / c))))
  have hdt : d * t = f := by rw [ht]; field_simp
  rw [hdt] at e11
  unfold flBarkInv flBark barkTripErr
  rw [← ht, ← hx, ← hm, ← hK]
  refine e11.trans (le_of_eq (by ring))

theorem barkTripErr_double {x : ℝ} (h0 : 0 ≤ x) (h1 : x ≤ 7) : barkTripErr (1 / 2 ^ 53) (4 / 2 ^ 53) x ≤ 7 / 10 ^ 15 := by
  unfold barkTripErr
  obtain ⟨q, hq⟩ : ∃ q : ℝ, q = (1 + 1 / 2 ^ 53) ^ 3 * (1 + 4 / 2 ^ 53) - 1 := ⟨_, rfl⟩
  have hq0 : 0 ≤ q := by rw [hq]; norm_num
  have hq1 : q ≤ 7.01 / 2 ^ 53 := by rw [hq]; norm_num
  rw [← hq]
  have h2 : Real.cosh (q * x) ≤ 1 / (1 - 1 / 2 ^ 60) := by
    refine (Real.cosh_le_exp_half_sq _).trans ?_
    refine le_trans ?_ (exp_le_inv (by norm_num))
    rw [Real.exp_le_exp]
    calc (q * x) ^ 2 / 2 ≤ (7.01 / 2 ^ 53 * 7) ^ 2 / 2 := by gcongr
      _ ≤ _ := by norm_num
  have h3 := Real.cosh_pos (q * x)
  calc (1 + 1 / 2 ^ 53) * (1 + 4 / 2 ^ 53) * (Real.cosh (q * x) * (1 + q * (1 + x))) - 1 ≤
      (1 + 1 / 2 ^ 53) * (1 + 4 / 2 ^ 53) * (1 / (1 - 1 / 2 ^ 60) * (1 + 7.01 / 2 ^ 53 * (1 + 7))) - 1 := by gcongr
    _ ≤ _ := by norm_num

theorem sinh_seven : 500 ≤ Real.sinh 7 := by
  rw [Real.sinh_eq]
  have h1 : (2.7182818283 : ℝ) ^ 7 ≤ Real.exp 7 := by
    rw [show (7 : ℝ) = ((7 : ℕ) : ℝ) * 1 by norm_num, Real.exp_nat_mul]
    exact pow_le_pow_left₀ (by norm_num) Real.exp_one_gt_d9.le 7
  have h2 : Real.exp (-7) ≤ 1 := Real.exp_le_one_iff.mpr (by norm_num)
  norm_num at h1
  linarith

/-- C180 in double precision: for every frequency up to 300 kHz the round trip through the Bark scale of Wang (`c = 6`,
`d = 600`) or Schroeder (`c = 7`, `d = 650`) has a relative error of at most `7e-15`; `fl64` has no smallest exponent, so denormal numbers are left out. -/
theorem C180_bark_double (hS : AsinhSinh (4 / 2 ^ 53) as sh) {c d f : ℝ} (hcd : (c, d) ∈ [((6 : ℝ), (600 : ℝ)), (7, 650)])
    (hf : 0 ≤ f) (h6 : f ≤ 300000) :
    |flBarkInv fl64 sh c d (flBark fl64 as c d f) - f| ≤ 7 / 10 ^ 15 * f := by
  have hcd' : 0 < c ∧ 600 ≤ d := by
    simp only [List.mem_cons, Prod.mk.injEq, List.not_mem_nil, or_false] at hcd
    rcases hcd with ⟨rfl, rfl⟩ | ⟨rfl, rfl⟩ <;> norm_num
  obtain ⟨hc, hd⟩ := hcd'
  have hd0 : 0 < d := by linarith
  have hx : Real.arsinh (f / d) ≤ 7 := by
    rw [← Real.arsinh_sinh 7]
    apply Real.arsinh_le_arsinh.mpr
    refine le_trans ?_ sinh_seven
    rw [div_le_iff₀ hd0]
    linarith
  refine (C180_bark C130_binary64.1 (by norm_num) hS hc hd0 hf).trans ?_
  gcongr
  exact barkTripErr_double (Real.arsinh_nonneg_iff.mpr (by positivity)) hx

/-- C180: the round trip through the Bark scale of Tjomov, which shifts the frequencies by 20 Hz, in double precision: off by
at most `8e-15 (f + 20)` up to 250 kHz, whatever positive value the constant 6.7 is stored with. -/
theorem C180_tjomov_double (hS : AsinhSinh (4 / 2 ^ 53) as sh) {c f : ℝ} (hc : 0 < c) (hf : 0 ≤ f) (h6 : f ≤ 250000) :
    |flTjomovInv fl64 sh c (flTjomov fl64 as c f) - f| ≤ 8 / 10 ^ 15 * (f + 20) := by
  have hR := C130_binary64.1
  obtain ⟨g, hg⟩ : ∃ g, g = fl64 (f + 20) := ⟨_, rfl⟩
  have h1 := hR.err (f + 20)
  rw [← hg, abs_of_nonneg (by linarith : (0 : ℝ) ≤ f + 20)] at h1
  obtain ⟨h2, h3⟩ := abs_le.mp h1
  have hg0 : 0 ≤ g := by norm_num at h2; linarith
  have hg1 : g ≤ 300000 := by norm_num at h3; linarith
  have hx : Real.arsinh (g / 600) ≤ 7 := by
    rw [← Real.arsinh_sinh 7]
    apply Real.arsinh_le_arsinh.mpr
    refine le_trans ?_ sinh_seven
    rw [div_le_iff₀ (by norm_num)]
    linarith
  have h4 := C180_bark hR (by norm_num) hS hc (by norm_num : (0 : ℝ) < 600) hg0
  have h5 : |flBarkInv fl64 sh c 600 (flBark fl64 as c 600 g) - g| ≤ 7 / 10 ^ 15 * g := by
    refine h4.trans ?_
    gcongr
    exact barkTripErr_double (Real.arsinh_nonneg_iff.mpr (by positivity)) hx
  unfold flTjomovInv flTjomov
  rw [← hg]
  generalize flBarkInv fl64 sh c 600 (flBark fl64 as c 600 g) = r at h5
  obtain ⟨h7, h8⟩ := abs_le.mp h5
  have h9 : |r - 20 - f| ≤ 7.2 / 10 ^ 15 * (f + 20) := by
    norm_num at h2 h3 h7 h8
    rw [abs_le]
    constructor <;> norm_num <;> linarith
  have h10 := fl_close hR h9
  rw [abs_of_nonneg hf] at h10
  refine h10.trans ?_
  norm_num
  linarith

/-! ### Order -/

/-- C180: with a monotone rounding and a monotone `log10` the computed mel scale keeps the order of frequencies, not
necessarily strictly. -/
theorem C180_monotone (hfl : Monotone fl) (hlg : Monotone lg) {a b : ℝ} (ha : 0 < a) (hb : 0 < b) : Monotone (flMel fl lg a b) := by
  intro x y hxy
  unfold flMel
  apply hfl
  apply mul_le_mul_of_nonneg_left _ ha.le
  apply hlg
  apply hfl
  have : fl (x / b) ≤ fl (y / b) := hfl (by gcongr)
  linarith

theorem fl64_one_add {x : ℝ} (h0 : 0 ≤ x) (h1 : x ≤ 1 / 2 ^ 54) : fl64 (1 + x) = 1 := by
  have h := fl64_eq (x := 1 + x) (e := 0) (r := 2 ^ 52) (by simpa using h0) (by norm_num at h1 ⊢; linarith) (by
    have : (1 + x) / (2 : ℝ) ^ ((0 : ℤ) - 52) - ((2 ^ 52 : ℤ) : ℝ) = x * 2 ^ 52 := by
      rw [show ((0 : ℤ) - 52) = -(52 : ℕ) by norm_num, zpow_neg, zpow_natCast, div_inv_eq_mul]
      push_cast
      ring
    rw [this, abs_of_nonneg (by positivity)]
    calc x * 2 ^ 52 ≤ 1 / 2 ^ 54 * 2 ^ 52 := by gcongr
      _ < _ := by norm_num)
  rw [h, show ((0 : ℤ) - 52) = -(52 : ℕ) by norm_num, zpow_neg, zpow_natCast]
  push_cast
  norm_num

/-- C180: the strict order and the injectivity of `hz2mel` (C02) are lost in double precision near 0: all frequencies up to
`b 2⁻⁵⁵` are mapped to 0 mel, and back to 0 Hz. -/
theorem C180_mel_flat {a b f : ℝ} (hb : 0 < b) (hf : 0 ≤ f) (h : f ≤ b / 2 ^ 55) (hlg : lg 1 = 0) (hp : p10 0 = 1) :
    flMel fl64 lg a b f = 0 ∧ flMelInv fl64 p10 a b (flMel fl64 lg a b f) = 0 := by
  have hR := C130_binary64.1
  have h1 : 0 ≤ f / b := by positivity
  have h2 : f / b ≤ 1 / 2 ^ 55 := by rw [div_le_iff₀ hb]; linarith
  have h3 := hR.err (f / b)
  rw [abs_of_nonneg h1] at h3
  obtain ⟨h4, h5⟩ := abs_le.mp h3
  have h6 : fl64 (1 + fl64 (f / b)) = 1 := by
    apply fl64_one_add
    · nlinarith
    · have : (1 : ℝ) / 2 ^ 53 * (f / b) ≤ 1 * (f / b) := by gcongr; norm_num
      norm_num at h2 ⊢
      linarith
  have h7 : flMel fl64 lg a b f = 0 := by
    unfold flMel
    rw [h6, hlg, mul_zero, fl64_zero]
  refine ⟨h7, ?_⟩
  rw [h7]
  unfold flMelInv
  rw [zero_div, fl64_zero, hp, sub_self, fl64_zero, mul_zero, fl64_zero]

/-! ### Examples -/

/-- Correctly rounded library functions meet the assumptions. -/
theorem asinhSinh_rounded : AsinhSinh (4 / 2 ^ 53) (fun t => fl64 (Real.arsinh t)) (fun t => fl64 (Real.sinh t)) :=
  ⟨by norm_num, fun t => (C130_binary64.1.err _).trans (by gcongr; norm_num),
    fun t => (C130_binary64.1.err _).trans (by gcongr; norm_num)⟩

/-- 1 kHz through the Bark scale of Wang: off by at most `7e-12` Hz. -/
example : |flBarkInv fl64 (fun t => fl64 (Real.sinh t)) 6 600 (flBark fl64 (fun t => fl64 (Real.arsinh t)) 6 600 1000) - 1000| ≤
    7 / 10 ^ 12 := by
  refine (C180_bark_double asinhSinh_rounded (by simp) (by norm_num) (by norm_num)).trans (by norm_num)

/-- 8 kHz through the mel scale: off by less than `7e-11` Hz. -/
example (hL : LogPow (4 / 2 ^ 53) lg p10) : |flMelInv fl64 p10 2595 700 (flMel fl64 lg 2595 700 8000) - 8000| ≤ 7 / 10 ^ 11 :=
  (C180_mel_double hL MelConst.oshaghnessy (by norm_num) (by norm_num)).trans (by norm_num)

/-- Two different frequencies with the same mel value in double precision. -/
example (hlg : lg 1 = 0) (hp : p10 0 = 1) : flMel fl64 lg 2595 700 (1 / 2 ^ 50) = flMel fl64 lg 2595 700 (1 / 2 ^ 51) := by
  rw [(C180_mel_flat (p10 := p10) (a := 2595) (b := 700) (f := 1 / 2 ^ 50) (by norm_num) (by norm_num) (by norm_num) hlg hp).1,
    (C180_mel_flat (p10 := p10) (a := 2595) (b := 700) (f := 1 / 2 ^ 51) (by norm_num) (by norm_num) (by norm_num) hlg hp).1]

end Props
end Spafe
