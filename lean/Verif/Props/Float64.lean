import Verif.Model.Float64
import Verif.Model.Rounding
import Verif.Props.Preprocessing
import Mathlib.Tactic.IntervalCases

/-! C129, C130: `binary64` rounding, the frame lengths and the integer divisions. -/

set_option linter.unusedSectionVars false

namespace Spafe
namespace Props
open Model

/-- The `binary64` numbers (exponent unbounded): 53 bits times a power of two. -/
def IsFloat64 (x : ℝ) : Prop := ∃ m e : ℤ, |m| ≤ 2 ^ 53 ∧ x = m * (2 : ℝ) ^ e

theorem roundEven_cases (y : ℝ) : (roundEven y = ⌊y⌋ ∧ Int.fract y ≤ 1 / 2) ∨ (roundEven y = ⌊y⌋ + 1 ∧ 1 / 2 ≤ Int.fract y) := by
  rw [roundEven]
  split_ifs with h1 h2 h3
  · exact .inl ⟨rfl, h1.le⟩
  · exact .inr ⟨rfl, h2.le⟩
  · exact .inl ⟨rfl, by linarith⟩
  · exact .inr ⟨rfl, by linarith⟩

theorem roundEven_half (y : ℝ) : |(roundEven y : ℝ) - y| ≤ 1 / 2 := by
  have h := Int.floor_add_fract y
  have h1 := Int.fract_nonneg y
  have h2 := Int.fract_lt_one y
  rw [abs_le]
  rcases roundEven_cases y with ⟨e, hf⟩ | ⟨e, hf⟩ <;> rw [e] <;> push_cast <;> constructor <;> linarith

theorem roundEven_nearest (y : ℝ) (k : ℤ) : |(roundEven y : ℝ) - y| ≤ |(k : ℝ) - y| := by
  have h := Int.floor_add_fract y
  have h1 := Int.fract_nonneg y
  have h2 := Int.fract_lt_one y
  have hk : k ≤ ⌊y⌋ ∨ ⌊y⌋ + 1 ≤ k := by omega
  have hk' : (k : ℝ) ≤ ⌊y⌋ ∨ (⌊y⌋ : ℝ) + 1 ≤ k := by
    rcases hk with hk | hk
    · exact .inl (by exact_mod_cast hk)
    · exact .inr (by exact_mod_cast hk)
  rcases roundEven_cases y with ⟨e, hf⟩ | ⟨e, hf⟩ <;> rw [e] <;> push_cast
  · rw [abs_of_nonpos (by linarith)]
    rcases hk' with hk | hk
    · rw [abs_of_nonpos (by linarith)]; linarith
    · rw [abs_of_nonneg (by linarith)]; linarith
  · rw [abs_of_nonneg (by linarith)]
    rcases hk' with hk | hk
    · rw [abs_of_nonpos (by linarith)]; linarith
    · rw [abs_of_nonneg (by linarith)]; linarith

theorem ulp64_pos (x : ℝ) : 0 < ulp64 x := zpow_pos (by norm_num) _

theorem fl64_sub (x : ℝ) : fl64 x - x = ((roundEven (x / ulp64 x) : ℝ) - x / ulp64 x) * ulp64 x := by
  rw [fl64, sub_mul, div_mul_cancel₀ _ (ulp64_pos x).ne']

theorem log_le {x : ℝ} (hx : x ≠ 0) : (2 : ℝ) ^ Int.log 2 |x| ≤ |x| := by
  simpa using Int.zpow_log_le_self (b := 2) (by norm_num) (abs_pos.mpr hx)

theorem log_lt (x : ℝ) : |x| < (2 : ℝ) ^ (Int.log 2 |x| + 1) := by
  simpa using Int.lt_zpow_succ_log_self (b := 2) (by norm_num) |x|

theorem fl64_zero : fl64 0 = 0 := by
  have : roundEven 0 = 0 := by rw [roundEven, Int.fract_zero, if_pos (by norm_num), Int.floor_zero]
  rw [fl64, zero_div, this]; simp

theorem fl64_err (x : ℝ) : |fl64 x - x| ≤ 1 / 2 ^ 53 * |x| := by
  by_cases hx : x = 0
  · rw [hx, fl64_zero]; simp
  rw [fl64_sub, abs_mul, abs_of_pos (ulp64_pos x)]
  have h1 := mul_le_mul_of_nonneg_right (roundEven_half (x / ulp64 x)) (ulp64_pos x).le
  refine h1.trans ?_
  have h2 := log_le hx
  have e : ulp64 x = (2 : ℝ) ^ Int.log 2 |x| / 2 ^ 52 := by
    rw [ulp64, zpow_sub₀ (by norm_num)]; norm_cast
  rw [e]
  have : (0 : ℝ) < 2 ^ 53 := by positivity
  calc 1 / 2 * ((2 : ℝ) ^ Int.log 2 |x| / 2 ^ 52) = 1 / 2 ^ 53 * (2 : ℝ) ^ Int.log 2 |x| := by ring
    _ ≤ _ := mul_le_mul_of_nonneg_left h2 (by positivity)

/-- No `binary64` number is nearer. -/
theorem fl64_nearest (x : ℝ) {y : ℝ} (hy : IsFloat64 y) : |fl64 x - x| ≤ |y - x| := by
  by_cases hx : x = 0
  · rw [hx, fl64_zero]; simp
  have hmult : ∀ k : ℤ, |fl64 x - x| ≤ |k * ulp64 x - x| := by
    intro k
    have := mul_le_mul_of_nonneg_right (roundEven_nearest (x / ulp64 x) k) (ulp64_pos x).le
    rw [fl64_sub, abs_mul, abs_of_pos (ulp64_pos x)]
    refine this.trans (le_of_eq ?_)
    rw [← abs_of_pos (ulp64_pos x), ← abs_mul, sub_mul, abs_of_pos (ulp64_pos x), div_mul_cancel₀ _ (ulp64_pos x).ne']
  obtain ⟨m, e, hm, rfl⟩ := hy
  obtain ⟨E, hE⟩ : ∃ E, E = Int.log 2 |x| := ⟨_, rfl⟩
  have hu : ulp64 x = (2 : ℝ) ^ (E - 52) := by rw [ulp64, ← hE]
  have hlo := log_le hx
  rw [← hE] at hlo
  by_cases he : E - 52 ≤ e
  · obtain ⟨d, hd⟩ := Int.le.dest he
    have := hmult (m * 2 ^ d)
    rw [hu] at this
    have e1 : ((m * 2 ^ d : ℤ) : ℝ) * (2 : ℝ) ^ (E - 52) = m * (2 : ℝ) ^ e := by
      rw [← hd, zpow_add₀ (by norm_num)]
      push_cast
      rw [zpow_natCast]
      ring
    rwa [e1] at this
  · have hyle : |(m : ℝ) * (2 : ℝ) ^ e| ≤ (2 : ℝ) ^ E := by
      rw [abs_mul, abs_of_pos (zpow_pos (by norm_num : (0:ℝ) < 2) e)]
      have h1 : |(m : ℝ)| ≤ 2 ^ 53 := by exact_mod_cast hm
      have h2 : (2 : ℝ) ^ e ≤ (2 : ℝ) ^ (E - 53) := zpow_le_zpow_right₀ (by norm_num) (by omega)
      calc |(m : ℝ)| * (2 : ℝ) ^ e ≤ 2 ^ 53 * (2 : ℝ) ^ (E - 53) :=
            mul_le_mul h1 h2 (zpow_pos (by norm_num) e).le (by positivity)
        _ = (2 : ℝ) ^ E := by
            rw [← zpow_natCast, ← zpow_add₀ (by norm_num)]
            congr 1
            push_cast
            ring
    have e52 : (2 : ℝ) ^ 52 * (2 : ℝ) ^ (E - 52) = (2 : ℝ) ^ E := by
      rw [← zpow_natCast, ← zpow_add₀ (by norm_num)]
      congr 1
      push_cast
      ring
    rw [abs_le] at hyle
    rcases lt_or_gt_of_ne hx with hneg | hpos
    · have := hmult (-2 ^ 52)
      rw [hu, show ((-2 ^ 52 : ℤ) : ℝ) = -(2 : ℝ) ^ 52 by norm_num, neg_mul, e52] at this
      rw [abs_of_neg hneg] at hlo
      refine this.trans ?_
      rw [abs_of_nonneg (by linarith), abs_of_nonneg (by linarith)]
      linarith
    · have := hmult (2 ^ 52)
      rw [hu, show ((2 ^ 52 : ℤ) : ℝ) = (2 : ℝ) ^ 52 by norm_num, e52] at this
      rw [abs_of_pos hpos] at hlo
      refine this.trans ?_
      rw [abs_of_nonpos (by linarith), abs_of_nonpos (by linarith)]
      linarith

theorem fl64_isFloat (x : ℝ) : IsFloat64 (fl64 x) := by
  by_cases hx : x = 0
  · rw [hx, fl64_zero]; exact ⟨0, 0, by norm_num, by simp⟩
  refine ⟨roundEven (x / ulp64 x), Int.log 2 |x| - 52, ?_, rfl⟩
  have h1 := roundEven_nearest (x / ulp64 x)
  have h2 : |x / ulp64 x| < 2 ^ 53 := by
    rw [abs_div, abs_of_pos (ulp64_pos x), div_lt_iff₀ (ulp64_pos x)]
    refine (log_lt x).trans_le (le_of_eq ?_)
    rw [ulp64, ← zpow_natCast, ← zpow_add₀ (by norm_num)]
    congr 1
    push_cast
    ring
  rw [abs_lt] at h2
  obtain ⟨r, hr⟩ : ∃ r, r = roundEven (x / ulp64 x) := ⟨_, rfl⟩
  have h3 := roundEven_half (x / ulp64 x)
  rw [← hr, abs_le] at h3
  rw [← hr, abs_le]
  constructor
  · have : ((-2 ^ 53 - 1 : ℤ) : ℝ) < r := by push_cast; linarith
    have := Int.cast_lt.mp this
    omega
  · have : (r : ℝ) < ((2 ^ 53 + 1 : ℤ) : ℝ) := by push_cast; linarith
    have := Int.cast_lt.mp this
    omega

theorem fl64_fixed {x : ℝ} (h : IsFloat64 x) : fl64 x = x := by
  have := fl64_nearest x h
  rw [sub_self, abs_zero] at this
  have := abs_eq_zero.mp (le_antisymm this (abs_nonneg _))
  linarith

theorem fl64_int {n : ℤ} (h : |n| ≤ 2 ^ 53) : fl64 n = n := fl64_fixed ⟨n, 0, h, by simp⟩

theorem fl64_mono : Monotone fl64 := by
  intro x y hxy
  by_contra hcon
  have hcon := not_le.mp hcon
  have h1 := fl64_nearest x (fl64_isFloat y)
  have h2 := fl64_nearest y (fl64_isFloat x)
  rcases eq_or_lt_of_le hxy with rfl | hlt
  · exact absurd rfl hcon.ne
  · rw [abs_le] at h1 h2
    rcases abs_cases (fl64 y - x) with ⟨e1, g1⟩ | ⟨e1, g1⟩ <;> rcases abs_cases (fl64 x - y) with ⟨e2, g2⟩ | ⟨e2, g2⟩ <;>
      rw [e1] at h1 <;> rw [e2] at h2 <;> linarith

/-- C130: `binary64` rounding is the nearest one, is monotone, leaves its own numbers alone (all integers up to `2^53` in
particular) and has relative error at most `2^-53`: it satisfies the assumption of C120 and C125. -/
theorem C130_binary64 : Rounding (1 / 2 ^ 53) fl64 ∧ Monotone fl64 ∧ (∀ x, IsFloat64 (fl64 x)) ∧
    (∀ x y, IsFloat64 y → |fl64 x - x| ≤ |y - x|) ∧ (∀ x, IsFloat64 x → fl64 x = x) ∧
    ∀ n : ℤ, |n| ≤ 2 ^ 53 → fl64 n = n :=
  ⟨⟨by positivity, fl64_err⟩, fl64_mono, fl64_isFloat, fun x _ => fl64_nearest x, fun _ => fl64_fixed, fun _ => fl64_int⟩

theorem roundEven_tie {y : ℝ} (h : Int.fract y = 1 / 2) : Even (roundEven y) := by
  rw [roundEven, if_neg (by linarith), if_neg (by linarith)]
  split_ifs with h3
  · exact h3
  · exact (Int.not_even_iff_odd.mp h3).add_one

/-- A tie between the nearest integer and another one has fractional part one half. -/
theorem roundEven_tied {y : ℝ} {k : ℤ} (hk : k ≠ roundEven y) (h : |(k : ℝ) - y| = |(roundEven y : ℝ) - y|) :
    Int.fract y = 1 / 2 := by
  have h0 := Int.floor_add_fract y
  have h1 := Int.fract_nonneg y
  have h2 := Int.fract_lt_one y
  have hk1 : ((k - roundEven y : ℤ) : ℝ) = (k : ℝ) - roundEven y := by push_cast; ring
  have hge : (1 : ℝ) ≤ |(k : ℝ) - roundEven y| := by
    rw [← hk1, ← Int.cast_abs]
    exact_mod_cast Int.one_le_abs (sub_ne_zero.mpr hk)
  have htri : |(k : ℝ) - roundEven y| ≤ |(k : ℝ) - y| + |(roundEven y : ℝ) - y| := by
    have := abs_sub_le (k : ℝ) y (roundEven y)
    rwa [abs_sub_comm y] at this
  have hhalf : |(roundEven y : ℝ) - y| = 1 / 2 := le_antisymm (roundEven_half y) (by linarith)
  rcases roundEven_cases y with ⟨e, hf⟩ | ⟨e, hf⟩ <;> rw [e] at hhalf <;> push_cast at hhalf
  · rw [abs_of_nonpos (by linarith)] at hhalf; linarith
  · rw [abs_of_nonneg (by linarith)] at hhalf; linarith

/-- C130: when another `binary64` number is exactly as near, the one taken has an even significand of 53 bits. -/
theorem C130_ties_to_even (x y : ℝ) (hy : IsFloat64 y) (hne : y ≠ fl64 x) (htie : |y - x| = |fl64 x - x|) :
    ∃ m e : ℤ, Even m ∧ 2 ^ 52 ≤ |m| ∧ |m| ≤ 2 ^ 53 ∧ fl64 x = m * (2 : ℝ) ^ e := by
  have hx : x ≠ 0 := by
    rintro rfl
    rw [fl64_zero] at hne htie
    simp only [sub_zero, abs_zero, abs_eq_zero] at htie
    exact hne htie
  obtain ⟨E, hE⟩ : ∃ E, E = Int.log 2 |x| := ⟨_, rfl⟩
  have hu : ulp64 x = (2 : ℝ) ^ (E - 52) := by rw [ulp64, ← hE]
  have hlo := log_le hx
  have hhi := log_lt x
  rw [← hE] at hlo hhi
  have hup := ulp64_pos x
  have e52 : (2 : ℝ) ^ 52 * ulp64 x = (2 : ℝ) ^ E := by
    rw [hu, ← zpow_natCast, ← zpow_add₀ (by norm_num)]
    congr 1
    push_cast
    ring
  have e53 : (2 : ℝ) ^ 53 * ulp64 x = (2 : ℝ) ^ (E + 1) := by
    rw [hu, ← zpow_natCast, ← zpow_add₀ (by norm_num)]
    congr 1
    push_cast
    ring
  obtain ⟨n, hn⟩ : ∃ n, n = roundEven (x / ulp64 x) := ⟨_, rfl⟩
  have hfl : fl64 x = n * ulp64 x := by rw [fl64, hn]
  -- the significand has 53 bits
  have habs : |x / ulp64 x| = |x| / ulp64 x := by rw [abs_div, abs_of_pos hup]
  have hlo' : (2 : ℝ) ^ 52 ≤ |x / ulp64 x| := by rw [habs, le_div_iff₀ hup, e52]; exact hlo
  have hhi' : |x / ulp64 x| < (2 : ℝ) ^ 53 := by rw [habs, div_lt_iff₀ hup, e53]; exact hhi
  have hnr := roundEven_half (x / ulp64 x)
  rw [← hn] at hnr
  have hn1 : (2 : ℤ) ^ 52 ≤ |n| := by
    have h1 : |x / ulp64 x| - |(n : ℝ)| ≤ 1 / 2 := by
      have := abs_sub_abs_le_abs_sub (x / ulp64 x) n
      rw [abs_sub_comm] at this
      linarith
    by_contra hcon
    have h2 : |n| ≤ 2 ^ 52 - 1 := by omega
    have h3 : |(n : ℝ)| ≤ 2 ^ 52 - 1 := by exact_mod_cast h2
    linarith
  have hn2 : |n| ≤ (2 : ℤ) ^ 53 := by
    have h1 : |(n : ℝ)| - |x / ulp64 x| ≤ 1 / 2 := by
      have := abs_sub_abs_le_abs_sub (n : ℝ) (x / ulp64 x)
      linarith
    by_contra hcon
    have h2 : 2 ^ 53 + 1 ≤ |n| := by omega
    have h3 : (2 : ℝ) ^ 53 + 1 ≤ |(n : ℝ)| := by exact_mod_cast h2
    linarith
  refine ⟨n, E - 52, ?_, hn1, hn2, by rw [hfl, hu]⟩
  -- the other number is a multiple of the spacing
  have hmul : ∃ k : ℤ, y = k * ulp64 x := by
    obtain ⟨m, e, hm, rfl⟩ := hy
    by_cases he : E - 52 ≤ e
    · obtain ⟨d, hd⟩ := Int.le.dest he
      refine ⟨m * 2 ^ d, ?_⟩
      rw [hu, ← hd, zpow_add₀ (by norm_num)]
      push_cast
      rw [zpow_natCast]
      ring
    · have hyle : |(m : ℝ) * (2 : ℝ) ^ e| ≤ (2 : ℝ) ^ E := by
        rw [abs_mul, abs_of_pos (zpow_pos (by norm_num : (0:ℝ) < 2) e)]
        have h1 : |(m : ℝ)| ≤ 2 ^ 53 := by exact_mod_cast hm
        have h2 : (2 : ℝ) ^ e ≤ (2 : ℝ) ^ (E - 53) := zpow_le_zpow_right₀ (by norm_num) (by omega)
        calc |(m : ℝ)| * (2 : ℝ) ^ e ≤ 2 ^ 53 * (2 : ℝ) ^ (E - 53) :=
              mul_le_mul h1 h2 (zpow_pos (by norm_num) e).le (by positivity)
          _ = (2 : ℝ) ^ E := by
              rw [← zpow_natCast, ← zpow_add₀ (by norm_num)]
              congr 1
              push_cast
              ring
      obtain ⟨y, hy⟩ : ∃ y : ℝ, y = m * (2 : ℝ) ^ e := ⟨_, rfl⟩
      rw [← hy] at hyle htie ⊢
      -- the power of two below `x` is a multiple, and at least as near as `y`
      have hpow : |fl64 x - x| ≤ |x| - (2 : ℝ) ^ E := by
        rcases lt_or_gt_of_ne hx with hneg | hpos
        · have := fl64_nearest x (y := -(2 : ℝ) ^ E) ⟨-1, E, by norm_num, by push_cast; ring⟩
          rw [abs_of_neg hneg] at hlo ⊢
          rwa [abs_of_nonneg (a := -(2 : ℝ) ^ E - x) (by linarith), show -(2 : ℝ) ^ E - x = -x - (2 : ℝ) ^ E by ring] at this
        · have := fl64_nearest x (y := (2 : ℝ) ^ E) ⟨1, E, by norm_num, by push_cast; ring⟩
          rw [abs_of_pos hpos] at hlo ⊢
          rwa [abs_sub_comm ((2 : ℝ) ^ E) x, abs_of_nonneg (a := x - (2 : ℝ) ^ E) (by linarith)] at this
      have hfar : |x| - |y| ≤ |y - x| := by
        rw [abs_sub_comm]; exact abs_sub_abs_le_abs_sub x y
      have hyE : |y| = (2 : ℝ) ^ E := le_antisymm hyle (by linarith)
      rcases abs_choice y with h | h
      · exact ⟨2 ^ 52, by rw [show ((2 ^ 52 : ℤ) : ℝ) = (2 : ℝ) ^ 52 by norm_num, e52, ← hyE, h]⟩
      · refine ⟨-2 ^ 52, ?_⟩
        rw [show ((-2 ^ 52 : ℤ) : ℝ) = -(2 : ℝ) ^ 52 by norm_num, neg_mul, e52, ← hyE, h, neg_neg]
  obtain ⟨k, hk⟩ := hmul
  have hkn : k ≠ roundEven (x / ulp64 x) := by
    rintro rfl
    exact hne (by rw [hk, fl64])
  have ht : |(k : ℝ) - x / ulp64 x| = |(roundEven (x / ulp64 x) : ℝ) - x / ulp64 x| := by
    rw [fl64_sub, abs_mul, hk, show (k : ℝ) * ulp64 x - x = (k - x / ulp64 x) * ulp64 x by
      rw [sub_mul, div_mul_cancel₀ _ hup.ne'], abs_mul] at htie
    exact mul_right_cancel₀ (abs_pos.mpr hup.ne').ne' htie
  rw [hn]
  exact roundEven_tie (roundEven_tied hkn ht)

/-- `2^53 + 1` lies halfway between `2^53` and `2^53 + 2`; the first is taken, being even. -/
example : fl64 (2 ^ 53 + 1) = 2 ^ 53 := by
  have hlog : Int.log 2 |(2 ^ 53 + 1 : ℝ)| = 53 := by
    rw [abs_of_pos (by positivity), show (2 ^ 53 + 1 : ℝ) = ((2 ^ 53 + 1 : ℕ) : ℝ) by norm_num, Int.log_natCast]
    norm_cast
  have hu : ulp64 (2 ^ 53 + 1) = 2 := by rw [ulp64, hlog]; norm_num
  have hq : (2 ^ 53 + 1 : ℝ) / 2 = ((2 ^ 52 : ℤ) : ℝ) + 1 / 2 := by norm_num
  have hfr : Int.fract ((2 ^ 53 + 1 : ℝ) / 2) = 1 / 2 := by
    rw [hq, Int.fract_intCast_add, Int.fract_eq_self.mpr (by norm_num)]
  have hfl : ⌊(2 ^ 53 + 1 : ℝ) / 2⌋ = 2 ^ 52 := by
    rw [hq, Int.floor_intCast_add, Int.floor_eq_zero_iff.mpr (by norm_num), add_zero]
  rw [fl64, hu, roundEven, hfr, hfl, if_neg (by norm_num), if_neg (by norm_num), if_pos (by decide)]
  norm_num

/-- C130: the integer part of a rounded quotient of two integers is the exact quotient: `int(nfft / 2)`,
`int((nfft - Nk) / 2)`, `int(fs / high_freq)` of the code are integer divisions. -/
theorem C130_int_division (a b : ℕ) (ha : a < 2 ^ 53) (hb : 0 < b) : pyInt (fl64 ((a : ℝ) / b)) = ((a / b : ℕ) : ℤ) := by
  obtain ⟨q, hq⟩ : ∃ q, q = a / b := ⟨_, rfl⟩
  have hb' : (0 : ℝ) < b := by exact_mod_cast hb
  have h1 : q * b ≤ a := by rw [hq]; exact Nat.div_mul_le_self a b
  have h2 : a + 1 ≤ (q + 1) * b := by
    rw [hq]
    exact Nat.lt_of_lt_of_le (Nat.lt_div_mul_add hb) (by ring_nf; exact le_rfl)
  have h1' : (q : ℝ) * b ≤ a := by exact_mod_cast h1
  have h2' : (a : ℝ) + 1 ≤ (q + 1) * b := by exact_mod_cast h2
  have hqa : q ≤ a := by rw [hq]; exact Nat.div_le_self a b
  have hlo : (q : ℝ) ≤ fl64 ((a : ℝ) / b) := by
    have e : fl64 ((q : ℤ) : ℝ) = q := by
      rw [fl64_int (by rw [abs_of_nonneg (by omega)]; norm_cast; omega)]; norm_cast
    rw [← e]
    exact fl64_mono (by rw [le_div_iff₀ hb']; exact_mod_cast h1)
  have herr := fl64_err ((a : ℝ) / b)
  rw [abs_of_nonneg (a := (a : ℝ) / b) (by positivity), abs_le] at herr
  have hhi : fl64 ((a : ℝ) / b) < q + 1 := by
    have ha' : (a : ℝ) < 2 ^ 53 := by exact_mod_cast ha
    have h3 : 1 / 2 ^ 53 * ((a : ℝ) / b) < 1 / b := by
      rw [← mul_div_assoc, div_lt_div_iff_of_pos_right hb']
      have : (0 : ℝ) < 2 ^ 53 := by positivity
      rw [one_div, inv_mul_lt_iff₀ this]
      linarith
    have h4 : (a : ℝ) / b + 1 / b ≤ q + 1 := by
      rw [← add_div, div_le_iff₀ hb']; linarith
    linarith [herr.2]
  rw [pyInt, if_pos (le_trans (by positivity) hlo), ← hq, Int.floor_eq_iff]
  push_cast
  exact ⟨hlo, hhi⟩

/-- What `int` makes of a rounded non-negative number: its integer part, or one more when the next integer is nearer than
the rounding error. -/
theorem C130_int_rounded (x : ℝ) (h0 : 0 ≤ x) (h1 : x ≤ 2 ^ 52) :
    pyInt (fl64 x) = pyInt x ∨ (pyInt (fl64 x) = pyInt x + 1 ∧ (pyInt x + 1 : ℝ) - x ≤ 1 / 2 ^ 53 * x) := by
  have hf0 : 0 ≤ fl64 x := by
    have := fl64_mono h0
    rwa [fl64_zero] at this
  rw [pyInt, if_pos hf0, pyInt, if_pos h0]
  have hfl : (0 : ℤ) ≤ ⌊x⌋ := Int.floor_nonneg.mpr h0
  have hup : ⌊x⌋ + 1 ≤ 2 ^ 53 := by
    have : ⌊x⌋ ≤ 2 ^ 52 := by
      have := Int.floor_le x
      have : ((⌊x⌋ : ℤ) : ℝ) ≤ ((2 ^ 52 : ℤ) : ℝ) := by push_cast; linarith
      exact_mod_cast this
    omega
  have lo : (⌊x⌋ : ℝ) ≤ fl64 x := by
    rw [← fl64_int (n := ⌊x⌋) (by rw [abs_of_nonneg hfl]; omega)]
    exact fl64_mono (Int.floor_le x)
  have hi : fl64 x ≤ (⌊x⌋ : ℝ) + 1 := by
    have e := fl64_int (n := ⌊x⌋ + 1) (by rw [abs_of_nonneg (by omega)]; omega)
    push_cast at e
    rw [← e]
    exact fl64_mono (Int.lt_floor_add_one x).le
  rcases eq_or_lt_of_le hi with heq | hlt
  · right
    have e1 : ⌊fl64 x⌋ = ⌊x⌋ + 1 := by
      rw [heq]
      have : ((⌊x⌋ : ℝ) + 1) = ((⌊x⌋ + 1 : ℤ) : ℝ) := by push_cast; ring
      rw [this, Int.floor_intCast]
    refine ⟨e1, ?_⟩
    have := (abs_le.mp (fl64_err x)).2
    rw [abs_of_nonneg h0] at this
    linarith
  · left
    rw [Int.floor_eq_iff]
    exact ⟨lo, hlt⟩

/-- The number of samples of a window of `w` seconds, when that is the integer `n`: `n`, or `n - 1` when the float nearest
to `w` is below `w`. -/
theorem samples64 {w fs : ℝ} {n : ℕ} (hw : w * fs = n) (hfs : 0 ≤ fs) (hw0 : 0 ≤ w) (hn : n ≤ 2 ^ 51) :
    (pyInt (fl64 (fl64 w * fs)) = n ∨ pyInt (fl64 (fl64 w * fs)) = (n : ℤ) - 1) ∧
      (w ≤ fl64 w → pyInt (fl64 (fl64 w * fs)) = n) := by
  have hn' : (n : ℝ) ≤ 2 ^ 51 := by exact_mod_cast hn
  have herr := fl64_err w
  rw [abs_of_nonneg hw0, abs_le] at herr
  have hf0 : 0 ≤ fl64 w := by
    have := fl64_mono hw0
    rwa [fl64_zero] at this
  have e1 : fl64 w * fs ≤ n * (1 + 1 / 2 ^ 53) := by
    calc fl64 w * fs ≤ (w * (1 + 1 / 2 ^ 53)) * fs := mul_le_mul_of_nonneg_right (by linarith [herr.2]) hfs
      _ = (w * fs) * (1 + 1 / 2 ^ 53) := by ring
      _ = _ := by rw [hw]
  have e2 : n * (1 - 1 / 2 ^ 53) ≤ fl64 w * fs := by
    calc (n : ℝ) * (1 - 1 / 2 ^ 53) = (w * fs) * (1 - 1 / 2 ^ 53) := by rw [hw]
      _ = (w * (1 - 1 / 2 ^ 53)) * fs := by ring
      _ ≤ _ := mul_le_mul_of_nonneg_right (by linarith [herr.1]) hfs
  have hx0 : 0 ≤ fl64 w * fs := mul_nonneg hf0 hfs
  have hp0 : 0 ≤ fl64 (fl64 w * fs) := by
    have := fl64_mono hx0
    rwa [fl64_zero] at this
  have herr2 := fl64_err (fl64 w * fs)
  rw [abs_of_nonneg hx0, abs_le] at herr2
  have hn0 : (0 : ℝ) ≤ n := Nat.cast_nonneg n
  have hhi : fl64 (fl64 w * fs) < n + 1 := by
    have : fl64 (fl64 w * fs) ≤ n * (1 + 1 / 2 ^ 53) + 1 / 2 ^ 53 * (n * (1 + 1 / 2 ^ 53)) := by
      have := herr2.2
      have := mul_le_mul_of_nonneg_left e1 (show (0 : ℝ) ≤ 1 / 2 ^ 53 by positivity)
      linarith
    have : n * (1 + 1 / 2 ^ 53) + 1 / 2 ^ 53 * (n * (1 + 1 / 2 ^ 53)) ≤ (n : ℝ) + 3 / 4 := by linarith
    linarith
  have hlo : (n : ℝ) - 1 ≤ fl64 (fl64 w * fs) := by
    have := herr2.1
    have := mul_le_mul_of_nonneg_left e1 (show (0 : ℝ) ≤ 1 / 2 ^ 53 by positivity)
    have h5 : (n : ℝ) - 1 ≤ n * (1 - 1 / 2 ^ 53) - 1 / 2 ^ 53 * (n * (1 + 1 / 2 ^ 53)) := by linarith
    linarith
  rw [pyInt, if_pos hp0]
  constructor
  · by_cases hge : (n : ℝ) ≤ fl64 (fl64 w * fs)
    · left
      rw [Int.floor_eq_iff]
      exact ⟨by exact_mod_cast hge, by push_cast; exact hhi⟩
    · right
      rw [Int.floor_eq_iff]
      push_cast
      exact ⟨hlo, by linarith⟩
  · intro hge
    rw [Int.floor_eq_iff]
    refine ⟨?_, by push_cast; exact hhi⟩
    have e := fl64_int (n := (n : ℤ)) (by rw [abs_of_nonneg (by omega)]; norm_cast; omega)
    push_cast at e ⊢
    rw [← e]
    refine fl64_mono ?_
    rw [← hw]
    exact mul_le_mul_of_nonneg_right hge hfs

/-- C129: when window length and hop are whole numbers of samples `n` and `m`, the frames of `framing` have `n` or `n - 1`
samples and start `m` or `m - 1` samples apart, and exactly `n` and `m` if the floats of `win_len` and `win_hop` are not
below the numbers written. Missing: `n - 1` and `m - 1` do occur, see `C129_violated`. -/
theorem C129_frame_length_partial (sig : List ℝ) (fs wl wh : ℝ) (n m : ℕ) (hfs : 0 ≤ fs) (hwl : 0 ≤ wl) (hwh : 0 ≤ wh)
    (hn : wl * fs = n) (hm : wh * fs = m) (hn1 : n ≤ 2 ^ 51) (hm1 : 2 ≤ m) (hm2 : m ≤ 2 ^ 51) (frames : List (List ℝ)) (L : ℤ)
    (h : framing64 sig fs wl wh = .ok (frames, L)) :
    ∃ l s : ℕ, (l = n ∨ l + 1 = n) ∧ (s = m ∨ s + 1 = m) ∧ (wl ≤ fl64 wl → l = n) ∧ (wh ≤ fl64 wh → s = m) ∧ L = l ∧
      l ≤ sig.length ∧ frames.length = (sig.length - l) / s + 1 ∧
      ∀ i, i < frames.length → frames.getD i [] = (sig.drop (i * s)).take l := by
  obtain ⟨a1, a2⟩ := samples64 hn hfs hwl hn1
  obtain ⟨b1, b2⟩ := samples64 hm hfs hwh hm2
  have hS : 0 < pyInt (fl64 (fl64 wh * fs)) := by rcases b1 with b | b <;> rw [b] <;> omega
  obtain ⟨l, s, h1, h2, h3, h4, h5, h6⟩ := C11_framing_content fl64 sig fs (fl64 wl) (fl64 wh) frames L hS h
  rw [h2] at a1 a2
  rw [h3] at b1 b2
  refine ⟨l, s, by omega, by omega, fun hh => by have := a2 hh; omega, fun hh => by have := b2 hh; omega, h1, h4, h5,
    fun i hi => (h6 i hi).2.1⟩

theorem fl64_eq {x : ℝ} {e r : ℤ} (h1 : (2 : ℝ) ^ e ≤ x) (h2 : x < (2 : ℝ) ^ (e + 1))
    (h3 : |x / (2 : ℝ) ^ (e - 52) - r| < 1 / 2) : fl64 x = r * (2 : ℝ) ^ (e - 52) := by
  have hx : 0 < x := lt_of_lt_of_le (zpow_pos (by norm_num) e) h1
  have hlog : Int.log 2 |x| = e := by
    rw [abs_of_pos hx]
    refine le_antisymm ?_ ?_
    · have h := Int.zpow_log_le_self (b := 2) (by norm_num) hx
      have h' : ((2 : ℕ) : ℝ) = 2 := by norm_num
      rw [h'] at h
      have := (zpow_lt_zpow_iff_right₀ (by norm_num : (1 : ℝ) < 2)).mp (h.trans_lt h2)
      omega
    · have h := Int.lt_zpow_succ_log_self (b := 2) (by norm_num) x
      have h' : ((2 : ℕ) : ℝ) = 2 := by norm_num
      rw [h'] at h
      have := (zpow_lt_zpow_iff_right₀ (by norm_num : (1 : ℝ) < 2)).mp (h1.trans_lt h)
      omega
  have hu : ulp64 x = (2 : ℝ) ^ (e - 52) := by rw [ulp64, hlog]
  rw [fl64, hu]
  congr 2
  have h4 := roundEven_nearest (x / (2 : ℝ) ^ (e - 52)) r
  obtain ⟨t, ht⟩ : ∃ t, t = roundEven (x / (2 : ℝ) ^ (e - 52)) := ⟨_, rfl⟩
  rw [← ht] at h4 ⊢
  rw [abs_sub_comm] at h3
  have h5 : |(t : ℝ) - r| < 1 := by
    calc |(t : ℝ) - r| = |((t : ℝ) - x / (2 : ℝ) ^ (e - 52)) - (r - x / (2 : ℝ) ^ (e - 52))| := by congr 1; ring
      _ ≤ _ := abs_sub _ _
      _ < 1 := by linarith
  have h6 : |t - r| < 1 := by exact_mod_cast h5
  have := abs_lt.mp h6
  omega

theorem fl64_18ms : fl64 (18 / 1000) = 5188146770730811 / 2 ^ 58 := by
  rw [fl64_eq (e := -6) (r := 5188146770730811) (by norm_num) (by norm_num) (by rw [abs_lt]; norm_num)]
  norm_num

theorem fl64_9ms : fl64 (9 / 1000) = 5188146770730811 / 2 ^ 59 := by
  rw [fl64_eq (e := -7) (r := 5188146770730811) (by norm_num) (by norm_num) (by rw [abs_lt]; norm_num)]
  norm_num

/-- C129 (violated): 18 ms at 48 kHz are 864 samples and 9 ms are 432, but `framing` makes frames of 863 samples that
start 431 apart, for every signal of at least 863 samples. -/
theorem C129_violated (sig : List ℝ) (h : 863 ≤ sig.length) : (18 / 1000 * 48000 : ℝ) = 864 ∧ (9 / 1000 * 48000 : ℝ) = 432 ∧
    ∃ frames, framing64 sig 48000 (18 / 1000) (9 / 1000) = .ok (frames, 863) ∧ frames.length = (sig.length - 863) / 431 + 1 ∧
      ∀ i, i < frames.length → frames.getD i [] = (sig.drop (i * 431)).take 863 := by
  refine ⟨by norm_num, by norm_num, ?_⟩
  have h1 : fl64 (fl64 (18 / 1000) * 48000) = 7599824371187711 / 2 ^ 43 := by
    rw [fl64_18ms, fl64_eq (e := 9) (r := 7599824371187711) (by norm_num) (by norm_num) (by rw [abs_lt]; norm_num)]
    norm_num
  have h2 : fl64 (fl64 (9 / 1000) * 48000) = 7599824371187711 / 2 ^ 44 := by
    rw [fl64_9ms, fl64_eq (e := 8) (r := 7599824371187711) (by norm_num) (by norm_num) (by rw [abs_lt]; norm_num)]
    norm_num
  have i1 : pyInt (fl64 (fl64 (18 / 1000) * 48000)) = 863 := by
    rw [h1, pyInt, if_pos (by positivity), Int.floor_eq_iff]
    norm_num
  have i2 : pyInt (fl64 (fl64 (9 / 1000) * 48000)) = 431 := by
    rw [h2, pyInt, if_pos (by positivity), Int.floor_eq_iff]
    norm_num
  obtain ⟨frames, hf⟩ := (C12_framing_cases fl64 fl64_mono sig 48000 (fl64 (18 / 1000)) (fl64 (9 / 1000)) (by norm_num)
    (by rw [i2]; norm_num)).2.2.2 (fl64_mono (by norm_num)) (by rw [i1]; exact_mod_cast h)
  obtain ⟨l, s, g1, g2, g3, g4, g5, g6⟩ := C11_framing_content fl64 sig 48000 _ _ frames _ (by rw [i2]; norm_num) hf
  rw [i1] at g2
  rw [i2] at g3
  obtain rfl : l = 863 := by omega
  obtain rfl : s = 431 := by omega
  rw [i1] at hf
  exact ⟨frames, hf, g5, fun i hi => (g6 i hi).2.1⟩

/-- The number of samples of a window of `1/d` seconds when the float of `1/d` is not below `1/d`. -/
theorem samples64_div {fs d : ℕ} (hd : 0 < d) (hfs : fs < 2 ^ 51) (hw : (1 : ℝ) / d ≤ fl64 (1 / d)) :
    pyInt (fl64 (fl64 (1 / d) * fs)) = ((fs / d : ℕ) : ℤ) := by
  obtain ⟨q, hq⟩ : ∃ q, q = fs / d := ⟨_, rfl⟩
  have hd' : (0 : ℝ) < d := by exact_mod_cast hd
  have h1 : (q : ℝ) * d ≤ fs := by rw [hq]; exact_mod_cast Nat.div_mul_le_self fs d
  have h2 : (fs : ℝ) + 1 ≤ (q + 1) * d := by
    have : fs + 1 ≤ (q + 1) * d := by
      rw [hq]
      exact Nat.lt_of_lt_of_le (Nat.lt_div_mul_add hd) (by ring_nf; exact le_rfl)
    exact_mod_cast this
  have hqa : q ≤ fs := by rw [hq]; exact Nat.div_le_self fs d
  have hfs' : (fs : ℝ) < 2 ^ 51 := by exact_mod_cast hfs
  have hfs0 : (0 : ℝ) ≤ fs := Nat.cast_nonneg _
  obtain ⟨x, hx⟩ : ∃ x, x = fl64 (1 / d) * fs := ⟨_, rfl⟩
  have x1 : (fs : ℝ) / d ≤ x := by
    rw [hx]
    calc (fs : ℝ) / d = 1 / d * fs := by ring
      _ ≤ _ := mul_le_mul_of_nonneg_right hw hfs0
  have x2 : x ≤ (fs : ℝ) / d * (1 + 1 / 2 ^ 53) := by
    have := (abs_le.mp (fl64_err (1 / d))).2
    rw [abs_of_nonneg (a := (1 : ℝ) / d) (by positivity)] at this
    rw [hx]
    calc fl64 (1 / d) * fs ≤ (1 / d * (1 + 1 / 2 ^ 53)) * fs := mul_le_mul_of_nonneg_right (by linarith) hfs0
      _ = _ := by ring
  rw [← hx]
  have hlo : (q : ℝ) ≤ fl64 x := by
    have e := fl64_int (n := (q : ℤ)) (by rw [abs_of_nonneg (by omega)]; norm_cast; omega)
    push_cast at e
    rw [← e]
    refine fl64_mono (le_trans ?_ x1)
    rw [le_div_iff₀ hd']
    exact h1
  have hx0 : 0 ≤ x := le_trans (by positivity) x1
  have hhi : fl64 x < q + 1 := by
    have h3 := (abs_le.mp (fl64_err x)).2
    rw [abs_of_nonneg hx0] at h3
    have h4 : (fs : ℝ) / d + 1 / d ≤ q + 1 := by rw [← add_div, div_le_iff₀ hd']; linarith
    have h5 : (fs : ℝ) / d * (1 / 4) < 2 ^ 49 * (1 / d) := by
      calc (fs : ℝ) / d * (1 / 4) = fs / 4 * (1 / d) := by ring
        _ < 2 ^ 49 * (1 / d) := mul_lt_mul_of_pos_right (by linarith) (by positivity)
    linarith
  rw [pyInt, if_pos (le_trans (by positivity) hlo), ← hq, Int.floor_eq_iff]
  push_cast
  exact ⟨hlo, hhi⟩

/-- C130: the default window of the library (25 ms, 10 ms) is exact at every sampling rate: `framing` makes frames of
`fs // 40` samples that start `fs // 100` samples apart. -/
theorem C130_default_window (sig : List ℝ) (fs : ℕ) (h1 : 100 ≤ fs) (h2 : fs < 2 ^ 51) (h3 : fs / 40 ≤ sig.length) :
    ∃ frames, framing64 sig fs 0.025 0.01 = .ok (frames, ((fs / 40 : ℕ) : ℤ)) ∧
      frames.length = (sig.length - fs / 40) / (fs / 100) + 1 ∧
      ∀ i, i < frames.length → frames.getD i [] = (sig.drop (i * (fs / 100))).take (fs / 40) := by
  have w1 : (1 : ℝ) / (40 : ℕ) ≤ fl64 (1 / (40 : ℕ)) := by
    rw [fl64_eq (e := -6) (r := 7205759403792794) (by norm_num) (by norm_num) (by rw [abs_lt]; norm_num)]
    norm_num
  have w2 : (1 : ℝ) / (100 : ℕ) ≤ fl64 (1 / (100 : ℕ)) := by
    rw [fl64_eq (e := -7) (r := 5764607523034235) (by norm_num) (by norm_num) (by rw [abs_lt]; norm_num)]
    norm_num
  have i1 := samples64_div (fs := fs) (by norm_num) h2 w1
  have i2 := samples64_div (fs := fs) (by norm_num) h2 w2
  rw [show (1 : ℝ) / (40 : ℕ) = 0.025 by norm_num] at i1
  rw [show (1 : ℝ) / (100 : ℕ) = 0.01 by norm_num] at i2
  have hpos : 0 < pyInt (fl64 (fl64 0.01 * fs)) := by
    rw [i2]
    have : 1 ≤ fs / 100 := (Nat.one_le_div_iff (by norm_num)).mpr h1
    exact_mod_cast this
  obtain ⟨frames, hf⟩ := (C12_framing_cases fl64 fl64_mono sig fs (fl64 0.025) (fl64 0.01) (Nat.cast_nonneg _) hpos).2.2.2
    (fl64_mono (by norm_num)) (by rw [i1]; exact_mod_cast h3)
  obtain ⟨l, s, g1, g2, g3, g4, g5, g6⟩ := C11_framing_content fl64 sig fs _ _ frames _ hpos hf
  rw [i1] at g2
  rw [i2] at g3
  obtain rfl : l = fs / 40 := by omega
  obtain rfl : s = fs / 100 := by omega
  rw [i1] at hf
  exact ⟨frames, hf, g5, fun i hi => (g6 i hi).2.1⟩

/-- The hypotheses of `C129_frame_length_partial` are met by half a second of zeros at 16 kHz with 32 ms windows 16 ms
apart. -/
example : ∃ frames L, framing64 (List.replicate 8000 0) 16000 0.032 0.016 = .ok (frames, L) ∧
    (0.032 * 16000 : ℝ) = (512 : ℕ) ∧ (0.016 * 16000 : ℝ) = (256 : ℕ) := by
  have a : (0.032 * 16000 : ℝ) = (512 : ℕ) := by norm_num
  have b : (0.016 * 16000 : ℝ) = (256 : ℕ) := by norm_num
  obtain ⟨a1, -⟩ := samples64 a (by norm_num) (by norm_num) (by norm_num)
  obtain ⟨b1, -⟩ := samples64 b (by norm_num) (by norm_num) (by norm_num)
  obtain ⟨frames, hf⟩ := (C12_framing_cases fl64 fl64_mono (List.replicate 8000 0) 16000 (fl64 0.032) (fl64 0.016) (by norm_num)
    (by rcases b1 with b | b <;> rw [b] <;> norm_num)).2.2.2 (fl64_mono (by norm_num))
    (by rw [List.length_replicate]; rcases a1 with b | b <;> rw [b] <;> norm_num)
  exact ⟨frames, _, hf, a, b⟩

end Props
end Spafe
