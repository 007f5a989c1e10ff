import Verif.Props.Loudness

/-! C164: `intensity_power_law` (`bfcc.py:29-47`) against the formula in its docstring (`bfcc.py:41-43`). -/

set_option linter.unusedSectionVars false

namespace Spafe
namespace Spec

/-- The formula in the docstring of `intensity_power_law`, `bfcc.py:43`. -/
noncomputable def docLoudness (w : ℝ) : ℝ :=
  (w ^ 2 + 56.8 * 10 ^ 6) * w ^ 4 / ((w ^ 2 + 6.3 * 10 ^ 6) ^ 2 * (w ^ 2 + 0.38 * 10 ^ 9))

end Spec

namespace Props
open Model XF Spec Real

theorem docLoudness_nonneg (w : ℝ) : 0 ≤ docLoudness w := by
  unfold docLoudness; positivity

theorem docLoudness_pos {w : ℝ} (h : 0 < w) : 0 < docLoudness w := by
  unfold docLoudness; positivity

/-- **C164** (partial): the cube of the result is the documented value times an undocumented factor. What is missing for the full claim is
that the result is the documented value itself; `C164_differs` shows that it is not. -/
theorem C164_relation_partial (w : ℝ) (h : 0 ≤ w) : ∃ y, intensityPowerLaw (fin w) = fin y ∧ 0 ≤ y ∧
    y ^ 3 = docLoudness w * ((w ^ 2 + 6.3 * 10 ^ 6) / (w ^ 6 + 9.58 * 10 ^ 26)) ∧ (w = 0 → y = docLoudness w) := by
  refine ⟨intensity w, intensity_eq h, intensity_nonneg' w, ?_, ?_⟩
  · rw [intensity_cube]
    unfold loudRatio docLoudness
    have h1 : (0 : ℝ) < w ^ 2 + 6.3 * 10 ^ 6 := by positivity
    have h2 : (0 : ℝ) < w ^ 2 + 0.38 * 10 ^ 9 := by positivity
    have h3 : (0 : ℝ) < w ^ 6 + 9.58 * 10 ^ 26 := by positivity
    rw [show (w ^ 2) ^ 3 = w ^ 6 by ring, show (w ^ 2) ^ 2 = w ^ 4 by ring]
    generalize w ^ 2 + 6.3 * 10 ^ 6 = a at *
    generalize w ^ 2 + 0.38 * 10 ^ 9 = b at *
    generalize w ^ 6 + 9.58 * 10 ^ 26 = c at *
    field_simp
  · rintro rfl
    have := intensity_cube 0
    have h0 : intensity 0 ^ 3 = 0 := by rw [this]; norm_num [loudRatio]
    rw [pow_eq_zero_iff (by norm_num)] at h0
    rw [h0]; norm_num [docLoudness]

/-- **C164**: the documented formula grows with its argument and stays below 1. (The result of the code falls from 32000 on,
`C149_reversed`.) -/
theorem C164_documented (v w : ℝ) (h0 : 0 ≤ v) (h1 : v < w) : docLoudness v < docLoudness w ∧ docLoudness w < 1 := by
  have hw : 0 < w := h0.trans_lt h1
  have ht : v ^ 2 < w ^ 2 := by nlinarith
  have ht0 : 0 ≤ v ^ 2 := sq_nonneg v
  unfold docLoudness
  rw [show v ^ 4 = (v ^ 2) ^ 2 by ring, show w ^ 4 = (w ^ 2) ^ 2 by ring]
  generalize v ^ 2 = t at *
  generalize w ^ 2 = u at *
  have hu : 0 < u := ht0.trans_lt ht
  constructor
  · have f1 : t / (t + 6.3 * 10 ^ 6) < u / (u + 6.3 * 10 ^ 6) := by
      rw [div_lt_div_iff₀ (by positivity) (by positivity)]; nlinarith
    have f2 : (t + 56.8 * 10 ^ 6) / (t + 0.38 * 10 ^ 9) < (u + 56.8 * 10 ^ 6) / (u + 0.38 * 10 ^ 9) := by
      rw [div_lt_div_iff₀ (by positivity) (by positivity)]; nlinarith
    have e : ∀ s : ℝ, 0 ≤ s → (s + 56.8 * 10 ^ 6) * s ^ 2 / ((s + 6.3 * 10 ^ 6) ^ 2 * (s + 0.38 * 10 ^ 9)) =
        (s + 56.8 * 10 ^ 6) / (s + 0.38 * 10 ^ 9) * (s / (s + 6.3 * 10 ^ 6)) ^ 2 := by
      intro s hs
      have h1 : (0 : ℝ) < s + 6.3 * 10 ^ 6 := by positivity
      have h2 : (0 : ℝ) < s + 0.38 * 10 ^ 9 := by positivity
      generalize s + 6.3 * 10 ^ 6 = a at *
      generalize s + 0.38 * 10 ^ 9 = b at *
      field_simp
    rw [e t ht0, e u hu.le]
    have g0 : 0 ≤ t / (t + 6.3 * 10 ^ 6) := by positivity
    have g1 : (t / (t + 6.3 * 10 ^ 6)) ^ 2 < (u / (u + 6.3 * 10 ^ 6)) ^ 2 := pow_lt_pow_left₀ f1 g0 (by norm_num)
    exact mul_lt_mul'' f2 g1 (by positivity) (by positivity)
  · rw [div_lt_one (by positivity)]
    have a1 : u ^ 2 < (u + 6.3 * 10 ^ 6) ^ 2 := by nlinarith
    have a2 : u + 56.8 * 10 ^ 6 < u + 0.38 * 10 ^ 9 := by norm_num
    rw [mul_comm]
    exact mul_lt_mul'' a1 a2 (by positivity) (by positivity)

theorem docLoudness_mono {v w : ℝ} (h0 : 0 ≤ v) (h1 : v ≤ w) : docLoudness v ≤ docLoudness w := by
  rcases h1.eq_or_lt with rfl | h
  · exact le_rfl
  · exact (C164_documented v w h0 h).1.le

theorem cube_lt {y d r : ℝ} (hd : 0 < d) (hy : 0 ≤ y) (e : y ^ 3 = d * r) : (d ^ 2 < r → d < y) ∧ (r < d ^ 2 → y < d) := by
  constructor
  · intro h
    refine lt_of_pow_lt_pow_left₀ 3 hy ?_
    rw [e, pow_succ, mul_comm]
    exact mul_lt_mul_of_pos_left h hd
  · intro h
    refine lt_of_pow_lt_pow_left₀ 3 hd.le ?_
    rw [e, pow_succ, mul_comm (d ^ 2)]
    exact mul_lt_mul_of_pos_left h hd

/-- **C164** (negation of the full claim): the result is above the documented value for arguments up to 12.1 and below it from 12.12 on. -/
theorem C164_differs (w : ℝ) (h : 0 < w) : ∃ y, intensityPowerLaw (fin w) = fin y ∧
    (w ≤ 12.1 → docLoudness w < y) ∧ (12.12 ≤ w → y < docLoudness w) := by
  obtain ⟨y, h1, h2, h3, -⟩ := C164_relation_partial w h.le
  refine ⟨y, h1, fun hw => (cube_lt (docLoudness_pos h) h2 h3).1 ?_, fun hw => (cube_lt (docLoudness_pos h) h2 h3).2 ?_⟩
  · have a1 : docLoudness w ≤ 8.08 / 10 ^ 11 := (docLoudness_mono h.le hw).trans (by norm_num [docLoudness])
    have a2 : docLoudness w ^ 2 ≤ (8.08 / 10 ^ 11) ^ 2 := pow_le_pow_left₀ (docLoudness_nonneg w) a1 2
    refine a2.trans_lt ?_
    have a3 : w ^ 6 ≤ 12.1 ^ 6 := pow_le_pow_left₀ h.le hw 6
    rw [lt_div_iff₀ (by positivity)]
    have a4 : 0 ≤ w ^ 2 := sq_nonneg w
    norm_num at a3 ⊢
    linarith
  · rw [div_lt_iff₀ (by positivity)]
    have hd : 8.12 / 10 ^ 11 ≤ docLoudness w := le_trans (by norm_num [docLoudness]) (docLoudness_mono (by norm_num) hw)
    have a6 : 0 ≤ w ^ 6 := by positivity
    rcases le_total w 100 with hs | hs
    · have a1 : (8.12 / 10 ^ 11) ^ 2 ≤ docLoudness w ^ 2 := pow_le_pow_left₀ (by norm_num) hd 2
      have a2 : w ^ 2 ≤ 100 ^ 2 := pow_le_pow_left₀ h.le hs 2
      refine lt_of_lt_of_le ?_ (mul_le_mul_of_nonneg_right a1 (by positivity))
      norm_num at a2 ⊢
      linarith
    · have b0 : 3 / 10 ^ 7 ≤ docLoudness w := le_trans (by norm_num [docLoudness]) (docLoudness_mono (v := 100) (by norm_num) hs)
      have a1 : (3 / 10 ^ 7) ^ 2 ≤ docLoudness w ^ 2 := pow_le_pow_left₀ (by norm_num) b0 2
      refine lt_of_lt_of_le ?_ (mul_le_mul_of_nonneg_right a1 (by positivity))
      have e6 : w ^ 6 = (w ^ 2) ^ 3 := by ring
      rw [e6]
      have t0 : 0 ≤ w ^ 2 := sq_nonneg w
      generalize w ^ 2 = t at *
      rcases le_total t (10 ^ 12) with ht | ht
      · have : 0 ≤ t ^ 3 := by positivity
        norm_num at ht ⊢
        linarith
      · have c1 : (10 ^ 12) ^ 2 * t ≤ t ^ 3 := by
          have := mul_le_mul_of_nonneg_right (pow_le_pow_left₀ (by norm_num) ht 2) t0
          calc _ ≤ t ^ 2 * t := this
            _ = t ^ 3 := by ring
        norm_num at c1 ht ⊢
        linarith

/-- A band energy of 1000: the documented value is above 0.002 and the code returns less than 0.0000001. -/
example : ∃ y, intensityPowerLaw (fin 1000) = fin y ∧ y < 1 / 10 ^ 7 ∧ 0.002 < docLoudness 1000 := by
  obtain ⟨y, h1, h2, h3, -⟩ := C164_relation_partial 1000 (by norm_num)
  refine ⟨y, h1, lt_of_pow_lt_pow_left₀ 3 (by norm_num) ?_, by norm_num [docLoudness]⟩
  rw [h3]
  norm_num [docLoudness]

end Props
end Spafe
