import Verif.Props.LpMeaning
import Mathlib.Analysis.Complex.ExponentialBounds

/-! C149: the loudness values of `plp` as a function of the band energies. -/

set_option linter.unusedSectionVars false

namespace Spafe
namespace Props
open Model XF Spec Real

/-- The value whose cube root is the loudness, `rplp.py:151-154`, as a function of the square `t` of the energy. -/
noncomputable def loudRatio (t : ℝ) : ℝ :=
  (t + 56.8 * 10 ^ 6) * t ^ 2 / ((t + 6.3 * 10 ^ 6) * (t + 0.38 * 10 ^ 9) * (t ^ 3 + 9.58 * 10 ^ 26))

theorem intensity_root (e : ℝ) : intensity e = loudRatio (e ^ 2) ^ (1 / 3 : ℝ) := by
  unfold intensity loudRatio
  rw [← pow_mul, ← pow_mul]

theorem loudRatio_nonneg {t : ℝ} (h : 0 ≤ t) : 0 ≤ loudRatio t := by
  unfold loudRatio; positivity

theorem loudRatio_pos {t : ℝ} (h : 0 < t) : 0 < loudRatio t := by
  unfold loudRatio; positivity

theorem intensity_cube (e : ℝ) : intensity e ^ 3 = loudRatio (e ^ 2) := by
  rw [intensity_root, ← rpow_natCast, ← rpow_mul (loudRatio_nonneg (sq_nonneg e))]
  norm_num

theorem intensity_nonneg' (e : ℝ) : 0 ≤ intensity e := by
  rw [intensity_root]; exact rpow_nonneg (loudRatio_nonneg (sq_nonneg e)) _

theorem intensity_pos' {e : ℝ} (h : e ≠ 0) : 0 < intensity e := by
  rw [intensity_root]; exact rpow_pos_of_pos (loudRatio_pos (by positivity)) _

theorem intensity_lt_iff {e f : ℝ} : intensity e < intensity f ↔ loudRatio (e ^ 2) < loudRatio (f ^ 2) := by
  rw [intensity_root, intensity_root]
  exact rpow_lt_rpow_iff (loudRatio_nonneg (sq_nonneg e)) (loudRatio_nonneg (sq_nonneg f)) (by norm_num)

theorem loudRatio_increasing {t u : ℝ} (h0 : 0 ≤ t) (h1 : t < u) (h2 : u ≤ 4 * 10 ^ 8) : loudRatio t < loudRatio u := by
  have hu : 0 < u := h0.trans_lt h1
  have key : t * ((u + 0.38 * 10 ^ 9) * (u ^ 3 + 9.58 * 10 ^ 26)) ≤ u * ((t + 0.38 * 10 ^ 9) * (t ^ 3 + 9.58 * 10 ^ 26)) := by
    have e : u * ((t + 0.38 * 10 ^ 9) * (t ^ 3 + 9.58 * 10 ^ 26)) - t * ((u + 0.38 * 10 ^ 9) * (u ^ 3 + 9.58 * 10 ^ 26)) =
        (u - t) * (0.38 * 10 ^ 9 * (9.58 * 10 ^ 26) - t * u * (t ^ 2 + t * u + u ^ 2) - 0.38 * 10 ^ 9 * (t * u * (t + u))) := by
      ring
    have b1 : t * u ≤ (4 * 10 ^ 8) * (4 * 10 ^ 8) := mul_le_mul (h1.le.trans h2) h2 hu.le (by norm_num)
    have b2 : t ^ 2 + t * u + u ^ 2 ≤ 3 * ((4 * 10 ^ 8) * (4 * 10 ^ 8)) := by nlinarith
    have b3 : t * u * (t ^ 2 + t * u + u ^ 2) ≤ (4 * 10 ^ 8) * (4 * 10 ^ 8) * (3 * ((4 * 10 ^ 8) * (4 * 10 ^ 8))) :=
      mul_le_mul b1 b2 (by positivity) (by norm_num)
    have b4 : t * u * (t + u) ≤ (4 * 10 ^ 8) * (4 * 10 ^ 8) * (8 * 10 ^ 8) :=
      mul_le_mul b1 (by linarith) (by positivity) (by norm_num)
    have : 0 ≤ (u - t) * (0.38 * 10 ^ 9 * (9.58 * 10 ^ 26) - t * u * (t ^ 2 + t * u + u ^ 2)
        - 0.38 * 10 ^ 9 * (t * u * (t + u))) := by
      refine mul_nonneg (by linarith) ?_
      norm_num at b3 b4 ⊢
      linarith
    linarith
  unfold loudRatio
  rw [div_lt_div_iff₀ (by positivity) (by positivity)]
  have f1 : (t + 56.8 * 10 ^ 6) * (t * (u + 6.3 * 10 ^ 6)) < (u + 56.8 * 10 ^ 6) * (u * (t + 6.3 * 10 ^ 6)) := by
    nlinarith [mul_nonneg h0 hu.le]
  calc (t + 56.8 * 10 ^ 6) * t ^ 2 * ((u + 6.3 * 10 ^ 6) * (u + 0.38 * 10 ^ 9) * (u ^ 3 + 9.58 * 10 ^ 26))
      = ((t + 56.8 * 10 ^ 6) * (t * (u + 6.3 * 10 ^ 6))) * (t * ((u + 0.38 * 10 ^ 9) * (u ^ 3 + 9.58 * 10 ^ 26))) := by ring
    _ ≤ ((t + 56.8 * 10 ^ 6) * (t * (u + 6.3 * 10 ^ 6))) * (u * ((t + 0.38 * 10 ^ 9) * (t ^ 3 + 9.58 * 10 ^ 26))) :=
      mul_le_mul_of_nonneg_left key (by positivity)
    _ < ((u + 56.8 * 10 ^ 6) * (u * (t + 6.3 * 10 ^ 6))) * (u * ((t + 0.38 * 10 ^ 9) * (t ^ 3 + 9.58 * 10 ^ 26))) :=
      mul_lt_mul_of_pos_right f1 (by positivity)
    _ = _ := by ring

theorem loudRatio_decreasing {t u : ℝ} (h0 : 10 ^ 9 ≤ t) (h1 : t < u) : loudRatio u < loudRatio t := by
  have ht : 0 < t := lt_of_lt_of_le (by norm_num) h0
  have hu : 0 < u := ht.trans h1
  have key : u ^ 2 * ((t + 0.38 * 10 ^ 9) * (t ^ 3 + 9.58 * 10 ^ 26)) < t ^ 2 * ((u + 0.38 * 10 ^ 9) * (u ^ 3 + 9.58 * 10 ^ 26)) := by
    have e : t ^ 2 * ((u + 0.38 * 10 ^ 9) * (u ^ 3 + 9.58 * 10 ^ 26)) - u ^ 2 * ((t + 0.38 * 10 ^ 9) * (t ^ 3 + 9.58 * 10 ^ 26)) =
        (u - t) * (t * u * (t * u * (t + u) + 0.38 * 10 ^ 9 * (t * u)  - 9.58 * 10 ^ 26)
          - 0.38 * 10 ^ 9 * (9.58 * 10 ^ 26) * (t + u)) := by
      ring
    have b1 : (10 ^ 9 : ℝ) * 10 ^ 9 ≤ t * u := mul_le_mul h0 (h0.trans h1.le) (by norm_num) ht.le
    have b2 : (10 ^ 9 : ℝ) * 10 ^ 9 * (t + u) ≤ t * u * (t + u) := mul_le_mul_of_nonneg_right b1 (by positivity)
    have b3 : t * u * (t + u) * (0.7 * 10 ^ 18) ≤ t * u * (t * u * (t + u) + 0.38 * 10 ^ 9 * (t * u) - 9.58 * 10 ^ 26) := by
      have : (t + u) * (0.7 * 10 ^ 18) ≤ t * u * (t + u) + 0.38 * 10 ^ 9 * (t * u) - 9.58 * 10 ^ 26 := by
        have : (2 * 10 ^ 9 : ℝ) ≤ t + u := by linarith
        nlinarith
      have := mul_le_mul_of_nonneg_left this (mul_nonneg ht.le hu.le)
      linarith
    have : 0 < (u - t) * (t * u * (t * u * (t + u) + 0.38 * 10 ^ 9 * (t * u)  - 9.58 * 10 ^ 26)
          - 0.38 * 10 ^ 9 * (9.58 * 10 ^ 26) * (t + u)) := by
      refine mul_pos (by linarith) ?_
      have : (0 : ℝ) < t + u := by positivity
      norm_num at b2 b3 ⊢
      nlinarith
    linarith
  unfold loudRatio
  rw [div_lt_div_iff₀ (by positivity) (by positivity)]
  have f1 : (u + 56.8 * 10 ^ 6) * (t + 6.3 * 10 ^ 6) ≤ (t + 56.8 * 10 ^ 6) * (u + 6.3 * 10 ^ 6) := by
    nlinarith
  calc (u + 56.8 * 10 ^ 6) * u ^ 2 * ((t + 6.3 * 10 ^ 6) * (t + 0.38 * 10 ^ 9) * (t ^ 3 + 9.58 * 10 ^ 26))
      = ((u + 56.8 * 10 ^ 6) * (t + 6.3 * 10 ^ 6)) * (u ^ 2 * ((t + 0.38 * 10 ^ 9) * (t ^ 3 + 9.58 * 10 ^ 26))) := by ring
    _ < ((u + 56.8 * 10 ^ 6) * (t + 6.3 * 10 ^ 6)) * (t ^ 2 * ((u + 0.38 * 10 ^ 9) * (u ^ 3 + 9.58 * 10 ^ 26))) :=
      mul_lt_mul_of_pos_left key (by positivity)
    _ ≤ ((t + 56.8 * 10 ^ 6) * (u + 6.3 * 10 ^ 6)) * (t ^ 2 * ((u + 0.38 * 10 ^ 9) * (u ^ 3 + 9.58 * 10 ^ 26))) :=
      mul_le_mul_of_nonneg_right f1 (by positivity)
    _ = _ := by ring

/-- C149: `intensity_power_law` of `bfcc` and the loudness of `plp` are the same function of the band energy, whatever the
frequency of the band. -/
theorem C149_values (e : ℝ) (h : 0 ≤ e) :
    intensityPowerLaw (fin e) = fin (intensity e) ∧ loudness (fin e) = fin (intensity e) :=
  ⟨intensity_eq h, loudness_fin e⟩

/-- C149, the part that holds: among band energies up to 20000 the one with more energy has the larger loudness value, and
only silence has loudness zero. Missing from the full claim: energies above, the level of the signal and the
frequency of the band, see `C149_reversed`, `C149_expansion` and `C149_level`. -/
theorem C149_monotone_partial (e f : ℝ) (h0 : 0 ≤ e) (h1 : e < f) (h2 : f ≤ 20000) :
    intensity e < intensity f ∧ (intensity e = 0 ↔ e = 0) := by
  refine ⟨intensity_lt_iff.mpr (loudRatio_increasing (sq_nonneg e) (by nlinarith) (by nlinarith)), ?_⟩
  constructor
  · intro h
    by_contra hne
    exact (intensity_pos' hne).ne' h
  · rintro rfl
    rw [intensity_root]
    norm_num [loudRatio]

/-- C149: above an energy of 32000 the order is reversed, the band with more energy has the smaller loudness value, and the
loudness of louder and louder bands tends to zero. -/
theorem C149_reversed (e f : ℝ) (h0 : 32000 ≤ e) (h1 : e < f) :
    intensity f < intensity e ∧ intensity e ≤ 2.1 / e ^ (4 / 3 : ℝ) := by
  have he : 0 < e := by linarith
  refine ⟨intensity_lt_iff.mpr (loudRatio_decreasing (by nlinarith) (by nlinarith)), ?_⟩
  have b : loudRatio (e ^ 2) ≤ 9.1 / e ^ 4 := by
    unfold loudRatio
    set t := e ^ 2
    have ht : 0 < t := by positivity
    rw [show e ^ 4 = t ^ 2 by simp only [t]; ring, div_le_div_iff₀ (by positivity) (by positivity)]
    have i1 : t + 56.8 * 10 ^ 6 ≤ 9.1 * (t + 6.3 * 10 ^ 6) := by linarith
    have i2 : t ^ 2 * t ^ 2 ≤ (t + 0.38 * 10 ^ 9) * (t ^ 3 + 9.58 * 10 ^ 26) := by
      nlinarith [pow_pos ht 3]
    calc (t + 56.8 * 10 ^ 6) * t ^ 2 * t ^ 2 = (t + 56.8 * 10 ^ 6) * (t ^ 2 * t ^ 2) := by ring
      _ ≤ (9.1 * (t + 6.3 * 10 ^ 6)) * ((t + 0.38 * 10 ^ 9) * (t ^ 3 + 9.58 * 10 ^ 26)) :=
        mul_le_mul i1 i2 (by positivity) (by positivity)
      _ = _ := by ring
  have c : (e ^ (4 / 3 : ℝ)) ^ 3 = e ^ 4 := by
    rw [← rpow_natCast, ← rpow_mul he.le, ← rpow_natCast e 4]
    norm_num
  have hp : 0 < e ^ (4 / 3 : ℝ) := rpow_pos_of_pos he _
  refine le_of_pow_le_pow_left₀ three_ne_zero (by positivity) ?_
  rw [intensity_cube, div_pow, c]
  refine b.trans ?_
  gcongr
  norm_num

/-- C149: for small energies the exponent is 4/3 and not 1/3, so that the "compression" is an expansion: the
loudness is `e^(4/3)` times a constant up to a factor between 0.998 and 1. -/
theorem C149_expansion (e : ℝ) (h0 : 0 < e) (h1 : e ≤ 100) : ∃ c, c = loudRatio 1 ^ (1 / 3 : ℝ) ∧ 0 < c ∧
    0.998 * c * e ^ (4 / 3 : ℝ) ≤ intensity e ∧ intensity e ≤ 1.002 * c * e ^ (4 / 3 : ℝ) := by
  have hp : 0 < e ^ (4 / 3 : ℝ) := rpow_pos_of_pos h0 _
  have c3 : (e ^ (4 / 3 : ℝ)) ^ 3 = e ^ 4 := by
    rw [← rpow_natCast, ← rpow_mul h0.le, ← rpow_natCast e 4]
    norm_num
  have hc : 0 < loudRatio 1 := loudRatio_pos one_pos
  have hcp : 0 < loudRatio 1 ^ (1 / 3 : ℝ) := rpow_pos_of_pos hc _
  have hc3 : (loudRatio 1 ^ (1 / 3 : ℝ)) ^ 3 = loudRatio 1 := by
    rw [← rpow_natCast, ← rpow_mul hc.le]
    norm_num
  refine ⟨_, rfl, hcp, ?_, ?_⟩
  · refine le_of_pow_le_pow_left₀ three_ne_zero (intensity_nonneg' e) ?_
    rw [mul_pow, mul_pow, c3, hc3, intensity_cube]
    have ht : 0 < e ^ 2 := by positivity
    have ht1 : e ^ 2 ≤ 10000 := by nlinarith
    rw [show e ^ 4 = (e ^ 2) ^ 2 by ring]
    generalize e ^ 2 = t at ht ht1 ⊢
    unfold loudRatio
    rw [le_div_iff₀ (by positivity)]
    have i1 : t ^ 3 ≤ 10 ^ 12 := by
      calc t ^ 3 ≤ 10000 ^ 3 := by gcongr
        _ = 10 ^ 12 := by norm_num
    have i2 : (t + 6.3 * 10 ^ 6) * (t + 0.38 * 10 ^ 9) * (t ^ 3 + 9.58 * 10 ^ 26) ≤
        (10000 + 6.3 * 10 ^ 6) * (10000 + 0.38 * 10 ^ 9) * (10 ^ 12 + 9.58 * 10 ^ 26) := by gcongr
    calc 0.998 ^ 3 * ((1 + 56.8 * 10 ^ 6) * 1 ^ 2 / ((1 + 6.3 * 10 ^ 6) * (1 + 0.38 * 10 ^ 9) * (1 ^ 3 + 9.58 * 10 ^ 26))) *
          t ^ 2 * ((t + 6.3 * 10 ^ 6) * (t + 0.38 * 10 ^ 9) * (t ^ 3 + 9.58 * 10 ^ 26))
        ≤ 0.998 ^ 3 * ((1 + 56.8 * 10 ^ 6) * 1 ^ 2 / ((1 + 6.3 * 10 ^ 6) * (1 + 0.38 * 10 ^ 9) * (1 ^ 3 + 9.58 * 10 ^ 26))) *
          t ^ 2 * ((10000 + 6.3 * 10 ^ 6) * (10000 + 0.38 * 10 ^ 9) * (10 ^ 12 + 9.58 * 10 ^ 26)) :=
          mul_le_mul_of_nonneg_left i2 (by positivity)
      _ ≤ (0 + 56.8 * 10 ^ 6) * t ^ 2 := by
          have : (0 : ℝ) < t ^ 2 := by positivity
          generalize t ^ 2 = q at this
          norm_num
          linarith
      _ ≤ (t + 56.8 * 10 ^ 6) * t ^ 2 := by gcongr
  · refine le_of_pow_le_pow_left₀ three_ne_zero (by positivity) ?_
    rw [mul_pow, mul_pow, c3, hc3, intensity_cube]
    have ht : 0 < e ^ 2 := by positivity
    have ht1 : e ^ 2 ≤ 10000 := by nlinarith
    rw [show e ^ 4 = (e ^ 2) ^ 2 by ring]
    generalize e ^ 2 = t at ht ht1 ⊢
    unfold loudRatio
    rw [div_le_iff₀ (by positivity)]
    have i2 : (0 + 6.3 * 10 ^ 6) * (0 + 0.38 * 10 ^ 9) * (0 + 9.58 * 10 ^ 26) ≤
        (t + 6.3 * 10 ^ 6) * (t + 0.38 * 10 ^ 9) * (t ^ 3 + 9.58 * 10 ^ 26) := by gcongr; positivity
    calc (t + 56.8 * 10 ^ 6) * t ^ 2 ≤ (10000 + 56.8 * 10 ^ 6) * t ^ 2 := by gcongr
      _ ≤ 1.002 ^ 3 * ((1 + 56.8 * 10 ^ 6) * 1 ^ 2 / ((1 + 6.3 * 10 ^ 6) * (1 + 0.38 * 10 ^ 9) * (1 ^ 3 + 9.58 * 10 ^ 26))) *
          t ^ 2 * ((0 + 6.3 * 10 ^ 6) * (0 + 0.38 * 10 ^ 9) * (0 + 9.58 * 10 ^ 26)) := by
          have : (0 : ℝ) < t ^ 2 := by positivity
          generalize t ^ 2 = q at this
          norm_num
          linarith
      _ ≤ _ := mul_le_mul_of_nonneg_left i2 (by positivity)

/-! ### The level of the signal -/

/-- Frames of one sample, `nfft = 2`, two bands of which the second has twice the energy of the first, order 2. -/
noncomputable def levelDemo : Args :=
  { fs := 1, numCeps := 2, nfilts := 2, nfft := 2, preEmph := false, window := some ⟨1, 1, "hamming"⟩,
    fbanks := some (finMat [[1, 0], [0, 2]]) }

theorem levelDemo_setup (x : ℝ) : Setup levelDemo [[1, 0], [0, 2]] [x] 1 1 where
  bank := rfl
  cols := by simp [levelDemo]
  nonneg := by simp
  rows := by simp
  ceps := by simp [levelDemo]
  nfft := by simp [levelDemo]
  window := by simp [levelDemo, Args.win, WindowName]
  hopLe := by simp [levelDemo, Args.win]
  len := by
    have : (levelDemo.win.winLen * levelDemo.fs) = ((1 : ℕ) : ℝ) := by simp [levelDemo, Args.win]
    rw [this]; simp [pyInt]
  hop := by
    have : (levelDemo.win.winHop * levelDemo.fs) = ((1 : ℕ) : ℝ) := by simp [levelDemo, Args.win]
    rw [this]; simp [pyInt]
  pos := by norm_num
  long := by simp
  samples := by simp

theorem levelDemo_energy (x c : ℝ) : ∀ n < 2, bandEnergy [[1, 0], [0, 2]] (windowWeight levelDemo.win.winType 1)
    (emphasised levelDemo.preEmph c [x]) 1 1 levelDemo.nfft 0 n = (n + 1) * (x ^ 2 / 2) := by
  have hb : ∀ k, framePower (windowWeight levelDemo.win.winType 1) (emphasised levelDemo.preEmph c [x]) 1 1 2 0 k =
      x ^ 2 / 2 := by
    intro k
    simp [framePower, frameBin, windowWeight, emphasised, levelDemo]
  intro n hn
  show bandEnergy _ _ _ 1 1 2 0 n = _
  unfold bandEnergy
  simp only [hb]
  interval_cases n
  · norm_num [Finset.sum_range_succ]
  · norm_num [Finset.sum_range_succ]; ring

/-- The second entry of the row of `plp`, and of `bfcc`, for a signal of one sample `x`. -/
theorem levelDemo_plp (x : ℝ) (hx : x ≠ 0) : ∃ m, plp levelDemo [x] = .ok m ∧ ∃ A B a, A = intensity (x ^ 2 / 2) ∧
    B = intensity (x ^ 2) ∧ (m.getD 0 []).getD 1 nan = fin a ∧ a * (2 * (A ^ 2 + B ^ 2)) = -|A ^ 2 - B ^ 2| := by
  have hx2 : x ^ 2 ≠ 0 := by positivity
  obtain ⟨m, h1, h2, h3⟩ := C107_plp_meaning levelDemo _ _ 1 1 (levelDemo_setup x) le_rfl rfl rfl _ rfl (by
    intro i hi
    have : i = 0 := by simpa using hi
    subst this
    refine ⟨0, by simp [levelDemo], ?_⟩
    rw [levelDemo_energy x _ 0 (by norm_num)]
    simpa using hx)
  obtain ⟨p, hp, h4⟩ := h3 0 (by simp) _ rfl
  refine ⟨m, h1, _, _, _, rfl, rfl, h4 1 (by simp [levelDemo]), ?_⟩
  have hr : (List.range levelDemo.nfft).map (inverseDft levelDemo.nfft ([[1, 0], [0, 2]] : List (List ℝ)).length fun n => intensity
      (bandEnergy [[1, 0], [0, 2]] (windowWeight levelDemo.win.winType 1)
      (emphasised levelDemo.preEmph levelDemo.preEmphCoeff [x]) 1 1 levelDemo.nfft 0 n)) =
      [|intensity (x ^ 2 / 2) + intensity (x ^ 2)| / 2, |intensity (x ^ 2 / 2) - intensity (x ^ 2)| / 2] := by
    have e0 := levelDemo_energy x levelDemo.preEmphCoeff 0 (by norm_num)
    have e1 := levelDemo_energy x levelDemo.preEmphCoeff 1 (by norm_num)
    have e1' : (((1 : ℕ) : ℝ) + 1) * (x ^ 2 / 2) = x ^ 2 := by push_cast; ring
    have e0' : (((0 : ℕ) : ℝ) + 1) * (x ^ 2 / 2) = x ^ 2 / 2 := by push_cast; ring
    rw [e0'] at e0
    rw [e1'] at e1
    show (List.range 2).map (inverseDft 2 2 _) = _
    simp only [List.range_succ, List.range_zero, List.nil_append, List.cons_append, List.map_cons, List.map_nil]
    have hexp : Complex.exp (2 * π * Complex.I * (((1 : ℕ) : ℂ) * ((1 : ℕ) : ℂ)) / ((2 : ℕ) : ℂ)) = -1 := by
      rw [show 2 * (π : ℂ) * Complex.I * (((1 : ℕ) : ℂ) * ((1 : ℕ) : ℂ)) / ((2 : ℕ) : ℂ) = π * Complex.I by push_cast; ring]
      exact Complex.exp_pi_mul_I
    congr 1
    · unfold inverseDft
      simp only [min_self, Finset.sum_range_succ, Finset.sum_range_zero, zero_add, e0, e1]
      simp only [Nat.cast_zero, mul_zero, zero_div, Complex.exp_zero, mul_one]
      rw [← Complex.ofReal_add, Complex.norm_real, norm_eq_abs]
      norm_num
    · congr 1
      unfold inverseDft
      simp only [min_self, Finset.sum_range_succ, Finset.sum_range_zero, zero_add, e0, e1, hexp]
      simp only [Nat.cast_zero, zero_mul, mul_zero, zero_div, Complex.exp_zero, mul_one]
      rw [mul_neg_one, ← sub_eq_add_neg, ← Complex.ofReal_sub, Complex.norm_real, norm_eq_abs]
      norm_num
  rw [hr] at hp
  have hA := intensity_pos' (e := x ^ 2 / 2) (by positivity)
  have hB := intensity_pos' hx2
  generalize intensity (x ^ 2 / 2) = A at hp hA ⊢
  generalize intensity (x ^ 2) = B at hp hB ⊢
  have hn := hp.normal 1 le_rfl (by simp [levelDemo])
  have h5 : lpCoefficient p (lpResidual ((List.range levelDemo.nfft).map (inverseDft levelDemo.nfft
      ([[1, 0], [0, 2]] : List (List ℝ)).length fun n => intensity
      (bandEnergy [[1, 0], [0, 2]] (windowWeight levelDemo.win.winType 1)
      (emphasised levelDemo.preEmph levelDemo.preEmphCoeff [x]) 1 1 levelDemo.nfft 0 n))) (levelDemo.numCeps - 1) p) 1 = p 1 := by
    simp [lpCoefficient]
  rw [h5]
  have hn' : p 1 * autoCorr [|A + B| / 2, |A - B| / 2] 0 = -autoCorr [|A + B| / 2, |A - B| / 2] 1 := by
    have : levelDemo.numCeps - 1 = 1 := rfl
    rw [this] at hn
    simpa using hn
  have r0 : autoCorr [|A + B| / 2, |A - B| / 2] 0 = (A ^ 2 + B ^ 2) / 2 := by
    simp [autoCorr, ext, Finset.sum_range_succ]
    have := sq_abs (A + B)
    have := sq_abs (A - B)
    nlinarith
  have r1 : autoCorr [|A + B| / 2, |A - B| / 2] 1 = |A ^ 2 - B ^ 2| / 4 := by
    simp [autoCorr, ext, Finset.sum_range_succ]
    rw [show A ^ 2 - B ^ 2 = (A + B) * (A - B) by ring, abs_mul]
    ring
  rw [r0, r1] at hn'
  linarith

/-- C149: a change of the recording level changes more than the level coefficient of `plp`: the second coefficient of the
same sound played 100 times louder moves from below -0.3 to above -0.1. -/
theorem C149_level : ∃ m m' a b, plp levelDemo [2] = .ok m ∧ plp levelDemo [100 * 2] = .ok m' ∧
    (m.getD 0 []).getD 1 nan = fin a ∧ (m'.getD 0 []).getD 1 nan = fin b ∧ a ≤ -0.3 ∧ -0.1 ≤ b := by
  obtain ⟨m, h1, A, B, a, hA, hB, h2, h3⟩ := levelDemo_plp 2 (by norm_num)
  obtain ⟨m', h1', A', B', b, hA', hB', h2', h3'⟩ := levelDemo_plp (100 * 2) (by norm_num)
  refine ⟨m, m', a, b, h1, h1', h2, h2', ?_, ?_⟩
  · have pA : 0 < A := hA ▸ intensity_pos' (by norm_num)
    have pB : 0 < B := hB ▸ intensity_pos' (by norm_num)
    have c : 8 * A ^ 3 ≤ B ^ 3 := by
      rw [hA, hB, intensity_cube, intensity_cube]
      norm_num [loudRatio]
    have d : 2 * A ≤ B := by
      refine le_of_pow_le_pow_left₀ three_ne_zero pB.le ?_
      rw [mul_pow]; norm_num; exact c
    have q : A ^ 2 - B ^ 2 ≤ 0 := by nlinarith
    rw [abs_of_nonpos q] at h3
    have : 0 < 2 * (A ^ 2 + B ^ 2) := by positivity
    by_contra hc
    push Not at hc
    have := mul_lt_mul_of_pos_right hc this
    nlinarith
  · have pA : 0 < A' := hA' ▸ intensity_pos' (by norm_num)
    have pB : 0 < B' := hB' ▸ intensity_pos' (by norm_num)
    have c1 : A' ^ 3 ≤ B' ^ 3 := by
      rw [hA', hB', intensity_cube, intensity_cube]
      norm_num [loudRatio]
    have c2 : B' ^ 3 ≤ (1.1 * A') ^ 3 := by
      rw [mul_pow, hA', hB', intensity_cube, intensity_cube]
      norm_num [loudRatio]
    have d1 := le_of_pow_le_pow_left₀ three_ne_zero pB.le c1
    have d2 := le_of_pow_le_pow_left₀ three_ne_zero (by positivity) c2
    have q : A' ^ 2 - B' ^ 2 ≤ 0 := by nlinarith
    rw [abs_of_nonpos q] at h3'
    have : 0 < 2 * (A' ^ 2 + B' ^ 2) := by positivity
    by_contra hc
    push Not at hc
    have := mul_lt_mul_of_pos_right hc this
    nlinarith

theorem levelDemo_bfcc (x : ℝ) (hx : x ≠ 0) : ∃ m, bfcc levelDemo [x] = .ok m ∧
    (m.getD 0 []).getD 1 nan = fin (√2 / 2 * log (intensity (x ^ 2 / 2) / intensity (x ^ 2))) := by
  obtain ⟨m, h1, -, h3⟩ := C101_meaning levelDemo bfcc 0.97 (fun e => logFloor (intensity e)) (by simp [compressions]) _ _ 1 1
    (levelDemo_setup x) rfl rfl rfl rfl
  refine ⟨m, h1, ?_⟩
  rw [h3 0 1 (by simp) (by simp [levelDemo])]
  have e0 := levelDemo_energy x 0.97 0 (by norm_num)
  have e1 := levelDemo_energy x 0.97 1 (by norm_num)
  rw [show (((0 : ℕ) : ℝ) + 1) * (x ^ 2 / 2) = x ^ 2 / 2 by push_cast; ring] at e0
  rw [show (((1 : ℕ) : ℝ) + 1) * (x ^ 2 / 2) = x ^ 2 by push_cast; ring] at e1
  have hA := intensity_pos' (e := x ^ 2 / 2) (by positivity)
  have hB := intensity_pos' (e := x ^ 2) (by positivity)
  have c3 : cos (π * ((1 : ℕ) : ℝ) * (2 * ((1 : ℕ) : ℝ) + 1) / (2 * ((2 : ℕ) : ℝ))) = -(√2 / 2) := by
    rw [show π * ((1 : ℕ) : ℝ) * (2 * ((1 : ℕ) : ℝ) + 1) / (2 * ((2 : ℕ) : ℝ)) = π - π / 4 by push_cast; ring, cos_pi_sub,
      cos_pi_div_four]
  have c1 : cos (π * ((1 : ℕ) : ℝ) * (2 * ((0 : ℕ) : ℝ) + 1) / (2 * ((2 : ℕ) : ℝ))) = √2 / 2 := by
    rw [show π * ((1 : ℕ) : ℝ) * (2 * ((0 : ℕ) : ℝ) + 1) / (2 * ((2 : ℕ) : ℝ)) = π / 4 by push_cast; ring, cos_pi_div_four]
  congr 1
  show dctII 2 _ 1 = _
  unfold dctII
  simp only [Finset.sum_range_succ, Finset.sum_range_zero, zero_add, e0, e1, c1, c3]
  rw [log_div hA.ne' hB.ne', logFloor, logFloor, if_neg hA.ne', if_neg hB.ne']
  norm_num
  ring

/-- C149: the same for the second coefficient of `bfcc`, which for `mfcc` does not depend on the level. -/
theorem C149_level_bfcc : ∃ m m' a b, bfcc levelDemo [2] = .ok m ∧ bfcc levelDemo [100 * 2] = .ok m' ∧
    (m.getD 0 []).getD 1 nan = fin a ∧ (m'.getD 0 []).getD 1 nan = fin b ∧ a ≤ -0.4 ∧ -0.1 ≤ b := by
  obtain ⟨m, h1, h2⟩ := levelDemo_bfcc 2 (by norm_num)
  obtain ⟨m', h1', h2'⟩ := levelDemo_bfcc (100 * 2) (by norm_num)
  refine ⟨m, m', _, _, h1, h1', h2, h2', ?_, ?_⟩
  · have pA : 0 < intensity (2 ^ 2 / 2) := intensity_pos' (by norm_num)
    have pB : 0 < intensity (2 ^ 2) := intensity_pos' (by norm_num)
    have d : 2 * intensity (2 ^ 2 / 2) ≤ intensity (2 ^ 2) := by
      refine le_of_pow_le_pow_left₀ three_ne_zero pB.le ?_
      rw [mul_pow, intensity_cube, intensity_cube]
      norm_num [loudRatio]
    have l : log (intensity (2 ^ 2 / 2) / intensity (2 ^ 2)) ≤ -log 2 := by
      rw [← log_inv]
      refine log_le_log (by positivity) ?_
      rw [div_le_iff₀ pB]
      linarith
    have s2 : (1.4 : ℝ) ≤ √2 := le_sqrt_of_sq_le (by norm_num)
    have := Real.log_two_gt_d9
    nlinarith
  · have pA : 0 < intensity ((100 * 2) ^ 2 / 2) := intensity_pos' (by norm_num)
    have pB : 0 < intensity ((100 * 2) ^ 2) := intensity_pos' (by norm_num)
    have d : intensity ((100 * 2) ^ 2) ≤ 1.1 * intensity ((100 * 2) ^ 2 / 2) := by
      refine le_of_pow_le_pow_left₀ three_ne_zero (by positivity) ?_
      rw [mul_pow 1.1, intensity_cube, intensity_cube]
      norm_num [loudRatio]
    have l : -0.1 ≤ log (intensity ((100 * 2) ^ 2 / 2) / intensity ((100 * 2) ^ 2)) := by
      have h := log_le_sub_one_of_pos (x := intensity ((100 * 2) ^ 2) / intensity ((100 * 2) ^ 2 / 2)) (by positivity)
      have h2 : intensity ((100 * 2) ^ 2) / intensity ((100 * 2) ^ 2 / 2) ≤ 1.1 := by rw [div_le_iff₀ pA]; exact d
      rw [← inv_div, log_inv]
      linarith
    have s2 : √2 ≤ 2 := by rw [sqrt_le_left (by norm_num)]; norm_num
    have s0 : 0 ≤ √2 := sqrt_nonneg 2
    nlinarith

/-- The hypotheses of the order theorems are met by energies of ordinary signals: quiet and loud. -/
example : intensity 1 < intensity 20000 ∧ intensity 1000000 < intensity 32000 ∧ intensity 1000000 < intensity 20000 := by
  refine ⟨(C149_monotone_partial 1 20000 (by norm_num) (by norm_num) le_rfl).1,
    (C149_reversed 32000 1000000 le_rfl (by norm_num)).1, ?_⟩
  rw [intensity_lt_iff]
  norm_num [loudRatio]

end Props
end Spafe
