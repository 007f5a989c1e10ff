import Verif.Model.GammatoneFbanks
import Verif.Lemmas.MelFbanks
import Mathlib.Analysis.SpecialFunctions.Trigonometric.Bounds
import Mathlib.Analysis.SpecialFunctions.Complex.Log

/-! Helper lemmas for `gammatone_fbanks.py`. -/

set_option linter.unusedSectionVars false

namespace Spafe
open XF Spec Model

theorem earQ_pos : 0 < earQ := by unfold earQ; norm_num
theorem minBW_pos : 0 < minBW := by unfold minBW; norm_num

theorem gammaErb_pos {fc : ℝ} {order : ℕ} (h : 0 ≤ fc) : 0 < gammaErb fc order := by
  unfold gammaErb
  have h1 : 0 ≤ (fc / earQ) ^ order := pow_nonneg (div_nonneg h earQ_pos.le) _
  have h2 : 0 < minBW ^ order := pow_pos minBW_pos _
  rw [one_mul]
  exact Real.rpow_pos_of_pos (by linarith) _

theorem gammaB_pos {fc : ℝ} {order : ℕ} (h : 0 ≤ fc) : 0 < gammaB fc order := by
  unfold gammaB
  have := gammaErb_pos (order := order) h
  have := Real.pi_pos
  positivity

theorem gammaKj_eq (x : ℝ) : gammaKj x = (Real.cos x : ℂ) + (Real.sin x : ℂ) * Complex.I := by
  unfold gammaKj
  rw [mul_comm, Complex.exp_mul_I, Complex.ofReal_cos, Complex.ofReal_sin]

theorem gammaKj_norm (x : ℝ) : ‖gammaKj x‖ = 1 := by
  unfold gammaKj
  rw [mul_comm]; exact Complex.norm_exp_ofReal_mul_I x

theorem gammaKj_ne_zero (x : ℝ) : gammaKj x ≠ 0 := Complex.exp_ne_zero _

theorem gammaA_sin_zero {fc b t : ℝ} (h : Real.sin (2 * fc * Real.pi * t) = 0) (i : ℕ) :
    gammaA fc b t i = Real.cos (2 * fc * Real.pi * t) / Real.exp (b * t) := by
  unfold gammaA
  rcases i with _ | _ | _ | _ <;> simp [h]

theorem gammaA_ne_Kj {fc b t : ℝ} (hbt : 0 < b * t) (i : ℕ) :
    ((gammaA fc b t i : ℝ) : ℂ) - gammaKj (2 * fc * Real.pi * t) ≠ 0 := by
  intro h
  have h := sub_eq_zero.mp h
  rw [gammaKj_eq] at h
  have him := congrArg Complex.im h
  have hre := congrArg Complex.re h
  simp only [Complex.ofReal_im, Complex.add_im, Complex.mul_im, Complex.ofReal_re, Complex.I_im, Complex.I_re,
    Complex.add_re, Complex.mul_re, mul_one, mul_zero, sub_zero, zero_add, add_zero] at him hre
  rw [gammaA_sin_zero him.symm] at hre
  have hk : 1 < Real.exp (b * t) := Real.one_lt_exp_iff.mpr hbt
  have hc : Real.cos (2 * fc * Real.pi * t) ≠ 0 := by
    intro hc
    have := Real.sin_sq_add_cos_sq (2 * fc * Real.pi * t)
    rw [hc, ← him] at this; simp at this
  rw [div_eq_iff (by positivity)] at hre
  have : Real.exp (b * t) = 1 := by
    have h2 : Real.cos (2 * fc * Real.pi * t) * Real.exp (b * t) = Real.cos (2 * fc * Real.pi * t) * 1 := by
      rw [mul_one]; exact hre.symm
    exact mul_left_cancel₀ hc h2
  linarith

theorem gammaCoe_ne_zero {b wt t : ℝ} (hbt : 0 < b * t) : gammaCoe b wt t ≠ 0 := by
  unfold gammaCoe
  have hk : 1 < Real.exp (b * t) := Real.one_lt_exp_iff.mpr hbt
  set k : ℝ := Real.exp (b * t) with hkdef
  have hk0 : (k : ℂ) ≠ 0 := by exact_mod_cast (by positivity : k ≠ 0)
  have e : (-2) / (k:ℂ) ^ 2 - 2 * gammaKj wt ^ 2 + 2 * (1 + gammaKj wt ^ 2) / k =
      (-2) * (1 / k - 1) * (1 / k - gammaKj wt ^ 2) := by field_simp; ring
  simp only
  rw [e]
  have n1 : (1 / (k:ℂ) - 1) ≠ 0 := by
    rw [sub_ne_zero]
    intro h
    rw [div_eq_iff hk0, one_mul] at h
    have : (1:ℝ) = k := by exact_mod_cast h
    linarith
  have n2 : (1 / (k:ℂ) - gammaKj wt ^ 2) ≠ 0 := by
    rw [sub_ne_zero]
    intro h
    have := congrArg norm h
    rw [norm_pow, gammaKj_norm, one_pow, norm_div, norm_one, Complex.norm_real, Real.norm_eq_abs,
      abs_of_pos (by linarith), div_eq_iff (by positivity)] at this
    linarith
  exact mul_ne_zero (mul_ne_zero (by norm_num) n1) n2

theorem gammaGain_pos {fc b t : ℝ} (ht : 0 < t) (hb : 0 < b) :
    0 < gammaGain fc b (2 * fc * Real.pi * t) t := by
  unfold gammaGain
  rw [norm_pos_iff]
  have hG : ∀ i, gammaG fc b (2 * fc * Real.pi * t) t i ≠ 0 := by
    intro i
    unfold gammaG
    refine mul_ne_zero (mul_ne_zero (mul_ne_zero two_ne_zero ?_) (gammaKj_ne_zero _)) (gammaA_ne_Kj (mul_pos hb ht) i)
    exact_mod_cast ht.ne'
  exact mul_ne_zero (mul_ne_zero (mul_ne_zero (mul_ne_zero (hG 0) (hG 1)) (hG 2)) (hG 3))
    (pow_ne_zero _ (inv_ne_zero (gammaCoe_ne_zero (mul_pos hb ht))))

theorem gammaU_eq (nfft k : ℕ) : gammaU nfft k = gammaKj (2 * Real.pi * k / nfft) := by
  unfold gammaU gammaKj
  congr 1; push_cast; ring

theorem gammaPole_norm {b wt t : ℝ} (hbt : 0 < b * t) : ‖gammaPole b wt t‖ < 1 := by
  have hk : 1 < Real.exp (b * t) := Real.one_lt_exp_iff.mpr hbt
  have : ‖gammaPole b wt t‖ = 1 / Real.exp (b * t) := by
    unfold gammaPole
    have h := gammaKj_norm wt
    unfold gammaKj at h
    rw [norm_div, h, Complex.norm_real, Real.norm_eq_abs, abs_of_pos (by positivity)]
  rw [this, div_lt_one (by positivity)]; exact hk

theorem gammaDen_pos {b wt t : ℝ} (hbt : 0 < b * t) (nfft k : ℕ) :
    0 < ‖(gammaU nfft k - gammaPole b wt t) * (gammaU nfft k - (starRingEnd ℂ) (gammaPole b wt t))‖ := by
  have hp := gammaPole_norm (wt := wt) hbt
  have hu : ‖gammaU nfft k‖ = 1 := by rw [gammaU_eq, gammaKj_norm]
  rw [norm_pos_iff]
  apply mul_ne_zero <;> rw [sub_ne_zero] <;> intro h
  · rw [← h, hu] at hp; linarith
  · have := congrArg norm h
    rw [Complex.norm_conj, hu] at this; linarith

theorem gammaEntry_nonneg (nfft : ℕ) {fs : ℝ} (hfs : 0 < fs) (order : ℕ) (fc : ℝ) (k : ℕ) :
    0 ≤ gammaEntry nfft fs order fc k := by
  unfold gammaEntry
  simp only
  have h1 : 0 ≤ (1 / fs) ^ 4 / gammaGain fc (gammaB fc order) (2 * fc * Real.pi * (1 / fs)) (1 / fs) :=
    div_nonneg (by positivity) (norm_nonneg _)
  exact mul_nonneg (mul_nonneg h1 (norm_nonneg _)) (inv_nonneg.mpr (by positivity))

theorem gammaEntry_pos {nfft : ℕ} (hn : 3 ≤ nfft) {fs fc : ℝ} (hfs : 0 < fs) (hfc : 0 ≤ fc) (order : ℕ) :
    0 < gammaEntry nfft fs order fc 1 := by
  have hT : 0 < 1 / fs := by positivity
  have hb := gammaB_pos (order := order) hfc
  have hG := gammaGain_pos (fc := fc) hT hb
  have hD := gammaDen_pos (wt := 2 * fc * Real.pi * (1 / fs)) (mul_pos hb hT) nfft 1
  unfold gammaEntry
  simp only
  refine mul_pos (mul_pos (div_pos (by positivity) hG) ?_) (inv_pos.mpr (pow_pos hD 4))
  rw [norm_pos_iff]
  have him : 0 < (gammaU nfft 1).im := by
    rw [gammaU_eq, gammaKj_eq]
    simp only [Complex.ofReal_im, Complex.add_im, Complex.mul_im, Complex.ofReal_re, Complex.I_im, Complex.I_re,
      mul_one, mul_zero, zero_add, add_zero]
    have hn' : (3:ℝ) ≤ nfft := by exact_mod_cast hn
    have hp := Real.pi_pos
    apply Real.sin_pos_of_pos_of_lt_pi
    · positivity
    · rw [div_lt_iff₀ (by linarith)]
      push_cast; nlinarith
  have hne : ∀ a : ℝ, gammaU nfft 1 - (a : ℂ) ≠ 0 := by
    intro a h
    have := congrArg Complex.im h
    simp at this
    linarith
  exact mul_ne_zero (mul_ne_zero (mul_ne_zero (hne _) (hne _)) (hne _)) (hne _)

/-! ### centre frequencies -/

theorem gcf_length (a b : ℝ) (n : ℕ) : (generateCenterFrequencies a b n).length = n := by
  simp [generateCenterFrequencies]

theorem gcf_getD {low high : ℝ} (h0 : 0 ≤ low) (h1 : low < high) {n i : ℕ} (hi : i < n) :
    (generateCenterFrequencies low high n).getD i 0 =
      (low + earQ * minBW) * ((high + earQ * minBW) / (low + earQ * minBW)) ^ ((i : ℝ) / n) - earQ * minBW := by
  have hc : 0 < earQ * minBW := mul_pos earQ_pos minBW_pos
  unfold generateCenterFrequencies
  simp only
  generalize earQ * minBW = c at *
  have hl : 0 < low + c := by linarith
  have hh : 0 < high + c := by linarith
  rw [getD_reverse' _ _ (by simpa using hi), List.length_map, List.length_range, getD_map_range_lt _ _ (by omega)]
  congr 1
  have hn : (n:ℝ) ≠ 0 := by exact_mod_cast (by omega : n ≠ 0)
  have e : (((n - 1 - i : ℕ) : ℝ) + 1) / n = 1 - (i:ℝ) / n := by
    rw [Nat.cast_sub (by omega), Nat.cast_sub (by omega)]
    push_cast; field_simp; ring
  rw [e, Real.rpow_def_of_pos (by positivity), Real.log_div hh.ne' hl.ne']
  have : (1 - (i:ℝ) / n) * (Real.log (low + c) - Real.log (high + c)) =
      (Real.log (low + c) - Real.log (high + c)) + (Real.log (high + c) - Real.log (low + c)) * (i / n) := by ring
  rw [this, Real.exp_add, Real.exp_sub, Real.exp_log hl, Real.exp_log hh]
  field_simp

theorem gcf_mem_range {low high : ℝ} (h0 : 0 ≤ low) (h1 : low < high) {n i : ℕ} (hi : i < n) :
    low ≤ (generateCenterFrequencies low high n).getD i 0 ∧
      (generateCenterFrequencies low high n).getD i 0 < high := by
  rw [gcf_getD h0 h1 hi]
  have hc : 0 < earQ * minBW := mul_pos earQ_pos minBW_pos
  generalize earQ * minBW = c at *
  have hl : 0 < low + c := by linarith
  have hr : 1 < (high + c) / (low + c) := by rw [lt_div_iff₀ hl]; linarith
  have hn : (0:ℝ) < n := by exact_mod_cast (by omega : 0 < n)
  have h2 : (i:ℝ) / n < 1 := by rw [div_lt_one hn]; exact_mod_cast hi
  have h3 : 1 ≤ ((high + c) / (low + c)) ^ ((i:ℝ) / n) := Real.one_le_rpow hr.le (by positivity)
  have h4 : ((high + c) / (low + c)) ^ ((i:ℝ) / n) < (high + c) / (low + c) := by
    calc _ < ((high + c) / (low + c)) ^ (1:ℝ) := Real.rpow_lt_rpow_of_exponent_lt hr h2
      _ = _ := Real.rpow_one _
  constructor
  · nlinarith
  · have := mul_lt_mul_of_pos_left h4 hl
    rw [mul_div_cancel₀ _ hl.ne'] at this
    linarith

theorem gcf_strictMono {low high : ℝ} (h0 : 0 ≤ low) (h1 : low < high) {n i j : ℕ} (hij : i < j) (hj : j < n) :
    (generateCenterFrequencies low high n).getD i 0 < (generateCenterFrequencies low high n).getD j 0 := by
  rw [gcf_getD h0 h1 hj, gcf_getD h0 h1 (hij.trans hj)]
  have hc : 0 < earQ * minBW := mul_pos earQ_pos minBW_pos
  generalize earQ * minBW = c at *
  have hl : 0 < low + c := by linarith
  have hr : 1 < (high + c) / (low + c) := by rw [lt_div_iff₀ hl]; linarith
  have hn : (0:ℝ) < n := by exact_mod_cast (by omega : 0 < n)
  have : (i:ℝ) / n < j / n := div_lt_div_of_pos_right (by exact_mod_cast hij) hn
  have := mul_lt_mul_of_pos_left (Real.rpow_lt_rpow_of_exponent_lt hr this) hl
  linarith

/-! ### row normalisation -/

theorem gammaRow_length (nfft : ℕ) (fs : ℝ) (order : ℕ) (fc : ℝ) : (gammaRow nfft fs order fc).length = nfft / 2 + 1 := by
  simp [gammaRow]

theorem normRow_eq {r : List ℝ} (hr : ∃ v ∈ r, 0 < v) :
    ∃ M : ℝ, 0 < M ∧ M ∈ r ∧ (∀ v ∈ r, v ≤ M) ∧ normRow r = r.map fun v => fin (v / M) := by
  obtain ⟨v, hv, hpos⟩ := hr
  have hne : r ≠ [] := List.ne_nil_of_mem hv
  obtain ⟨M, m, hM, -, hMem, -, hall⟩ := xmax_xmin_fin hne
  have hMpos : 0 < M := lt_of_lt_of_le hpos (hall v hv).2
  refine ⟨M, hMpos, hMem, fun v hv => (hall v hv).2, ?_⟩
  unfold normRow
  rw [hM, List.map_map]
  apply List.map_congr_left
  intro v _
  exact fin_div _ _ hMpos.ne'

end Spafe
