import Verif.Props.Tone
import Verif.Props.Preprocessing
import Mathlib.Analysis.SpecialFunctions.Trigonometric.Basic

/-!
C161: what pre-emphasis (`spafe/utils/preprocessing.py:55-72`) does to tones of different frequencies: it is a high-pass filter.
-/

set_option linter.unusedSectionVars false

namespace Spafe
namespace Spec

/-- The gain of `y[t] = x[t] - c x[t-1]` for a tone of `f` Hz. -/
noncomputable def highPassGain (c fs f : ℝ) : ℝ := √(1 + c ^ 2 - 2 * c * Real.cos (2 * Real.pi * f / fs))

end Spec

namespace Props

open Model XF Spec Real

theorem emphGain_eq (c fs f : ℝ) : emphGain true c fs f = highPassGain c fs f := by
  unfold emphGain highPassGain
  rw [if_pos rfl, ← Real.sqrt_sq (norm_nonneg _), ← Complex.normSq_eq_norm_sq, Complex.normSq_apply]
  congr 1
  rw [Complex.sub_re, Complex.sub_im, Complex.one_re, Complex.one_im, Complex.re_ofReal_mul, Complex.im_ofReal_mul,
    Complex.exp_ofReal_mul_I_re, Complex.exp_ofReal_mul_I_im, cos_neg, sin_neg]
  nlinarith [sin_sq_add_cos_sq (2 * π * f / fs)]

/-- **C161**: pre-emphasis of a tone is, from the second sample on, a tone of the same frequency whose amplitude is changed by
`highPassGain`. -/
theorem C161_tone (sig : List ℝ) (c fs f A φ : ℝ) (h0 : sig ≠ [])
    (h : ∀ t < sig.length, sig.getD t 0 = A * cos (2 * π * f * t / fs + φ)) :
    ∃ y ψ, preEmphasisPy sig c = .ok y ∧ y.length = sig.length ∧
      ∀ t, 1 ≤ t → t < sig.length → y.getD t 0 = A * highPassGain c fs f * cos (2 * π * f * t / fs + ψ) := by
  obtain ⟨ψ, hψ⟩ := emphasised_tone (sig := sig) (fs := fs) (f := f) (A := A) (φ := φ) true c (fun t _ ht => h t ht)
  obtain ⟨h1, -, h3⟩ := C09_pre_emphasis sig c
  refine ⟨preEmphasis sig c, ψ, by simp [preEmphasisPy, h0], h1, fun t ht1 ht => ?_⟩
  have := hψ t (by simpa using ht1) ht
  rw [emphGain_eq] at this
  rw [h3 t ht1 ht, ← this]
  simp [emphasised, Nat.one_le_iff_ne_zero.1 ht1]

/-- **C161**: for a positive coefficient the gain grows strictly from `|1 - c|` at 0 Hz to `1 + c` at half the sampling frequency. -/
theorem C161_high_pass (c fs : ℝ) (hc : 0 < c) (hfs : 0 < fs) :
    highPassGain c fs 0 = |1 - c| ∧ highPassGain c fs (fs / 2) = 1 + c ∧
      StrictMonoOn (highPassGain c fs) (Set.Icc 0 (fs / 2)) := by
  have hpi := pi_pos
  refine ⟨?_, ?_, ?_⟩
  · unfold highPassGain
    rw [mul_zero, zero_div, cos_zero, show 1 + c ^ 2 - 2 * c * 1 = (1 - c) ^ 2 by ring, Real.sqrt_sq_eq_abs]
  · unfold highPassGain
    rw [show 2 * π * (fs / 2) / fs = π by field_simp, cos_pi, show 1 + c ^ 2 - 2 * c * -1 = (1 + c) ^ 2 by ring, Real.sqrt_sq (by linarith)]
  · intro f hf g hg hfg
    have hcos : cos (2 * π * g / fs) < cos (2 * π * f / fs) := by
      refine strictAntiOn_cos ⟨?_, ?_⟩ ⟨?_, ?_⟩ ?_
      · exact div_nonneg (mul_nonneg (by positivity) hf.1) hfs.le
      · rw [div_le_iff₀ hfs]; nlinarith [hf.2]
      · exact div_nonneg (mul_nonneg (by positivity) hg.1) hfs.le
      · rw [div_le_iff₀ hfs]; nlinarith [hg.2]
      · exact (div_lt_div_iff_of_pos_right hfs).2 (mul_lt_mul_of_pos_left hfg (by positivity))
    unfold highPassGain
    refine Real.sqrt_lt_sqrt ?_ (by nlinarith)
    nlinarith [cos_le_one (2 * π * f / fs), sq_nonneg (1 - c)]

/-- **C161**: hence, of two tones of equal amplitude, the higher one is stronger after pre-emphasis; the ratio of the largest to the
smallest gain is `(1 + c) / (1 - c)`, with the default coefficient 0.97 more than 65. -/
theorem C161_default : highPassGain 0.97 16000 8000 / highPassGain 0.97 16000 0 > 65 := by
  obtain ⟨h1, h2, -⟩ := C161_high_pass 0.97 16000 (by norm_num) (by norm_num)
  rw [show (8000 : ℝ) = 16000 / 2 by norm_num, h2, h1, abs_of_pos (by norm_num)]
  norm_num

/-- **C161**: no frequency is amplified beyond `1 + |c|`: the energy grows at most by the square of that, for any signal. -/
theorem C161_energy (sig : List ℝ) (c : ℝ) :
    ((preEmphasis sig c).map (· ^ 2)).sum ≤ (1 + |c|) ^ 2 * (sig.map (· ^ 2)).sum := by
  have key : ∀ (n : ℕ) (x : ℕ → ℝ), ∑ t ∈ Finset.range n, (x t - if t = 0 then 0 else c * x (t - 1)) ^ 2 ≤
      (1 + |c|) ^ 2 * ∑ t ∈ Finset.range n, x t ^ 2 := by
    intro n x
    have h1 : ∀ t, (x t - if t = 0 then 0 else c * x (t - 1)) ^ 2 ≤
        (1 + |c|) * (x t ^ 2 + |c| * if t = 0 then 0 else x (t - 1) ^ 2) := by
      intro t
      have hc := abs_nonneg c
      by_cases ht : t = 0
      · simp only [if_pos ht]; nlinarith [sq_nonneg (x t)]
      · simp only [if_neg ht]
        have e : |c| * |c| = c * c := abs_mul_abs_self c
        rcases abs_cases c with ⟨h2, h3⟩ | ⟨h2, h3⟩
        · rw [h2]; nlinarith [mul_nonneg h3 (sq_nonneg (x t + x (t - 1)))]
        · rw [h2]; nlinarith [mul_nonneg (by linarith : 0 ≤ -c) (sq_nonneg (x t - x (t - 1)))]
    have h2 : ∑ t ∈ Finset.range n, (if t = 0 then 0 else x (t - 1) ^ 2) ≤ ∑ t ∈ Finset.range n, x t ^ 2 := by
      cases n with
      | zero => simp
      | succ m =>
        rw [Finset.sum_range_succ', Finset.sum_range_succ]
        simp only [if_true, add_zero, Nat.add_sub_cancel, Nat.succ_ne_zero, if_false]
        linarith [sq_nonneg (x m)]
    calc _ ≤ ∑ t ∈ Finset.range n, (1 + |c|) * (x t ^ 2 + |c| * if t = 0 then 0 else x (t - 1) ^ 2) := Finset.sum_le_sum fun t _ => h1 t
      _ = (1 + |c|) * (∑ t ∈ Finset.range n, x t ^ 2 + |c| * ∑ t ∈ Finset.range n, (if t = 0 then 0 else x (t - 1) ^ 2)) := by
        rw [← Finset.mul_sum, Finset.sum_add_distrib, ← Finset.mul_sum]
      _ ≤ _ := by
        have hc := abs_nonneg c
        nlinarith [mul_le_mul_of_nonneg_left h2 (mul_nonneg (by linarith : 0 ≤ 1 + |c|) hc)]
  have hsum : ∀ l : List ℝ, (l.map (· ^ 2)).sum = ∑ t ∈ Finset.range l.length, l.getD t 0 ^ 2 := by
    intro l
    induction l with
    | nil => simp
    | cons a l ih => rw [List.map_cons, List.sum_cons, List.length_cons, Finset.sum_range_succ', ih]; simp [add_comm]
  rw [hsum, hsum, preEmphasis_length]
  refine le_trans (le_of_eq (Finset.sum_congr rfl fun t ht => ?_)) (key sig.length fun t => sig.getD t 0)
  rw [preEmphasis_getD _ _ _ (Finset.mem_range.1 ht)]

/-- A constant signal (0 Hz) is reduced to `1 - c` times its value. -/
theorem C161_constant (n : ℕ) (k c : ℝ) : ∀ t, 1 ≤ t → t < n → (preEmphasis (List.replicate n k) c).getD t 0 = (1 - c) * k := by
  intro t h1 ht
  obtain ⟨-, -, h3⟩ := C09_pre_emphasis (List.replicate n k) c
  rw [h3 t h1 (by simpa using ht), List.getD_eq_getElem _ _ (by simpa using ht), List.getD_eq_getElem _ _ (by simp; omega)]
  simp
  ring

/-- A quarter-rate tone of four samples meets the hypotheses of `C161_tone`; its gain is `√(1 + c²)`. -/
example : ∃ y ψ, preEmphasisPy [1, 0, -1, 0] 0.97 = .ok y ∧ y.length = 4 ∧
    ∀ t, 1 ≤ t → t < 4 → y.getD t 0 = 1 * highPassGain 0.97 4 1 * cos (2 * π * 1 * t / 4 + ψ) :=
  C161_tone [1, 0, -1, 0] 0.97 4 1 1 0 (by simp) (by
    intro t ht
    have ht : t < 4 := ht
    obtain rfl | rfl | rfl | rfl : t = 0 ∨ t = 1 ∨ t = 2 ∨ t = 3 := by omega
    · simp
    · rw [show 2 * π * 1 * ((1 : ℕ) : ℝ) / 4 + 0 = π / 2 by push_cast; ring, cos_pi_div_two]; simp
    · rw [show 2 * π * 1 * ((2 : ℕ) : ℝ) / 4 + 0 = π by push_cast; ring, cos_pi]; simp
    · rw [show 2 * π * 1 * ((3 : ℕ) : ℝ) / 4 + 0 = π / 2 + π by push_cast; ring, cos_add_pi, cos_pi_div_two]; simp)

end Props
end Spafe
