import Verif.Props.Spfeats
import Verif.Spec.Peeters

/-! C173: `spectral_skewness` and `spectral_kurtosis` against the standardised moments. -/

set_option linter.unusedSectionVars false

namespace Spafe
namespace Props
open Model XF Spec

/-- The sum behind the central moment of order `p`. -/
noncomputable def centralSum (p : ℕ) (fs : ℝ) (s : List ℂ) : ℝ :=
  ∑ k ∈ Finset.range s.length, mag s k * (binFreq fs s.length k - barycenter fs s 1) ^ p

theorem centralSum_zero (fs : ℝ) (s : List ℂ) : centralSum 0 fs s = total s := by
  simp [centralSum, total]

theorem mag_nonneg' (s : List ℂ) (k : ℕ) : 0 ≤ mag s k := norm_nonneg _

theorem centralSum_one (fs : ℝ) (s : List ℂ) (h : total s ≠ 0) : centralSum 1 fs s = 0 := by
  have e : barycenter fs s 1 * total s = ∑ k ∈ Finset.range s.length, mag s k * binFreq fs s.length k ^ 1 := by
    rw [barycenter, div_mul_cancel₀ _ h]
  unfold centralSum
  generalize barycenter fs s 1 = μ at e
  rw [total, Finset.mul_sum] at e
  rw [← sub_eq_zero.mpr e.symm, ← Finset.sum_sub_distrib]
  apply Finset.sum_congr rfl
  intros
  ring

/-- The variance is the second moment minus the square of the first. -/
theorem centralSum_two (fs : ℝ) (s : List ℂ) (h : total s ≠ 0) :
    centralSum 2 fs s / total s = barycenter fs s 2 - barycenter fs s 1 ^ 2 := by
  have e1 : barycenter fs s 1 * total s = ∑ k ∈ Finset.range s.length, mag s k * binFreq fs s.length k ^ 1 := by
    rw [barycenter, div_mul_cancel₀ _ h]
  have e2 : barycenter fs s 2 * total s = ∑ k ∈ Finset.range s.length, mag s k * binFreq fs s.length k ^ 2 := by
    rw [barycenter, div_mul_cancel₀ _ h]
  rw [div_eq_iff h, sub_mul, e2]
  unfold centralSum
  generalize barycenter fs s 1 = μ at e1
  have e3 : μ ^ 2 * total s = 2 * μ * (∑ k ∈ Finset.range s.length, mag s k * binFreq fs s.length k ^ 1) - μ ^ 2 * total s := by
    rw [← e1]
    ring
  rw [e3]
  rw [total, Finset.mul_sum, Finset.mul_sum, ← Finset.sum_sub_distrib, ← Finset.sum_sub_distrib]
  apply Finset.sum_congr rfl
  intros
  ring

theorem spread_sq (fs : ℝ) (s : List ℂ) : spread fs s ^ 2 = centralSum 2 fs s / total s := by
  rw [spread, Real.sq_sqrt]
  · unfold centralSum
    congr 1
    apply Finset.sum_congr rfl
    intros
    ring
  · exact div_nonneg (Finset.sum_nonneg fun k _ => mul_nonneg (sq_nonneg _) (mag_nonneg' s k))
      (Finset.sum_nonneg fun k _ => mag_nonneg' s k)

/-- A spectrum with a spread has a total and a second moment. -/
theorem total_pos_of_spread {fs : ℝ} {s : List ℂ} (h : 0 < spread fs s) :
    0 < total s ∧ 0 < barycenter fs s 2 ∧ spread fs s ^ 2 ≤ barycenter fs s 2 := by
  have h0 : total s ≠ 0 := by
    intro h0
    have := spread_sq fs s
    rw [h0, div_zero] at this
    exact (pow_pos h 2).ne' this
  have h1 : 0 < total s := lt_of_le_of_ne (Finset.sum_nonneg fun k _ => mag_nonneg' s k) h0.symm
  have e := spread_sq fs s
  rw [centralSum_two fs s h0] at e
  have h2 : 0 < spread fs s ^ 2 := pow_pos h 2
  have h3 : 0 ≤ barycenter fs s 1 ^ 2 := sq_nonneg _
  exact ⟨h1, by linarith, by linarith⟩

theorem bin_of_spread {fs : ℝ} {s : List ℂ} (h : 0 < spread fs s) : ∃ k, k < s.length ∧ k ≠ 0 ∧ s.getD k 0 ≠ 0 := by
  by_contra hn
  push Not at hn
  obtain ⟨h1, h2, -⟩ := total_pos_of_spread h
  refine h2.ne' ?_
  rw [barycenter, div_eq_zero_iff]
  left
  apply Finset.sum_eq_zero
  intro k hk
  have hk := Finset.mem_range.mp hk
  rcases Nat.eq_zero_or_pos k with rfl | h0
  · simp [binFreq]
  · rw [show mag s k = ‖s.getD k 0‖ from rfl, hn k hk (by omega)]
    simp

/-- **C173** (partial): what is returned is the standardised moment times a power of spread over raw second moment. So the sign of the skewness is right
and both are too small by at least `μ₂ ^ (3/2)` and `μ₂ ^ 2`, with `μ₂` the mean square frequency in Hz². -/
theorem C173_relation_partial (fs : ℝ) (hfs : 0 < fs) (s : List ℂ) (h : 0 < spread fs s) :
    ∃ sk ku : ℝ, spectralSkewness fs s = .ok (fin sk) ∧ spectralKurtosis fs s = .ok (fin ku) ∧
      sk = standardMoment 3 fs s * (spread fs s / barycenter fs s 2) ^ 3 ∧
      ku = standardMoment 4 fs s * (spread fs s / barycenter fs s 2) ^ 4 ∧
      (0 < sk ↔ 0 < standardMoment 3 fs s) ∧ (sk = 0 ↔ standardMoment 3 fs s = 0) ∧
      sk ^ 2 ≤ standardMoment 3 fs s ^ 2 / barycenter fs s 2 ^ 3 ∧ ku ≤ standardMoment 4 fs s / barycenter fs s 2 ^ 2 := by
  obtain ⟨k, hk, hk0, hk1⟩ := bin_of_spread h
  obtain ⟨e1, e2, -⟩ := C95_meaning fs hfs s k hk hk0 hk1
  obtain ⟨h0, h2, hle⟩ := total_pos_of_spread h
  have r : ∀ p : ℕ, Spec.centralMoment p fs s = standardMoment p fs s * (spread fs s / barycenter fs s 2) ^ p := by
    intro p
    rw [Spec.centralMoment, standardMoment, div_pow]
    have hp : spread fs s ^ p ≠ 0 := (pow_pos h p).ne'
    have hb : barycenter fs s 2 ^ p ≠ 0 := (pow_pos h2 p).ne'
    field_simp
  have h4 : 0 ≤ standardMoment 4 fs s :=
    div_nonneg (div_nonneg (Finset.sum_nonneg fun k _ => mul_nonneg (mag_nonneg' s k) (by positivity)) h0.le) (pow_pos h 4).le
  have hq : 0 < spread fs s / barycenter fs s 2 := div_pos h h2
  have hq2 : (spread fs s / barycenter fs s 2) ^ 2 ≤ 1 / barycenter fs s 2 := by
    rw [div_pow, div_le_div_iff₀ (pow_pos h2 2) h2]
    nlinarith
  refine ⟨_, _, e1, e2, r 3, r 4, ?_, ?_, ?_, ?_⟩
  · rw [r 3]
    exact mul_pos_iff_of_pos_right (pow_pos hq 3)
  · rw [r 3, mul_eq_zero]
    exact or_iff_left (pow_pos hq 3).ne'
  · rw [r 3, mul_pow, div_eq_mul_one_div (standardMoment 3 fs s ^ 2)]
    apply mul_le_mul_of_nonneg_left _ (sq_nonneg _)
    calc ((spread fs s / barycenter fs s 2) ^ 3) ^ 2 = ((spread fs s / barycenter fs s 2) ^ 2) ^ 3 := by ring
      _ ≤ (1 / barycenter fs s 2) ^ 3 := pow_le_pow_left₀ (sq_nonneg _) hq2 3
      _ = 1 / barycenter fs s 2 ^ 3 := by rw [one_div_pow]
  · rw [r 4, div_eq_mul_one_div (standardMoment 4 fs s)]
    apply mul_le_mul_of_nonneg_left _ h4
    calc (spread fs s / barycenter fs s 2) ^ 4 = ((spread fs s / barycenter fs s 2) ^ 2) ^ 2 := by ring
      _ ≤ (1 / barycenter fs s 2) ^ 2 := pow_le_pow_left₀ (sq_nonneg _) hq2 2
      _ = 1 / barycenter fs s 2 ^ 2 := by rw [one_div_pow]

/-- **C173**, the standardised moments: the kurtosis is at least one plus the square of the skewness. -/
theorem C173_standard (fs : ℝ) (s : List ℂ) (h : 0 < spread fs s) : 1 + standardMoment 3 fs s ^ 2 ≤ standardMoment 4 fs s := by
  obtain ⟨h0, -, -⟩ := total_pos_of_spread h
  have es := spread_sq fs s
  have e1 := centralSum_one fs s h0.ne'
  have hS2 : 0 < centralSum 2 fs s := by
    have : 0 < centralSum 2 fs s / total s := es ▸ pow_pos h 2
    exact (div_pos_iff_of_pos_right h0).mp this
  have e3 : standardMoment 3 fs s ^ 2 = centralSum 3 fs s ^ 2 * total s / centralSum 2 fs s ^ 3 := by
    rw [standardMoment, div_pow, ← pow_mul, show 3 * 2 = 2 * 3 by norm_num, pow_mul, es]
    change (centralSum 3 fs s / total s) ^ (2 : ℕ) / _ = _
    field_simp
  have e4 : standardMoment 4 fs s = centralSum 4 fs s * total s / centralSum 2 fs s ^ 2 := by
    rw [standardMoment, show spread fs s ^ 4 = (spread fs s ^ 2) ^ 2 by ring, es]
    change centralSum 4 fs s / total s / _ = _
    field_simp
  have key : 0 ≤ centralSum 4 fs s - centralSum 3 fs s ^ 2 / centralSum 2 fs s - centralSum 2 fs s ^ 2 / total s := by
    have e : ∀ g v : ℝ, ∑ k ∈ Finset.range s.length, mag s k *
        ((binFreq fs s.length k - barycenter fs s 1) ^ 2 - g * (binFreq fs s.length k - barycenter fs s 1) - v) ^ 2 =
        centralSum 4 fs s + g ^ 2 * centralSum 2 fs s + v ^ 2 * centralSum 0 fs s - 2 * g * centralSum 3 fs s -
          2 * v * centralSum 2 fs s + 2 * g * v * centralSum 1 fs s := by
      intro g v
      simp only [centralSum, Finset.mul_sum, ← Finset.sum_add_distrib, ← Finset.sum_sub_distrib]
      apply Finset.sum_congr rfl
      intros
      ring
    have hp := e (centralSum 3 fs s / centralSum 2 fs s) (centralSum 2 fs s / total s) ▸
      Finset.sum_nonneg fun k _ => mul_nonneg (mag_nonneg' s k) (sq_nonneg
        ((binFreq fs s.length k - barycenter fs s 1) ^ 2 -
          centralSum 3 fs s / centralSum 2 fs s * (binFreq fs s.length k - barycenter fs s 1) - centralSum 2 fs s / total s))
    rw [e1, centralSum_zero] at hp
    refine hp.trans (le_of_eq ?_)
    field_simp
    ring
  rw [e3, e4, ← sub_nonneg]
  have e : centralSum 4 fs s * total s / centralSum 2 fs s ^ 2 - (1 + centralSum 3 fs s ^ 2 * total s / centralSum 2 fs s ^ 3) =
      total s / centralSum 2 fs s ^ 2 *
        (centralSum 4 fs s - centralSum 3 fs s ^ 2 / centralSum 2 fs s - centralSum 2 fs s ^ 2 / total s) := by
    field_simp
    ring
  rw [e]
  positivity

theorem twoBins_barycenter (fs : ℝ) : barycenter fs twoBins 1 = fs / 4 ∧ barycenter fs twoBins 2 = fs ^ 2 / 8 := by
  constructor <;>
  · simp only [Spec.barycenter, Spec.total, Spec.mag, Spec.binFreq, twoBins, List.length_cons, List.length_nil,
      Finset.sum_range_succ, Finset.sum_range_zero]
    norm_num; ring

/-- **C173** is violated: two equal bins have kurtosis 1 at every sampling rate; the code returns `16 / fs ^ 4`. -/
theorem C173_violated (fs : ℝ) (hfs : 0 < fs) : standardMoment 4 fs twoBins = 1 ∧
    spectralKurtosis fs twoBins = .ok (fin (16 / fs ^ 4)) := by
  have hsp : spread fs twoBins = fs / 4 := (C76_spread_violated fs hfs).2
  have hm : standardMoment 4 fs twoBins = 1 := by
    rw [standardMoment, hsp, (twoBins_barycenter fs).1]
    simp only [Spec.total, Spec.mag, Spec.binFreq, twoBins, List.length_cons, List.length_nil,
      Finset.sum_range_succ, Finset.sum_range_zero]
    norm_num
    field_simp
    ring
  obtain ⟨sk, ku, -, h2, -, h4, -⟩ := C173_relation_partial fs hfs twoBins (by rw [hsp]; positivity)
  refine ⟨hm, ?_⟩
  rw [h2, h4, hm, hsp, (twoBins_barycenter fs).2]
  congr 2
  field_simp
  norm_num

/-- At 16 kHz the code returns less than `10⁻¹⁵` where the kurtosis is 1. -/
example : ∃ ku : ℝ, spectralKurtosis 16000 twoBins = .ok (fin ku) ∧ ku < 10 ^ (-15 : ℤ) ∧ standardMoment 4 16000 twoBins = 1 :=
  ⟨_, (C173_violated 16000 (by norm_num)).2, by norm_num, (C173_violated 16000 (by norm_num)).1⟩

end Props
end Spafe
