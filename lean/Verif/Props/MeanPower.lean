import Verif.Props.Pncc

/-! C171: how fast `mean_power_normalization` settles. -/

set_option linter.unusedSectionVars false

namespace Spafe
namespace Props
open Model XF Spec

/-- The average of the first `n` entries of row `m`. -/
noncomputable def rowAverage (n : ℕ) (T : List (List ℝ)) (m : ℕ) : ℝ := (∑ l ∈ Finset.range n, Np.at2 T m l) / n

theorem mean_closed {lam : ℝ} {n : ℕ} {T : List (List ℝ)} {r : ℕ} {μ : ℕ → ℝ} (h0 : μ 0 = 0.0001)
    (h : ∀ m, m + 1 < r → μ (m + 1) = lam * μ m + (1 - lam) / n * ∑ l ∈ Finset.range n, Np.at2 T (m + 1) l) :
    ∀ m < r, μ m = lam ^ m * 0.0001 + (1 - lam) * ∑ i ∈ Finset.range m, lam ^ (m - 1 - i) * rowAverage n T (i + 1)
  | 0, _ => by simp [h0]
  | m + 1, hm => by
    rw [h m hm, mean_closed h0 h m (by omega), Finset.sum_range_succ]
    have e : ∑ i ∈ Finset.range m, lam ^ (m + 1 - 1 - i) * rowAverage n T (i + 1) =
        lam * ∑ i ∈ Finset.range m, lam ^ (m - 1 - i) * rowAverage n T (i + 1) := by
      rw [Finset.mul_sum]
      apply Finset.sum_congr rfl
      intro i hi
      have hi := Finset.mem_range.mp hi
      rw [show m + 1 - 1 - i = (m - 1 - i) + 1 by omega, pow_succ]
      ring
    rw [e, show m + 1 - 1 - m = 0 by omega, pow_zero, rowAverage]
    ring

/-- **C171**: the average normalised power of frame `m` is `k` times the average power of the frame over an exponentially weighted mean of the
average powers of the frames 1 to `m` (frame 0 does not count) and of the constant 0.0001. -/
theorem C171_average (T : List (List ℝ)) (r n : ℕ) (hT : HasShape T r n) (hr : 0 < r) (hn : 0 < n) (lam k : ℝ) (h0 : 0 < lam)
    (h1 : lam ≤ 1) (hp : NonnegMat T) : ∃ U, meanPowerNormalization (finMat T) lam n k = .ok (finMat U) ∧ HasShape U r n ∧
      ∀ m < r, rowAverage n U m = k * rowAverage n T m /
        (lam ^ m * 0.0001 + (1 - lam) * ∑ i ∈ Finset.range m, lam ^ (m - 1 - i) * rowAverage n T (i + 1)) := by
  obtain ⟨μ, U, e0, e1, -, e2, e3, e4, -⟩ := C57_mean_power T r n n hT hr hn le_rfl lam k h0 h1 hp
  refine ⟨U, e2, e3, fun m hm => ?_⟩
  rw [← mean_closed e0 e1 m hm]
  unfold rowAverage
  rw [Finset.sum_congr rfl fun l hl => e4 m l hm (Finset.mem_range.mp hl), ← Finset.sum_div, ← Finset.mul_sum]
  ring

/-- **C171**, stationary power: if every frame has the average power `M`, the average after `m` frames is `k M / (λ^m 0.0001 + (1 - λ^m) M)`. -/
theorem C171_stationary (T : List (List ℝ)) (r n : ℕ) (hT : HasShape T r n) (hr : 0 < r) (hn : 0 < n) (lam k M : ℝ) (h0 : 0 < lam)
    (h1 : lam ≤ 1) (hp : NonnegMat T) (hM : ∀ m < r, rowAverage n T m = M) :
    ∃ U, meanPowerNormalization (finMat T) lam n k = .ok (finMat U) ∧ HasShape U r n ∧
      ∀ m < r, rowAverage n U m = k * M / (lam ^ m * 0.0001 + (1 - lam ^ m) * M) := by
  obtain ⟨U, e1, e2, e3⟩ := C171_average T r n hT hr hn lam k h0 h1 hp
  refine ⟨U, e1, e2, fun m hm => ?_⟩
  rw [e3 m hm, hM m hm]
  have e : (1 - lam) * ∑ i ∈ Finset.range m, lam ^ (m - 1 - i) * rowAverage n T (i + 1) = (1 - lam ^ m) * M := by
    rw [Finset.sum_congr rfl fun i hi => by rw [hM (i + 1) (by have := Finset.mem_range.mp hi; omega)], ← Finset.sum_mul,
      Finset.sum_range_reflect (fun i => lam ^ i) m, ← mul_assoc, mul_comm (1 - lam), geom_sum_mul_neg]
  rw [e]

/-- **C171**, it settles: the distance from `k` is at most `k λ^m |M - 0.0001| / min(M, 0.0001)`. -/
theorem C171_settles (T : List (List ℝ)) (r n : ℕ) (hT : HasShape T r n) (hr : 0 < r) (hn : 0 < n) (lam k M : ℝ) (h0 : 0 < lam)
    (h1 : lam ≤ 1) (hp : NonnegMat T) (hk : 0 ≤ k) (hM0 : 0 < M) (hM : ∀ m < r, rowAverage n T m = M) :
    ∃ U, meanPowerNormalization (finMat T) lam n k = .ok (finMat U) ∧
      ∀ m < r, |rowAverage n U m - k| ≤ k * lam ^ m * |M - 0.0001| / min M 0.0001 := by
  obtain ⟨U, e1, e2, e3⟩ := C171_stationary T r n hT hr hn lam k M h0 h1 hp hM
  refine ⟨U, e1, fun m hm => ?_⟩
  rw [e3 m hm]
  have hq0 : 0 < lam ^ m := pow_pos h0 m
  have hq1 : lam ^ m ≤ 1 := pow_le_one₀ h0.le h1
  generalize lam ^ m = q at hq0 hq1
  have hmin : 0 < min M 0.0001 := lt_min hM0 (by norm_num)
  have hd : min M 0.0001 ≤ q * 0.0001 + (1 - q) * M := by
    have h2 : min M 0.0001 ≤ M := min_le_left _ _
    have h3 : min M (0.0001 : ℝ) ≤ 0.0001 := min_le_right _ _
    nlinarith
  have hd0 : 0 < q * 0.0001 + (1 - q) * M := lt_of_lt_of_le hmin hd
  have e : k * M / (q * 0.0001 + (1 - q) * M) - k = k * q * (M - 0.0001) / (q * 0.0001 + (1 - q) * M) := by
    rw [eq_div_iff hd0.ne', sub_mul, div_mul_cancel₀ _ hd0.ne']
    ring
  rw [e, abs_div, abs_of_pos hd0, abs_mul, abs_of_nonneg (mul_nonneg hk hq0.le)]
  exact div_le_div_of_nonneg_left (mul_nonneg (mul_nonneg hk hq0.le) (abs_nonneg _)) hmin hd

theorem half_life : (1 / 2 : ℝ) ≤ 0.999 ^ 692 := by
  have h1 : (0.841 : ℝ) ≤ 0.999 ^ 173 := by norm_num
  calc (1 / 2 : ℝ) ≤ 0.841 ^ 4 := by norm_num
    _ ≤ (0.999 ^ 173) ^ 4 := pow_le_pow_left₀ (by norm_num) h1 4
    _ = 0.999 ^ 692 := by rw [← pow_mul]

/-- **C171**, it settles slowly: with the default `λ = 0.999`, `k = 1` a stationary signal of average power `M > 0.0001` has the average power `M / 0.0001`
in the first frame and at least `2 M / (M + 0.0001)`, about twice the target, in the first 692 frames. -/
theorem C171_slow (T : List (List ℝ)) (r n : ℕ) (hT : HasShape T r n) (hr : 0 < r) (hn : 0 < n) (M : ℝ) (hp : NonnegMat T)
    (hM0 : 0.0001 ≤ M) (hM : ∀ m < r, rowAverage n T m = M) :
    ∃ U, meanPowerNormalization (finMat T) 0.999 n 1 = .ok (finMat U) ∧ rowAverage n U 0 = M / 0.0001 ∧
      ∀ m < r, m ≤ 692 → 2 * M / (M + 0.0001) ≤ rowAverage n U m := by
  obtain ⟨U, e1, e2, e3⟩ := C171_stationary T r n hT hr hn 0.999 1 M (by norm_num) (by norm_num) hp hM
  refine ⟨U, e1, by rw [e3 0 hr]; norm_num, fun m hm hm' => ?_⟩
  rw [e3 m hm]
  have hq1 : (0.999 : ℝ) ^ m ≤ 1 := pow_le_one₀ (by norm_num) (by norm_num)
  have hq : (1 / 2 : ℝ) ≤ 0.999 ^ m := half_life.trans (pow_le_pow_of_le_one (by norm_num) (by norm_num) hm')
  generalize (0.999 : ℝ) ^ m = q at hq hq1
  have hM1 : 0 < M := lt_of_lt_of_le (by norm_num) hM0
  have hd0 : 0 < q * 0.0001 + (1 - q) * M := by nlinarith
  rw [div_le_div_iff₀ (by linarith) hd0]
  have h2 : 0 ≤ M * ((2 * q - 1) * (M - 0.0001)) := mul_nonneg hM1.le (mul_nonneg (by linarith) (by linarith))
  nlinarith

/-- Three frames of two channels with average power 1: the averages are 10000, about 909 and about 476. -/
example : ∃ U, meanPowerNormalization (finMat [[1, 1], [2, 0], [0.5, 1.5]]) 0.999 2 1 = .ok (finMat U) ∧ rowAverage 2 U 0 = 1 / 0.0001 ∧
    ∀ m < 3, m ≤ 692 → 2 * 1 / (1 + 0.0001) ≤ rowAverage 2 U m := by
  refine C171_slow _ 3 2 ⟨rfl, ?_⟩ (by norm_num) (by norm_num) 1 ?_ (by norm_num) ?_
  · intro row h
    simp at h
    rcases h with rfl | rfl | rfl <;> rfl
  · intro row h v hv
    simp at h
    rcases h with rfl | rfl | rfl <;> simp at hv <;> rcases hv with rfl | rfl <;> norm_num
  · intro m hm
    obtain rfl | rfl | rfl : m = 0 ∨ m = 1 ∨ m = 2 := by omega
    all_goals simp [rowAverage, Np.at2, Finset.sum_range_succ]
    all_goals norm_num

end Props
end Spafe
