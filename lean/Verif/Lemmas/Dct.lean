import Verif.Lemmas.Fourier

/-! The orthonormal DCTs of types 1, 3 and 4. -/

set_option linter.unusedSectionVars false

namespace Spafe
open Real

theorem dct3_eq (N k n : ℕ) : Np.dctKernel 3 N k n = Np.dctKernel 2 N n k := by
  simp only [Np.dctKernel]
  by_cases h : n = 0
  · subst h
    simp only [if_true, Nat.cast_zero, mul_zero, zero_mul, zero_div, cos_zero, mul_one]
    rw [show (1:ℝ) / (4 * N) = (1 / 2) ^ 2 * (1 / N) by ring, sqrt_mul (by positivity), sqrt_sq (by norm_num),
      sqrt_div (by norm_num), sqrt_one]
    ring
  · rw [if_neg h, if_neg h]
    have h1 : √(2 / (N : ℝ)) = 2 * √(1 / (2 * N)) := by
      rw [show (2 : ℝ) / N = 2 ^ 2 * (1 / (2 * N)) by ring, sqrt_mul (by positivity), sqrt_sq (by norm_num)]
    rw [h1]
    congr 2
    ring

theorem dct4_symm (N k n : ℕ) : Np.dctKernel 4 N k n = Np.dctKernel 4 N n k := by
  simp only [Np.dctKernel]
  congr 2
  ring

theorem dct4_orthonormal {N k l : ℕ} (hk : k < N) (hl : l < N) :
    ∑ n ∈ Finset.range N, Np.dctKernel 4 N k n * Np.dctKernel 4 N l n = if k = l then 1 else 0 := by
  have hN : (0:ℝ) < N := by
    have : 0 < N := by omega
    exact_mod_cast this
  wlog hle : l ≤ k generalizing k l
  · have h1 := this hl hk (by omega)
    rw [← show (if l = k then (1:ℝ) else 0) = if k = l then 1 else 0 by simp [eq_comm], ← h1]
    apply Finset.sum_congr rfl
    intro n _; ring
  have hsq : √(2 / (N:ℝ)) * √(2 / (N:ℝ)) = 2 / N := mul_self_sqrt (by positivity)
  have hsum : ∑ n ∈ Finset.range N, Np.dctKernel 4 N k n * Np.dctKernel 4 N l n =
      1 / N * (∑ n ∈ Finset.range N, cos (π * (k - l : ℕ) * (2 * n + 1) / (2 * N)) +
        ∑ n ∈ Finset.range N, cos (π * (k + l + 1 : ℕ) * (2 * n + 1) / (2 * N))) := by
    rw [← Finset.sum_add_distrib, Finset.mul_sum]
    apply Finset.sum_congr rfl
    intro n _
    simp only [Np.dctKernel]
    have e1 : π * ((k - l : ℕ) : ℝ) * (2 * n + 1) / (2 * N) =
        π * (2 * k + 1) * (2 * n + 1) / (4 * N) - π * (2 * l + 1) * (2 * n + 1) / (4 * N) := by
      rw [Nat.cast_sub hle]; field_simp; ring
    have e2 : π * ((k + l + 1 : ℕ) : ℝ) * (2 * n + 1) / (2 * N) =
        π * (2 * k + 1) * (2 * n + 1) / (4 * N) + π * (2 * l + 1) * (2 * n + 1) / (4 * N) := by
      push_cast; field_simp; ring
    rw [e1, e2, cos_sub, cos_add]
    linear_combination (cos (π * (2 * k + 1) * (2 * n + 1) / (4 * N)) * cos (π * (2 * l + 1) * (2 * n + 1) / (4 * N))) * hsq
  rw [hsum, sum_cos_zero (m := k + l + 1) (by omega) (by omega)]
  split_ifs with h
  · subst h
    simp only [Nat.sub_self, Nat.cast_zero, mul_zero, zero_mul, zero_div, cos_zero,
      Finset.sum_const, Finset.card_range, nsmul_eq_mul, mul_one, add_zero]
    field_simp
  · rw [sum_cos_zero (m := k - l) (by omega) (by omega)]
    simp

/-- End-point weights of the DCT-I. -/
noncomputable def endW (M n : ℕ) : ℝ := if n = 0 ∨ n = M then 1 / √2 else 1

theorem dct1_eq (M k n : ℕ) : Np.dctKernel 1 (M + 1) k n = √(2 / M) * endW M k * endW M n * cos (π * k * n / M) := by
  simp only [Np.dctKernel, Nat.add_sub_cancel, Nat.cast_add, Nat.cast_one, add_sub_cancel_right, endW]
  have h2 : √2 ≠ 0 := by positivity
  have hs : √2 * √2 = 2 := mul_self_sqrt (by norm_num)
  have h1 : √(1 / (M : ℝ)) = √(2 / M) / √2 := by
    rw [← sqrt_div' _ (by norm_num)]; congr 1; field_simp
  rw [h1]
  split_ifs
  all_goals field_simp
  all_goals try linear_combination (√(2 / (M:ℝ)) * cos (π * k * n / M)) * hs

theorem dct1_symm (M k n : ℕ) : Np.dctKernel 1 (M + 1) k n = Np.dctKernel 1 (M + 1) n k := by
  rw [dct1_eq, dct1_eq]
  have : π * (k : ℝ) * n / M = π * n * k / M := by ring
  rw [this]; ring

theorem endW_sq (M n : ℕ) : endW M n * endW M n = if n = 0 ∨ n = M then 1 / 2 else 1 := by
  unfold endW
  have hs : √2 * √2 = 2 := mul_self_sqrt (by norm_num)
  split_ifs
  · rw [div_mul_div_comm, hs]; norm_num
  · norm_num

/-- The trapezoidal sum. -/
theorem sum_trapezoid (M : ℕ) (hM : 0 < M) (g : ℕ → ℝ) :
    ∑ n ∈ Finset.range (M + 1), endW M n * endW M n * g n = ∑ n ∈ Finset.range M, (g n + g (n + 1)) / 2 := by
  simp_rw [endW_sq]
  obtain ⟨m, rfl⟩ : ∃ m, M = m + 1 := ⟨M - 1, by omega⟩
  rw [Finset.sum_range_succ, Finset.sum_range_succ']
  have e : ∀ n ∈ Finset.range m, (if n + 1 = 0 ∨ n + 1 = m + 1 then (1 / 2 : ℝ) else 1) * g (n + 1) = g (n + 1) := by
    intro n hn
    have := Finset.mem_range.mp hn
    rw [if_neg (by omega), one_mul]
  rw [Finset.sum_congr rfl e]
  have h1 : ∑ n ∈ Finset.range (m + 1), (g n + g (n + 1)) / 2 =
      (∑ n ∈ Finset.range (m + 1), g n) / 2 + (∑ n ∈ Finset.range (m + 1), g (n + 1)) / 2 := by
    rw [← add_div, ← Finset.sum_add_distrib, Finset.sum_div]
  rw [h1, Finset.sum_range_succ' g, Finset.sum_range_succ (fun n => g (n + 1))]
  simp
  ring

theorem sum_trapezoid_cos {M m : ℕ} (hM : 0 < M) (hm : 0 < m) (hm2 : m < 2 * M) :
    ∑ n ∈ Finset.range (M + 1), endW M n * endW M n * cos (π * m * n / M) = 0 := by
  rw [sum_trapezoid M hM (fun n => cos (π * m * n / M))]
  have hM' : (M : ℝ) ≠ 0 := by exact_mod_cast hM.ne'
  have e : ∀ n ∈ Finset.range M, (cos (π * m * n / M) + cos (π * m * (n + 1 : ℕ) / M)) / 2 =
      cos (π * m / (2 * M)) * cos (π * m * (2 * n + 1) / (2 * M)) := by
    intro n _
    rw [cos_add_cos]
    have e1 : (π * m * n / M + π * m * (n + 1 : ℕ) / M) / 2 = π * m * (2 * n + 1) / (2 * M) := by
      push_cast; field_simp; ring
    have e2 : (π * m * n / M - π * m * (n + 1 : ℕ) / M) / 2 = -(π * m / (2 * M)) := by
      push_cast; field_simp; ring
    rw [e1, e2, cos_neg]; ring
  rw [Finset.sum_congr rfl e, ← Finset.mul_sum, sum_cos_zero hm hm2, mul_zero]

theorem sum_trapezoid_full {M m : ℕ} (hM : 0 < M) (hm : m = 0 ∨ m = 2 * M) :
    ∑ n ∈ Finset.range (M + 1), endW M n * endW M n * cos (π * m * n / M) = M := by
  rw [sum_trapezoid M hM (fun n => cos (π * m * n / M))]
  have hM' : (M : ℝ) ≠ 0 := by exact_mod_cast hM.ne'
  have hc : ∀ n : ℕ, cos (π * m * n / M) = 1 := by
    intro n
    rcases hm with rfl | rfl
    · simp
    · rw [show π * ((2 * M : ℕ) : ℝ) * n / M = n * (2 * π) by push_cast; field_simp]
      exact cos_nat_mul_two_pi n
  simp only [hc]
  norm_num

theorem dct1_orthonormal {N k l : ℕ} (hN : 2 ≤ N) (hk : k < N) (hl : l < N) :
    ∑ n ∈ Finset.range N, Np.dctKernel 1 N k n * Np.dctKernel 1 N l n = if k = l then 1 else 0 := by
  obtain ⟨M, rfl⟩ : ∃ M, N = M + 1 := ⟨N - 1, by omega⟩
  have hM : 0 < M := by omega
  have hM' : (0 : ℝ) < M := by exact_mod_cast hM
  wlog hle : l ≤ k generalizing k l
  · have h1 := this hl hk (by omega)
    rw [← show (if l = k then (1:ℝ) else 0) = if k = l then 1 else 0 by simp [eq_comm], ← h1]
    apply Finset.sum_congr rfl
    intro n _; ring
  have hsq : √(2 / (M:ℝ)) * √(2 / (M:ℝ)) = 2 / M := mul_self_sqrt (by positivity)
  have hsum : ∑ n ∈ Finset.range (M + 1), Np.dctKernel 1 (M + 1) k n * Np.dctKernel 1 (M + 1) l n =
      endW M k * endW M l / M * (∑ n ∈ Finset.range (M + 1), endW M n * endW M n * cos (π * (k - l : ℕ) * n / M) +
        ∑ n ∈ Finset.range (M + 1), endW M n * endW M n * cos (π * (k + l : ℕ) * n / M)) := by
    rw [← Finset.sum_add_distrib, Finset.mul_sum]
    apply Finset.sum_congr rfl
    intro n _
    rw [dct1_eq, dct1_eq]
    have e1 : π * ((k - l : ℕ) : ℝ) * n / M = π * k * n / M - π * l * n / M := by
      rw [Nat.cast_sub hle]; ring
    have e2 : π * ((k + l : ℕ) : ℝ) * n / M = π * k * n / M + π * l * n / M := by
      push_cast; ring
    rw [e1, e2, cos_sub, cos_add]
    linear_combination (endW M k * endW M l * endW M n * endW M n * cos (π * k * n / M) * cos (π * l * n / M)) * hsq
  rw [hsum]
  split_ifs with h
  · subst h
    rw [Nat.sub_self, sum_trapezoid_full hM (Or.inl rfl), endW_sq]
    split_ifs with h0
    · rw [sum_trapezoid_full hM (by omega)]; field_simp; norm_num
    · rw [sum_trapezoid_cos hM (by omega) (by omega)]; field_simp; norm_num
  · rw [sum_trapezoid_cos hM (m := k - l) (by omega) (by omega), sum_trapezoid_cos hM (m := k + l) (by omega) (by omega)]
    simp

/-- `t'` is the inverse type of `t` for rows of `N` entries. -/
inductive DctInverse : ℕ → ℕ → ℕ → Prop
  | one (N : ℕ) : 2 ≤ N → DctInverse N 1 1
  | two (N : ℕ) : DctInverse N 2 3
  | three (N : ℕ) : DctInverse N 3 2
  | four (N : ℕ) : DctInverse N 4 4

theorem DctInverse.transpose {N t t' : ℕ} (h : DctInverse N t t') (k n : ℕ) :
    Np.dctKernel t' N k n = Np.dctKernel t N n k := by
  cases h with
  | one hN => obtain ⟨M, rfl⟩ : ∃ M, N = M + 1 := ⟨N - 1, by omega⟩; exact dct1_symm ..
  | two => exact dct3_eq ..
  | three => exact (dct3_eq ..).symm
  | four => exact dct4_symm ..

theorem DctInverse.cols {N t t' : ℕ} (h : DctInverse N t t') {n m : ℕ} (hn : n < N) (hm : m < N) :
    ∑ k ∈ Finset.range N, Np.dctKernel t N k n * Np.dctKernel t N k m = if n = m then 1 else 0 := by
  have e : ∀ k, Np.dctKernel t N k n * Np.dctKernel t N k m = Np.dctKernel t' N n k * Np.dctKernel t' N m k :=
    fun k => by rw [h.transpose, h.transpose]
  simp_rw [e]
  cases h with
  | one hN => exact dct1_orthonormal hN hn hm
  | two => simp_rw [dct3_eq]; exact dct2_orthonormal_cols hn hm
  | three => exact dct2_orthonormal hn hm
  | four => exact dct4_orthonormal hn hm

theorem DctInverse.inverse {N t t' : ℕ} (h : DctInverse N t t') (x : ℕ → ℝ) {n : ℕ} (hn : n < N) :
    ∑ k ∈ Finset.range N, Np.dctKernel t' N n k * ∑ m ∈ Finset.range N, Np.dctKernel t N k m * x m = x n := by
  simp_rw [h.transpose, Finset.mul_sum]
  rw [Finset.sum_comm]
  have : ∀ m ∈ Finset.range N, ∑ k ∈ Finset.range N, Np.dctKernel t N k n * (Np.dctKernel t N k m * x m) =
      if n = m then x m else 0 := by
    intro m hm
    simp_rw [← mul_assoc]
    rw [← Finset.sum_mul, h.cols hn (Finset.mem_range.mp hm)]
    split_ifs <;> simp
  rw [Finset.sum_congr rfl this]
  simp [hn]

theorem DctInverse.isometry {N t t' : ℕ} (h : DctInverse N t t') (x : ℕ → ℝ) :
    ∑ k ∈ Finset.range N, (∑ m ∈ Finset.range N, Np.dctKernel t N k m * x m) ^ 2 = ∑ n ∈ Finset.range N, x n ^ 2 := by
  set y := fun k => ∑ m ∈ Finset.range N, Np.dctKernel t N k m * x m with hy
  have h1 : ∀ k, y k ^ 2 = ∑ n ∈ Finset.range N, x n * (Np.dctKernel t' N n k * y k) := by
    intro k
    rw [sq]; nth_rewrite 1 [hy]
    beta_reduce
    rw [Finset.sum_mul]; apply Finset.sum_congr rfl; intro n _; rw [h.transpose]; ring
  rw [Finset.sum_congr rfl fun k _ => h1 k, Finset.sum_comm]
  apply Finset.sum_congr rfl
  intro n hn
  rw [← Finset.mul_sum, h.inverse x (Finset.mem_range.mp hn)]; ring

end Spafe
