import Verif.Basic.Np
import Verif.Lemmas.ListAux
import Mathlib.LinearAlgebra.Matrix.NonsingularInverse
import Mathlib.LinearAlgebra.Matrix.DotProduct
import Mathlib.Analysis.SpecialFunctions.Complex.Circle
import Mathlib.Analysis.SpecialFunctions.Trigonometric.Basic
import Mathlib.Algebra.Field.GeomSum
import Mathlib.Analysis.Complex.Exponential
import Mathlib.Tactic.Ring
import Mathlib.Tactic.FieldSimp
import Mathlib.Tactic.Linarith

/-! Orthogonality of the DCT-II kernel; Parseval for the DFT; conjugate symmetry. -/

set_option linter.unusedSectionVars false

namespace Spafe
open Real

/-! ### DCT-II -/

theorem two_sin_mul_sum_cos (φ : ℝ) (N : ℕ) :
    2 * sin φ * ∑ n ∈ Finset.range N, cos ((2 * n + 1) * φ) = sin (2 * N * φ) := by
  induction N with
  | zero => simp
  | succ N ih =>
    rw [Finset.sum_range_succ, mul_add, ih]
    have h1 : 2 * ((N + 1 : ℕ) : ℝ) * φ = (2 * N + 1) * φ + φ := by push_cast; ring
    have h2 : 2 * (N : ℝ) * φ = (2 * N + 1) * φ - φ := by ring
    rw [h1, h2, sin_add, sin_sub]; ring

theorem sum_cos_zero {N m : ℕ} (hm : 0 < m) (hm2 : m < 2 * N) :
    ∑ n ∈ Finset.range N, cos (π * m * (2 * n + 1) / (2 * N)) = 0 := by
  have hN : (0:ℝ) < N := by
    have : 0 < N := by omega
    exact_mod_cast this
  set φ : ℝ := π * m / (2 * N) with hφ
  have h0 : 0 < φ := by
    have : (0:ℝ) < m := by exact_mod_cast hm
    positivity
  have h1 : φ < π := by
    rw [hφ, div_lt_iff₀ (by positivity)]
    have : (m:ℝ) < 2 * N := by exact_mod_cast hm2
    exact mul_lt_mul_of_pos_left this pi_pos
  have hs : 0 < sin φ := sin_pos_of_pos_of_lt_pi h0 h1
  have h2 : sin (2 * N * φ) = 0 := by
    have : 2 * N * φ = m * π := by rw [hφ]; field_simp
    rw [this]; exact sin_nat_mul_pi m
  have h3 := two_sin_mul_sum_cos φ N
  rw [h2] at h3
  have h4 : ∑ n ∈ Finset.range N, cos ((2 * (n:ℝ) + 1) * φ) = 0 := by
    rcases mul_eq_zero.mp h3 with h | h
    · linarith
    · exact h
  rw [← h4]
  apply Finset.sum_congr rfl
  intro n _
  congr 1; rw [hφ]; ring

theorem cos_mul_cos_nat (N k l n : ℕ) (h : l ≤ k) :
    cos (π * k * (2 * n + 1) / (2 * N)) * cos (π * l * (2 * n + 1) / (2 * N)) =
      (cos (π * (k - l : ℕ) * (2 * n + 1) / (2 * N)) + cos (π * (k + l : ℕ) * (2 * n + 1) / (2 * N))) / 2 := by
  rw [Nat.cast_sub h, Nat.cast_add]
  have h1 : π * ((k:ℝ) - l) * (2 * n + 1) / (2 * N) =
      π * k * (2 * n + 1) / (2 * N) - π * l * (2 * n + 1) / (2 * N) := by ring
  have h2 : π * ((k:ℝ) + l) * (2 * n + 1) / (2 * N) =
      π * k * (2 * n + 1) / (2 * N) + π * l * (2 * n + 1) / (2 * N) := by ring
  rw [h1, h2, cos_sub, cos_add]; ring

/-- Rows of the orthonormal DCT-II kernel are orthonormal. -/
theorem dct2_orthonormal {N k l : ℕ} (hk : k < N) (hl : l < N) :
    ∑ n ∈ Finset.range N, Np.dctKernel 2 N k n * Np.dctKernel 2 N l n = if k = l then 1 else 0 := by
  have hN : (0:ℝ) < N := by
    have : 0 < N := by omega
    exact_mod_cast this
  wlog hle : l ≤ k generalizing k l
  · have h1 := this hl hk (by omega)
    rw [← show (if l = k then (1:ℝ) else 0) = if k = l then 1 else 0 by simp [eq_comm], ← h1]
    apply Finset.sum_congr rfl
    intro n _; ring
  set f : ℕ → ℝ := fun k => if k = 0 then √(1 / (4 * (N:ℝ))) else √(1 / (2 * (N:ℝ))) with hf
  have hK : ∀ k n, Np.dctKernel 2 N k n = 2 * f k * cos (π * k * (2 * n + 1) / (2 * N)) := fun k n => rfl
  have hsum : ∑ n ∈ Finset.range N, Np.dctKernel 2 N k n * Np.dctKernel 2 N l n =
      2 * f k * f l * (∑ n ∈ Finset.range N, cos (π * (k - l : ℕ) * (2 * n + 1) / (2 * N)) +
        ∑ n ∈ Finset.range N, cos (π * (k + l : ℕ) * (2 * n + 1) / (2 * N))) := by
    rw [← Finset.sum_add_distrib, Finset.mul_sum]
    apply Finset.sum_congr rfl
    intro n _
    rw [hK, hK]
    have := cos_mul_cos_nat N k l n hle
    linear_combination 4 * f k * f l * this
  rw [hsum]
  split_ifs with h
  · subst h
    rcases Nat.eq_zero_or_pos k with h0 | h0
    · subst h0
      have : f 0 * f 0 = 1 / (4 * N) := by
        simp only [hf, if_true]; exact mul_self_sqrt (by positivity)
      simp only [Nat.sub_zero, Nat.add_zero, Nat.cast_zero, mul_zero, zero_mul, zero_div, cos_zero,
        Finset.sum_const, Finset.card_range, nsmul_eq_mul, mul_one]
      rw [mul_assoc 2, this]; field_simp; norm_num
    · have : f k * f k = 1 / (2 * N) := by
        simp only [hf, if_neg h0.ne']; exact mul_self_sqrt (by positivity)
      rw [sum_cos_zero (m := k + k) (by omega) (by omega)]
      simp only [Nat.sub_self, Nat.cast_zero, mul_zero, zero_mul, zero_div, cos_zero,
        Finset.sum_const, Finset.card_range, nsmul_eq_mul, mul_one, add_zero]
      rw [mul_assoc 2, this]; field_simp
  · rw [sum_cos_zero (m := k - l) (by omega) (by omega), sum_cos_zero (m := k + l) (by omega) (by omega)]
    simp

/-- The kernel as a square matrix. -/
noncomputable def dctMat (N : ℕ) : Matrix (Fin N) (Fin N) ℝ := fun k n => Np.dctKernel 2 N k n

theorem dctMat_mul_transpose (N : ℕ) : dctMat N * (dctMat N).transpose = 1 := by
  ext k l
  rw [Matrix.mul_apply, Matrix.one_apply]
  simp only [Matrix.transpose_apply, dctMat]
  have := dct2_orthonormal k.2 l.2
  rw [Finset.sum_range] at this
  rw [this]
  simp [Fin.ext_iff]

/-- Columns of the orthonormal DCT-II kernel are orthonormal. -/
theorem dct2_orthonormal_cols {N n m : ℕ} (hn : n < N) (hm : m < N) :
    ∑ k ∈ Finset.range N, Np.dctKernel 2 N k n * Np.dctKernel 2 N k m = if n = m then 1 else 0 := by
  have h := mul_eq_one_comm.mp (dctMat_mul_transpose N)
  have h1 := congrFun (congrFun h ⟨n, hn⟩) ⟨m, hm⟩
  rw [Matrix.mul_apply, Matrix.one_apply] at h1
  simp only [Matrix.transpose_apply, dctMat, Fin.mk.injEq] at h1
  rw [Finset.sum_range]; exact h1

/-- The DCT-II coefficients of a real row. -/
noncomputable def dct2 (N : ℕ) (x : ℕ → ℝ) (k : ℕ) : ℝ := ∑ n ∈ Finset.range N, Np.dctKernel 2 N k n * x n

theorem dct2_inverse {N : ℕ} (x : ℕ → ℝ) {n : ℕ} (hn : n < N) :
    ∑ k ∈ Finset.range N, Np.dctKernel 2 N k n * dct2 N x k = x n := by
  unfold dct2
  simp_rw [Finset.mul_sum]
  rw [Finset.sum_comm]
  have : ∀ m ∈ Finset.range N, ∑ k ∈ Finset.range N, Np.dctKernel 2 N k n * (Np.dctKernel 2 N k m * x m) =
      if n = m then x m else 0 := by
    intro m hm
    have h := dct2_orthonormal_cols hn (Finset.mem_range.mp hm)
    have h2 : ∑ k ∈ Finset.range N, Np.dctKernel 2 N k n * (Np.dctKernel 2 N k m * x m) =
        (∑ k ∈ Finset.range N, Np.dctKernel 2 N k n * Np.dctKernel 2 N k m) * x m := by
      rw [Finset.sum_mul]; apply Finset.sum_congr rfl; intro k _; ring
    rw [h2, h]; split_ifs <;> simp
  rw [Finset.sum_congr rfl this]
  simp [hn]

theorem dct2_isometry (N : ℕ) (x : ℕ → ℝ) :
    ∑ k ∈ Finset.range N, dct2 N x k ^ 2 = ∑ n ∈ Finset.range N, x n ^ 2 := by
  have h : ∀ k, dct2 N x k ^ 2 = ∑ n ∈ Finset.range N, x n * (Np.dctKernel 2 N k n * dct2 N x k) := by
    intro k
    rw [sq]; nth_rewrite 1 [dct2]
    rw [Finset.sum_mul]; apply Finset.sum_congr rfl; intro n _; ring
  simp_rw [h]
  rw [Finset.sum_comm]
  apply Finset.sum_congr rfl
  intro n hn
  rw [← Finset.mul_sum, dct2_inverse x (Finset.mem_range.mp hn)]; ring

/-- The DCT-II of a constant row. -/
theorem dct2_const {N k : ℕ} (hk : k < N) (t : ℝ) :
    dct2 N (fun _ => t) k = if k = 0 then √N * t else 0 := by
  have hN : (0:ℝ) < N := by
    have : 0 < N := by omega
    exact_mod_cast this
  have h0 : ∀ n, Np.dctKernel 2 N 0 n = 1 / √N := by
    intro n
    simp only [Np.dctKernel, if_true, Nat.cast_zero, mul_zero, zero_mul, zero_div, cos_zero, mul_one]
    rw [show (1:ℝ) / (4 * N) = (1 / 2) ^ 2 * (1 / N) by ring, sqrt_mul (by positivity), sqrt_sq (by norm_num),
      sqrt_div (by norm_num), sqrt_one]
    ring
  have horth := dct2_orthonormal hk (show 0 < N by omega)
  have hsq : √(N:ℝ) * √(N:ℝ) = N := mul_self_sqrt hN.le
  have hne : √(N:ℝ) ≠ 0 := (sqrt_pos.mpr hN).ne'
  have : dct2 N (fun _ => t) k = √N * t * ∑ n ∈ Finset.range N, Np.dctKernel 2 N k n * Np.dctKernel 2 N 0 n := by
    unfold dct2
    rw [Finset.mul_sum]
    apply Finset.sum_congr rfl
    intro n _
    rw [h0]; field_simp
  rw [this, horth]
  split_ifs <;> simp

/-! ### DFT -/

theorem exp_int_ne_one {n : ℕ} {d : ℤ} (hd : d ≠ 0) (hlt : |d| < n) :
    Complex.exp (-(2 * π * Complex.I * d / n)) ≠ 1 := by
  intro h
  rw [Complex.exp_eq_one_iff] at h
  obtain ⟨z, hz⟩ := h
  have hn : (n:ℂ) ≠ 0 := by
    have : 0 < n := by have := abs_nonneg d; omega
    exact_mod_cast this.ne'
  have hpi : (2 * π * Complex.I : ℂ) ≠ 0 := Complex.two_pi_I_ne_zero
  have h1 : (-(d:ℂ)) = z * n := by
    field_simp at hz
    linear_combination hz
  have h2 : -d = z * n := by exact_mod_cast h1
  rcases eq_or_ne z 0 with rfl | hz0
  · simp at h2; exact hd h2
  · have h3 : (n:ℤ) ≤ |d| := by
      rw [← abs_neg, h2, abs_mul]
      have : 1 ≤ |z| := Int.one_le_abs hz0
      have hnn : |(n:ℤ)| = n := abs_of_nonneg (by positivity)
      rw [hnn]
      nlinarith [Int.natCast_nonneg n]
    omega

/-- Orthogonality of the characters. -/
theorem sum_exp_eq {n : ℕ} (j l : ℕ) (hj : j < n) (hl : l < n) :
    ∑ k ∈ Finset.range n, Complex.exp (-(2 * π * Complex.I * (j * k) / n)) *
      (starRingEnd ℂ) (Complex.exp (-(2 * π * Complex.I * (l * k) / n))) = if j = l then (n:ℂ) else 0 := by
  have hterm : ∀ k : ℕ, Complex.exp (-(2 * π * Complex.I * (j * k) / n)) *
      (starRingEnd ℂ) (Complex.exp (-(2 * π * Complex.I * (l * k) / n))) =
      Complex.exp (-(2 * π * Complex.I * ((j:ℤ) - l : ℤ) / n)) ^ k := by
    intro k
    rw [← Complex.exp_conj, ← Complex.exp_add, ← Complex.exp_nat_mul]
    congr 1
    simp only [map_neg, map_div₀, map_mul, map_ofNat, Complex.conj_I, Complex.conj_ofReal, map_natCast]
    push_cast
    ring
  simp_rw [hterm]
  split_ifs with h
  · subst h; simp
  · have hd : ((j:ℤ) - l) ≠ 0 := by omega
    have hlt : |(j:ℤ) - l| < n := by rw [abs_lt]; constructor <;> omega
    have hne := exp_int_ne_one hd hlt
    rw [geom_sum_eq hne]
    have hn : (n:ℂ) ≠ 0 := by
      have : 0 < n := by omega
      exact_mod_cast this.ne'
    have : Complex.exp (-(2 * π * Complex.I * ((j:ℤ) - l : ℤ) / n)) ^ n = 1 := by
      rw [← Complex.exp_nat_mul, Complex.exp_eq_one_iff]
      refine ⟨-((j:ℤ) - l), ?_⟩
      push_cast
      field_simp
    rw [this]; simp

/-- Parseval for the DFT of a real list. -/
theorem parseval (x : List ℝ) {n : ℕ} :
    ∑ k ∈ Finset.range n, ‖Np.dft x n k‖ ^ 2 = n * ∑ j ∈ Finset.range n, x.getD j 0 ^ 2 := by
  have hC : (∑ k ∈ Finset.range n, ((‖Np.dft x n k‖ ^ 2 : ℝ) : ℂ)) =
      ((n * ∑ j ∈ Finset.range n, x.getD j 0 ^ 2 : ℝ) : ℂ) := by
    have h1 : ∀ k, ((‖Np.dft x n k‖ ^ 2 : ℝ) : ℂ) =
        ∑ j ∈ Finset.range n, ∑ l ∈ Finset.range n, ((x.getD j 0 : ℝ) : ℂ) * ((x.getD l 0 : ℝ) : ℂ) *
          (Complex.exp (-(2 * π * Complex.I * (j * k) / n)) *
            (starRingEnd ℂ) (Complex.exp (-(2 * π * Complex.I * (l * k) / n)))) := by
      intro k
      have : ((‖Np.dft x n k‖ ^ 2 : ℝ) : ℂ) = Np.dft x n k * (starRingEnd ℂ) (Np.dft x n k) := by
        rw [Complex.mul_conj, Complex.normSq_eq_norm_sq]
      rw [this, Np.dft, Np.dftC, map_sum, Finset.sum_mul_sum]
      apply Finset.sum_congr rfl; intro j _
      apply Finset.sum_congr rfl; intro l _
      rw [map_mul, Complex.conj_ofReal]; ring
    simp_rw [h1]
    rw [Finset.sum_comm]
    push_cast
    rw [Finset.mul_sum]
    apply Finset.sum_congr rfl
    intro j hj
    rw [Finset.sum_comm]
    have : ∀ l ∈ Finset.range n, ∑ k ∈ Finset.range n, ((x.getD j 0 : ℝ) : ℂ) * ((x.getD l 0 : ℝ) : ℂ) *
          (Complex.exp (-(2 * π * Complex.I * (j * k) / n)) *
            (starRingEnd ℂ) (Complex.exp (-(2 * π * Complex.I * (l * k) / n)))) =
          if j = l then ((x.getD j 0 : ℝ) : ℂ) * ((x.getD l 0 : ℝ) : ℂ) * n else 0 := by
      intro l hl
      rw [← Finset.mul_sum, sum_exp_eq j l (Finset.mem_range.mp hj) (Finset.mem_range.mp hl)]
      split_ifs <;> simp
    rw [Finset.sum_congr rfl this]
    rw [Finset.sum_ite_eq, if_pos hj]; ring
  exact_mod_cast hC

/-- Conjugate symmetry of the DFT of a real list. -/
theorem dft_symm (x : List ℝ) {n k : ℕ} (hk : k ≤ n) (hn : 0 < n) :
    Np.dft x n (n - k) = (starRingEnd ℂ) (Np.dft x n k) := by
  unfold Np.dft Np.dftC
  rw [map_sum]
  apply Finset.sum_congr rfl
  intro j _
  have hn' : (n:ℂ) ≠ 0 := by exact_mod_cast hn.ne'
  rw [map_mul, Complex.conj_ofReal, ← Complex.exp_conj]
  congr 1
  rw [Complex.exp_eq_exp_iff_exists_int]
  refine ⟨-j, ?_⟩
  simp only [map_neg, map_div₀, map_mul, map_ofNat, Complex.conj_I, Complex.conj_ofReal, map_natCast]
  rw [Nat.cast_sub hk]
  push_cast
  field_simp
  ring

/-- The half-spectrum energy for an even FFT size. -/
theorem half_parseval (x : List ℝ) {m : ℕ} (hm : 0 < m) :
    ∑ k ∈ Finset.range (m + 1), ‖Np.dft x (2 * m) k‖ ^ 2 =
      ((2 * m : ℕ) * ∑ j ∈ Finset.range (2 * m), x.getD j 0 ^ 2 + ‖Np.dft x (2 * m) 0‖ ^ 2 +
        ‖Np.dft x (2 * m) m‖ ^ 2) / 2 := by
  rw [← parseval]
  set F : ℕ → ℝ := fun k => ‖Np.dft x (2 * m) k‖ ^ 2 with hF
  have hsym : ∀ k, k ≤ 2 * m → F (2 * m - k) = F k := by
    intro k hk
    simp only [hF]
    rw [dft_symm x hk (by omega), RCLike.norm_conj]
  obtain ⟨p, rfl⟩ : ∃ p, m = p + 1 := ⟨m - 1, by omega⟩
  have h1 : ∑ k ∈ Finset.range (2 * (p + 1)), F k =
      ∑ k ∈ Finset.range (p + 1 + 1), F k + ∑ k ∈ Finset.range p, F (p + 1 + 1 + k) := by
    rw [show 2 * (p + 1) = (p + 1 + 1) + p by ring, Finset.sum_range_add]
  have h2 : ∑ k ∈ Finset.range p, F (p + 1 + 1 + k) = ∑ k ∈ Finset.range p, F (k + 1) := by
    rw [← Finset.sum_range_reflect]
    apply Finset.sum_congr rfl
    intro k hk
    have hk := Finset.mem_range.mp hk
    rw [← hsym (p + 1 + 1 + (p - 1 - k)) (by omega)]
    congr 1; omega
  have h3 : ∑ k ∈ Finset.range (p + 1 + 1), F k = F 0 + ∑ k ∈ Finset.range p, F (k + 1) + F (p + 1) := by
    rw [Finset.sum_range_succ, Finset.sum_range_succ']; ring
  show ∑ k ∈ Finset.range (p + 1 + 1), F k = (∑ k ∈ Finset.range (2 * (p + 1)), F k + F 0 + F (p + 1)) / 2
  rw [h1, h2, h3]; ring

end Spafe
