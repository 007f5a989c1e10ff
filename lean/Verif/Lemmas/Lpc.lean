import Verif.Model.Lpc
import Verif.Spec.Lpc
import Verif.Lemmas.FrontEnd
import Mathlib.LinearAlgebra.Matrix.ToLinearEquiv

/-! Helper lemmas for linear prediction. -/

set_option linter.unusedSectionVars false

namespace Spafe
open Model XF Spec

/-- The signal delayed by `k`. -/
noncomputable def sh (x : List ℝ) (k n : ℕ) : ℝ := if k ≤ n then x.getD (n - k) 0 else 0

theorem ext_natCast (x : List ℝ) (n : ℕ) : ext x (n : ℤ) = x.getD n 0 := by simp [ext]

theorem ext_sub (x : List ℝ) (n k : ℕ) : ext x ((n : ℤ) - (k : ℤ)) = sh x k n := by
  unfold ext sh
  by_cases h : k ≤ n
  · rw [if_pos (by omega), if_pos h]; congr 1; omega
  · rw [if_neg (by omega), if_neg h]

theorem autoCorr_eq (x : List ℝ) (k : ℕ) :
    autoCorr x k = ∑ n ∈ Finset.range x.length, x.getD n 0 * x.getD (n + k) 0 := by
  unfold autoCorr
  apply Finset.sum_congr rfl
  intro n _
  rw [ext_natCast, show (n : ℤ) + (k : ℤ) = ((n + k : ℕ) : ℤ) by push_cast; rfl, ext_natCast]

theorem autoCorr_large (x : List ℝ) {k : ℕ} (h : x.length ≤ k) : autoCorr x k = 0 := by
  rw [autoCorr_eq]
  apply Finset.sum_eq_zero
  intro n _
  rw [List.getD_eq_default (l := x) (n := n + k) _ (by omega), mul_zero]

/-- Delayed copies correlate like the autocorrelation. -/
theorem sum_sh_mul {x : List ℝ} {p i j : ℕ} (hij : i ≤ j) (hj : j ≤ p) :
    ∑ n ∈ Finset.range (x.length + p), sh x i n * sh x j n = autoCorr x (j - i) := by
  rw [show x.length + p = j + (x.length + (p - j)) by omega, Finset.sum_range_add, Finset.sum_range_add]
  have h1 : ∑ n ∈ Finset.range j, sh x i n * sh x j n = 0 := by
    apply Finset.sum_eq_zero
    intro n hn
    have : ¬ j ≤ n := by have := Finset.mem_range.mp hn; omega
    simp [sh, this]
  have h2 : ∑ n ∈ Finset.range (p - j), sh x i (j + (x.length + n)) * sh x j (j + (x.length + n)) = 0 := by
    apply Finset.sum_eq_zero
    intro n _
    have : sh x j (j + (x.length + n)) = 0 := by
      unfold sh
      rw [if_pos (by omega), List.getD_eq_default _ _ (by omega)]
    rw [this, mul_zero]
  rw [h1, h2, zero_add, add_zero, autoCorr_eq]
  apply Finset.sum_congr rfl
  intro n _
  unfold sh
  rw [if_pos (by omega), if_pos (by omega), mul_comm]
  congr 2 <;> omega

theorem sum_sh_mul' {x : List ℝ} {p i j : ℕ} (hi : i ≤ p) (hj : j ≤ p) :
    ∑ n ∈ Finset.range (x.length + p), sh x i n * sh x j n = autoCorr x ((i : ℤ) - (j : ℤ)).natAbs := by
  rcases le_total i j with h | h
  · rw [sum_sh_mul h hj]; congr 1; omega
  · simp_rw [mul_comm (sh x i _)]
    rw [sum_sh_mul h hi]; congr 1; omega

/-- Outside `0, …, N + p - 1` the prediction error is zero. -/
theorem predErrorAt_eq_zero (x : List ℝ) (p : ℕ) (b : ℕ → ℝ) (n : ℤ) (h : n < 0 ∨ (x.length + p : ℕ) ≤ n) :
    predErrorAt x p b n = 0 := by
  have h0 : ∀ k : ℕ, k ≤ p → ext x (n - k) = 0 := by
    intro k hk
    unfold ext
    split_ifs with h1
    · apply List.getD_eq_default; omega
    · rfl
  unfold predErrorAt
  have := h0 0 (by omega)
  rw [Nat.cast_zero, sub_zero] at this
  rw [this, zero_add]
  apply Finset.sum_eq_zero
  intro k hk
  rw [h0 k (Finset.mem_Icc.mp hk).2, mul_zero]

theorem predErrorAt_natCast (x : List ℝ) (p : ℕ) (b : ℕ → ℝ) (n : ℕ) :
    predErrorAt x p b n = sh x 0 n + ∑ k ∈ Finset.Icc 1 p, b k * sh x k n := by
  unfold predErrorAt
  have h : ext x (n : ℤ) = sh x 0 n := by rw [ext_natCast]; simp [sh]
  rw [h]
  congr 1
  apply Finset.sum_congr rfl
  intro k _
  rw [ext_sub]

/-- The delays of a signal that is not silent are linearly independent. -/
theorem sh_indep {x : List ℝ} (hx : NotSilent x) {p : ℕ} {v : ℕ → ℝ}
    (h : ∀ n, n < x.length + p → ∑ k ∈ Finset.Icc 1 p, v k * sh x k n = 0) : ∀ k, 1 ≤ k → k ≤ p → v k = 0 := by
  obtain ⟨w, hw, hw0⟩ := hx
  obtain ⟨i, hi, rfl⟩ := (mem_iff_getD 0 w).mp hw
  have hex : ∃ i, x.getD i 0 ≠ 0 := ⟨i, hw0⟩
  classical
  let i0 := Nat.find hex
  have hi0 : x.getD i0 0 ≠ 0 := Nat.find_spec hex
  have hmin : ∀ j, j < i0 → x.getD j 0 = 0 := fun j hj => by
    by_contra h; exact Nat.find_min hex hj h
  have hi0l : i0 < x.length := by
    by_contra h; exact hi0 (List.getD_eq_default _ _ (by omega))
  intro k
  induction k using Nat.strong_induction_on with
  | _ k ih =>
    intro hk1 hkp
    have := h (i0 + k) (by omega)
    rw [Finset.sum_eq_single k] at this
    · unfold sh at this
      rw [if_pos (by omega), show i0 + k - k = i0 by omega] at this
      exact (mul_eq_zero.mp this).resolve_right hi0
    · intro j hj hjk
      have hj := Finset.mem_Icc.mp hj
      rcases lt_or_gt_of_ne hjk with h1 | h1
      · rw [ih j h1 hj.1 hj.2, zero_mul]
      · unfold sh
        split_ifs with h2
        · rw [hmin _ (by omega), mul_zero]
        · rw [mul_zero]
    · intro hk; exact absurd (Finset.mem_Icc.mpr ⟨hk1, hkp⟩) hk

/-! ### The vector `r` and the Toeplitz matrix -/

theorem correlateFull_length (x : List ℝ) : (correlateFull x).length = 2 * x.length - 1 := by simp [correlateFull]

/-- Entry `N - 1 + k` is the autocorrelation at lag `k`. -/
theorem correlateFull_pos {x : List ℝ} {k : ℕ} (hk : k < x.length) :
    (correlateFull x).getD (x.length - 1 + k) 0 = autoCorr x k := by
  unfold correlateFull
  rw [getD_map_range_lt _ _ (by omega), autoCorr_eq]
  apply Finset.sum_congr rfl
  intro n _
  rw [if_pos (by omega), mul_comm]
  congr 2; omega

/-- Entry `i ≤ N - 1` is the autocorrelation at lag `N - 1 - i`. -/
theorem correlateFull_neg {x : List ℝ} {i : ℕ} (hi : i ≤ x.length - 1) (hx : x ≠ []) :
    (correlateFull x).getD i 0 = autoCorr x (x.length - 1 - i) := by
  have hl : 0 < x.length := List.length_pos_iff.mpr hx
  unfold correlateFull
  rw [getD_map_range_lt _ _ (by omega), autoCorr_eq]
  generalize hd : x.length - 1 - i = d
  have e1 : Finset.range x.length = Finset.range (d + (i + 1)) := by congr 1; omega
  have e2 : Finset.range x.length = Finset.range (i + 1 + d) := by congr 1; omega
  conv_lhs => rw [e1, Finset.sum_range_add]
  conv_rhs => rw [e2, Finset.sum_range_add]
  have h1 : ∑ n ∈ Finset.range d,
      (if x.length - 1 ≤ n + i then x.getD (n + i - (x.length - 1)) 0 else 0) * x.getD n 0 = 0 := by
    apply Finset.sum_eq_zero
    intro n hn
    have := Finset.mem_range.mp hn
    rw [if_neg (by omega), zero_mul]
  have h2 : ∑ n ∈ Finset.range d, x.getD (i + 1 + n) 0 * x.getD (i + 1 + n + d) 0 = 0 := by
    apply Finset.sum_eq_zero
    intro n _
    rw [List.getD_eq_default (l := x) (n := i + 1 + n + d) _ (by omega), mul_zero]
  rw [h1, h2, zero_add, add_zero]
  apply Finset.sum_congr rfl
  intro n _
  rw [if_pos (by omega)]
  congr 2 <;> omega

theorem lpcR_getD {x : List ℝ} (hx : x ≠ []) {order k : ℕ} (hk : k ≤ order) :
    (lpcR x order).getD k 0 = autoCorr x k := by
  have hl : 0 < x.length := List.length_pos_iff.mpr hx
  simp only [lpcR]
  rw [getD_map_range_lt _ _ (by omega)]
  split_ifs with h
  · unfold pySlice sliceBound
    rw [if_neg (by omega), if_neg (by omega), correlateFull_length, getD_take_lt _ _ (by omega), getD_drop',
      show min ((x.length : ℤ) - 1).toNat (2 * x.length - 1) + k = x.length - 1 + k by omega,
      correlateFull_pos (by omega)]
  · rw [autoCorr_large x (by omega)]

theorem toeplitz_apply {x : List ℝ} (hx : x ≠ []) {order : ℕ} (i j : Fin order) :
    toeplitz (lpcR x order) order i j = autoCorr x ((i : ℤ) - (j : ℤ)).natAbs := by
  show (lpcR x order).getD _ 0 = _
  rw [lpcR_getD hx (by omega)]

/-- A coefficient vector as a function on `1, …, p`. -/
noncomputable def ofFin {p : ℕ} (v : Fin p → ℝ) (k : ℕ) : ℝ := if h : k - 1 < p then v ⟨k - 1, h⟩ else 0

theorem ofFin_succ {p : ℕ} (v : Fin p → ℝ) (i : Fin p) : ofFin v (i + 1) = v i := by
  unfold ofFin
  rw [dif_pos (by simp)]
  simp

theorem sum_Icc_one (p : ℕ) (f : ℕ → ℝ) : ∑ k ∈ Finset.Icc 1 p, f k = ∑ i : Fin p, f (i + 1) := by
  rw [Fin.sum_univ_eq_sum_range (fun i => f (i + 1)), Finset.range_eq_Ico, Finset.sum_Ico_add' f 0 p 1]
  rfl

/-- The Toeplitz product in terms of the autocorrelation. -/
theorem toeplitz_mulVec {x : List ℝ} (hx : x ≠ []) {p : ℕ} (v : Fin p → ℝ) (i : Fin p) :
    (toeplitz (lpcR x p) p).mulVec v i =
      ∑ k ∈ Finset.Icc 1 p, ofFin v k * autoCorr x (((i + 1 : ℕ) : ℤ) - (k : ℤ)).natAbs := by
  rw [sum_Icc_one]
  rw [Matrix.mulVec_eq_sum, Finset.sum_apply]
  apply Finset.sum_congr rfl
  intro j _
  rw [Pi.smul_apply, Matrix.transpose_apply, op_smul_eq_mul, toeplitz_apply hx, ofFin_succ, mul_comm]
  congr 2; push_cast; congr 1; ring

/-- A residual `Σ v_k x[n-k]` correlated with a delayed copy. -/
theorem sum_resid_mul {x : List ℝ} {p : ℕ} (v : ℕ → ℝ) {i : ℕ} (hi : i ≤ p) :
    ∑ n ∈ Finset.range (x.length + p), (∑ k ∈ Finset.Icc 1 p, v k * sh x k n) * sh x i n =
      ∑ k ∈ Finset.Icc 1 p, v k * autoCorr x ((i : ℤ) - (k : ℤ)).natAbs := by
  simp_rw [Finset.sum_mul]
  rw [Finset.sum_comm]
  apply Finset.sum_congr rfl
  intro k hk
  rw [← sum_sh_mul' (x := x) hi (Finset.mem_Icc.mp hk).2, Finset.mul_sum]
  apply Finset.sum_congr rfl
  intro n _
  ring

/-- `T v = 0` only for `v = 0`, if the frame is not silent. -/
theorem resid_zero {x : List ℝ} (hx : NotSilent x) {p : ℕ} {v : ℕ → ℝ}
    (h : ∀ i, 1 ≤ i → i ≤ p → ∑ k ∈ Finset.Icc 1 p, v k * autoCorr x ((i : ℤ) - (k : ℤ)).natAbs = 0) :
    ∀ k, 1 ≤ k → k ≤ p → v k = 0 := by
  have h1 : ∑ n ∈ Finset.range (x.length + p), (∑ k ∈ Finset.Icc 1 p, v k * sh x k n) ^ 2 = 0 := by
    have : ∀ n, (∑ k ∈ Finset.Icc 1 p, v k * sh x k n) ^ 2 =
        ∑ i ∈ Finset.Icc 1 p, v i * ((∑ k ∈ Finset.Icc 1 p, v k * sh x k n) * sh x i n) := by
      intro n
      rw [sq]
      conv_lhs => rw [Finset.mul_sum]
      apply Finset.sum_congr rfl
      intro i _; ring
    simp_rw [this]
    rw [Finset.sum_comm]
    apply Finset.sum_eq_zero
    intro i hi
    have hi := Finset.mem_Icc.mp hi
    rw [← Finset.mul_sum, sum_resid_mul v hi.2, h i hi.1 hi.2, mul_zero]
  apply sh_indep hx
  intro n hn
  rw [Finset.sum_eq_zero_iff_of_nonneg (fun n _ => sq_nonneg _)] at h1
  exact pow_eq_zero_iff (by norm_num) |>.mp (h1 n (Finset.mem_range.mpr hn))

theorem notSilent_ne_nil {x : List ℝ} (hx : NotSilent x) : x ≠ [] := by
  obtain ⟨v, hv, -⟩ := hx
  rintro rfl; simp at hv

/-- The Toeplitz matrix of a frame that is not silent is nonsingular. -/
theorem toeplitz_det_ne_zero {x : List ℝ} (hx : NotSilent x) (p : ℕ) : (toeplitz (lpcR x p) p).det ≠ 0 := by
  intro h
  obtain ⟨v, hv, h⟩ := Matrix.exists_mulVec_eq_zero_iff.mpr h
  apply hv
  have hx0 := notSilent_ne_nil hx
  have := resid_zero hx (p := p) (v := ofFin v) (fun i h1 h2 => by
    have := toeplitz_mulVec hx0 v ⟨i - 1, by omega⟩
    rw [h] at this
    simp only [show i - 1 + 1 = i by omega] at this
    exact this.symm)
  funext i
  rw [← ofFin_succ v i]
  exact this _ (by omega) (by omega)

theorem autoCorr_silent {x : List ℝ} (hx : ¬ NotSilent x) (k : ℕ) : autoCorr x k = 0 := by
  rw [autoCorr_eq]
  apply Finset.sum_eq_zero
  intro n hn
  have : x.getD n 0 = 0 := by
    by_contra h
    exact hx ⟨_, getD_mem 0 (Finset.mem_range.mp hn), h⟩
  rw [this, zero_mul]

theorem toeplitz_silent {x : List ℝ} (h0 : x ≠ []) (hx : ¬ NotSilent x) {p : ℕ} (hp : p ≠ 0) :
    (toeplitz (lpcR x p) p).det = 0 := by
  have : toeplitz (lpcR x p) p = 0 := by
    ext i j
    rw [toeplitz_apply h0, autoCorr_silent hx]; rfl
  rw [this]
  have : Nonempty (Fin p) := ⟨⟨0, by omega⟩⟩
  exact Matrix.det_zero

/-- The error term as the code computes it. -/
noncomputable def lpcErr (x a : List ℝ) : ℝ :=
  (correlateFull x).getD 0 0 + (List.zipWith (· * ·) ((correlateFull x).drop 1) a).sum

/-- What the helper returns. -/
theorem lpcHelper_ok {x : List ℝ} (hx : NotSilent x) {p : ℕ} (hp : p ≠ 0) :
    ∃ phi : Fin p → ℝ, lpcHelper x p = .ok (1 :: List.ofFn phi, |lpcErr x (1 :: List.ofFn phi)|) ∧
      ∀ i, 1 ≤ i → i ≤ p →
        ∑ k ∈ Finset.Icc 1 p, ofFin phi k * autoCorr x ((i : ℤ) - (k : ℤ)).natAbs = -autoCorr x i := by
  have h0 := notSilent_ne_nil hx
  have hdet := toeplitz_det_ne_zero hx p
  refine ⟨(toeplitz (lpcR x p) p)⁻¹.mulVec fun i : Fin p => -(lpcR x p).getD (i + 1) 0, ?_, ?_⟩
  · simp only [lpcHelper]
    rw [if_neg h0, if_neg hp, if_neg hdet, Real.sqrt_sq_eq_abs]
    rfl
  · intro i h1 h2
    have := toeplitz_mulVec h0 ((toeplitz (lpcR x p) p)⁻¹.mulVec fun i : Fin p => -(lpcR x p).getD (i + 1) 0)
      ⟨i - 1, by omega⟩
    rw [Matrix.mulVec_mulVec, Matrix.mul_nonsing_inv _ (isUnit_iff_ne_zero.mpr hdet), Matrix.one_mulVec] at this
    simp only [show i - 1 + 1 = i by omega] at this
    rw [← this, lpcR_getD h0 h2]

theorem lpcHelper_silent {x : List ℝ} (h0 : x ≠ []) (hx : ¬ NotSilent x) {p : ℕ} (hp : p ≠ 0) :
    lpcHelper x p = .error .linAlgError := by
  simp only [lpcHelper]
  rw [if_neg h0, if_neg hp, if_pos (toeplitz_silent h0 hx hp)]

theorem getD_cons_ofFn {p : ℕ} (phi : Fin p → ℝ) {k : ℕ} (h1 : 1 ≤ k) :
    (1 :: List.ofFn phi).getD k 0 = ofFin phi k := by
  obtain ⟨j, rfl⟩ : ∃ j, k = j + 1 := ⟨k - 1, by omega⟩
  rw [List.getD_cons_succ]
  unfold ofFin
  by_cases h : j < p
  · rw [dif_pos (by simpa using h), List.getD_eq_getElem _ _ (by simpa using h)]
    simp
  · rw [dif_neg (by simpa using h), List.getD_eq_default _ _ (by simp; omega)]

/-- Solutions of the normal equations are unique. -/
theorem normal_unique {x : List ℝ} (hx : NotSilent x) {p : ℕ} {u v : ℕ → ℝ}
    (hu : ∀ i, 1 ≤ i → i ≤ p → ∑ k ∈ Finset.Icc 1 p, u k * autoCorr x ((i : ℤ) - (k : ℤ)).natAbs = -autoCorr x i)
    (hv : ∀ i, 1 ≤ i → i ≤ p → ∑ k ∈ Finset.Icc 1 p, v k * autoCorr x ((i : ℤ) - (k : ℤ)).natAbs = -autoCorr x i) :
    ∀ k, 1 ≤ k → k ≤ p → u k = v k := by
  intro k h1 h2
  have := resid_zero hx (p := p) (v := fun k => u k - v k) (fun i h1 h2 => by
    simp_rw [sub_mul]
    rw [Finset.sum_sub_distrib, hu i h1 h2, hv i h1 h2, sub_self]) k h1 h2
  linarith

/-- Orthogonality of the residual: expansion of the prediction error around a solution. -/
theorem predError_expand {x : List ℝ} {p : ℕ} {u : ℕ → ℝ}
    (hu : ∀ i, 1 ≤ i → i ≤ p → ∑ k ∈ Finset.Icc 1 p, u k * autoCorr x ((i : ℤ) - (k : ℤ)).natAbs = -autoCorr x i)
    (b : ℕ → ℝ) :
    predError x p b = predError x p u +
      ∑ n ∈ Finset.range (x.length + p), (∑ k ∈ Finset.Icc 1 p, (b k - u k) * sh x k n) ^ 2 := by
  have horth : ∀ i, 1 ≤ i → i ≤ p →
      ∑ n ∈ Finset.range (x.length + p), (sh x 0 n + ∑ k ∈ Finset.Icc 1 p, u k * sh x k n) * sh x i n = 0 := by
    intro i h1 h2
    simp_rw [add_mul]
    rw [Finset.sum_add_distrib, sum_resid_mul u h2, hu i h1 h2, sum_sh_mul' (by omega) h2]
    simp
  unfold predError
  simp_rw [predErrorAt_natCast]
  have hsplit : ∀ n, (sh x 0 n + ∑ k ∈ Finset.Icc 1 p, b k * sh x k n) ^ 2 =
      (sh x 0 n + ∑ k ∈ Finset.Icc 1 p, u k * sh x k n) ^ 2 +
      (∑ k ∈ Finset.Icc 1 p, (b k - u k) * sh x k n) ^ 2 +
      2 * ∑ i ∈ Finset.Icc 1 p, (b i - u i) *
        ((sh x 0 n + ∑ k ∈ Finset.Icc 1 p, u k * sh x k n) * sh x i n) := by
    intro n
    have h1 : ∑ k ∈ Finset.Icc 1 p, b k * sh x k n =
        ∑ k ∈ Finset.Icc 1 p, u k * sh x k n + ∑ k ∈ Finset.Icc 1 p, (b k - u k) * sh x k n := by
      rw [← Finset.sum_add_distrib]
      apply Finset.sum_congr rfl; intro k _; ring
    have h2 : ∑ i ∈ Finset.Icc 1 p, (b i - u i) *
        ((sh x 0 n + ∑ k ∈ Finset.Icc 1 p, u k * sh x k n) * sh x i n) =
        (sh x 0 n + ∑ k ∈ Finset.Icc 1 p, u k * sh x k n) * ∑ k ∈ Finset.Icc 1 p, (b k - u k) * sh x k n := by
      rw [Finset.mul_sum]
      apply Finset.sum_congr rfl; intro k _; ring
    rw [h1, h2]; ring
  rw [Finset.sum_congr rfl fun n _ => hsplit n, Finset.sum_add_distrib, Finset.sum_add_distrib, ← Finset.mul_sum,
    Finset.sum_comm]
  have : ∑ i ∈ Finset.Icc 1 p, ∑ n ∈ Finset.range (x.length + p), (b i - u i) *
        ((sh x 0 n + ∑ k ∈ Finset.Icc 1 p, u k * sh x k n) * sh x i n) = 0 := by
    apply Finset.sum_eq_zero
    intro i hi
    have hi := Finset.mem_Icc.mp hi
    rw [← Finset.mul_sum, horth i hi.1 hi.2, mul_zero]
  rw [this, mul_zero, add_zero]

/-- The minimal prediction error is `r(0) + Σ a_k r(k)`. -/
theorem predError_min {x : List ℝ} {p : ℕ} {u : ℕ → ℝ}
    (hu : ∀ i, 1 ≤ i → i ≤ p → ∑ k ∈ Finset.Icc 1 p, u k * autoCorr x ((i : ℤ) - (k : ℤ)).natAbs = -autoCorr x i) :
    predError x p u = autoCorr x 0 + ∑ k ∈ Finset.Icc 1 p, u k * autoCorr x k := by
  have h := predError_expand hu (fun _ => 0)
  have h0 : predError x p (fun _ => 0) = autoCorr x 0 := by
    unfold predError
    simp_rw [predErrorAt_natCast]
    simp only [zero_mul, Finset.sum_const_zero, add_zero, sq]
    rw [sum_sh_mul (le_refl 0) (Nat.zero_le p)]
  have h1 : ∑ n ∈ Finset.range (x.length + p), (∑ k ∈ Finset.Icc 1 p, (0 - u k) * sh x k n) ^ 2 =
      -∑ k ∈ Finset.Icc 1 p, u k * autoCorr x k := by
    have : ∀ n, (∑ k ∈ Finset.Icc 1 p, (0 - u k) * sh x k n) ^ 2 =
        ∑ i ∈ Finset.Icc 1 p, u i * ((∑ k ∈ Finset.Icc 1 p, u k * sh x k n) * sh x i n) := by
      intro n
      have : ∑ k ∈ Finset.Icc 1 p, (0 - u k) * sh x k n = -∑ k ∈ Finset.Icc 1 p, u k * sh x k n := by
        rw [← Finset.sum_neg_distrib]; apply Finset.sum_congr rfl; intro k _; ring
      rw [this, neg_sq, sq]
      conv_lhs => rw [Finset.mul_sum]
      apply Finset.sum_congr rfl
      intro i _; ring
    simp_rw [this]
    rw [Finset.sum_comm, ← Finset.sum_neg_distrib]
    apply Finset.sum_congr rfl
    intro i hi
    have hi := Finset.mem_Icc.mp hi
    rw [← Finset.mul_sum, sum_resid_mul u hi.2, hu i hi.1 hi.2]; ring
  rw [h0, h1] at h
  linarith

/-! ### Gain -/

theorem autoCorr_smul (c : ℝ) (x : List ℝ) (k : ℕ) : autoCorr (x.map (c * ·)) k = c ^ 2 * autoCorr x k := by
  rw [autoCorr_eq, autoCorr_eq, List.length_map, Finset.mul_sum]
  apply Finset.sum_congr rfl
  intro n _
  rw [getD_map_zero, getD_map_zero]; ring

theorem notSilent_smul {c : ℝ} (hc : c ≠ 0) (x : List ℝ) : NotSilent (x.map (c * ·)) ↔ NotSilent x := by
  unfold NotSilent
  constructor
  · rintro ⟨v, hv, h⟩
    obtain ⟨w, hw, rfl⟩ := List.mem_map.mp hv
    exact ⟨w, hw, fun h0 => h (by simp [h0])⟩
  · rintro ⟨v, hv, h⟩
    exact ⟨c * v, List.mem_map.mpr ⟨v, hv, rfl⟩, mul_ne_zero hc h⟩

theorem correlateFull_smul (c : ℝ) (x : List ℝ) :
    correlateFull (x.map (c * ·)) = (correlateFull x).map (c ^ 2 * ·) := by
  unfold correlateFull
  rw [List.map_map, List.length_map]
  apply List.map_congr_left
  intro i _
  simp only [Function.comp]
  rw [Finset.mul_sum]
  apply Finset.sum_congr rfl
  intro n _
  rw [getD_map_zero, getD_map_zero]
  split_ifs <;> ring

theorem lpcErr_smul (c : ℝ) (x a : List ℝ) : lpcErr (x.map (c * ·)) a = c ^ 2 * lpcErr x a := by
  unfold lpcErr
  rw [correlateFull_smul, getD_map_zero, mul_add, ← List.map_drop]
  congr 1
  generalize (correlateFull x).drop 1 = l
  induction l generalizing a with
  | nil => simp
  | cons y l ih =>
    cases a with
    | nil => simp
    | cons b a => simp only [List.map_cons, List.zipWith_cons_cons, List.sum_cons, ih]; ring

theorem ofFn_eq_of_ofFin {p : ℕ} {u v : Fin p → ℝ} (h : ∀ k, 1 ≤ k → k ≤ p → ofFin u k = ofFin v k) : u = v := by
  funext i
  rw [← ofFin_succ u i, ← ofFin_succ v i]
  exact h _ (by omega) (by omega)

/-- Gain: same coefficients, error multiplied by `c²`. -/
theorem lpcHelper_smul {c : ℝ} (hc : c ≠ 0) (x : List ℝ) (p : ℕ) :
    lpcHelper (x.map (c * ·)) p = (lpcHelper x p).map fun q => (q.1, c ^ 2 * q.2) := by
  by_cases h0 : x = []
  · subst h0; simp [lpcHelper, Except.map]
  have h0' : x.map (c * ·) ≠ [] := by simpa using h0
  by_cases hp : p = 0
  · subst hp; simp [lpcHelper, h0, Except.map]
  by_cases hx : NotSilent x
  · obtain ⟨u, h1, h2⟩ := lpcHelper_ok hx hp
    obtain ⟨v, h3, h4⟩ := lpcHelper_ok ((notSilent_smul hc x).mpr hx) hp
    have hc2 : c ^ 2 ≠ 0 := pow_ne_zero 2 hc
    have huv : v = u := by
      apply ofFn_eq_of_ofFin
      apply normal_unique hx _ h2
      intro i hi1 hi2
      have := h4 i hi1 hi2
      simp_rw [autoCorr_smul] at this
      apply mul_left_cancel₀ hc2
      rw [Finset.mul_sum, mul_neg, ← this]
      apply Finset.sum_congr rfl; intro k _; ring
    rw [h1, h3, huv, lpcErr_smul]
    simp only [Except.map, abs_mul, abs_of_nonneg (sq_nonneg c)]
  · rw [lpcHelper_silent h0 hx hp, lpcHelper_silent h0' (by rwa [notSilent_smul hc]) hp]; rfl

end Spafe
