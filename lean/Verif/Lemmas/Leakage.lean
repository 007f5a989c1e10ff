import Verif.Lemmas.Preprocessing
import Verif.Spec.Meaning
import Mathlib.Analysis.SpecialFunctions.Trigonometric.Bounds
import Mathlib.RingTheory.RootsOfUnity.Complex
import Mathlib.Algebra.Order.Chebyshev
import Mathlib.Analysis.Convex.SpecificFunctions.Deriv

/-! The transform of the window functions away from zero frequency, by summation by parts. -/

set_option linter.unusedSectionVars false

namespace Spafe
open Spec Real Model

/-- The transform of a window of `l` weights. -/
noncomputable def windowTransform (w : ℕ → ℝ) (l : ℕ) (θ : ℝ) : ℂ :=
  ∑ j ∈ Finset.range l, (w j : ℂ) * Complex.exp (θ * j * Complex.I)

theorem abel_sum (w : ℕ → ℝ) (z : ℂ) (n : ℕ) :
    (1 - z) * ∑ j ∈ Finset.range (n + 1), (w j : ℂ) * z ^ j =
      w 0 + (∑ j ∈ Finset.range n, ((w (j + 1) - w j : ℝ) : ℂ) * z ^ (j + 1)) - w n * z ^ (n + 1) := by
  induction n with
  | zero => simp; ring
  | succ n ih =>
    rw [Finset.sum_range_succ, mul_add, ih, Finset.sum_range_succ (n := n)]
    push_cast
    ring

theorem abel_bound {w : ℕ → ℝ} {n p : ℕ} (hp : p ≤ n) (h0 : 0 ≤ w 0) (hn : 0 ≤ w n) (hup : ∀ j < p, w j ≤ w (j + 1))
    (hdown : ∀ j, p ≤ j → j < n → w (j + 1) ≤ w j) {z : ℂ} (hz : ‖z‖ = 1) :
    ‖1 - z‖ * ‖∑ j ∈ Finset.range (n + 1), (w j : ℂ) * z ^ j‖ ≤ 2 * w p := by
  rw [← norm_mul, abel_sum]
  have htv : ∑ j ∈ Finset.range n, |w (j + 1) - w j| = 2 * w p - w 0 - w n := by
    have e1 : ∑ j ∈ Finset.range p, |w (j + 1) - w j| = w p - w 0 := by
      rw [← Finset.sum_range_sub w p]
      refine Finset.sum_congr rfl fun j hj => abs_of_nonneg ?_
      linarith [hup j (Finset.mem_range.mp hj)]
    have e2 : ∑ j ∈ Finset.Ico p n, |w (j + 1) - w j| = w p - w n := by
      have := Finset.sum_Ico_sub w hp
      rw [show w p - w n = -(w n - w p) by ring, ← this, ← Finset.sum_neg_distrib]
      refine Finset.sum_congr rfl fun j hj => ?_
      rw [Finset.mem_Ico] at hj
      rw [abs_of_nonpos]
      linarith [hdown j hj.1 hj.2]
    rw [← Finset.sum_range_add_sum_Ico _ hp, e1, e2]
    ring
  have h1 : ‖∑ j ∈ Finset.range n, ((w (j + 1) - w j : ℝ) : ℂ) * z ^ (j + 1)‖ ≤ 2 * w p - w 0 - w n := by
    rw [← htv]
    refine (norm_sum_le _ _).trans (le_of_eq (Finset.sum_congr rfl fun j _ => ?_))
    rw [norm_mul, norm_pow, hz, one_pow, mul_one, Complex.norm_real, Real.norm_eq_abs]
  have h2 : ‖(w 0 : ℂ)‖ = w 0 := by rw [Complex.norm_real, Real.norm_eq_abs, abs_of_nonneg h0]
  have h3 : ‖(w n : ℂ) * z ^ (n + 1)‖ = w n := by
    rw [norm_mul, norm_pow, hz, one_pow, mul_one, Complex.norm_real, Real.norm_eq_abs, abs_of_nonneg hn]
  refine (norm_sub_le _ _).trans ?_
  have := norm_add_le (w 0 : ℂ) (∑ j ∈ Finset.range n, ((w (j + 1) - w j : ℝ) : ℂ) * z ^ (j + 1))
  linarith

theorem norm_one_sub_exp (θ : ℝ) : ‖1 - Complex.exp (θ * Complex.I)‖ = 2 * |sin (θ / 2)| := by
  have h1 : ‖1 - Complex.exp (θ * Complex.I)‖ ^ 2 = (2 * |sin (θ / 2)|) ^ 2 := by
    rw [← Complex.normSq_eq_norm_sq, Complex.normSq_apply, Complex.exp_mul_I]
    simp only [Complex.sub_re, Complex.one_re, Complex.add_re, Complex.sub_im, Complex.one_im, Complex.add_im,
      Complex.mul_re, Complex.mul_im, Complex.I_re, Complex.I_im, ← Complex.ofReal_cos, ← Complex.ofReal_sin,
      Complex.ofReal_re, Complex.ofReal_im]
    rw [mul_pow, sq_abs]
    have hc : cos θ = 1 - 2 * sin (θ / 2) ^ 2 := by
      rw [show θ = 2 * (θ / 2) by ring, cos_two_mul, show 2 * (θ / 2) / 2 = θ / 2 by ring]
      linarith [sin_sq_add_cos_sq (θ / 2)]
    have hs := sin_sq_add_cos_sq θ
    nlinarith
  exact (sq_eq_sq₀ (norm_nonneg _) (by positivity)).mp h1

/-- The shape of the windows: the weight at relative distance `u` from the middle. -/
noncomputable def windowShape (name : String) (u : ℝ) : ℝ :=
  if name = "hanning" then (1 + cos (π * u)) / 2
  else if name = "hamming" then 0.54 + 0.46 * cos (π * u)
  else if name = "blackman" then 0.34 + 0.5 * cos (π * u) + 0.16 * cos (π * u) ^ 2
  else if name = "bartlet" then 1 - u
  else Np.i0 (14 * √(1 - u ^ 2)) / Np.i0 14

theorem windowShape_anti (name : String) {u v : ℝ} (hu : 0 ≤ u) (huv : u ≤ v) (hv : v ≤ 1) :
    windowShape name v ≤ windowShape name u := by
  have hpi := Real.pi_pos
  have hc : cos (π * v) ≤ cos (π * u) :=
    cos_le_cos_of_nonneg_of_le_pi (by positivity) (by nlinarith) (by nlinarith)
  unfold windowShape
  split_ifs
  · linarith
  · linarith
  · have h1 := neg_one_le_cos (π * v)
    have h2 := neg_one_le_cos (π * u)
    nlinarith
  · linarith
  · refine div_le_div_of_nonneg_right (i0_mono (by positivity) ?_) (i0_pos 14).le
    refine mul_le_mul_of_nonneg_left (Real.sqrt_le_sqrt ?_) (by norm_num)
    nlinarith

theorem windowShape_one_nonneg (name : String) : 0 ≤ windowShape name 1 := by
  unfold windowShape
  split_ifs
  · simp
  · simp; norm_num
  · simp; norm_num
  · simp
  · exact div_nonneg (i0_pos _).le (i0_pos _).le

theorem windowShape_zero (name : String) : windowShape name 0 = 1 := by
  unfold windowShape
  split_ifs
  · simp
  · simp; norm_num
  · simp; norm_num
  · simp
  · simp [(i0_pos 14).ne']

theorem windowWeight_shape (name : String) {n : ℕ} (hn : n ≠ 0) (j : ℕ) :
    windowWeight name (n + 1) j = windowShape name (|2 * (j : ℝ) - n| / n) := by
  have hn' : (0 : ℝ) < n := by exact_mod_cast Nat.pos_of_ne_zero hn
  have hc : cos (2 * π * j / ((n + 1 : ℕ) - 1)) = -cos (π * (|2 * (j : ℝ) - n| / n)) := by
    have e1 : π * (|2 * (j : ℝ) - n| / n) = |π * ((2 * j - n) / n)| := by
      rw [abs_mul, abs_div, abs_of_pos hn', abs_of_pos pi_pos]
    rw [e1, cos_abs, ← cos_add_pi]
    congr 1
    push_cast
    rw [add_sub_cancel_right]
    field_simp
    ring
  have hc2 : cos (4 * π * j / ((n + 1 : ℕ) - 1)) = 2 * cos (π * (|2 * (j : ℝ) - n| / n)) ^ 2 - 1 := by
    rw [show 4 * π * j / (((n + 1 : ℕ) : ℝ) - 1) = 2 * (2 * π * j / (((n + 1 : ℕ) : ℝ) - 1)) by ring, cos_two_mul, hc]
    ring
  have hu : 2 * (j : ℝ) / ((n + 1 : ℕ) - 1) - 1 = (2 * j - n) / n := by
    push_cast
    rw [add_sub_cancel_right]
    field_simp
  unfold windowWeight windowShape
  rw [if_neg (by omega), hc, hc2, hu]
  split_ifs
  · ring
  · ring
  · ring
  · rw [abs_div, abs_of_pos hn']
  · rw [div_pow, div_pow, sq_abs]

theorem shape_arg {n j : ℕ} (hn : n ≠ 0) (hj : j ≤ n) : 0 ≤ |2 * (j : ℝ) - n| / n ∧ |2 * (j : ℝ) - n| / n ≤ 1 := by
  have hn' : (0 : ℝ) < n := by exact_mod_cast Nat.pos_of_ne_zero hn
  have hj' : (j : ℝ) ≤ n := by exact_mod_cast hj
  refine ⟨by positivity, ?_⟩
  rw [div_le_one hn', abs_le]
  constructor <;> linarith [Nat.cast_nonneg (α := ℝ) j]

theorem windowWeight_nonneg' (name : String) {n j : ℕ} (hn : n ≠ 0) (hj : j ≤ n) : 0 ≤ windowWeight name (n + 1) j := by
  rw [windowWeight_shape name hn]
  obtain ⟨h1, h2⟩ := shape_arg hn hj
  exact (windowShape_one_nonneg name).trans (windowShape_anti name h1 h2 le_rfl)

theorem windowWeight_le_one' (name : String) {n j : ℕ} (hn : n ≠ 0) (hj : j ≤ n) : windowWeight name (n + 1) j ≤ 1 := by
  rw [windowWeight_shape name hn, ← windowShape_zero name]
  obtain ⟨h1, h2⟩ := shape_arg hn hj
  exact windowShape_anti name le_rfl h1 h2

theorem windowWeight_up (name : String) {n j : ℕ} (hj : j < n / 2) : windowWeight name (n + 1) j ≤ windowWeight name (n + 1) (j + 1) := by
  have hn : n ≠ 0 := by omega
  have hn' : (0 : ℝ) < n := by exact_mod_cast Nat.pos_of_ne_zero hn
  rw [windowWeight_shape name hn, windowWeight_shape name hn]
  refine windowShape_anti name (shape_arg hn (by omega)).1 ?_ (shape_arg hn (by omega)).2
  refine div_le_div_of_nonneg_right ?_ hn'.le
  have h1 : (2 * ((j : ℝ) + 1)) ≤ n := by exact_mod_cast (by omega : 2 * (j + 1) ≤ n)
  push_cast
  rw [abs_of_nonpos (by linarith), abs_of_nonpos (by linarith)]
  linarith

theorem windowWeight_down (name : String) {n j : ℕ} (h1 : n / 2 ≤ j) (h2 : j < n) :
    windowWeight name (n + 1) (j + 1) ≤ windowWeight name (n + 1) j := by
  have hn : n ≠ 0 := by omega
  have hn' : (0 : ℝ) < n := by exact_mod_cast Nat.pos_of_ne_zero hn
  rw [windowWeight_shape name hn, windowWeight_shape name hn]
  refine windowShape_anti name (shape_arg hn (by omega)).1 ?_ (shape_arg hn (by omega)).2
  refine div_le_div_of_nonneg_right ?_ hn'.le
  have h3 : (n : ℝ) ≤ 2 * j + 1 := by exact_mod_cast (by omega : n ≤ 2 * j + 1)
  push_cast
  rw [abs_of_nonneg (a := 2 * ((j : ℝ) + 1) - n) (by linarith), abs_le]
  constructor <;> linarith

/-- Away from zero frequency the transform of every window is at most `1 / |sin (θ/2)|`, whatever its length. -/
theorem windowTransform_le (name : String) {l : ℕ} (hl : 2 ≤ l) {θ : ℝ} (hθ : sin (θ / 2) ≠ 0) :
    ‖windowTransform (windowWeight name l) l θ‖ ≤ 1 / |sin (θ / 2)| := by
  obtain ⟨n, rfl⟩ : ∃ n, l = n + 1 := ⟨l - 1, by omega⟩
  have hn : n ≠ 0 := by omega
  have hb := abel_bound (w := windowWeight name (n + 1)) (n := n) (p := n / 2) (by omega)
    (windowWeight_nonneg' name hn (by omega)) (windowWeight_nonneg' name hn le_rfl) (fun j hj => windowWeight_up name hj)
    (fun j h1 h2 => windowWeight_down name h1 h2) (z := Complex.exp (θ * Complex.I)) (Complex.norm_exp_ofReal_mul_I θ)
  have he : ∑ j ∈ Finset.range (n + 1), (windowWeight name (n + 1) j : ℂ) * Complex.exp (θ * Complex.I) ^ j =
      windowTransform (windowWeight name (n + 1)) (n + 1) θ := by
    unfold windowTransform
    refine Finset.sum_congr rfl fun j _ => ?_
    rw [← Complex.exp_nat_mul]
    congr 2
    ring
  rw [he, norm_one_sub_exp] at hb
  have h1 := windowWeight_le_one' name hn (show n / 2 ≤ n by omega)
  have hs := abs_pos.mpr hθ
  rw [le_div_iff₀ hs]
  linarith

/-- `sin x / x` is decreasing on `(0, π]`. -/
theorem sin_div_anti {x y : ℝ} (hx : 0 < x) (hxy : x ≤ y) (hy : y ≤ π) : sin y / y ≤ sin x / x := by
  have hy0 : 0 < y := hx.trans_le hxy
  have ha : 0 ≤ x / y := by positivity
  have hb : 0 ≤ 1 - x / y := by rw [sub_nonneg, div_le_one hy0]; exact hxy
  have h := strictConcaveOn_sin_Icc.concaveOn.2 (show y ∈ Set.Icc 0 π from ⟨hy0.le, hy⟩)
    (show (0 : ℝ) ∈ Set.Icc 0 π from ⟨le_rfl, pi_pos.le⟩) ha hb (by ring)
  simp only [smul_eq_mul, sin_zero, mul_zero, add_zero] at h
  rw [div_mul_cancel₀ _ hy0.ne'] at h
  rw [div_le_div_iff₀ hy0 hx]
  calc sin y * x = x / y * sin y * y := by field_simp
    _ ≤ sin x * y := mul_le_mul_of_nonneg_right h hy0.le

/-- The sum of the cosines around the middle of `n + 1` points. -/
theorem sum_cos_middle (θ : ℝ) (n : ℕ) :
    sin (θ / 2) * ∑ j ∈ Finset.range (n + 1), cos (θ * (j - n / 2)) = sin (θ * (n + 1) / 2) := by
  have h : ∀ m : ℕ, 2 * sin (θ / 2) * ∑ j ∈ Finset.range m, cos (θ * (j - n / 2)) =
      sin (θ * (m - (n + 1) / 2)) + sin (θ * ((n + 1) / 2)) := by
    intro m
    induction m with
    | zero =>
      rw [Finset.sum_range_zero, mul_zero, Nat.cast_zero, zero_sub, mul_neg, sin_neg]
      ring
    | succ m ih =>
      rw [Finset.sum_range_succ, mul_add, ih]
      have e1 : θ * (((m + 1 : ℕ) : ℝ) - (n + 1) / 2) = θ * (m - n / 2) + θ / 2 := by push_cast; ring
      have e2 : θ * ((m : ℝ) - (n + 1) / 2) = θ * (m - n / 2) - θ / 2 := by ring
      rw [e1, e2, sin_add, sin_sub]
      ring
  have h1 := h (n + 1)
  have e : θ * (((n + 1 : ℕ) : ℝ) - (n + 1) / 2) = θ * (n + 1) / 2 := by push_cast; ring
  rw [e, show θ * (((n : ℝ) + 1) / 2) = θ * (n + 1) / 2 by ring] at h1
  linarith

/-- Close to zero frequency the transform is at least the sum of the weights times `sin x / x` for every `x ≤ π` from
`l |θ| / 2` on: the weights and the cosines are both largest in the middle (Chebyshev's inequality). -/
theorem windowTransform_ge (name : String) {l : ℕ} (hl : 2 ≤ l) {θ x : ℝ} (hx : 0 < x) (hθ : l * |θ| / 2 ≤ x) (hxp : x ≤ π) :
    sin x / x * ∑ j ∈ Finset.range l, windowWeight name l j ≤ ‖windowTransform (windowWeight name l) l θ‖ := by
  obtain ⟨n, rfl⟩ : ∃ n, l = n + 1 := ⟨l - 1, by omega⟩
  have hn : n ≠ 0 := by omega
  have hn' : (0 : ℝ) < n := by exact_mod_cast Nat.pos_of_ne_zero hn
  push_cast at hθ
  have hS : 0 ≤ ∑ j ∈ Finset.range (n + 1), windowWeight name (n + 1) j :=
    Finset.sum_nonneg fun j hj => windowWeight_nonneg' name hn (by have := Finset.mem_range.mp hj; omega)
  have h1 : ‖windowTransform (windowWeight name (n + 1)) (n + 1) θ‖ =
      ‖Complex.exp (((-(θ * n / 2) : ℝ) : ℂ) * Complex.I) * windowTransform (windowWeight name (n + 1)) (n + 1) θ‖ := by
    rw [norm_mul, Complex.norm_exp_ofReal_mul_I, one_mul]
  rw [h1]
  refine le_trans ?_ (Complex.re_le_norm _)
  unfold windowTransform
  rw [Finset.mul_sum (f := fun j : ℕ => (windowWeight name (n + 1) j : ℂ) * Complex.exp (θ * j * Complex.I)), Complex.re_sum]
  have e : ∀ j : ℕ, (Complex.exp (((-(θ * n / 2) : ℝ) : ℂ) * Complex.I) *
      ((windowWeight name (n + 1) j : ℂ) * Complex.exp (θ * j * Complex.I))).re =
      windowWeight name (n + 1) j * cos (θ * (j - n / 2)) := by
    intro j
    rw [mul_left_comm, ← Complex.exp_add, ← add_mul, show (((-(θ * n / 2) : ℝ) : ℂ) + θ * j) = ((θ * (j - n / 2) : ℝ) : ℂ) by
      push_cast; ring, Complex.re_ofReal_mul, Complex.exp_ofReal_mul_I_re]
  simp only [e]
  have hmid : ∀ j ∈ Finset.range (n + 1), |(j : ℝ) - n / 2| ≤ n / 2 := by
    intro j hj
    have : (j : ℝ) ≤ n := by exact_mod_cast (by have := Finset.mem_range.mp hj; omega : j ≤ n)
    rw [abs_le]
    constructor <;> linarith [Nat.cast_nonneg (α := ℝ) j]
  have hmono : MonovaryOn (windowWeight name (n + 1)) (fun j : ℕ => cos (θ * (j - n / 2))) (Finset.range (n + 1)) := by
    intro i hi j hj hij
    have hi := Finset.mem_coe.mp hi
    have hj := Finset.mem_coe.mp hj
    rcases le_or_gt |(j : ℝ) - n / 2| |(i : ℝ) - n / 2| with h | h
    · rw [windowWeight_shape name hn, windowWeight_shape name hn]
      have hi' := Finset.mem_range.mp hi
      have hj' := Finset.mem_range.mp hj
      refine windowShape_anti name (shape_arg hn (by omega)).1 ?_ (shape_arg hn (by omega)).2
      refine div_le_div_of_nonneg_right ?_ hn'.le
      have e2 : ∀ t : ℝ, |2 * t - n| = 2 * |t - n / 2| := by
        intro t
        rw [show 2 * t - n = 2 * (t - n / 2) by ring, abs_mul, abs_two]
      rw [e2, e2]
      linarith
    · exfalso
      have h2 : cos (θ * (j - n / 2)) ≤ cos (θ * (i - n / 2)) := by
        rw [← cos_abs (θ * (i - n / 2)), ← cos_abs (θ * (j - n / 2)), abs_mul, abs_mul]
        refine cos_le_cos_of_nonneg_of_le_pi (by positivity) ?_ (mul_le_mul_of_nonneg_left h.le (abs_nonneg θ))
        calc |θ| * |(j : ℝ) - n / 2| ≤ |θ| * (n / 2) := mul_le_mul_of_nonneg_left (hmid j hj) (abs_nonneg θ)
          _ ≤ (n + 1) * |θ| / 2 := by nlinarith [abs_nonneg θ]
          _ ≤ π := hθ.trans hxp
      exact absurd hij (not_lt.mpr h2)
  have hch := hmono.sum_mul_sum_le_card_mul_sum
  rw [Finset.card_range] at hch
  have hD : (n + 1 : ℝ) * (sin x / x) ≤ ∑ j ∈ Finset.range (n + 1), cos (θ * (j - n / 2)) := by
    have hsx : sin x / x ≤ 1 := by
      rw [div_le_one hx]
      exact sin_le hx.le
    rcases eq_or_ne θ 0 with h0 | h0
    · subst h0
      simp only [zero_mul, cos_zero, Finset.sum_const, Finset.card_range, nsmul_eq_mul, mul_one]
      push_cast
      nlinarith
    · have hpos := abs_pos.mpr h0
      have hs := sum_cos_middle |θ| n
      have e3 : ∀ j : ℕ, cos (|θ| * (j - n / 2)) = cos (θ * (j - n / 2)) := by
        intro j
        rw [← cos_abs (|θ| * (j - n / 2)), abs_mul, abs_abs, ← abs_mul, cos_abs]
      simp only [e3] at hs
      obtain ⟨D, hDd⟩ : ∃ D, D = ∑ j ∈ Finset.range (n + 1), cos (θ * (j - n / 2)) := ⟨_, rfl⟩
      rw [← hDd] at hs ⊢
      obtain ⟨y, hy⟩ : ∃ y, y = (n + 1) * |θ| / 2 := ⟨_, rfl⟩
      rw [← hy] at hθ
      have hy0 : 0 < y := by rw [hy]; positivity
      rw [show |θ| * ((n : ℝ) + 1) / 2 = y by rw [hy]; ring] at hs
      have h2 := sin_div_anti hy0 hθ hxp
      have h3 : 0 ≤ sin y := sin_nonneg_of_nonneg_of_le_pi hy0.le (hθ.trans hxp)
      have hhalf : |θ| / 2 < π := by
        have : |θ| / 2 < y := by
          rw [hy]
          nlinarith
        linarith [hθ.trans hxp]
      have h4 : 0 < sin (|θ| / 2) := sin_pos_of_pos_of_lt_pi (by positivity) hhalf
      have h5 : sin (|θ| / 2) ≤ |θ| / 2 := sin_le (by positivity)
      have h6 : (n + 1) * (sin x / x) ≤ (n + 1) * (sin y / y) := mul_le_mul_of_nonneg_left h2 (by positivity)
      refine h6.trans ?_
      have h7 : (n + 1 : ℝ) * (sin y / y) = sin y / (|θ| / 2) := by
        rw [hy]
        field_simp
      rw [h7, div_le_iff₀ (by positivity), ← hs]
      have hD0 : 0 ≤ D := by
        by_contra hc
        have := mul_neg_of_pos_of_neg h4 (not_le.mp hc)
        linarith
      nlinarith
  have hfin := mul_le_mul_of_nonneg_left hD hS
  push_cast at hch
  have hlast : (n + 1 : ℝ) * (sin x / x * ∑ j ∈ Finset.range (n + 1), windowWeight name (n + 1) j) ≤
      (n + 1) * ∑ j ∈ Finset.range (n + 1), windowWeight name (n + 1) j * cos (θ * (j - n / 2)) := by
    linarith
  exact le_of_mul_le_mul_left hlast (by positivity)

/-- The weights of a Hamming window of `n + 1` points add up to `0.54 (n + 1) - 0.46`. -/
theorem hamming_sum {n : ℕ} (hn : 2 ≤ n) :
    ∑ j ∈ Finset.range (n + 1), windowWeight "hamming" (n + 1) j = 0.54 * (n + 1) - 0.46 := by
  have h1 : ∑ j ∈ Finset.range n, cos (2 * π * j / n) = 0 := by
    have h := (Complex.isPrimitiveRoot_exp n (by omega)).geom_sum_eq_zero (by omega)
    have h2 := congrArg Complex.re h
    rw [Complex.re_sum, Complex.zero_re] at h2
    rw [← h2]
    refine Finset.sum_congr rfl fun j _ => ?_
    rw [← Complex.exp_nat_mul, show (j : ℂ) * (2 * π * Complex.I / n) = ((2 * π * j / n : ℝ) : ℂ) * Complex.I by
      push_cast; ring, Complex.exp_ofReal_mul_I_re]
  have hn' : (n : ℝ) ≠ 0 := by exact_mod_cast (by omega : n ≠ 0)
  have hlast : cos (2 * π * n / n) = 1 := by rw [mul_div_cancel_right₀ _ hn', cos_two_pi]
  have e : ∀ j : ℕ, windowWeight "hamming" (n + 1) j = 0.54 - 0.46 * cos (2 * π * j / n) := by
    intro j
    unfold windowWeight
    rw [if_neg (by omega), if_neg (by decide), if_pos rfl]
    push_cast
    rw [add_sub_cancel_right]
  simp only [e]
  rw [Finset.sum_sub_distrib, ← Finset.mul_sum, Finset.sum_range_succ (fun j : ℕ => cos (2 * π * j / n)), h1, hlast]
  simp
  ring

/-- `1 / |sin (π x)|` is at most one over twice the distance of `x` from the integers (`x` between -1/2 and 1/2). -/
theorem inv_sin_le {x : ℝ} (h0 : x ≠ 0) (h1 : |x| ≤ 1 / 2) : sin (π * x) ≠ 0 ∧ 1 / |sin (π * x)| ≤ 1 / (2 * |x|) := by
  have hx := abs_pos.mpr h0
  have h2 : 2 * |x| ≤ sin (π * |x|) := by
    have := mul_le_sin (x := π * |x|) (by positivity) (by nlinarith [pi_pos])
    calc 2 * |x| = 2 / π * (π * |x|) := by field_simp
      _ ≤ _ := this
  have h3 : |sin (π * x)| = sin (π * |x|) := by
    rcases le_or_gt 0 x with h | h
    · rw [abs_of_nonneg h] at h2 ⊢
      exact abs_of_nonneg (by linarith)
    · rw [abs_of_neg h] at h2 ⊢
      rw [show π * -x = -(π * x) by ring, sin_neg] at h2 ⊢
      exact abs_of_nonpos (by linarith)
  constructor
  · rw [← abs_pos, h3]
    linarith
  · rw [h3]
    exact one_div_le_one_div_of_le (by positivity) h2

/-- Between `m` and `1 - m` the sine of `π x` is at least that of `π m`. -/
theorem sin_ge_margin {x m : ℝ} (hm : 0 < m) (h0 : m ≤ x) (h1 : m ≤ 1 - x) : 0 < sin (π * m) ∧ sin (π * m) ≤ sin (π * x) := by
  have hpi := pi_pos
  refine ⟨sin_pos_of_pos_of_lt_pi (by positivity) (by nlinarith), ?_⟩
  rcases le_or_gt x (1 / 2) with h | h
  · exact sin_le_sin_of_le_of_le_pi_div_two (by nlinarith) (by nlinarith) (by nlinarith)
  · rw [← sin_pi_sub (π * x)]
    exact sin_le_sin_of_le_of_le_pi_div_two (by nlinarith) (by nlinarith) (by nlinarith)

/-- Below `1/2` the sine of `π x` is an increasing function of `|x|`. -/
theorem abs_sin_ge {x d : ℝ} (hd : 0 < d) (h0 : d ≤ |x|) (h1 : |x| ≤ 1 / 2) : 0 < sin (π * d) ∧ sin (π * d) ≤ |sin (π * x)| := by
  obtain ⟨h2, h3⟩ := sin_ge_margin (x := |x|) hd h0 (by linarith)
  refine ⟨h2, h3.trans (le_of_eq ?_)⟩
  have h4 : 0 ≤ sin (π * |x|) := by linarith
  rcases le_or_gt 0 x with h | h
  · rw [abs_of_nonneg h] at h4 ⊢
    exact (abs_of_nonneg h4).symm
  · rw [abs_of_neg h, show π * -x = -(π * x) by ring, sin_neg] at h4 ⊢
    exact (abs_of_nonpos (by linarith)).symm

section Pair
variable {name : String} {l : ℕ} {fs f g m : ℝ} {u v : ℂ}

theorem mirror_le (hl : 2 ≤ l) (hm : 0 < m) (hf0 : m ≤ f) (hf1 : f ≤ fs / 2 - m) (hg0 : 0 ≤ g) (hg1 : g ≤ fs / 2) :
    ‖windowTransform (windowWeight name l) l (-(2 * (π * ((f + g) / fs))))‖ ≤ 1 / sin (π * m / fs) := by
  have hfs : 0 < fs := by linarith
  obtain ⟨b1, b2⟩ := sin_ge_margin (x := (f + g) / fs) (m := m / fs) (by positivity)
    (div_le_div_of_nonneg_right (by linarith) hfs.le) (by
      rw [div_le_iff₀ hfs, sub_mul, one_mul, div_mul_cancel₀ _ hfs.ne']; linarith)
  have h2 := windowTransform_le name hl (θ := -(2 * (π * ((f + g) / fs))))
    (by rw [neg_div, mul_div_cancel_left₀ _ two_ne_zero, sin_neg]; exact neg_ne_zero.mpr (by linarith))
  rw [neg_div, mul_div_cancel_left₀ _ two_ne_zero, sin_neg, abs_neg, abs_of_pos (by linarith)] at h2
  refine h2.trans ?_
  rw [mul_div_assoc]
  exact one_div_le_one_div_of_le b1 b2

/-- A tone of frequency `f` seen by a window tuned to the frequency `g`: not more than this away from the tone, … -/
theorem pair_le (hl : 2 ≤ l) (hm : 0 < m) (hf0 : m ≤ f) (hf1 : f ≤ fs / 2 - m) (hg0 : 0 ≤ g) (hg1 : g ≤ fs / 2)
    (hu : ‖u‖ = 1) (hv : ‖v‖ = 1) (hne : f ≠ g) :
    ‖u * windowTransform (windowWeight name l) l (2 * (π * ((f - g) / fs))) +
        v * windowTransform (windowWeight name l) l (-(2 * (π * ((f + g) / fs))))‖ ≤
      1 / |sin (π * (f - g) / fs)| + 1 / sin (π * m / fs) := by
  have hfs : 0 < fs := by linarith
  have hd : f - g ≠ 0 := sub_ne_zero.mpr hne
  obtain ⟨a1, -⟩ := inv_sin_le (x := (f - g) / fs) (div_ne_zero hd hfs.ne') (by
    rw [abs_div, abs_of_pos hfs, div_le_iff₀ hfs, abs_le]; constructor <;> linarith)
  have h1 := windowTransform_le name hl (θ := 2 * (π * ((f - g) / fs)))
    (by rw [mul_div_cancel_left₀ _ two_ne_zero]; exact a1)
  rw [mul_div_cancel_left₀ _ two_ne_zero] at h1
  refine (norm_add_le _ _).trans ?_
  rw [norm_mul, norm_mul, hu, hv, one_mul, one_mul, mul_div_assoc]
  exact add_le_add h1 (mirror_le hl hm hf0 hf1 hg0 hg1)

/-- … and at least this next to it. -/
theorem pair_ge (hl : 2 ≤ l) (hm : 0 < m) (hf0 : m ≤ f) (hf1 : f ≤ fs / 2 - m) (hg0 : 0 ≤ g) (hg1 : g ≤ fs / 2)
    (hu : ‖u‖ = 1) (hv : ‖v‖ = 1) {d : ℝ} (hd : 0 < d) (hfg : |f - g| ≤ d) (hdl : l * d ≤ fs) :
    sin (π * l * d / fs) / (π * l * d / fs) * (∑ j ∈ Finset.range l, windowWeight name l j) - 1 / sin (π * m / fs) ≤
      ‖u * windowTransform (windowWeight name l) l (2 * (π * ((f - g) / fs))) +
        v * windowTransform (windowWeight name l) l (-(2 * (π * ((f + g) / fs))))‖ := by
  have hfs : 0 < fs := by linarith
  have hl0 : (0 : ℝ) < l := by exact_mod_cast (by omega : 0 < l)
  have habs : l * |2 * (π * ((f - g) / fs))| / 2 ≤ π * l * d / fs := by
    rw [abs_mul, abs_two, abs_mul, abs_of_pos pi_pos, abs_div, abs_of_pos hfs]
    calc l * (2 * (π * (|f - g| / fs))) / 2 = π * l * |f - g| / fs := by ring
      _ ≤ _ := by gcongr
  have hpi : π * l * d / fs ≤ π := by
    rw [div_le_iff₀ hfs, mul_assoc]
    exact mul_le_mul_of_nonneg_left hdl pi_pos.le
  have h1 := windowTransform_ge name hl (θ := 2 * (π * ((f - g) / fs))) (x := π * l * d / fs) (by positivity) habs hpi
  have h3 := norm_sub_le_norm_add (u * windowTransform (windowWeight name l) l (2 * (π * ((f - g) / fs))))
    (v * windowTransform (windowWeight name l) l (-(2 * (π * ((f + g) / fs)))))
  rw [norm_mul, norm_mul, hu, hv, one_mul, one_mul] at h3
  linarith [mirror_le (name := name) hl hm hf0 hf1 hg0 hg1]

end Pair

end Spafe
