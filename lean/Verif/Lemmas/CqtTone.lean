import Verif.Lemmas.Leakage
import Verif.Lemmas.Cqt
import Verif.Props.Tone
import Mathlib.NumberTheory.Harmonic.Bounds

/-! Helper lemmas for C143: leakage of a tone summed over all bins, and the constant-Q coefficients of a tone. -/

set_option linter.unusedSectionVars false

namespace Spafe
open Spec Real Model Props

/-- The sum of a periodic sequence over a period does not depend on where it starts. -/
theorem sum_period (g : ℤ → ℝ) (n : ℕ) (hg : ∀ j, g (j + n) = g j) (s : ℤ) :
    ∑ i ∈ Finset.range n, g (s + i) = ∑ i ∈ Finset.range n, g i := by
  have step : ∀ s : ℤ, ∑ i ∈ Finset.range n, g (s + 1 + i) = ∑ i ∈ Finset.range n, g (s + i) := by
    intro s
    have h1 := Finset.sum_range_succ (fun i : ℕ => g (s + i)) n
    have h2 := Finset.sum_range_succ' (fun i : ℕ => g (s + i)) n
    rw [hg s] at h1
    have h3 : ∀ i ∈ Finset.range n, g (s + ((i + 1 : ℕ) : ℤ)) = g (s + 1 + i) := by
      intro i _; congr 1; push_cast; ring
    rw [Finset.sum_congr rfl h3] at h2
    simp only [Nat.cast_zero, add_zero] at h2
    linarith
  induction s using Int.induction_on with
  | zero => simp
  | succ s ih => rw [step, ih]
  | pred s ih =>
    rw [← ih, ← step (-(s:ℤ) - 1)]
    refine Finset.sum_congr rfl fun i _ => ?_
    congr 1; ring

/-- `sin (πx) ≥ πx(1-x)` on `[0, 1]`. -/
theorem sin_ge_parabola {x : ℝ} (h0 : 0 ≤ x) (h1 : x ≤ 1) : π * (x * (1 - x)) ≤ sin (π * x) := by
  have hpi := pi_pos
  have hpi2 : π ^ 2 < 10 := by nlinarith [pi_lt_d2, pi_gt_three]
  have half : ∀ y : ℝ, 0 ≤ y → y ≤ 1 / 2 → π * (y * (1 - y)) ≤ sin (π * y) := by
    intro y hy0 hy1
    rcases hy0.eq_or_lt with rfl | hy
    · simp
    have h := sin_gt_sub_cube (x := π * y) (by positivity)
    have : (π * y) ^ 3 / 6 ≤ π * y ^ 2 := by
      have e : (π * y) ^ 3 / 6 = π * y ^ 2 * (π ^ 2 * y / 6) := by ring
      rw [e]
      apply mul_le_of_le_one_right (by positivity)
      nlinarith
    nlinarith
  rcases le_total x (1 / 2) with h | h
  · exact half x h0 h
  · have := half (1 - x) (by linarith) (by linarith)
    rw [show π * (1 - x) = π - π * x by ring, sin_pi_sub] at this
    nlinarith

/-- The transform of the constant window. -/
theorem dirichlet_le (n : ℕ) (θ : ℝ) : ‖windowTransform (fun _ => 1) n θ‖ ≤ n := by
  unfold windowTransform
  refine (norm_sum_le _ _).trans ?_
  have : ∀ j ∈ Finset.range n, ‖((1 : ℝ) : ℂ) * Complex.exp (θ * j * Complex.I)‖ ≤ 1 := by
    intro j _
    have := Complex.norm_exp_ofReal_mul_I (θ * j)
    push_cast at this
    rw [Complex.ofReal_one, one_mul, this]
  refine (Finset.sum_le_sum this).trans ?_
  simp

theorem dirichlet_le_sin {n : ℕ} {θ : ℝ} (hθ : sin (θ / 2) ≠ 0) :
    ‖windowTransform (fun _ => 1) n θ‖ ≤ 1 / |sin (θ / 2)| := by
  rcases Nat.eq_zero_or_pos n with rfl | hn
  · simp only [windowTransform, Finset.range_zero, Finset.sum_empty, norm_zero]; positivity
  obtain ⟨m, rfl⟩ : ∃ m, n = m + 1 := ⟨n - 1, by omega⟩
  have hb := abel_bound (w := fun _ => 1) (n := m) (p := 0) (by omega) (by norm_num) (by norm_num) (by simp) (by simp)
    (z := Complex.exp (θ * Complex.I)) (Complex.norm_exp_ofReal_mul_I θ)
  have he : ∑ j ∈ Finset.range (m + 1), (((1 : ℝ)) : ℂ) * Complex.exp (θ * Complex.I) ^ j =
      windowTransform (fun _ => 1) (m + 1) θ := by
    unfold windowTransform
    refine Finset.sum_congr rfl fun j _ => ?_
    rw [← Complex.exp_nat_mul]
    congr 2; ring
  rw [he, norm_one_sub_exp] at hb
  have hp := abs_pos.mpr hθ
  rw [le_div_iff₀ hp]
  nlinarith

/-- The leakage of one exponential, summed over all bins. -/
theorem leakage_sum (u : ℝ) {n : ℕ} (hn : 0 < n) :
    ∑ k ∈ Finset.range n, ‖windowTransform (fun _ => 1) n (2 * (π * ((u - k) / n)))‖ ≤
      n * (2 + 2 / π * (1 + Real.log n)) := by
  have hn' : (0 : ℝ) < n := by exact_mod_cast hn
  have hpi := pi_pos
  have hlog : 0 ≤ Real.log n := Real.log_natCast_nonneg n
  obtain ⟨g, hg⟩ : ∃ g : ℤ → ℝ, g = fun j : ℤ => ‖windowTransform (fun _ => 1) n (2 * (π * ((u - (j : ℝ)) / n)))‖ := ⟨_, rfl⟩
  have hper : ∀ j, g (j + n) = g j := by
    intro j
    rw [hg]
    simp only
    unfold windowTransform
    congr 1
    refine Finset.sum_congr rfl fun i _ => ?_
    congr 1
    have e : ((2 * (π * ((u - ((j + n : ℤ) : ℝ)) / n)) : ℝ) : ℂ) * i * Complex.I =
        ((2 * (π * ((u - j) / n)) : ℝ) : ℂ) * i * Complex.I - (i : ℤ) * (2 * π * Complex.I) := by
      have : (n : ℂ) ≠ 0 := by exact_mod_cast hn.ne'
      push_cast
      field_simp
      ring
    rw [e, Complex.exp_sub, Complex.exp_int_mul_two_pi_mul_I, div_one]
  have h0 : ∑ k ∈ Finset.range n, ‖windowTransform (fun _ => 1) n (2 * (π * ((u - k) / n)))‖ =
      ∑ k ∈ Finset.range n, g (⌊u⌋ + k) := by
    rw [sum_period g n hper]
    refine Finset.sum_congr rfl fun k _ => ?_
    rw [hg]
    simp only [Int.cast_natCast]
  rw [h0]
  have hle : ∀ j, g j ≤ n := fun j => by rw [hg]; exact dirichlet_le _ _
  rcases Nat.lt_or_ge n 2 with h1 | h1
  · obtain rfl : n = 1 := by omega
    rw [Finset.sum_range_one]
    refine (hle _).trans ?_
    have : 0 ≤ 2 / π * (1 + Real.log (1 : ℕ)) := by positivity
    push_cast at this ⊢
    linarith
  · obtain ⟨m, rfl⟩ : ∃ m, n = m + 2 := ⟨n - 2, by omega⟩
    have hterm : ∀ i ∈ Finset.range m, g (⌊u⌋ + ((i + 2 : ℕ) : ℤ)) ≤
        ((m + 2 : ℕ) : ℝ) * (1 / π) * (1 / ((i : ℝ) + 1) + 1 / ((m : ℝ) - i)) := by
      intro i hi
      have hi := Finset.mem_range.mp hi
      have him : (i : ℝ) + 1 ≤ m := by exact_mod_cast hi
      have hi0 : (0 : ℝ) ≤ i := Nat.cast_nonneg i
      obtain ⟨x, hx⟩ : ∃ x : ℝ, x = (2 + i - (u - ⌊u⌋)) / ((m + 2 : ℕ) : ℝ) := ⟨_, rfl⟩
      have hr0 := Int.floor_le u
      have hr1 := Int.lt_floor_add_one u
      have hx1 : ((i : ℝ) + 1) / ((m + 2 : ℕ) : ℝ) ≤ x := by
        rw [hx]; apply div_le_div_of_nonneg_right _ hn'.le; linarith
      have hx2 : ((m : ℝ) - i) / ((m + 2 : ℕ) : ℝ) ≤ 1 - x := by
        rw [hx, div_le_iff₀ hn', sub_mul, div_mul_cancel₀ _ hn'.ne']
        push_cast; linarith
      have hA : 0 < ((i : ℝ) + 1) / ((m + 2 : ℕ) : ℝ) := by positivity
      have hB : 0 < ((m : ℝ) - i) / ((m + 2 : ℕ) : ℝ) := div_pos (by linarith) hn'
      have hx0 : 0 < x := by linarith
      have hx1' : 0 < 1 - x := by linarith
      have hs := sin_ge_parabola hx0.le (by linarith)
      have hs0 : 0 < π * (x * (1 - x)) := by positivity
      have harg : 2 * (π * ((u - ((⌊u⌋ + ((i + 2 : ℕ) : ℤ) : ℤ) : ℝ)) / ((m + 2 : ℕ) : ℝ))) / 2 = -(π * x) := by
        rw [hx]; push_cast; ring
      have hd := dirichlet_le_sin (n := m + 2) (θ := 2 * (π * ((u - ((⌊u⌋ + ((i + 2 : ℕ) : ℤ) : ℤ) : ℝ)) / ((m + 2 : ℕ) : ℝ))))
        (by rw [harg, sin_neg]; linarith)
      rw [harg, sin_neg, abs_neg, abs_of_pos (by linarith)] at hd
      rw [hg]
      refine hd.trans ?_
      calc 1 / sin (π * x) ≤ 1 / (π * (x * (1 - x))) := one_div_le_one_div_of_le hs0 hs
        _ = 1 / π * (1 / x + 1 / (1 - x)) := by
          have := hx0.ne'; have := hx1'.ne'; field_simp; ring
        _ ≤ 1 / π * (1 / (((i : ℝ) + 1) / ((m + 2 : ℕ) : ℝ)) + 1 / (((m : ℝ) - i) / ((m + 2 : ℕ) : ℝ))) := by
          gcongr
        _ = _ := by rw [one_div_div, one_div_div]; ring
    rw [Finset.sum_range_succ', Finset.sum_range_succ']
    have hsum := Finset.sum_le_sum hterm
    rw [← Finset.mul_sum, Finset.sum_add_distrib] at hsum
    have hH : ∑ i ∈ Finset.range m, 1 / ((i : ℝ) + 1) ≤ 1 + Real.log ((m + 2 : ℕ) : ℝ) := by
      have h := harmonic_le_one_add_log m
      have e : ((harmonic m : ℚ) : ℝ) = ∑ i ∈ Finset.range m, 1 / ((i : ℝ) + 1) := by
        unfold harmonic; push_cast
        refine Finset.sum_congr rfl fun i _ => ?_
        rw [one_div]
      rw [← e]
      refine h.trans ?_
      rcases Nat.eq_zero_or_pos m with rfl | hm
      · have := Real.log_natCast_nonneg (0 + 2); simp at this ⊢; exact this
      · have := Real.log_le_log (x := (m : ℝ)) (y := ((m + 2 : ℕ) : ℝ)) (by exact_mod_cast hm) (by push_cast; linarith)
        linarith
    have hH2 : ∑ i ∈ Finset.range m, 1 / ((m : ℝ) - i) = ∑ i ∈ Finset.range m, 1 / ((i : ℝ) + 1) := by
      rw [← Finset.sum_range_reflect]
      refine Finset.sum_congr rfl fun i hi => ?_
      have hi := Finset.mem_range.mp hi
      have : ((m - 1 - i : ℕ) : ℝ) = m - 1 - i := by
        rw [Nat.cast_sub (by omega), Nat.cast_sub (by omega), Nat.cast_one]
      rw [this]; congr 1; ring
    rw [hH2] at hsum
    have e1 := hle (⌊u⌋ + ((0 + 1 : ℕ) : ℤ))
    have e2 := hle (⌊u⌋ + ((0 : ℕ) : ℤ))
    have e3 : ((m + 2 : ℕ) : ℝ) * (1 / π) * (∑ i ∈ Finset.range m, 1 / ((i : ℝ) + 1) + ∑ i ∈ Finset.range m, 1 / ((i : ℝ) + 1)) ≤
        ((m + 2 : ℕ) : ℝ) * (2 / π * (1 + Real.log ((m + 2 : ℕ) : ℝ))) := by
      rw [mul_assoc]
      apply mul_le_mul_of_nonneg_left _ hn'.le
      rw [show 2 / π * (1 + Real.log ((m + 2 : ℕ) : ℝ)) = 1 / π * ((1 + Real.log ((m + 2 : ℕ) : ℝ)) + (1 + Real.log ((m + 2 : ℕ) : ℝ))) by ring]
      apply mul_le_mul_of_nonneg_left _ (by positivity)
      linarith
    have e4 : ∑ x ∈ Finset.range m, g (⌊u⌋ + ((x + 1 + 1 : ℕ) : ℤ)) = ∑ x ∈ Finset.range m, g (⌊u⌋ + ((x + 2 : ℕ) : ℤ)) := rfl
    rw [e4, mul_add]
    have e5 := add_le_add (add_le_add (hsum.trans e3) e1) e2
    refine e5.trans (le_of_eq ?_)
    ring

/-- The DFT of a tone, summed over all bins. -/
theorem tone_dft_sum {x : List ℝ} {fs f A φ : ℝ} {n : ℕ} (hfs : fs ≠ 0) (hn : 0 < n)
    (hx : ∀ j < n, x.getD j 0 = A * cos (2 * π * f * j / fs + φ)) :
    ∑ k ∈ Finset.range n, ‖Np.dft x n k‖ ≤ |A| * (n * (2 + 2 / π * (1 + Real.log n))) := by
  have hn' : (n : ℝ) ≠ 0 := by exact_mod_cast hn.ne'
  have hterm : ∀ k ∈ Finset.range n, ‖Np.dft x n k‖ ≤ |A| / 2 *
      (‖windowTransform (fun _ => 1) n (2 * (π * ((f * n / fs - k) / n)))‖ +
        ‖windowTransform (fun _ => 1) n (2 * (π * ((-(f * n / fs) - k) / n)))‖) := by
    intro k _
    obtain ⟨u, v, hu, hv, he⟩ := tone_bin (w := fun _ => 1) (y := fun j => x.getD j 0) (l := n) (s := 0) (nfft := n) (i := 0)
      hfs le_rfl hn.ne' (fun t _ ht => hx t (by simpa using ht)) k
    have hd : Np.dft x n k = frameBin (fun _ => 1) (fun j => x.getD j 0) n 0 n 0 k := by
      unfold Np.dft Np.dftC frameBin
      rw [min_self]
      refine Finset.sum_congr rfl fun j _ => ?_
      simp
    rw [hd, he, norm_mul, Complex.norm_real, Real.norm_eq_abs, abs_div, abs_two]
    apply mul_le_mul_of_nonneg_left _ (by positivity)
    refine (norm_add_le _ _).trans ?_
    rw [norm_mul, norm_mul, hu, hv, one_mul, one_mul]
    apply le_of_eq
    congr 3
    · field_simp
    · field_simp; ring
  refine (Finset.sum_le_sum hterm).trans ?_
  rw [← Finset.mul_sum, Finset.sum_add_distrib]
  have h1 := leakage_sum (f * n / fs) hn
  have h2 := leakage_sum (-(f * n / fs)) hn
  calc _ ≤ |A| / 2 * (n * (2 + 2 / π * (1 + Real.log n)) + n * (2 + 2 / π * (1 + Real.log n))) := by gcongr
    _ = _ := by ring

/-- Thresholding the kernel, in terms of the spectrum of the frame. -/
theorem cqtEntry_near' {nfft : ℕ} (hn : nfft ≠ 0) {thr : ℝ} (ht : 0 ≤ thr) (a : ℕ → ℂ) (x : List ℝ) :
    ‖cqtEntry nfft (kernelRow nfft thr a) x - ∑ j ∈ Finset.range nfft, ((x.getD j 0 : ℝ) : ℂ) * (starRingEnd ℂ) (a j)‖ ≤
      thr * ((∑ k ∈ Finset.range nfft, ‖Np.dft x nfft k‖) / nfft) := by
  have hn' : (0 : ℝ) < nfft := by exact_mod_cast Nat.pos_of_ne_zero hn
  rw [← cqtEntry_exact hn (show (-1 : ℝ) < 0 by norm_num)]
  unfold cqtEntry
  rw [← Finset.sum_sub_distrib]
  have hterm : ∀ k ∈ Finset.range nfft, ‖Np.dft x nfft k * ((starRingEnd ℂ) ((kernelRow nfft thr a).getD k 0) / nfft) -
      Np.dft x nfft k * ((starRingEnd ℂ) ((kernelRow nfft (-1) a).getD k 0) / nfft)‖ ≤
      ‖Np.dft x nfft k‖ * (thr / nfft) := by
    intro k hk
    have hk := Finset.mem_range.mp hk
    rw [← mul_sub, ← sub_div, ← map_sub, norm_mul, norm_div, Complex.norm_conj, Complex.norm_natCast]
    apply mul_le_mul_of_nonneg_left _ (norm_nonneg _)
    apply div_le_div_of_nonneg_right _ hn'.le
    rw [kernelRow_getD _ _ _ hk, kernelRow_getD _ _ _ hk, if_neg (show ¬ ‖Np.dftC a nfft k‖ ≤ -1 by
      linarith [norm_nonneg (Np.dftC a nfft k)])]
    split_ifs with h
    · rwa [zero_sub, norm_neg]
    · rw [sub_self, norm_zero]; exact ht
  refine (norm_sum_le _ _).trans ((Finset.sum_le_sum hterm).trans ?_)
  rw [← Finset.sum_mul]
  apply le_of_eq
  ring

/-- The constant-Q coefficient of a tone: the transform of the window at the two distances. -/
theorem cqCoeff_tone {w x : ℕ → ℝ} {fs f g A φ : ℝ} {nfft N : ℕ} (hfs : fs ≠ 0) (hN : N ≤ nfft) (hN0 : N ≠ 0)
    (hx : ∀ j < nfft, x j = A * cos (2 * π * f * j / fs + φ)) :
    ∃ u v : ℂ, ‖u‖ = 1 ∧ ‖v‖ = 1 ∧ cqCoeff nfft fs g N w x = (A / (2 * N) : ℝ) *
      (u * windowTransform w N (2 * (π * ((f - g) / fs))) + v * windowTransform w N (-(2 * (π * ((f + g) / fs))))) := by
  have hfs' : (fs : ℂ) ≠ 0 := by exact_mod_cast hfs
  have hN' : (N : ℂ) ≠ 0 := by exact_mod_cast hN0
  obtain ⟨s, hs⟩ : ∃ s, s = (nfft - N) / 2 := ⟨_, rfl⟩
  refine ⟨Complex.exp (((2 * π * f * s / fs + φ : ℝ) : ℂ) * Complex.I),
    Complex.exp (((-(2 * π * f * s / fs + φ) : ℝ) : ℂ) * Complex.I), Complex.norm_exp_ofReal_mul_I _,
    Complex.norm_exp_ofReal_mul_I _, ?_⟩
  unfold cqCoeff windowTransform
  rw [Finset.mul_sum (s := Finset.range N) (a := Complex.exp _), Finset.mul_sum (s := Finset.range N) (a := Complex.exp _),
    ← Finset.sum_add_distrib, Finset.mul_sum, Finset.mul_sum, ← hs]
  refine Finset.sum_congr rfl fun j hj => ?_
  have hj := Finset.mem_range.mp hj
  rw [hx (s + j) (by omega)]
  push_cast
  rw [Complex.cos]
  have e1 : Complex.exp ((2 * π * f * ((s : ℂ) + j) / fs + φ) * Complex.I) * Complex.exp (-(2 * π * Complex.I * (g / fs) * j)) =
      Complex.exp ((2 * π * f * (s : ℂ) / fs + φ) * Complex.I) *
        Complex.exp (2 * (π * ((f - g) / fs)) * j * Complex.I) := by
    rw [← Complex.exp_add, ← Complex.exp_add]
    congr 1
    field_simp
    ring
  have e2 : Complex.exp (-(2 * π * f * ((s : ℂ) + j) / fs + φ) * Complex.I) * Complex.exp (-(2 * π * Complex.I * (g / fs) * j)) =
      Complex.exp (-(2 * π * f * (s : ℂ) / fs + φ) * Complex.I) *
        Complex.exp (-(2 * (π * ((f + g) / fs))) * j * Complex.I) := by
    rw [← Complex.exp_add, ← Complex.exp_add]
    congr 1
    field_simp
    ring
  have e3 : (A / (2 * N) : ℂ) = 1 / N * (A / 2) := by field_simp
  rw [e3]
  linear_combination (1 / N * w j * A / 2 : ℂ) * e1 + (1 / N * w j * A / 2 : ℂ) * e2

end Spafe
