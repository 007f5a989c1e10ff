import Verif.Model.RoundingCqt
import Verif.Props.Rounding
import Verif.Props.CqccContinuous

/-! C200: `cqcc` in floating point. -/

set_option linter.unusedSectionVars false

namespace Spafe
namespace Props
open Model XF Spec

/-- The Euclidean norm of `f 0, ..., f (n-1)`. -/
noncomputable def nrm (n : ℕ) (f : ℕ → ℂ) : ℝ := √(∑ j ∈ Finset.range n, ‖f j‖ ^ 2)

theorem nrm_nonneg (n : ℕ) (f : ℕ → ℂ) : 0 ≤ nrm n f := Real.sqrt_nonneg _

theorem nrm_add (n : ℕ) (f g : ℕ → ℂ) : nrm n (fun j => f j + g j) ≤ nrm n f + nrm n g := by
  simpa [nrm] using sqrt_weighted_add (n := n) (W := fun _ => 1) (fun _ _ => zero_le_one) f g

theorem nrm_le {n : ℕ} {f : ℕ → ℂ} {b : ℝ} (hb : 0 ≤ b) (h : ∑ j ∈ Finset.range n, ‖f j‖ ^ 2 ≤ b ^ 2) : nrm n f ≤ b := by
  unfold nrm
  rw [← Real.sqrt_sq hb]
  exact Real.sqrt_le_sqrt h

theorem nrm_mono {n : ℕ} {f g : ℕ → ℂ} (h : ∀ j < n, ‖f j‖ ≤ ‖g j‖) : nrm n f ≤ nrm n g :=
  Real.sqrt_le_sqrt (Finset.sum_le_sum fun j hj => pow_le_pow_left₀ (norm_nonneg _) (h j (Finset.mem_range.mp hj)) 2)

theorem nrm_smul (n : ℕ) (c : ℝ) (hc : 0 ≤ c) (f : ℕ → ℂ) : nrm n (fun j => (c : ℂ) * f j) = c * nrm n f := by
  unfold nrm
  simp only [norm_mul, Complex.norm_real, Real.norm_eq_abs, abs_of_nonneg hc, mul_pow]
  rw [← Finset.mul_sum, Real.sqrt_mul (sq_nonneg _), Real.sqrt_sq hc]

theorem sum_norm_mul_le (n : ℕ) (f g : ℕ → ℂ) : ∑ j ∈ Finset.range n, ‖f j‖ * ‖g j‖ ≤ nrm n f * nrm n g :=
  Real.sum_mul_le_sqrt_mul_sqrt _ _ _

/-- A floating-point sum of pairs of rounded products. -/
theorem flSum_pairs {u : ℝ} {fl : ℝ → ℝ} (h : Rounding u fl) {js : List ℕ} {p q a b : ℕ → ℝ} {r : ℝ}
    (hp : ∀ j ∈ js, |p j - a j| ≤ u * |a j|) (hq : ∀ j ∈ js, |q j - b j| ≤ u * |b j|)
    (hs : FlSum fl (0 :: js.flatMap fun j => [p j, q j]) r) :
    |r - (js.map fun j => a j + b j).sum| ≤ ((1 + u) ^ (2 * js.length + 1) - 1) * (js.map fun j => |a j| + |b j|).sum := by
  have hu := h.nonneg
  have h1 := C120_sum h hs
  have e1 : (0 :: js.flatMap fun j => [p j, q j]).sum = (js.map fun j => p j + q j).sum := by
    rw [List.sum_cons, zero_add]
    clear h1 hs hp hq
    induction js with
    | nil => rfl
    | cons j js ih => simp [List.flatMap_cons, ih, add_assoc]
  have e2 : ((0 :: js.flatMap fun j => [p j, q j]).map fun x => |x|).sum = (js.map fun j => |p j| + |q j|).sum := by
    rw [List.map_cons, List.sum_cons, abs_zero, zero_add]
    clear h1 hs hp hq e1
    induction js with
    | nil => rfl
    | cons j js ih => simp [List.flatMap_cons, ih, add_assoc]
  have e3 : (0 :: js.flatMap fun j => [p j, q j]).length - 1 = 2 * js.length := by
    simp [List.length_flatMap, mul_comm]
  rw [e1, e2, e3] at h1
  have h2 : (js.map fun j => |p j| + |q j|).sum ≤ (1 + u) * (js.map fun j => |a j| + |b j|).sum := by
    rw [← List.sum_map_mul_left]
    refine List.sum_le_sum fun j hj => ?_
    have := hp j hj
    have := hq j hj
    have := abs_sub_abs_le_abs_sub (p j) (a j)
    have := abs_sub_abs_le_abs_sub (q j) (b j)
    linarith
  have h3 : |(js.map fun j => p j + q j).sum - (js.map fun j => a j + b j).sum| ≤ u * (js.map fun j => |a j| + |b j|).sum := by
    have hsub : (js.map fun j => p j + q j).sum - (js.map fun j => a j + b j).sum = (js.map fun j => p j + q j - (a j + b j)).sum := by
      clear h1 hs hp hq e1 e2 e3 h2
      induction js with
      | nil => simp
      | cons j js ih => rw [List.map_cons, List.map_cons, List.map_cons, List.sum_cons, List.sum_cons, List.sum_cons, ← ih]; ring
    rw [← List.sum_map_mul_left, hsub]
    refine (abs_sum_le_list _).trans ?_
    rw [List.map_map]
    refine List.sum_le_sum fun j hj => ?_
    have h1 := hp j hj
    have h2 := hq j hj
    have := abs_add_le (p j - a j) (q j - b j)
    simp only [Function.comp]
    rw [show p j + q j - (a j + b j) = (p j - a j) + (q j - b j) by ring]
    linarith
  have hg : 0 ≤ (1 + u) ^ (2 * js.length) - 1 := sub_nonneg.mpr (one_le_pow₀ (by linarith))
  have h4 := mul_le_mul_of_nonneg_left h2 hg
  have h5 := abs_sub_le r (js.map fun j => p j + q j).sum (js.map fun j => a j + b j).sum
  rw [pow_succ]
  linarith

theorem re_im_le (x k : ℂ) : |x.re * k.re| + |x.im * k.im| ≤ ‖x‖ * ‖k‖ ∧ |x.re * k.im| + |x.im * k.re| ≤ ‖x‖ * ‖k‖ := by
  have hx : ‖x‖ ^ 2 = x.re ^ 2 + x.im ^ 2 := by rw [← Complex.normSq_eq_norm_sq, Complex.normSq_apply]; ring
  have hk : ‖k‖ ^ 2 = k.re ^ 2 + k.im ^ 2 := by rw [← Complex.normSq_eq_norm_sq, Complex.normSq_apply]; ring
  have hn : 0 ≤ ‖x‖ * ‖k‖ := by positivity
  simp only [abs_mul]
  have a1 := sq_abs x.re
  have a2 := sq_abs x.im
  have a3 := sq_abs k.re
  have a4 := sq_abs k.im
  have hsq : (‖x‖ * ‖k‖) ^ 2 = (|x.re| ^ 2 + |x.im| ^ 2) * (|k.re| ^ 2 + |k.im| ^ 2) := by rw [mul_pow, hx, hk, a1, a2, a3, a4]
  constructor
  · refine abs_le_of_sq_le_sq' ?_ hn |>.2
    rw [hsq]
    nlinarith [sq_nonneg (|x.re| * |k.im| - |x.im| * |k.re|)]
  · refine abs_le_of_sq_le_sq' ?_ hn |>.2
    rw [hsq]
    nlinarith [sq_nonneg (|x.re| * |k.re| - |x.im| * |k.im|)]

theorem list_sum_finset {n : ℕ} {js : List ℕ} (hn : js.Nodup) (hj : ∀ j ∈ js, j < n) {f : ℕ → ℝ}
    (h0 : ∀ j < n, j ∉ js → f j = 0) : (js.map f).sum = ∑ j ∈ Finset.range n, f j := by
  rw [← List.sum_toFinset f hn]
  refine Finset.sum_subset (fun j h => Finset.mem_range.mpr (hj j (List.mem_toFinset.mp h))) fun j h1 h2 => ?_
  exact h0 j (Finset.mem_range.mp h1) fun h => h2 (List.mem_toFinset.mpr h)

/-- The sparse product against the exact product of the same rows. -/
theorem flSparse_close {u : ℝ} {fl : ℝ → ℝ} (h : Rounding u fl) {n : ℕ} {X K : ℕ → ℂ} {z : ℂ} (hz : FlSparse fl n X K z) :
    ‖z - ∑ j ∈ Finset.range n, X j * K j‖ ≤ 2 * ((1 + u) ^ (2 * n + 1) - 1) * (nrm n X * nrm n K) := by
  have hu := h.nonneg
  obtain ⟨js, p, q, r, s, hnd, hlt, hsup, hpr, h1, h2⟩ := hz
  have hK0 : ∀ j < n, j ∉ js → K j = 0 := fun j hj hm => by
    by_contra hc; exact hm (hsup j hj hc)
  have hlen : js.length ≤ n := by
    have := (List.subperm_of_subset hnd (l₂ := List.range n) fun j hj => List.mem_range.mpr (hlt j hj)).length_le
    simpa using this
  have rnd : ∀ {v t : ℝ}, (v = t ∨ v = fl t) → |v - t| ≤ u * |t| := by
    rintro v t (rfl | rfl)
    · rw [sub_self, abs_zero]; positivity
    · exact h.err t
  have key : ∀ {p q a b : ℕ → ℝ} {r : ℝ}, (∀ j ∈ js, |p j - a j| ≤ u * |a j|) → (∀ j ∈ js, |q j - b j| ≤ u * |b j|) →
      (∀ j, |a j| + |b j| ≤ ‖X j‖ * ‖K j‖) → FlSum fl (0 :: js.flatMap fun j => [p j, q j]) r →
      |r - ∑ j ∈ Finset.range n, (a j + b j)| ≤ ((1 + u) ^ (2 * n + 1) - 1) * (nrm n X * nrm n K) := by
    intro p q a b r hp hq hab hs
    have e0 : ∀ j < n, j ∉ js → a j = 0 ∧ b j = 0 := by
      intro j hj hm
      have := hab j
      rw [hK0 j hj hm, norm_zero, mul_zero] at this
      have h1 := abs_nonneg (a j)
      have h2 := abs_nonneg (b j)
      exact ⟨abs_eq_zero.mp (by linarith), abs_eq_zero.mp (by linarith)⟩
    have hm := flSum_pairs h hp hq hs
    rw [list_sum_finset hnd hlt (f := fun j => a j + b j) (fun j hj hm => by simp [e0 j hj hm]),
      list_sum_finset hnd hlt (f := fun j => |a j| + |b j|) (fun j hj hm => by simp [e0 j hj hm])] at hm
    refine hm.trans (mul_le_mul ?_ ?_ (Finset.sum_nonneg fun j _ => by positivity) ?_)
    · have : (1 + u) ^ (2 * js.length + 1) ≤ (1 + u) ^ (2 * n + 1) := pow_le_pow_right₀ (by linarith) (by omega)
      linarith
    · exact (Finset.sum_le_sum fun j _ => hab j).trans (sum_norm_mul_le n X K)
    · exact sub_nonneg.mpr (one_le_pow₀ (by linarith))
  have hre := key (fun j hj => rnd (hpr j hj).1) (q := fun j => -q j) (b := fun j => -((X j).im * (K j).im)) (fun j hj => by
    have := rnd (hpr j hj).2.1
    rwa [abs_neg, ← abs_neg, neg_sub, sub_neg_eq_add, add_comm, ← sub_eq_add_neg]) (fun j => by
      rw [abs_neg]; exact (re_im_le _ _).1) h1
  have him := key (fun j hj => rnd (hpr j hj).2.2.1) (fun j hj => rnd (hpr j hj).2.2.2) (fun j => (re_im_le _ _).2) h2
  have e1 : (z - ∑ j ∈ Finset.range n, X j * K j).re = z.re - ∑ j ∈ Finset.range n, ((X j).re * (K j).re + -((X j).im * (K j).im)) := by
    simp [Complex.re_sum, sub_eq_add_neg]
  have e2 : (z - ∑ j ∈ Finset.range n, X j * K j).im = z.im - ∑ j ∈ Finset.range n, ((X j).re * (K j).im + (X j).im * (K j).re) := by
    simp [Complex.im_sum]
  refine (Complex.norm_le_abs_re_add_abs_im _).trans ?_
  rw [e1, e2]
  linarith

theorem nrm_dftC (a : ℕ → ℂ) (n : ℕ) : nrm n (Np.dftC a n) = √n * nrm n a := by
  unfold nrm
  rw [← Real.sqrt_mul (Nat.cast_nonneg n)]
  congr 1
  have h := parseval_inner a a n
  simp only [Complex.mul_conj, Complex.normSq_eq_norm_sq] at h
  exact_mod_cast h

theorem frameBin_dftC (z : ℕ → ℝ) (l n k : ℕ) : frameBin (fun _ => 1) z l 0 n 0 k =
    Np.dftC (fun j => if j < l then (z j : ℂ) else 0) n k := by
  unfold frameBin Np.dftC
  rw [← Finset.sum_subset (s₁ := Finset.range (min l n)) (s₂ := Finset.range n)]
  · refine Finset.sum_congr rfl fun j hj => ?_
    have := Finset.mem_range.mp hj
    beta_reduce
    rw [if_pos (by omega)]
    simp
  · intro j hj
    have := Finset.mem_range.mp hj
    exact Finset.mem_range.mpr (by omega)
  · intro j h1 h2
    have := Finset.mem_range.mp h1
    rw [Finset.mem_range] at h2
    beta_reduce
    rw [if_neg (by omega), zero_mul]

theorem nrm_frameBin_le (z : ℕ → ℝ) (l n : ℕ) {b : ℝ} (hb : 0 ≤ b) (h : ∑ j ∈ Finset.range l, z j ^ 2 ≤ b ^ 2) :
    nrm n (frameBin (fun _ => 1) z l 0 n 0) ≤ √n * b := by
  have e : frameBin (fun _ => 1) z l 0 n 0 = Np.dftC (fun j => if j < l then (z j : ℂ) else 0) n := funext (frameBin_dftC z l n)
  rw [e, nrm_dftC]
  refine mul_le_mul_of_nonneg_left (nrm_le hb (le_trans ?_ h)) (Real.sqrt_nonneg _)
  rw [← Finset.sum_filter_add_sum_filter_not (Finset.range n) (· < l)]
  have e2 : ∑ j ∈ Finset.range n with ¬ j < l, ‖(if j < l then (z j : ℂ) else 0)‖ ^ 2 = 0 :=
    Finset.sum_eq_zero fun j hj => by rw [if_neg (Finset.mem_filter.mp hj).2]; simp
  rw [e2, add_zero]
  have e3 : ∑ j ∈ Finset.range n with j < l, ‖(if j < l then (z j : ℂ) else 0)‖ ^ 2 = ∑ j ∈ Finset.range n with j < l, z j ^ 2 :=
    Finset.sum_congr rfl fun j hj => by rw [if_pos (Finset.mem_filter.mp hj).2]; simp
  rw [e3]
  refine Finset.sum_le_sum_of_subset_of_nonneg (fun j hj => ?_) fun _ _ _ => sq_nonneg _
  exact Finset.mem_range.mpr (Finset.mem_filter.mp hj).2

/-- The relative error of the computed spectrum of a frame. -/
noncomputable def spectrumError (u ω δ : ℝ) : ℝ := δ * ((1 + ω) * (1 + u) ^ 3) + ((1 + ω) * (1 + u) ^ 3 - 1)

/-- The computed spectrum of a frame, and the size of the exact one. -/
theorem spectrum_close {u ω δ : ℝ} {fl : ℝ → ℝ} (h : Rounding u fl) (hδ : 0 ≤ δ) {w wv : ℕ → ℝ} {fft : (ℕ → ℝ) → ℕ → ℂ}
    {on : Bool} {c : ℝ} {x : List ℝ} {l s nfft i : ℕ} (hw : ∀ j < l, 0 ≤ w j ∧ w j ≤ 1 ∧ |wv j - w j| ≤ ω) (hω : 0 ≤ ω)
    (hfft : AccurateFullFft δ fft l nfft) (hlen : i * s + l ≤ x.length) {y : ℕ → ℝ} (hy : FlEmphasised fl on c x y) :
    nrm nfft (fun k => fft (fun j => fl (y (i * s + j) * wv j)) k - frameBin w (emphasised on c x) l s nfft i k) ≤
      √nfft * (spectrumError u ω δ * frameAmplitude on c x l s i) ∧
    nrm nfft (frameBin w (emphasised on c x) l s nfft i) ≤ √nfft * frameAmplitude on c x l s i := by
  have hu := h.nonneg
  unfold spectrumError
  set ε := (1 + ω) * (1 + u) ^ 3 - 1 with hε
  have hε1 : (1 + ω) * (1 + u) ^ 3 = 1 + ε := by rw [hε]; ring
  have hε0 : 0 ≤ ε := by
    have : 1 ≤ (1 + ω) * (1 + u) ^ 3 := one_le_mul_of_one_le_of_one_le (by linarith) (one_le_pow₀ (by linarith))
    rw [hε]; linarith
  rw [hε1]
  set A := frameAmplitude on c x l s i with hA
  have hA0 : 0 ≤ A := Real.sqrt_nonneg _
  set z : ℕ → ℝ := fun j => w j * emphasised on c x (i * s + j) with hz
  set z' : ℕ → ℝ := fun j => fl (y (i * s + j) * wv j) with hz'
  have hdz : ∀ j < l, |z' j - z j| ≤ ε * amplitude on c x (i * s + j) := fun j hj =>
    C120_windowing h hy (by omega) (hw j hj).1 (hw j hj).2.1 (hw j hj).2.2
  have hzb : ∀ j < l, |z j| ≤ 1 * amplitude on c x (i * s + j) := by
    intro j hj
    rw [hz, abs_mul, abs_of_nonneg (hw j hj).1]
    exact mul_le_mul (hw j hj).2.1 (abs_emphasised_le on c x (i * s + j)) (abs_nonneg _) zero_le_one
  have hz'b : ∀ j < l, |z' j| ≤ (1 + ε) * amplitude on c x (i * s + j) := by
    intro j hj
    have h1 := abs_sub_abs_le_abs_sub (z' j) (z j)
    have := hdz j hj
    have := hzb j hj
    linarith
  have hAsq : ∑ j ∈ Finset.range l, amplitude on c x (i * s + j) ^ 2 = A ^ 2 :=
    (Real.sq_sqrt (Finset.sum_nonneg fun _ _ => sq_nonneg _)).symm
  have sumsq : ∀ (f : ℕ → ℝ) (b : ℝ), 0 ≤ b → (∀ j < l, |f j| ≤ b * amplitude on c x (i * s + j)) →
      ∑ j ∈ Finset.range l, f j ^ 2 ≤ (b * A) ^ 2 := by
    intro f b hb hf
    rw [mul_pow, ← hAsq, Finset.mul_sum]
    refine Finset.sum_le_sum fun j hj => ?_
    rw [← mul_pow, ← sq_abs]
    exact pow_le_pow_left₀ (abs_nonneg _) (hf j (Finset.mem_range.mp hj)) 2
  have e1 : ∀ k, frameBin w (emphasised on c x) l s nfft i k = frameBin (fun _ => 1) z l 0 nfft 0 k := fun k => frameBin_one _ _ _ _ _ _ _
  refine ⟨?_, ?_⟩
  · have d1 : nrm nfft (fun k => fft z' k - frameBin (fun _ => 1) z' l 0 nfft 0 k) ≤ √nfft * (δ * (1 + ε) * A) := by
      refine nrm_le (by positivity) ((hfft z').trans ?_)
      rw [mul_pow, Real.sq_sqrt (Nat.cast_nonneg _)]
      have := mul_le_mul_of_nonneg_left (sumsq z' (1 + ε) (by linarith) hz'b) (show 0 ≤ δ ^ 2 * (nfft : ℝ) by positivity)
      calc _ = δ ^ 2 * nfft * ∑ j ∈ Finset.range l, z' j ^ 2 := by ring
        _ ≤ _ := this
        _ = _ := by ring
    have d2 : nrm nfft (fun k => frameBin (fun _ => 1) z' l 0 nfft 0 k - frameBin w (emphasised on c x) l s nfft i k) ≤ √nfft * (ε * A) := by
      have e2 : (fun k => frameBin (fun _ => 1) z' l 0 nfft 0 k - frameBin w (emphasised on c x) l s nfft i k) =
          frameBin (fun _ => 1) (fun j => z' j - z j) l 0 nfft 0 := by
        funext k
        have := frameBin_add (fun _ => 1) (fun j => z' j - z j) z l 0 nfft 0 k
        simp only [sub_add_cancel] at this
        rw [e1, this]
        ring
      rw [e2]
      exact nrm_frameBin_le _ _ _ (by positivity) (sumsq _ ε hε0 hdz)
    have d3 := nrm_add nfft (fun k => fft z' k - frameBin (fun _ => 1) z' l 0 nfft 0 k)
      (fun k => frameBin (fun _ => 1) z' l 0 nfft 0 k - frameBin w (emphasised on c x) l s nfft i k)
    simp only [sub_add_sub_cancel] at d3
    refine d3.trans ((add_le_add d1 d2).trans (le_of_eq ?_))
    ring
  · rw [show frameBin w (emphasised on c x) l s nfft i = frameBin (fun _ => 1) z l 0 nfft 0 from funext e1]
    refine nrm_frameBin_le _ _ _ hA0 ?_
    have := sumsq z 1 zero_le_one hzb
    rwa [one_mul] at this

/-- The entries of a kernel row whose magnitude is within `μ` of the threshold: rounding may decide about them either way. -/
noncomputable def doubtful (nfft : ℕ) (thr μ : ℝ) (V : ℕ → ℂ) : Finset ℕ :=
  open Classical in (Finset.range nfft).filter fun j => |‖V j‖ - thr| ≤ μ

/-- The error of a kernel row, with `f` doubtful entries, relative to `1 / √nfft`. -/
noncomputable def kernelError (u thr κ μ : ℝ) (f nfft : ℕ) : ℝ :=
  (1 + u) ^ 2 * (κ + (thr + μ) * √(f / nfft)) + ((1 + u) ^ 2 - 1)

open Classical in
theorem kernel_close {u thr κ μ : ℝ} {fl : ℝ → ℝ} (h : Rounding u fl) (ht : 0 ≤ thr) {nfft f : ℕ} (hn : nfft ≠ 0) {V K : ℕ → ℂ}
    (hK : FlKernel fl nfft thr κ μ V K) (hV : nrm nfft V ≤ √nfft) (hf : (doubtful nfft thr μ V).card ≤ f) :
    √nfft * nrm nfft (fun j => K j - (starRingEnd ℂ) (if ‖V j‖ ≤ thr then 0 else V j) / nfft) ≤ kernelError u thr κ μ f nfft ∧
    √nfft * nrm nfft (fun j => (starRingEnd ℂ) (if ‖V j‖ ≤ thr then 0 else V j) / nfft) ≤ 1 := by
  have hu := h.nonneg
  have hn' : (0 : ℝ) < nfft := by exact_mod_cast Nat.pos_of_ne_zero hn
  have hs : 0 < √(nfft : ℝ) := Real.sqrt_pos.mpr hn'
  have hss : √(nfft : ℝ) * √nfft = nfft := Real.mul_self_sqrt hn'.le
  obtain ⟨V', t, hrow⟩ := hK
  have hκ : 0 ≤ κ := (norm_nonneg _).trans (hrow 0 (by omega)).1
  have hμ : 0 ≤ μ := (abs_nonneg _).trans (hrow 0 (by omega)).2.1
  set g := (1 + u) ^ 2 with hg
  have hg1 : 1 ≤ g := one_le_pow₀ (by linarith)
  -- the scaled entry
  have near2 : ∀ a : ℝ, |fl (fl (1 / (nfft : ℝ)) * a) - a / nfft| ≤ (g - 1) * |a / nfft| := by
    intro a
    have n1 := h.near (1 / (nfft : ℝ))
    have n2 := Near.mul (by linarith) le_rfl n1 (Near.refl a)
    have n3 := Near.trans (by linarith) (h.near (fl (1 / (nfft : ℝ)) * a)) n2
    rw [mul_one, ← pow_two, one_div_mul_eq_div] at n3
    exact n3
  have scaled : ∀ j, ‖(⟨fl (fl (1 / (nfft : ℝ)) * (V' j).re), -(fl (fl (1 / (nfft : ℝ)) * (V' j).im))⟩ : ℂ) -
      (starRingEnd ℂ) (V' j) / nfft‖ ≤ (g - 1) * (‖V' j‖ / nfft) := by
    intro j
    have hb : 0 ≤ (g - 1) * (‖V' j‖ / nfft) := mul_nonneg (by linarith) (by positivity)
    refine abs_le_of_sq_le_sq' ?_ hb |>.2
    rw [← Complex.normSq_eq_norm_sq, Complex.normSq_apply]
    have r1 := near2 (V' j).re
    have r2 := near2 (V' j).im
    have e1 : ((starRingEnd ℂ) (V' j) / nfft).re = (V' j).re / nfft := by
      rw [← Complex.ofReal_natCast, Complex.div_ofReal_re, Complex.conj_re]
    have e2 : ((starRingEnd ℂ) (V' j) / nfft).im = -((V' j).im / nfft) := by
      rw [← Complex.ofReal_natCast, Complex.div_ofReal_im, Complex.conj_im, neg_div]
    rw [Complex.sub_re, Complex.sub_im, e1, e2]
    simp only
    have s1 := pow_le_pow_left₀ (abs_nonneg _) r1 2
    have s2 := pow_le_pow_left₀ (abs_nonneg _) r2 2
    rw [sq_abs, mul_pow, sq_abs] at s1 s2
    have e3 : ((g - 1) * (‖V' j‖ / nfft)) ^ 2 = (g - 1) ^ 2 * (((V' j).re / nfft) ^ 2 + ((V' j).im / nfft) ^ 2) := by
      rw [mul_pow, div_pow, ← Complex.normSq_eq_norm_sq, Complex.normSq_apply]
      ring
    rw [e3]
    nlinarith
  have conj_norm : ∀ v : ℂ, ‖(starRingEnd ℂ) v / nfft‖ = ‖v‖ / nfft := by
    intro v
    rw [norm_div, Complex.norm_conj, Complex.norm_natCast]
  -- one entry
  have entry : ∀ j < nfft, ‖K j - (starRingEnd ℂ) (if ‖V j‖ ≤ thr then 0 else V j) / nfft‖ ≤
      (g * κ + (g - 1) * ‖V j‖ + (if j ∈ doubtful nfft thr μ V then g * (thr + μ) else 0)) / nfft := by
    intro j hj
    obtain ⟨h1, h2, h3⟩ := hrow j hj
    have hV'le : ‖V' j‖ ≤ ‖V j‖ + κ := by
      have := norm_sub_norm_le (V' j) (V j)
      linarith
    have hgm : 0 ≤ (g - 1) * ‖V j‖ := mul_nonneg (by linarith) (norm_nonneg _)
    have hgk : 0 ≤ g * κ := by positivity
    have hd : (t j ≤ thr ∧ ¬ ‖V j‖ ≤ thr) ∨ (¬ t j ≤ thr ∧ ‖V j‖ ≤ thr) → j ∈ doubtful nfft thr μ V := by
      intro hc
      refine Finset.mem_filter.mpr ⟨Finset.mem_range.mpr hj, ?_⟩
      rw [abs_le] at h2 ⊢
      rcases hc with ⟨c1, c2⟩ | ⟨c1, c2⟩ <;> constructor <;> linarith
    have hif : 0 ≤ (if j ∈ doubtful nfft thr μ V then g * (thr + μ) else 0) := by split_ifs <;> positivity
    rw [h3]
    by_cases c1 : t j ≤ thr <;> by_cases c2 : ‖V j‖ ≤ thr
    · rw [if_pos c1, if_pos c2, map_zero, zero_div, sub_zero, norm_zero]
      positivity
    · rw [if_pos c1, if_neg c2, zero_sub, norm_neg, conj_norm]
      refine div_le_div_of_nonneg_right ?_ hn'.le
      rw [if_pos (hd (.inl ⟨c1, c2⟩))]
      have : ‖V j‖ ≤ thr + μ := by linarith [(abs_le.mp h2).1]
      nlinarith
    · rw [if_neg c1, if_pos c2, map_zero, zero_div, sub_zero]
      have e1 := norm_sub_norm_le (⟨fl (fl (1 / (nfft : ℝ)) * (V' j).re), -(fl (fl (1 / (nfft : ℝ)) * (V' j).im))⟩ : ℂ) ((starRingEnd ℂ) (V' j) / nfft)
      rw [conj_norm] at e1
      have e2 := e1.trans (scaled j)
      rw [if_pos (hd (.inr ⟨c1, c2⟩))]
      have e3 : g * (‖V' j‖ / nfft) ≤ g * ((‖V j‖ + κ) / nfft) :=
        mul_le_mul_of_nonneg_left (div_le_div_of_nonneg_right hV'le hn'.le) (by linarith)
      have e4 : g * ((‖V j‖ + κ) / nfft) ≤ (g * κ + (g - 1) * ‖V j‖ + g * (thr + μ)) / nfft := by
        rw [← mul_div_assoc]
        refine div_le_div_of_nonneg_right ?_ hn'.le
        nlinarith
      linarith
    · rw [if_neg c1, if_neg c2]
      have e1 := scaled j
      have e2 : ‖(starRingEnd ℂ) (V' j) / nfft - (starRingEnd ℂ) (V j) / nfft‖ ≤ κ / nfft := by
        rw [← sub_div, ← map_sub, conj_norm]
        exact div_le_div_of_nonneg_right h1 hn'.le
      have e3 := norm_sub_le_norm_sub_add_norm_sub (⟨fl (fl (1 / (nfft : ℝ)) * (V' j).re), -(fl (fl (1 / (nfft : ℝ)) * (V' j).im))⟩ : ℂ)
        ((starRingEnd ℂ) (V' j) / nfft) ((starRingEnd ℂ) (V j) / nfft)
      have e4 : (g - 1) * (‖V' j‖ / nfft) ≤ (g - 1) * ((‖V j‖ + κ) / nfft) :=
        mul_le_mul_of_nonneg_left (div_le_div_of_nonneg_right hV'le hn'.le) (by linarith)
      have e5 : (g - 1) * ((‖V j‖ + κ) / nfft) + κ / nfft ≤
          (g * κ + (g - 1) * ‖V j‖ + (if j ∈ doubtful nfft thr μ V then g * (thr + μ) else 0)) / nfft := by
        rw [← mul_div_assoc, ← add_div]
        refine div_le_div_of_nonneg_right ?_ hn'.le
        linarith
      linarith
  refine ⟨?_, ?_⟩
  · set c1 : ℕ → ℂ := fun _ => ((g * κ : ℝ) : ℂ) with hc1
    set c2 : ℕ → ℂ := fun j => (((g - 1) * ‖V j‖ : ℝ) : ℂ) with hc2
    set c3 : ℕ → ℂ := fun j => (((if j ∈ doubtful nfft thr μ V then g * (thr + μ) else 0) : ℝ) : ℂ) with hc3
    have m1 : nrm nfft (fun j => K j - (starRingEnd ℂ) (if ‖V j‖ ≤ thr then 0 else V j) / nfft) ≤
        nrm nfft (fun j => ((1 / nfft : ℝ) : ℂ) * (c1 j + c2 j + c3 j)) := by
      refine nrm_mono fun j hj => (entry j hj).trans (le_of_eq ?_)
      have hif : 0 ≤ (if j ∈ doubtful nfft thr μ V then g * (thr + μ) else 0) := by split_ifs <;> positivity
      have hgm : 0 ≤ (g - 1) * ‖V j‖ := mul_nonneg (by linarith) (norm_nonneg _)
      rw [hc1, hc2, hc3]
      simp only
      rw [← Complex.ofReal_add, ← Complex.ofReal_add, ← Complex.ofReal_mul, Complex.norm_real, Real.norm_eq_abs,
        abs_of_nonneg (by positivity)]
      ring
    rw [nrm_smul _ _ (by positivity)] at m1
    have m2 := nrm_add nfft (fun j => c1 j + c2 j) c3
    have m3 := nrm_add nfft c1 c2
    have n1 : nrm nfft c1 ≤ √nfft * (g * κ) := by
      refine nrm_le (by positivity) (le_of_eq ?_)
      simp only [hc1, Complex.norm_real, Real.norm_eq_abs, sq_abs, Finset.sum_const, Finset.card_range, nsmul_eq_mul]
      rw [mul_pow _ (g * κ), Real.sq_sqrt hn'.le]
    have n2 : nrm nfft c2 ≤ √nfft * (g - 1) := by
      have e : nrm nfft c2 = (g - 1) * nrm nfft V := by
        rw [← nrm_smul _ _ (by linarith)]
        refine le_antisymm (nrm_mono fun j _ => ?_) (nrm_mono fun j _ => ?_) <;> simp [hc2]
      rw [e, mul_comm]
      exact mul_le_mul_of_nonneg_right hV (by linarith)
    have n3 : nrm nfft c3 ≤ √f * (g * (thr + μ)) := by
      refine nrm_le (by positivity) ?_
      have e : ∑ j ∈ Finset.range nfft, ‖c3 j‖ ^ 2 = (doubtful nfft thr μ V).card * (g * (thr + μ)) ^ 2 := by
        rw [← Finset.sum_subset (s₁ := doubtful nfft thr μ V) (s₂ := Finset.range nfft) (Finset.filter_subset _ _)
          (fun j _ hj => by simp [hc3, if_neg hj])]
        rw [Finset.sum_congr rfl (g := fun _ => (g * (thr + μ)) ^ 2) fun j hj => by
          simp only [hc3, if_pos hj, Complex.norm_real, Real.norm_eq_abs, sq_abs]]
        rw [Finset.sum_const, nsmul_eq_mul]
      rw [e, mul_pow, mul_pow, Real.sq_sqrt (Nat.cast_nonneg _), mul_pow]
      exact mul_le_mul_of_nonneg_right (by exact_mod_cast hf) (by positivity)
    have m4 := mul_le_mul_of_nonneg_left m1 hs.le
    refine m4.trans ?_
    have m5 : nrm nfft (fun j => c1 j + c2 j + c3 j) ≤ √nfft * (g * κ) + √nfft * (g - 1) + √f * (g * (thr + μ)) := by linarith
    have m6 := mul_le_mul_of_nonneg_left m5 (show 0 ≤ √(nfft : ℝ) * (1 / nfft) by positivity)
    rw [← mul_assoc]
    refine m6.trans (le_of_eq ?_)
    unfold kernelError
    rw [Real.sqrt_div (Nat.cast_nonneg _), ← hg]
    have : √(nfft : ℝ) ^ 2 = nfft := Real.sq_sqrt hn'.le
    field_simp
    rw [this]
    ring
  · have m1 : nrm nfft (fun j => (starRingEnd ℂ) (if ‖V j‖ ≤ thr then 0 else V j) / nfft) ≤
        nrm nfft (fun j => ((1 / nfft : ℝ) : ℂ) * V j) := by
      refine nrm_mono fun j _ => ?_
      rw [conj_norm, norm_mul, Complex.norm_real, Real.norm_eq_abs, abs_of_pos (by positivity), one_div_mul_eq_div]
      refine div_le_div_of_nonneg_right ?_ hn'.le
      split_ifs
      · rw [norm_zero]; exact norm_nonneg _
      · exact le_rfl
    rw [nrm_smul _ _ (by positivity)] at m1
    have m2 := mul_le_mul_of_nonneg_left (m1.trans (mul_le_mul_of_nonneg_left hV (by positivity))) hs.le
    refine m2.trans (le_of_eq ?_)
    rw [mul_comm (1 / (nfft : ℝ)), ← mul_assoc, hss]
    field_simp

/-- The error of an entry of the transform relative to the amplitude of the frame. -/
noncomputable def cqtError (u ω δ thr κ μ : ℝ) (f nfft : ℕ) : ℝ :=
  (2 * ((1 + u) ^ (2 * nfft + 1) - 1) * (1 + spectrumError u ω δ) + spectrumError u ω δ) * (1 + kernelError u thr κ μ f nfft) +
    kernelError u thr κ μ f nfft

/-- C200, one entry of the transform: for every float run, frame and atom of norm at most 1. -/
theorem C200_entry {u ω δ thr κ μ : ℝ} {fl : ℝ → ℝ} (h : Rounding u fl) (hδ : 0 ≤ δ) (ht : 0 ≤ thr) {w wv : ℕ → ℝ}
    {fft : (ℕ → ℝ) → ℕ → ℂ} {on : Bool} {c : ℝ} {x : List ℝ} {l s nfft i f : ℕ} (hn : nfft ≠ 0)
    (hw : ∀ j < l, 0 ≤ w j ∧ w j ≤ 1 ∧ |wv j - w j| ≤ ω) (hω : 0 ≤ ω) (hfft : AccurateFullFft δ fft l nfft)
    (hlen : i * s + l ≤ x.length) {atom K : ℕ → ℂ} (ha : ∑ j ∈ Finset.range nfft, ‖atom j‖ ^ 2 ≤ 1)
    (hK : FlKernel fl nfft thr κ μ (Np.dftC atom nfft) K) (hf : (doubtful nfft thr μ (Np.dftC atom nfft)).card ≤ f) {z : ℂ}
    (hz : FlCqt fl wv fft on c x l s nfft i K z) {frame : List ℝ}
    (hfr : ∀ k, Np.dft frame nfft k = frameBin w (emphasised on c x) l s nfft i k) :
    ‖z - cqtEntry nfft (kernelRow nfft thr atom) frame‖ ≤ cqtError u ω δ thr κ μ f nfft * frameAmplitude on c x l s i := by
  classical
  obtain ⟨y, hy, hsp⟩ := hz
  have hu := h.nonneg
  have hs : 0 < √(nfft : ℝ) := Real.sqrt_pos.mpr (by exact_mod_cast Nat.pos_of_ne_zero hn)
  set V := Np.dftC atom nfft with hV
  have hVn : nrm nfft V ≤ √nfft := by
    rw [hV, nrm_dftC]
    have := nrm_le zero_le_one (f := atom) (n := nfft) (by simpa using ha)
    exact mul_le_of_le_one_right hs.le this
  obtain ⟨k1, k2⟩ := kernel_close h ht hn hK hVn hf
  obtain ⟨s1, s2⟩ := spectrum_close h hδ hw hω hfft hlen hy
  have s0 := flSparse_close h hsp
  set A := frameAmplitude on c x l s i with hA
  have hA0 : 0 ≤ A := Real.sqrt_nonneg _
  set X' := fft fun j => fl (y (i * s + j) * wv j) with hX'
  set X := frameBin w (emphasised on c x) l s nfft i with hX
  set K₀ : ℕ → ℂ := fun j => (starRingEnd ℂ) (if ‖V j‖ ≤ thr then 0 else V j) / nfft with hK₀
  set D := kernelError u thr κ μ f nfft with hD
  set E := spectrumError u ω δ with hE
  set γ := (1 + u) ^ (2 * nfft + 1) - 1 with hγ
  have hγ0 : 0 ≤ γ := sub_nonneg.mpr (one_le_pow₀ (by linarith))
  have hE0 : 0 ≤ E := by
    have : 1 ≤ (1 + ω) * (1 + u) ^ 3 := one_le_mul_of_one_le_of_one_le (by linarith) (one_le_pow₀ (by linarith))
    rw [hE]; unfold spectrumError
    have := mul_nonneg hδ (show 0 ≤ (1 + ω) * (1 + u) ^ 3 by linarith)
    linarith
  have hD0 : 0 ≤ D := le_trans (by have := nrm_nonneg nfft (fun j => K j - K₀ j); positivity) k1
  have hexact : cqtEntry nfft (kernelRow nfft thr atom) frame = ∑ j ∈ Finset.range nfft, X j * K₀ j := by
    unfold cqtEntry
    refine Finset.sum_congr rfl fun j hj => ?_
    rw [hfr j, kernelRow_getD _ _ _ (Finset.mem_range.mp hj)]
  rw [hexact]
  have nX' : nrm nfft X' ≤ √nfft * ((1 + E) * A) := by
    have := nrm_add nfft (fun k => X' k - X k) X
    simp only [sub_add_cancel] at this
    linarith
  have nK' : √nfft * nrm nfft K ≤ 1 + D := by
    have := mul_le_mul_of_nonneg_left (nrm_add nfft (fun k => K k - K₀ k) K₀) hs.le
    simp only [sub_add_cancel] at this
    linarith
  have t1 : nrm nfft X' * nrm nfft K ≤ (1 + E) * A * (1 + D) := by
    have a1 := mul_le_mul_of_nonneg_right nX' (nrm_nonneg nfft K)
    have a2 := mul_le_mul_of_nonneg_left nK' (show 0 ≤ (1 + E) * A by positivity)
    nlinarith
  have t2 : ‖∑ j ∈ Finset.range nfft, X' j * K j - ∑ j ∈ Finset.range nfft, X j * K j‖ ≤ E * A * (1 + D) := by
    rw [← Finset.sum_sub_distrib]
    refine (norm_sum_le _ _).trans ?_
    have e : ∀ j ∈ Finset.range nfft, ‖X' j * K j - X j * K j‖ = ‖(fun k => X' k - X k) j‖ * ‖K j‖ := fun j _ => by
      rw [← sub_mul, norm_mul]
    rw [Finset.sum_congr rfl e]
    refine (sum_norm_mul_le nfft _ K).trans ?_
    have a1 := mul_le_mul_of_nonneg_right s1 (nrm_nonneg nfft K)
    have a2 := mul_le_mul_of_nonneg_left nK' (show 0 ≤ E * A by positivity)
    nlinarith
  have t3 : ‖∑ j ∈ Finset.range nfft, X j * K j - ∑ j ∈ Finset.range nfft, X j * K₀ j‖ ≤ A * D := by
    rw [← Finset.sum_sub_distrib]
    refine (norm_sum_le _ _).trans ?_
    have e : ∀ j ∈ Finset.range nfft, ‖X j * K j - X j * K₀ j‖ = ‖X j‖ * ‖(fun k => K k - K₀ k) j‖ := fun j _ => by
      rw [← mul_sub, norm_mul]
    rw [Finset.sum_congr rfl e]
    refine (sum_norm_mul_le nfft X _).trans ?_
    have a1 := mul_le_mul_of_nonneg_right s2 (nrm_nonneg nfft (fun k => K k - K₀ k))
    have a2 := mul_le_mul_of_nonneg_left k1 hA0
    nlinarith
  have t4 := mul_le_mul_of_nonneg_left t1 (show 0 ≤ 2 * γ by positivity)
  have t5 := norm_sub_le_norm_sub_add_norm_sub z (∑ j ∈ Finset.range nfft, X' j * K j) (∑ j ∈ Finset.range nfft, X j * K₀ j)
  have t6 := norm_sub_le_norm_sub_add_norm_sub (∑ j ∈ Finset.range nfft, X' j * K j) (∑ j ∈ Finset.range nfft, X j * K j)
    (∑ j ∈ Finset.range nfft, X j * K₀ j)
  have e : cqtError u ω δ thr κ μ f nfft * A = 2 * γ * ((1 + E) * A * (1 + D)) + E * A * (1 + D) + A * D := by
    unfold cqtError
    rw [← hγ, ← hE, ← hD]
    ring
  rw [e]
  linarith

theorem cqtAtom_norm {nfft N : ℕ} (hN : 0 < N) (hle : N ≤ nfft) (fs f : ℝ) {w : List ℝ} (hw : ∀ m, |w.getD m 0| ≤ 1) :
    ∑ j ∈ Finset.range nfft, ‖cqtAtom nfft fs f N w j‖ ^ 2 ≤ 1 := by
  have hN' : (1 : ℝ) ≤ N := by exact_mod_cast hN
  have hst : ((nfft : ℤ) - (N : ℤ)).tdiv 2 = (((nfft - N) / 2 : ℕ) : ℤ) := by
    rw [Int.tdiv_eq_ediv_of_nonneg (by omega)]; omega
  have hsub : Finset.Ico ((nfft - N) / 2) ((nfft - N) / 2 + N) ⊆ Finset.range nfft := by
    intro j hj
    rw [Finset.mem_Ico] at hj
    rw [Finset.mem_range]; omega
  rw [← Finset.sum_subset hsub]
  · have hb : ∀ j ∈ Finset.Ico ((nfft - N) / 2) ((nfft - N) / 2 + N), ‖cqtAtom nfft fs f N w j‖ ^ 2 ≤ (1 / (N : ℝ)) ^ 2 := by
      intro j hj
      rw [Finset.mem_Ico] at hj
      refine pow_le_pow_left₀ (norm_nonneg _) ?_ 2
      simp only [cqtAtom, hst]
      rw [if_pos (by omega), norm_mul, norm_mul, Complex.norm_real, Real.norm_eq_abs]
      have e : 2 * (Real.pi : ℂ) * Complex.I * (f / fs) * ((j - (((nfft - N) / 2 : ℕ) : ℤ).toNat : ℕ) : ℂ) =
          ((2 * Real.pi * (f / fs) * ((j - (((nfft - N) / 2 : ℕ) : ℤ).toNat : ℕ) : ℝ) : ℝ) : ℂ) * Complex.I := by
        push_cast; ring
      rw [e, Complex.norm_exp_ofReal_mul_I, mul_one]
      have e2 : ‖(1 : ℂ) / ((N : ℤ) : ℂ)‖ = 1 / (N : ℝ) := by simp
      rw [e2]
      exact mul_le_of_le_one_right (by positivity) (hw _)
    refine (Finset.sum_le_sum hb).trans ?_
    rw [Finset.sum_const, Nat.card_Ico, Nat.add_sub_cancel_left, nsmul_eq_mul]
    have : (N : ℝ) * (1 / N) ^ 2 = 1 / N := by field_simp
    rw [this]
    exact (div_le_one (by linarith)).mpr hN'
  · intro j _ hj
    rw [Finset.mem_Ico] at hj
    simp only [cqtAtom, hst]
    rw [if_neg (by omega)]
    simp

theorem cqtLogPower_close {z z' : ℂ} {η : ℝ} (h0 : 0 ≤ η) (h1 : η < 1) (hz : z ≠ 0) (h : ‖z' - z‖ ≤ η * ‖z‖) :
    |cqtLogPower z' - cqtLogPower z| ≤ 2 * Real.log (1 / (1 - η)) := by
  have hp : 0 < ‖z‖ := norm_pos_iff.mpr hz
  have l1 : (1 - η) * ‖z‖ ≤ ‖z'‖ := by
    have := norm_sub_norm_le z z'
    rw [norm_sub_rev] at this
    linarith
  have l2 : ‖z'‖ ≤ (1 + η) * ‖z‖ := by
    have := norm_sub_norm_le z' z
    linarith
  have hp' : 0 < ‖z'‖ := lt_of_lt_of_le (mul_pos (by linarith) hp) l1
  have l3 : ‖z'‖ ≤ 1 / (1 - η) * ‖z‖ := by
    refine l2.trans (mul_le_mul_of_nonneg_right ?_ hp.le)
    rw [le_div_iff₀ (by linarith)]
    nlinarith
  unfold cqtLogPower
  rw [if_neg (by positivity), if_neg (by positivity), Real.log_pow, Real.log_pow]
  have g1 := Real.log_le_log (mul_pos (by linarith) hp) l1
  have g2 := Real.log_le_log hp' l3
  rw [Real.log_mul (by linarith) hp.ne'] at g1
  rw [Real.log_mul (by positivity) hp.ne'] at g2
  have g3 : Real.log (1 / (1 - η)) = -Real.log (1 - η) := by rw [one_div, Real.log_inv]
  push_cast
  rw [abs_le]
  constructor <;> linarith

/-- A single 1 at position `i` among `N` entries. -/
noncomputable def unitRow (N i : ℕ) : List ℝ := (List.range N).map fun (j : ℕ) => if j = i then 1 else 0

/-- The gain of `scipy.signal.resample` from `N` to `num` samples at output `t`: the sum of the magnitudes of its impulse responses. -/
noncomputable def resampleGain (num N t : ℕ) : ℝ := ∑ i ∈ Finset.range N, |(resample num (unitRow N i)).getD t 0|

theorem dft_linear (N k : ℕ) (X : ℕ → ℝ) : Np.dft ((List.range N).map X) N k =
    ∑ i ∈ Finset.range N, (X i : ℂ) * Np.dft (unitRow N i) N k := by
  have e : ∀ i ∈ Finset.range N, Np.dft (unitRow N i) N k = Complex.exp (-(2 * Real.pi * Complex.I * (i * k) / N)) := by
    intro i hi
    unfold Np.dft Np.dftC unitRow
    rw [Finset.sum_eq_single i]
    · beta_reduce
      rw [getD_map_range_lt _ _ (Finset.mem_range.mp hi), if_pos rfl]; simp
    · intro j hj hne
      beta_reduce
      rw [getD_map_range_lt _ _ (Finset.mem_range.mp hj), if_neg hne]; simp
    · intro hc; exact absurd hi hc
  unfold Np.dft Np.dftC
  refine Finset.sum_congr rfl fun i hi => ?_
  have := e i hi
  unfold Np.dft Np.dftC at this
  rw [this]
  beta_reduce
  rw [getD_map_range_lt _ _ (Finset.mem_range.mp hi)]

theorem resample_linear (num N t : ℕ) (X : ℕ → ℝ) : (resample num ((List.range N).map X)).getD t 0 =
    ∑ i ∈ Finset.range N, X i * (resample num (unitRow N i)).getD t 0 := by
  by_cases ht : t < num
  swap
  · have e : ∀ x : List ℝ, (resample num x).getD t 0 = 0 := fun x => List.getD_eq_default _ _ (by rw [resample_length]; omega)
    simp only [e, mul_zero, Finset.sum_const_zero]
  have hlen : ∀ i, (unitRow N i).length = N := fun i => by simp [unitRow]
  simp only [resample, List.length_map, List.length_range, hlen, getD_map_range_lt _ _ ht]
  set Y : List ℝ → ℕ → ℂ := fun x k => if min num N / 2 < k then (0 : ℂ)
      else if min num N % 2 = 0 ∧ k = min num N / 2 ∧ num < N then Np.dft x N k * 2
      else if min num N % 2 = 0 ∧ k = min num N / 2 ∧ N < num then Np.dft x N k * (1 / 2)
      else Np.dft x N k with hYdef
  have hY : ∀ k, Y ((List.range N).map X) k = ∑ i ∈ Finset.range N, (X i : ℂ) * Y (unitRow N i) k := by
    intro k
    simp only [hYdef]
    split_ifs
    · simp
    · rw [dft_linear, Finset.sum_mul]; simp only [mul_assoc]
    · rw [dft_linear, Finset.sum_mul]; simp only [mul_assoc]
    · exact dft_linear N k X
  have hre : ∀ (k : ℕ) (E : ℂ), (Y ((List.range N).map X) k * E).re = ∑ i ∈ Finset.range N, X i * (Y (unitRow N i) k * E).re := by
    intro k E
    rw [hY, Finset.sum_mul, Complex.re_sum]
    refine Finset.sum_congr rfl fun i _ => ?_
    rw [mul_assoc, Complex.re_ofReal_mul]
  have hre0 : (Y ((List.range N).map X) 0).re = ∑ i ∈ Finset.range N, X i * (Y (unitRow N i) 0).re := by
    have := hre 0 1
    simpa using this
  change 1 / (num : ℝ) * ((Y ((List.range N).map X) 0).re + ∑ k ∈ Finset.Ico 1 (num / 2 + 1), (if 2 * k = num then 1 else 2) *
      (Y ((List.range N).map X) k * Complex.exp (2 * Real.pi * Complex.I * (k * t) / num)).re) * ((num : ℝ) / N) =
    ∑ i ∈ Finset.range N, X i * (1 / (num : ℝ) * ((Y (unitRow N i) 0).re + ∑ k ∈ Finset.Ico 1 (num / 2 + 1), (if 2 * k = num then 1 else 2) *
      (Y (unitRow N i) k * Complex.exp (2 * Real.pi * Complex.I * (k * t) / num)).re) * ((num : ℝ) / N))
  simp only [hre, hre0]
  have e1 : ∑ k ∈ Finset.Ico 1 (num / 2 + 1), (if 2 * k = num then (1 : ℝ) else 2) * ∑ i ∈ Finset.range N,
      X i * (Y (unitRow N i) k * Complex.exp (2 * Real.pi * Complex.I * (k * t) / num)).re =
      ∑ i ∈ Finset.range N, X i * ∑ k ∈ Finset.Ico 1 (num / 2 + 1), (if 2 * k = num then 1 else 2) *
        (Y (unitRow N i) k * Complex.exp (2 * Real.pi * Complex.I * (k * t) / num)).re := by
    simp only [Finset.mul_sum]
    rw [Finset.sum_comm]
    refine Finset.sum_congr rfl fun i _ => Finset.sum_congr rfl fun k _ => ?_
    ring
  rw [e1, ← Finset.sum_add_distrib, Finset.mul_sum, Finset.sum_mul]
  refine Finset.sum_congr rfl fun i _ => ?_
  ring

theorem resample_close (num N t : ℕ) {X X' : ℕ → ℝ} {b : ℝ} (h : ∀ i < N, |X' i - X i| ≤ b) :
    |(resample num ((List.range N).map X')).getD t 0 - (resample num ((List.range N).map X)).getD t 0| ≤ resampleGain num N t * b := by
  rw [resample_linear, resample_linear, ← Finset.sum_sub_distrib, resampleGain, Finset.sum_mul]
  refine (Finset.abs_sum_le_sum_abs _ _).trans (Finset.sum_le_sum fun i hi => ?_)
  rw [← sub_mul, abs_mul, mul_comm]
  exact mul_le_mul_of_nonneg_left (h i (Finset.mem_range.mp hi)) (abs_nonneg _)

/-- With resampling ratio 1 errors are not amplified. -/
theorem C200_gain {N t : ℕ} (ht : t < N) : resampleGain N N t = 1 := by
  have e : ∀ i, resample N (unitRow N i) = unitRow N i := fun i => by
    have := resample_self (unitRow N i)
    rwa [show (unitRow N i).length = N by simp [unitRow]] at this
  unfold resampleGain
  rw [Finset.sum_eq_single t]
  · rw [e, unitRow, getD_map_range_lt _ _ ht, if_pos rfl, abs_one]
  · intro i _ hne
    rw [e, unitRow, getD_map_range_lt _ _ ht, if_neg (Ne.symm hne), abs_zero]
  · intro hc; exact absurd (Finset.mem_range.mpr ht) hc

/-- The `j`-th frequency of `cqcc`. -/
noncomputable def cqtFreq (a : CqtArgs) (j : ℕ) : ℝ :=
  (admissible a.f0 a.octaves a.bins a.low (effHigh a.high a.fs) a.fs a.qRate a.nfft).getD j 0

/-- The exact atom of the `j`-th frequency. -/
noncomputable def exactAtom (a : CqtArgs) (j : ℕ) : ℕ → ℂ :=
  cqtAtom a.nfft a.fs (cqtFreq a j) (winLen a.fs a.qRate a.bins (cqtFreq a j))
    ((List.range (winLen a.fs a.qRate a.bins (cqtFreq a j)).toNat).map
      (windowWeight a.win.winType (winLen a.fs a.qRate a.bins (cqtFreq a j)).toNat))

theorem exactAtom_norm (a : CqtArgs) (hfs : 0 < a.fs) (hq : 0 < a.qRate) (hB : a.bins ≠ 0) (hf0 : 0 < a.f0)
    (hw : WindowName a.win.winType) {j : ℕ}
    (hj : j < (admissible a.f0 a.octaves a.bins a.low (effHigh a.high a.fs) a.fs a.qRate a.nfft).length) :
    ∑ k ∈ Finset.range a.nfft, ‖exactAtom a j k‖ ^ 2 ≤ 1 := by
  have hmem : cqtFreq a j ∈ admissible a.f0 a.octaves a.bins a.low (effHigh a.high a.fs) a.fs a.qRate a.nfft := getD_mem _ hj
  have h1 := List.mem_filter.mp hmem
  have h2 := winLen_pos hfs hq hB (grid_pos hf0 a.octaves a.bins _ (List.mem_of_mem_filter h1.1))
  have h3 := of_decide_eq_true h1.2
  unfold exactAtom
  obtain ⟨N, hN⟩ := Int.eq_ofNat_of_zero_le h2.le
  rw [hN] at h2 h3 ⊢
  refine cqtAtom_norm (by exact_mod_cast h2) (by exact_mod_cast h3) _ _ fun m => ?_
  simp only [Int.ofNat_eq_natCast, Int.toNat_natCast]
  by_cases hm : m < N
  · rw [getD_map_range_lt _ _ hm]
    obtain ⟨b1, b2⟩ := windowWeight_range hw hm
    rw [abs_of_nonneg b1]; exact b2
  · rw [List.getD_eq_default _ _ (by simpa using hm), abs_zero]; exact zero_le_one

/-- C200: `cqcc` in floating point, end to end. `f` bounds the number of kernel entries, per frequency, whose magnitude is within `μ` of the
spectral threshold. Every computed entry of the transform is within `cqtError` times the amplitude of the frame of the exact
one. If this is at most `η < 1` times the exact entry, for all entries, then every computed row of coefficients is within
`tau + √F (τ + G (lam + 2 log (1 / (1 - η))))` of the exact row: `F` frequencies, `lam` the accuracy of the computed log powers, `τ` and `G`
accuracy and gain of the resampling, `tau` the accuracy of the DCT. -/
theorem C200_cqcc (a : CqtArgs) (hfs : 0 < a.fs) (hq : 0 < a.qRate) (hB : a.bins ≠ 0) (hf0 : 0 < a.f0)
    (hhigh : effHigh a.high a.fs ≤ a.fs / 2)
    (hne : admissible a.f0 a.octaves a.bins a.low (effHigh a.high a.fs) a.fs a.qRate a.nfft ≠ [])
    (hw : WindowName a.win.winType) (hle : a.win.winHop ≤ a.win.winLen) {l s F n : ℕ} (hS : pyInt (a.win.winHop * a.fs) = s) (hs0 : 0 < s)
    (hL : pyInt (a.win.winLen * a.fs) = l) (hd : a.dctType = 2) (hlift : a.lifter = none) (hn : a.normalize = none)
    (ht : 0 ≤ a.thr) (x : List ℝ) (hlen : l ≤ x.length) (hN : n = (x.length - l) / s + 1) (hr : 1 ≤ (n : ℝ) * a.ratio)
    (hF : F = (admissible a.f0 a.octaves a.bins a.low (effHigh a.high a.fs) a.fs a.qRate a.nfft).length)
    {u ω δ κ μ : ℝ} {fl : ℝ → ℝ} {fft : (ℕ → ℝ) → ℕ → ℂ} {wv : ℕ → ℝ} (h : Rounding u fl) (hω : 0 ≤ ω) (hδ : 0 ≤ δ)
    (hwv : ∀ j < l, |wv j - windowWeight a.win.winType l j| ≤ ω) (hfft : AccurateFullFft δ fft l a.nfft) {f : ℕ} {K : ℕ → ℕ → ℂ}
    (hK : ∀ j < F, FlKernel fl a.nfft a.thr κ μ (Np.dftC (exactAtom a j) a.nfft) (K j))
    (hf : ∀ j < F, (doubtful a.nfft a.thr μ (Np.dftC (exactAtom a j) a.nfft)).card ≤ f) :
    ∃ q m, cqtSpectrogram a x = .ok q ∧ cqcc a x = .ok m ∧ HasShape m m.length (min a.numCeps F) ∧
      (m.length : ℤ) = pyInt ((n : ℝ) * a.ratio) ∧
      (∀ j < F, ∀ i < n, ∀ z, FlCqt fl wv fft a.preEmph a.preEmphCoeff x l s a.nfft i (K j) z →
        ‖z - (q.getD j []).getD i 0‖ ≤ cqtError u ω δ a.thr κ μ f a.nfft * frameAmplitude a.preEmph a.preEmphCoeff x l s i) ∧
      ∀ η, 0 ≤ η → η < 1 → (∀ j < F, ∀ i < n, (q.getD j []).getD i 0 ≠ 0 ∧
          cqtError u ω δ a.thr κ μ f a.nfft * frameAmplitude a.preEmph a.preEmphCoeff x l s i ≤ η * ‖(q.getD j []).getD i 0‖) →
        ∀ (Z : ℕ → ℕ → ℂ) (lg : ℕ → ℕ → ℝ) (lam τ tau : ℝ),
          (∀ j < F, ∀ i < n, FlCqt fl wv fft a.preEmph a.preEmphCoeff x l s a.nfft i (K j) (Z j i)) →
          (∀ j < F, ∀ i < n, |lg j i - cqtLogPower (Z j i)| ≤ lam) → ∀ t < m.length, ∀ r c' : ℕ → ℝ,
          (∀ j < F, |r j - (resample m.length ((List.range n).map (lg j))).getD t 0| ≤ τ) →
          √(∑ k ∈ Finset.range (min a.numCeps F), (c' k - dctII F r k) ^ 2) ≤ tau →
          ∃ c : ℕ → ℝ, (∀ k < min a.numCeps F, (m.getD t []).getD k nan = fin (c k)) ∧
            √(∑ k ∈ Finset.range (min a.numCeps F), (c' k - c k) ^ 2) ≤
              tau + √F * (τ + resampleGain m.length n t * (lam + 2 * Real.log (1 / (1 - η)))) := by
  have hS' : 0 < pyInt (a.win.winHop * a.fs) := by rw [hS]; exact_mod_cast hs0
  have hsn : (pyInt (a.win.winHop * a.fs)).toNat = s := by rw [hS]; simp
  obtain ⟨m, hm, -⟩ := C93_defined a hfs hq hB hf0 hhigh hne hw hle hS' hL hd hlift hn x hlen (by rw [hsn, ← hN]; exact hr)
  have hnf : a.nfft ≠ 0 := by
    intro h0
    obtain ⟨f, hf⟩ := List.exists_mem_of_ne_nil _ hne
    have h1 := (List.mem_filter.mp hf)
    have h2 := winLen_pos hfs hq hB (grid_pos hf0 a.octaves a.bins f (List.mem_of_mem_filter h1.1))
    have h3 := of_decide_eq_true h1.2
    rw [h0] at h3
    push_cast at h3
    omega
  have hls : s ≤ l := by
    have := pyInt_mono (mul_le_mul_of_nonneg_right hle hfs.le)
    rw [hS, hL] at this
    exact_mod_cast this
  have hne' : x ≠ [] := by
    rintro rfl
    simp at hlen
    omega
  set w : List ℝ := (List.range l).map (windowWeight a.win.winType l) with hwdef
  have hfe := (frontEnd_ok_iff a.toArgs a.preEmphCoeff x _ hS').mpr ⟨fun e => hne' e.2, hle, l, s, w, hL,
    hS, hs0, hlen, C14_window_formula _ hw l, by simp [hwdef], rfl⟩
  have hsp := show cqtSpectrogram a x = .ok _ by
    unfold cqtSpectrogram
    rw [if_neg (not_lt.mpr hhigh), hfe, ok_bind]
    exact computeCqt_ok _ (low := a.low) (high := some (effHigh a.high a.fs)) (O := a.octaves) (nfft := a.nfft)
      (thr := a.thr) hfs hq hB hf0 (by rw [effHigh_idem]; exact hne) (fun n => (List.range n).map (windowWeight a.win.winType n))
      fun n => C14_window_formula _ hw n
  rw [effHigh_idem] at hsp
  obtain ⟨q, hqq, -, -, -, -, hnum, hsh, hv⟩ := cqcc_entry a hd hlift hn x m hm
  have hQ := Except.ok.inj (hqq.symm.trans hsp)
  have hqF : q.length = F := by rw [hQ, hF]; simp
  have hcell : ∀ j < F, q.getD j [] = (List.range n).map fun (i : ℕ) => cqtEntry a.nfft (kernelRow a.nfft a.thr (exactAtom a j))
      (List.zipWith (· * ·) w (((emph a.toArgs a.preEmphCoeff x).drop (i * s)).take l)) := by
    intro j hj
    rw [hQ, getD_map_lt _ _ 0 _ (by omega), List.map_map, ← hN]
    rfl
  have hcols : Np.ncols q = n := by
    have hFpos : 0 < F := by rw [hF]; exact List.length_pos_iff.mpr hne
    cases hq0 : q with
    | nil => rw [hq0] at hqF; simp at hqF; omega
    | cons r q' =>
      have := hcell 0 hFpos
      rw [hq0, List.getD_cons_zero] at this
      simp [Np.ncols, this]
  have hbin : ∀ i < n, ∀ k, Np.dft (List.zipWith (· * ·) w (((emph a.toArgs a.preEmphCoeff x).drop (i * s)).take l)) a.nfft k =
      frameBin (windowWeight a.win.winType l) (emphasised a.preEmph a.preEmphCoeff x) l s a.nfft i k := by
    intro i hi k
    have h3 : i * s ≤ x.length - l := (Nat.le_div_iff_mul_le hs0).mp (by omega)
    exact dft_frame (by simp [hwdef]) (by rw [emph_length]; omega) (fun j hj => by rw [hwdef, getD_map_range_lt _ _ hj])
      (fun t ht => emph_getD' _ _ _ (by rwa [emph_length] at ht)) k
  have hclose : ∀ j < F, ∀ i < n, ∀ z, FlCqt fl wv fft a.preEmph a.preEmphCoeff x l s a.nfft i (K j) z →
      ‖z - (q.getD j []).getD i 0‖ ≤ cqtError u ω δ a.thr κ μ f a.nfft * frameAmplitude a.preEmph a.preEmphCoeff x l s i := by
    intro j hj i hi z hz
    have h3 : i * s ≤ x.length - l := (Nat.le_div_iff_mul_le hs0).mp (by omega)
    rw [hcell j hj, getD_map_range_lt _ _ hi]
    exact C200_entry h hδ ht hnf (fun j hj => ⟨(windowWeight_range hw hj).1, (windowWeight_range hw hj).2, hwv j hj⟩) hω hfft
      (by omega) (exactAtom_norm a hfs hq hB hf0 hw (by omega)) (hK j hj) (hf j hj) hz (hbin i hi)
  rw [hqF] at hsh hv
  refine ⟨q, m, hqq, hm, hsh, by rw [hnum, hcols]; rfl, hclose, fun η h0 h1 hη Z lg lam τ tau hZ hlg t ht r c' hr' hc' =>
    ⟨_, fun k hk => hv t k ht hk, ?_⟩⟩
  set y : ℕ → ℝ := fun j => (resample m.length ((q.getD j []).map cqtLogPower)).getD t 0 with hy
  set G := resampleGain m.length n t with hG
  have hG0 : 0 ≤ G := Finset.sum_nonneg fun _ _ => abs_nonneg _
  have key : ∀ j < F, |r j - y j| ≤ τ + G * (lam + 2 * Real.log (1 / (1 - η))) := by
    intro j hj
    have e : (q.getD j []).map cqtLogPower = (List.range n).map fun (i : ℕ) => cqtLogPower ((q.getD j []).getD i 0) := by
      have hlenj : (q.getD j []).length = n := by rw [hcell j hj]; simp
      apply ext_getD 0 (by rw [List.length_map, List.length_map, List.length_range, hlenj])
      intro i hi
      rw [List.length_map, hlenj] at hi
      rw [getD_map_lt _ _ 0 _ (by omega), getD_map_range_lt _ _ hi]
    have e1 := resample_close m.length n t (X := fun i => cqtLogPower ((q.getD j []).getD i 0)) (X' := lg j)
      (b := lam + 2 * Real.log (1 / (1 - η))) fun i hi => by
        have b1 := hlg j hj i hi
        have b2 := cqtLogPower_close h0 h1 (hη j hj i hi).1 ((hclose j hj i hi _ (hZ j hj i hi)).trans (hη j hj i hi).2)
        exact (abs_sub_le _ (cqtLogPower (Z j i)) _).trans (add_le_add b1 b2)
    rw [hy]
    beta_reduce
    rw [e]
    exact (abs_sub_le _ _ _).trans (add_le_add (hr' j hj) e1)
  have hFpos : 0 < F := by rw [hF]; exact List.length_pos_iff.mpr hne
  have hb : 0 ≤ τ + G * (lam + 2 * Real.log (1 / (1 - η))) := (abs_nonneg _).trans (key 0 hFpos)
  set p := min a.numCeps F with hp
  have hdct : ∀ k < p, dct2 F y k = dctII F y k := fun k hk => (dctII_eq_dct2 F y (by omega)).symm
  have hsq : √(∑ k ∈ Finset.range p, (dctII F r k - dct2 F y k) ^ 2) ≤ √F * (τ + G * (lam + 2 * Real.log (1 / (1 - η)))) := by
    rw [← Real.sqrt_sq hb, ← Real.sqrt_mul (Nat.cast_nonneg _)]
    apply Real.sqrt_le_sqrt
    rw [Finset.sum_congr rfl fun k hk => by rw [hdct k (Finset.mem_range.mp hk)]]
    refine (dctII_contracts F p (min_le_right _ _) r y).trans ?_
    have : ∀ n ∈ Finset.range F, (r n - y n) ^ 2 ≤ (τ + G * (lam + 2 * Real.log (1 / (1 - η)))) ^ 2 := fun n hn => by
      rw [← sq_abs]
      exact pow_le_pow_left₀ (abs_nonneg _) (key n (Finset.mem_range.mp hn)) 2
    refine (Finset.sum_le_sum this).trans ?_
    simp
  have hmin := sqrt_weighted_add (n := p) (W := fun _ => 1) (fun _ _ => zero_le_one)
    (fun k => ((c' k - dctII F r k : ℝ) : ℂ)) (fun k => ((dctII F r k - dct2 F y k : ℝ) : ℂ))
  simp only [← Complex.ofReal_add, Complex.norm_real, Real.norm_eq_abs, sq_abs, one_mul, sub_add_sub_cancel] at hmin
  exact hmin.trans (add_le_add hc' hsq)

/-- C200 for `float64`, 512 bins, the default threshold and no doubtful kernel entry: with a window accurate to `10⁻¹⁵` and an FFT and
kernel accurate to `10⁻¹⁴`, the error of the transform is below `10⁻¹²` of the amplitude of the frame. -/
theorem C200_double : cqtError (1 / 2 ^ 53) (1 / 10 ^ 15) (1 / 10 ^ 14) 0.005 (1 / 10 ^ 14) (1 / 10 ^ 14) 0 512 ≤ 1 / 10 ^ 12 := by
  have h1 : ((1 : ℝ) + 1 / 2 ^ 53) ^ (2 * 512 + 1) - 1 ≤ 2 / 10 ^ 13 := by
    have h32 : ((1 : ℝ) + 1 / 2 ^ 53) ^ 41 ≤ 1 + 5 / 10 ^ 15 := by norm_num
    have h2 : ((1 : ℝ) + 1 / 2 ^ 53) ^ (2 * 512 + 1) ≤ (1 + 5 / 10 ^ 15) ^ 25 := by
      rw [show 2 * 512 + 1 = 41 * 25 by norm_num, pow_mul]
      exact pow_le_pow_left₀ (by positivity) h32 25
    have h3 : ((1 : ℝ) + 5 / 10 ^ 15) ^ 25 ≤ 1 + 2 / 10 ^ 13 := by norm_num
    exact sub_le_iff_le_add'.mpr (h2.trans h3)
  have h0 : (0 : ℝ) ≤ (1 + 1 / 2 ^ 53) ^ (2 * 512 + 1) - 1 := sub_nonneg.mpr (one_le_pow₀ (by norm_num))
  have h2 : spectrumError (1 / 2 ^ 53) (1 / 10 ^ 15) (1 / 10 ^ 14) ≤ 2 / 10 ^ 14 := by unfold spectrumError; norm_num
  have h2' : 0 ≤ spectrumError (1 / 2 ^ 53) (1 / 10 ^ 15) (1 / 10 ^ 14) := by unfold spectrumError; norm_num
  have h3 : kernelError (1 / 2 ^ 53) 0.005 (1 / 10 ^ 14) (1 / 10 ^ 14) 0 512 ≤ 2 / 10 ^ 14 := by
    unfold kernelError
    rw [Nat.cast_zero, zero_div, Real.sqrt_zero]
    norm_num
  have h3' : 0 ≤ kernelError (1 / 2 ^ 53) 0.005 (1 / 10 ^ 14) (1 / 10 ^ 14) 0 512 := by
    unfold kernelError
    rw [Nat.cast_zero, zero_div, Real.sqrt_zero]
    norm_num
  unfold cqtError
  generalize ((1 : ℝ) + 1 / 2 ^ 53) ^ (2 * 512 + 1) - 1 = γ at *
  generalize spectrumError (1 / 2 ^ 53) (1 / 10 ^ 15) (1 / 10 ^ 14) = E at *
  generalize kernelError (1 / 2 ^ 53) 0.005 (1 / 10 ^ 14) (1 / 10 ^ 14) 0 512 = D at *
  have b1 : 2 * γ * (1 + E) + E ≤ 2 * (2 / 10 ^ 13) * (1 + 2 / 10 ^ 14) + 2 / 10 ^ 14 := by nlinarith
  have b2 : (2 * γ * (1 + E) + E) * (1 + D) ≤ (2 * (2 / 10 ^ 13) * (1 + 2 / 10 ^ 14) + 2 / 10 ^ 14) * (1 + 2 / 10 ^ 14) :=
    mul_le_mul b1 (by linarith) (by linarith) (by norm_num)
  have b3 : (2 * (2 / 10 ^ 13) * (1 + 2 / 10 ^ 14) + 2 / 10 ^ 14) * (1 + 2 / 10 ^ 14) + 2 / 10 ^ 14 ≤ (1 : ℝ) / 10 ^ 12 := by norm_num
  linarith

/-- Rounding every product and adding from left to right is one of the runs. -/
theorem flCqt_exists (fl : ℝ → ℝ) (wv : ℕ → ℝ) (fft : (ℕ → ℝ) → ℕ → ℂ) (on : Bool) (c : ℝ) (x : List ℝ) (l s nfft i : ℕ) (K : ℕ → ℂ) :
    ∃ z, FlCqt fl wv fft on c x l s nfft i K z := by
  obtain ⟨F⟩ := flFrame_exists fl [] wv fft (fun z => ‖z‖) on c x l s nfft i
  set X := fft fun j => fl (F.y (i * s + j) * wv j) with hX
  obtain ⟨r1, h1⟩ := flSum_exists fl 0 ((List.range nfft).flatMap fun j => [fl ((X j).re * (K j).re), -fl ((X j).im * (K j).im)])
  obtain ⟨r2, h2⟩ := flSum_exists fl 0 ((List.range nfft).flatMap fun j => [fl ((X j).re * (K j).im), fl ((X j).im * (K j).re)])
  exact ⟨⟨r1, r2⟩, F.y, F.emph, List.range nfft, fun j => fl ((X j).re * (K j).re), fun j => fl ((X j).im * (K j).im),
    fun j => fl ((X j).re * (K j).im), fun j => fl ((X j).im * (K j).re), List.nodup_range, fun j hj => List.mem_range.mp hj,
    fun j hj _ => List.mem_range.mpr hj, fun j _ => ⟨.inr rfl, .inr rfl, .inr rfl, .inr rfl⟩, h1, h2⟩

/-- Exact transforms and magnitudes, rounded scaling: one of the runs. -/
theorem flKernel_exists (fl : ℝ → ℝ) (nfft : ℕ) (thr : ℝ) (V : ℕ → ℂ) : ∃ K, FlKernel fl nfft thr 0 0 V K := by
  classical
  exact ⟨_, V, fun j => ‖V j‖, fun j _ => ⟨by simp, by simp, rfl⟩⟩

theorem tinyCqt_admissible : admissible tinyCqt.f0 tinyCqt.octaves tinyCqt.bins tinyCqt.low (effHigh tinyCqt.high tinyCqt.fs) tinyCqt.fs
    tinyCqt.qRate tinyCqt.nfft = [1] := by
  have he : effHigh tinyCqt.high tinyCqt.fs = 1 := by norm_num [effHigh, tinyCqt]
  rw [he]
  change admissible 1 1 1 0 1 2 0.5 1 = [1]
  unfold admissible inBand grid winLen qFactor
  norm_num

theorem tinyCqt_atom : Np.dftC (exactAtom tinyCqt 0) tinyCqt.nfft 0 = 1 := by
  have hf : cqtFreq tinyCqt 0 = 1 := by unfold cqtFreq; rw [tinyCqt_admissible]; rfl
  have hwl : winLen tinyCqt.fs tinyCqt.qRate tinyCqt.bins 1 = ((1 : ℕ) : ℤ) := by norm_num [winLen, qFactor, tinyCqt]
  have hnf : tinyCqt.nfft = 1 := rfl
  have hw : (List.range 1).map (windowWeight tinyCqt.win.winType 1) = [1] := by
    have h1 : windowVec "hamming" 1 = .ok [1] := by simp [windowVec, Np.hammingAt]
    exact (Except.ok.inj (h1.symm.trans (C14_window_formula "hamming" (by simp [WindowName]) 1))).symm
  have ha : exactAtom tinyCqt 0 0 = 1 := by
    unfold exactAtom
    rw [hf, hwl, Int.toNat_natCast, hw, hnf]
    simp [cqtAtom]
  rw [hnf]
  simp [Np.dftC, ha]

/-- The condition on doubtful entries cannot be dropped: with the threshold exactly at the magnitude of a kernel entry, an arbitrarily small
error of the magnitude decides between the transform and zero. -/
theorem C200_threshold (x μ : ℝ) (hμ : 0 < μ) : ∃ K K' : ℕ → ℂ,
    FlKernel id 1 1 0 μ (Np.dftC (exactAtom tinyCqt 0) tinyCqt.nfft) K ∧ FlKernel id 1 1 0 μ (Np.dftC (exactAtom tinyCqt 0) tinyCqt.nfft) K' ∧
    FlSparse id 1 (fun _ => x) K 0 ∧ FlSparse id 1 (fun _ => x) K' x := by
  have hV : ∀ j < 1, Np.dftC (exactAtom tinyCqt 0) tinyCqt.nfft j = 1 := fun j hj => by
    obtain rfl : j = 0 := by omega
    exact tinyCqt_atom
  refine ⟨fun _ => 0, fun _ => 1, ⟨fun _ => 1, fun _ => 1, fun j hj => ?_⟩, ⟨fun _ => 1, fun _ => 1 + μ, fun j hj => ?_⟩, ?_, ?_⟩
  · rw [hV j hj]
    simp [hμ.le]
  · rw [hV j hj]
    refine ⟨by simp, by simp [abs_of_pos hμ], ?_⟩
    rw [if_neg (by linarith)]
    simp [Complex.ext_iff]
  · refine ⟨[], fun _ => 0, fun _ => 0, fun _ => 0, fun _ => 0, by simp, by simp, by simp, by simp, ?_, ?_⟩
    · exact .one 0
    · exact .one 0
  · refine ⟨[0], fun _ => x, fun _ => 0, fun _ => 0, fun _ => 0, by simp, by simp, fun j hj _ => by simp; omega, fun j _ => by simp, ?_, ?_⟩
    · have h1 : FlSum id ([0] ++ [x] ++ [-0]) (id (id (0 + x) + -0)) := .add (.add (.one 0) (.one x)) (.one (-0))
      simpa using h1
    · have h1 : FlSum id ([0] ++ [0] ++ [0]) (id (id (0 + 0) + 0)) := .add (.add (.one 0) (.one 0)) (.one 0)
      simpa using h1

/-- A concrete case of C200: two samples in the tiny configuration, with a rounding that is off by `10⁻³` in every operation. -/
example : ∃ (K : ℕ → ℂ) (q : List (List ℂ)) (m : XMat), FlKernel (fun t => 1.001 * t) 1 0.005 0 0 (Np.dftC (exactAtom tinyCqt 0) tinyCqt.nfft) K ∧
    cqtSpectrogram tinyCqt [1, -2] = .ok q ∧ cqcc tinyCqt [1, -2] = .ok m ∧
    ∀ Z : ℕ → ℕ → ℂ, (∀ i < 2, FlCqt (fun t => 1.001 * t) (windowWeight "hamming" 1) (fun z k => frameBin (fun _ => 1) z 1 0 1 0 k) false 0.97
      [1, -2] 1 1 1 i K (Z 0 i)) → ∀ t < m.length, ∃ c, (m.getD t []).getD 0 nan = fin c ∧
        |(resample m.length ((List.range 2).map fun (i : ℕ) => cqtLogPower (Z 0 i))).getD t 0 - c| ≤
          resampleGain m.length 2 t * (2 * Real.log (1 / (1 - 1 / 10))) := by
  obtain ⟨K, hK⟩ := flKernel_exists (fun t => 1.001 * t) 1 0.005 (Np.dftC (exactAtom tinyCqt 0) tinyCqt.nfft)
  have hadm := tinyCqt_admissible
  have hS : pyInt (tinyCqt.win.winHop * tinyCqt.fs) = ((1 : ℕ) : ℤ) := by
    have : tinyCqt.win.winHop * tinyCqt.fs = 1 := by norm_num [Args.win, tinyCqt]
    rw [this]; norm_num [pyInt]
  obtain ⟨q, m, hq, hm, -, -, -, hv⟩ := C200_cqcc tinyCqt (by norm_num [tinyCqt]) (by norm_num [tinyCqt]) (by norm_num [tinyCqt])
    (by norm_num [tinyCqt]) (by norm_num [tinyCqt, effHigh]) (by rw [hadm]; simp) (by simp [WindowName, Args.win, tinyCqt]) (le_refl _)
    (l := 1) (s := 1) (F := 1) (n := 2) hS one_pos hS rfl rfl rfl (by norm_num [tinyCqt]) [1, -2] (by simp) (by simp) (by
      have : tinyCqt.ratio = 1 := rfl
      rw [this]; norm_num) (by rw [hadm]; rfl) (ω := 0) (δ := 0) (κ := 0) (μ := 0) (fft := fun z k => frameBin (fun _ => 1) z 1 0 1 0 k)
    (wv := windowWeight "hamming" 1) rounding_demo le_rfl le_rfl (fun j _ => by
      rw [show tinyCqt.win.winType = "hamming" from rfl]; simp) (fun z => by
      rw [show tinyCqt.nfft = 1 from rfl]; simp) (f := 0) (K := fun _ => K) (fun j hj => by
      obtain rfl : j = 0 := by omega
      exact hK) (fun j hj => by
      obtain rfl : j = 0 := by omega
      rw [Nat.le_zero, Finset.card_eq_zero]
      refine Finset.filter_eq_empty_iff.mpr fun k hk => ?_
      obtain rfl : k = 0 := by have := Finset.mem_range.mp hk; have e : tinyCqt.nfft = 1 := rfl; omega
      rw [tinyCqt_atom, show tinyCqt.thr = 0.005 from rfl]
      norm_num)
  refine ⟨K, q, m, hK, hq, hm, fun Z hZ t ht => ?_⟩
  have hQ := Except.ok.inj (hq.symm.trans (tinyCqt_spec [1, -2] (by simp)))
  obtain ⟨c, hc, hb⟩ := hv (1 / 10) (by norm_num) (by norm_num) (fun j hj i hi => by
    obtain rfl : j = 0 := by omega
    have herr : cqtError 0.001 0 0 tinyCqt.thr 0 0 0 tinyCqt.nfft ≤ 1 / 10 := by
      rw [show tinyCqt.nfft = 1 from rfl, show tinyCqt.thr = 0.005 from rfl]
      unfold cqtError spectrumError kernelError
      rw [Nat.cast_zero, zero_div, Real.sqrt_zero]
      norm_num
    have hA : frameAmplitude tinyCqt.preEmph tinyCqt.preEmphCoeff [1, -2] 1 1 i = ‖((q.getD 0 []).getD i 0)‖ := by
      rw [hQ]
      have hp : tinyCqt.preEmph = false := rfl
      rcases (show i = 0 ∨ i = 1 by omega) with rfl | rfl <;> simp [frameAmplitude, amplitude, hp]
    refine ⟨?_, ?_⟩
    · rw [hQ]
      rcases (show i = 0 ∨ i = 1 by omega) with rfl | rfl <;> simp
    · rw [hA]
      exact mul_le_mul_of_nonneg_right herr (norm_nonneg _)) Z (fun j i => cqtLogPower (Z j i)) 0 0 0 (fun j hj i hi => by
    obtain rfl : j = 0 := by omega
    exact hZ i hi) (fun j _ i _ => by simp) t ht (fun j => (resample m.length ((List.range 2).map fun (i : ℕ) => cqtLogPower (Z j i))).getD t 0)
    (fun k => dctII 1 (fun j => (resample m.length ((List.range 2).map fun (i : ℕ) => cqtLogPower (Z j i))).getD t 0) k)
    (fun j _ => by simp) (by simp)
  have hp : min tinyCqt.numCeps 1 = 1 := by simp [tinyCqt]
  rw [hp] at hc hb
  refine ⟨c 0, hc 0 one_pos, ?_⟩
  have h4 : √(4 : ℝ) = 2 := by rw [show (4 : ℝ) = 2 ^ 2 by norm_num]; exact Real.sqrt_sq (by norm_num)
  have hk : Np.dctKernel 2 1 0 0 = 1 := by simp [Np.dctKernel, h4]
  rw [Finset.sum_range_one, Real.sqrt_sq_eq_abs, dctII_eq_dct2 _ _ one_pos, dct2, Finset.sum_range_one, hk, one_mul] at hb
  simpa using hb

end Props
end Spafe
