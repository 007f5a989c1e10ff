import Verif.Model.RoundingDominant
import Verif.Props.Rounding
import Verif.Props.Float64
import Verif.Props.Tone

/-! C145: `get_dominant_frequencies` under rounding. -/

set_option linter.unusedSectionVars false

namespace Spafe
namespace Props
open Model XF Spec Real

/-- The bound on the error of a bin of the FFT of a frame with the sum `S` of absolute samples. -/
noncomputable def binError (u ω δ S : ℝ) (nfft : ℕ) : ℝ :=
  (δ * √nfft * ((1 + u) * (1 + ω)) + ((1 + u) * (1 + ω) - 1)) * S

/-- The factor by which rounding can change a comparison of two powers. -/
noncomputable def powerFactor (u v : ℝ) : ℝ := (1 + u) ^ 7 * (1 + v) ^ 2 / (2 - (1 + u) ^ 7 * (1 + v) ^ 2)

section
variable {u v ω δ : ℝ} {fl : ℝ → ℝ} {fft : (ℕ → ℝ) → ℕ → ℂ} {abs : ℂ → ℝ} {wv : ℕ → ℝ} {name : String} {x : List ℝ}
  {l s nfft i : ℕ}

/-- The FFT of the rounded frame is close to the exact spectrum in every bin. -/
theorem bin_near (h : Arithmetic u v ω δ fl fft abs wv name l nfft) (hname : WindowName name) {k : ℕ} (hk : k ≤ nfft / 2) :
    ‖fft (fun j => fl (x.getD (i * s + j) 0 * wv j)) k - frameBin (windowWeight name l) (fun t => x.getD t 0) l s nfft i k‖ ≤
      binError u ω δ (∑ j ∈ Finset.range l, |x.getD (i * s + j) 0|) nfft := by
  have hu := h.round.nonneg
  have hω := h.ω0
  obtain ⟨z, hz⟩ : ∃ z : ℕ → ℝ, z = fun j => windowWeight name l j * x.getD (i * s + j) 0 := ⟨_, rfl⟩
  obtain ⟨z', hz'⟩ : ∃ z' : ℕ → ℝ, z' = fun j => fl (x.getD (i * s + j) 0 * wv j) := ⟨_, rfl⟩
  obtain ⟨ε, hε⟩ : ∃ ε, ε = (1 + u) * (1 + ω) - 1 := ⟨_, rfl⟩
  have hε0 : 0 ≤ ε := by rw [hε]; nlinarith
  have hdz : ∀ j < l, |z' j - z j| ≤ ε * |x.getD (i * s + j) 0| := by
    intro j hj
    have hw := windowWeight_range hname hj
    have hwe := h.window_err j hj
    have h1 := h.round.err (x.getD (i * s + j) 0 * wv j)
    have h2 : |wv j| ≤ 1 + ω := by
      have := abs_sub_abs_le_abs_sub (wv j) (windowWeight name l j)
      rw [abs_of_nonneg hw.1] at this
      linarith [hw.2]
    rw [hz, hz', hε]
    beta_reduce
    generalize x.getD (i * s + j) 0 = a at h1 ⊢
    have e : fl (a * wv j) - windowWeight name l j * a = (fl (a * wv j) - a * wv j) + a * (wv j - windowWeight name l j) := by ring
    rw [e]
    refine (abs_add_le _ _).trans ?_
    rw [abs_mul a (wv j - _)]
    rw [abs_mul a] at h1
    have h3 : u * (|a| * |wv j|) ≤ u * (|a| * (1 + ω)) := by gcongr
    have h4 : |a| * |wv j - windowWeight name l j| ≤ |a| * ω := by gcongr
    linarith
  have hz'b : ∀ j < l, |z' j| ≤ (1 + ε) * |x.getD (i * s + j) 0| := by
    intro j hj
    have hw := windowWeight_range hname hj
    have h1 := abs_sub_abs_le_abs_sub (z' j) (z j)
    have h2 : |z j| ≤ |x.getD (i * s + j) 0| := by
      rw [hz]; beta_reduce
      rw [abs_mul, abs_of_nonneg hw.1]
      exact mul_le_of_le_one_left (abs_nonneg _) hw.2
    have := hdz j hj
    linarith
  obtain ⟨S, hS⟩ : ∃ S, S = ∑ j ∈ Finset.range l, |x.getD (i * s + j) 0| := ⟨_, rfl⟩
  have hS0 : 0 ≤ S := by rw [hS]; exact Finset.sum_nonneg fun _ _ => abs_nonneg _
  rw [← hS, ← hz']
  -- the FFT
  have h1 : ‖fft z' k - frameBin (fun _ => 1) z' l 0 nfft 0 k‖ ≤ δ * √nfft * (1 + ε) * S := by
    have hb : ‖fft z' k - frameBin (fun _ => 1) z' l 0 nfft 0 k‖ ^ 2 ≤ δ ^ 2 * (nfft * ((1 + ε) * S) ^ 2) := by
      refine le_trans ?_ ((h.fft_err z').trans ?_)
      · exact Finset.single_le_sum (f := fun k => ‖fft z' k - frameBin (fun _ => 1) z' l 0 nfft 0 k‖ ^ 2)
          (fun _ _ => sq_nonneg _) (Finset.mem_range.mpr (by omega))
      · refine mul_le_mul_of_nonneg_left (mul_le_mul_of_nonneg_left ?_ (by positivity)) (sq_nonneg _)
        have h2 : ∑ j ∈ Finset.range l, |z' j| ≤ (1 + ε) * S := by
          rw [hS, Finset.mul_sum]
          exact Finset.sum_le_sum fun j hj => hz'b j (Finset.mem_range.mp hj)
        refine le_trans ?_ (pow_le_pow_left₀ (Finset.sum_nonneg fun _ _ => abs_nonneg _) h2 2)
        have := Finset.sum_sq_le_sq_sum_of_nonneg (s := Finset.range l) (f := fun j => |z' j|) fun _ _ => abs_nonneg _
        simpa using this
    · refine (Real.le_sqrt_of_sq_le hb).trans ?_
      rw [show δ ^ 2 * (nfft * ((1 + ε) * S) ^ 2) = nfft * (δ * ((1 + ε) * S)) ^ 2 by ring, Real.sqrt_mul (by positivity),
        Real.sqrt_sq (mul_nonneg h.δ0 (by positivity))]
      exact le_of_eq (by ring)
  have h2 : ‖frameBin (fun _ => 1) z' l 0 nfft 0 k - frameBin (windowWeight name l) (fun t => x.getD t 0) l s nfft i k‖ ≤ ε * S := by
    rw [frameBin_one (windowWeight name l), frameBin, frameBin, ← Finset.sum_sub_distrib]
    refine (norm_sum_le _ _).trans ?_
    have hsub : Finset.range (min l nfft) ⊆ Finset.range l := Finset.range_subset_range.mpr (min_le_left _ _)
    rw [hS, Finset.mul_sum]
    refine (Finset.sum_le_sum fun j hj => ?_).trans (Finset.sum_le_sum_of_subset_of_nonneg hsub fun _ _ _ => by positivity)
    rw [← sub_mul, norm_mul]
    have he : ‖Complex.exp (-(2 * π * Complex.I * (j * k) / nfft))‖ = 1 := by
      rw [show -(2 * π * Complex.I * ((j:ℂ) * k) / nfft) = ((-(2 * π * (j * k) / nfft) : ℝ) : ℂ) * Complex.I by push_cast; ring]
      exact Complex.norm_exp_ofReal_mul_I _
    rw [he, mul_one, ← Complex.ofReal_sub, Complex.norm_real, Real.norm_eq_abs]
    have := hdz j (by have := Finset.mem_range.mp hj; omega)
    rw [hz] at this
    simpa using this
  have h3 := norm_sub_le_norm_sub_add_norm_sub (fft z' k) (frameBin (fun _ => 1) z' l 0 nfft 0 k)
    (frameBin (windowWeight name l) (fun t => x.getD t 0) l s nfft i k)
  rw [binError, show (1 + u) * (1 + ω) = 1 + ε by rw [hε]; ring]
  linarith

/-- The rounded power of a bin, relative to the FFT it is computed from. -/
theorem power_near (h : Arithmetic u v ω δ fl fft abs wv name l nfft) (k : ℕ) :
    |flPower fl wv fft abs x s nfft i k - ‖fft (fun j => fl (x.getD (i * s + j) 0 * wv j)) k‖ ^ 2 / nfft ^ 3| ≤
      ((1 + u) ^ 7 * (1 + v) ^ 2 - 1) * (‖fft (fun j => fl (x.getD (i * s + j) 0 * wv j)) k‖ ^ 2 / nfft ^ 3) := by
  have hu := h.round.nonneg
  have hv := h.v0
  unfold flPower
  generalize fft (fun j => fl (x.getD (i * s + j) 0 * wv j)) k = X
  have o1 : (1:ℝ) ≤ 1 + u := by linarith
  have o2 : (1:ℝ) ≤ 1 + v := by linarith
  have a : Near (1 + v) (abs X) ‖X‖ := by
    have := h.abs_err X
    unfold Near; rw [abs_of_nonneg (norm_nonneg X)]; simpa using this
  have n1 := h.round.near (1 / (nfft : ℝ))
  have m1 := (h.round.near _).trans o1 (Near.mul o1 o2 n1 a)
  have g1 : 1 ≤ (1 + u) * ((1 + u) * (1 + v)) := one_le_mul_of_one_le_of_one_le o1 (one_le_mul_of_one_le_of_one_le o1 o2)
  have p1 := (h.round.near _).trans o1 (Near.mul g1 g1 m1 m1)
  have g2 := one_le_mul_of_one_le_of_one_le o1 (one_le_mul_of_one_le_of_one_le g1 g1)
  have p2 := (h.round.near _).trans o1 (Near.mul o1 g2 n1 p1)
  unfold Near at p2
  rw [show (1:ℝ) / nfft * (1 / nfft * ‖X‖ * (1 / nfft * ‖X‖)) = ‖X‖ ^ 2 / nfft ^ 3 by ring] at p2
  rw [show (1 + u) * ((1 + u) * ((1 + u) * ((1 + u) * ((1 + u) * (1 + v)) * ((1 + u) * ((1 + u) * (1 + v)))))) =
    (1 + u) ^ 7 * (1 + v) ^ 2 by ring, abs_of_nonneg (by positivity : (0:ℝ) ≤ ‖X‖ ^ 2 / nfft ^ 3)] at p2
  exact p2

/-- C145: the bin that the float run takes for the strongest one is nearly the strongest one of the exact spectrum. -/
theorem C145_nearly (h : Arithmetic u v ω δ fl fft abs wv name l nfft) (hname : WindowName name) (hn : nfft ≠ 0)
    (hg : (1 + u) ^ 7 * (1 + v) ^ 2 < 2) {k : ℕ} (hk : FlDominantBin fl wv fft abs x s nfft i k) {j : ℕ} (hj : j ≤ nfft / 2) :
    ‖frameBin (windowWeight name l) (fun t => x.getD t 0) l s nfft i j‖ ≤
      powerFactor u v * ‖frameBin (windowWeight name l) (fun t => x.getD t 0) l s nfft i k‖ +
        (1 + powerFactor u v) * binError u ω δ (∑ j ∈ Finset.range l, |x.getD (i * s + j) 0|) nfft := by
  have hu := h.round.nonneg
  have hv := h.v0
  have b1 := bin_near (x := x) (s := s) (i := i) h hname hj
  have b2 := bin_near (x := x) (s := s) (i := i) h hname hk.1
  have p1 := abs_le.mp (power_near (x := x) (s := s) (i := i) h j)
  have p2 := abs_le.mp (power_near (x := x) (s := s) (i := i) h k)
  have hp := hk.2.1 j hj
  generalize binError u ω δ (∑ j ∈ Finset.range l, |x.getD (i * s + j) 0|) nfft = E at b1 b2 ⊢
  have hn3 : (0:ℝ) < (nfft : ℝ) ^ 3 := by positivity
  generalize flPower fl wv fft abs x s nfft i j = P at *
  generalize flPower fl wv fft abs x s nfft i k = Q at *
  generalize fft (fun j => fl (x.getD (i * s + j) 0 * wv j)) j = X at *
  generalize fft (fun j => fl (x.getD (i * s + j) 0 * wv j)) k = Y at *
  generalize frameBin (windowWeight name l) (fun t => x.getD t 0) l s nfft i j = Z at *
  generalize frameBin (windowWeight name l) (fun t => x.getD t 0) l s nfft i k = W at *
  unfold powerFactor
  have g1 : (1:ℝ) ≤ (1 + u) ^ 7 * (1 + v) ^ 2 :=
    one_le_mul_of_one_le_of_one_le (one_le_pow₀ (by linarith)) (one_le_pow₀ (by linarith))
  generalize (1 + u) ^ 7 * (1 + v) ^ 2 = g at *
  have hd : 0 < 2 - g := by linarith
  have hH : 1 ≤ g / (2 - g) := by rw [le_div_iff₀ hd]; linarith
  have hsq : ‖X‖ ^ 2 ≤ g / (2 - g) * ‖Y‖ ^ 2 := by
    have h1 : (2 - g) * (‖X‖ ^ 2 / (nfft : ℝ) ^ 3) ≤ g * (‖Y‖ ^ 2 / (nfft : ℝ) ^ 3) := by linarith [p1.1, p2.2]
    rw [← mul_div_assoc, ← mul_div_assoc, div_le_div_iff_of_pos_right hn3] at h1
    rw [div_mul_eq_mul_div, le_div_iff₀ hd]
    linarith
  generalize g / (2 - g) = H at *
  have hXY : ‖X‖ ≤ H * ‖Y‖ := by
    refine le_of_sq_le_sq ?_ (by positivity)
    rw [mul_pow]
    refine hsq.trans (mul_le_mul_of_nonneg_right ?_ (sq_nonneg _))
    nlinarith
  have t1 : ‖Z‖ ≤ ‖X‖ + E := by
    have := norm_sub_norm_le Z X
    rw [norm_sub_rev] at this
    linarith
  have t2 : ‖Y‖ ≤ ‖W‖ + E := by
    have := norm_sub_norm_le Y W
    linarith
  have t3 := mul_le_mul_of_nonneg_left t2 (by linarith : 0 ≤ H)
  linarith

/-- C145: if one bin of the exact spectrum is stronger than all others by more than the rounding bound, every float run
finds it, as the exact computation does. -/
theorem C145_stable (h : Arithmetic u v ω δ fl fft abs wv name l nfft) (hname : WindowName name) (hn : nfft ≠ 0)
    (hg : (1 + u) ^ 7 * (1 + v) ^ 2 < 2) (hfit : i * s + l ≤ x.length) {k₀ : ℕ} (hk₀ : k₀ ≤ nfft / 2)
    (hmargin : ∀ j ≤ nfft / 2, j ≠ k₀ →
      powerFactor u v * ‖frameBin (windowWeight name l) (fun t => x.getD t 0) l s nfft i j‖ +
        (1 + powerFactor u v) * binError u ω δ (∑ j ∈ Finset.range l, |x.getD (i * s + j) 0|) nfft <
      ‖frameBin (windowWeight name l) (fun t => x.getD t 0) l s nfft i k₀‖) :
    (∀ k, FlDominantBin fl wv fft abs x s nfft i k → k = k₀) ∧
    ∃ w, windowVec name l = .ok w ∧ StrongestBin nfft (windowedFrame x w l s i) k₀ := by
  refine ⟨fun k hk => ?_, (List.range l).map (windowWeight name l), C14_window_formula name hname l, hk₀, ?_⟩
  · by_contra hne
    have := C145_nearly h hname hn hg hk hk₀
    linarith [hmargin k hk.1 hne]
  · have hdft : ∀ k, Np.dft (windowedFrame x ((List.range l).map (windowWeight name l)) l s i) nfft k =
        frameBin (windowWeight name l) (fun t => x.getD t 0) l s nfft i k := fun k =>
      dft_frame (by simp) hfit (fun j hj => getD_map_range_lt _ _ hj) (fun t _ => rfl) k
    simp only [hdft]
    have g1 : (1:ℝ) ≤ (1 + u) ^ 7 * (1 + v) ^ 2 :=
      one_le_mul_of_one_le_of_one_le (one_le_pow₀ (by linarith [h.round.nonneg])) (one_le_pow₀ (by linarith [h.v0]))
    have hH : 1 ≤ powerFactor u v := by unfold powerFactor; rw [le_div_iff₀ (by linarith)]; linarith
    have hE : 0 ≤ binError u ω δ (∑ j ∈ Finset.range l, |x.getD (i * s + j) 0|) nfft :=
      (norm_nonneg _).trans (bin_near (x := x) (s := s) (i := i) h hname hk₀)
    have key : ∀ j ≤ nfft / 2, j ≠ k₀ → ‖frameBin (windowWeight name l) (fun t => x.getD t 0) l s nfft i j‖ <
        ‖frameBin (windowWeight name l) (fun t => x.getD t 0) l s nfft i k₀‖ := by
      intro j hj hne
      have h1 := hmargin j hj hne
      have h2 := norm_nonneg (frameBin (windowWeight name l) (fun t => x.getD t 0) l s nfft i j)
      nlinarith
    refine ⟨fun j hj => ?_, fun j hj => key j (by omega) (by omega)⟩
    rcases eq_or_ne j k₀ with rfl | hne
    · exact le_rfl
    · exact (key j hj hne).le

/-- C145 for tones: the condition of C136 with the rounding bound added; every float run finds a bin near the tone. -/
theorem C145_tone (h : Arithmetic u v ω δ fl fft abs wv name l nfft) (hname : WindowName name)
    (hg : (1 + u) ^ 7 * (1 + v) ^ 2 < 2) {fs f A φ m d : ℝ} (hl2 : 2 ≤ l) (hl : l ≤ nfft) (hm : 0 < m) (hf0 : m ≤ f)
    (hf1 : f ≤ fs / 2 - m) (hA : A ≠ 0) (hd : 0 < d)
    (hw : powerFactor u v * (1 / sin (π * d / fs) + 1 / sin (π * m / fs)) +
      2 * ((1 + powerFactor u v) * binError u ω δ l nfft) + 1 / sin (π * m / fs) <
      sin (π * l / (2 * nfft)) / (π * l / (2 * nfft)) * weightSum name l)
    (ht : ∀ t < x.length, x.getD t 0 = A * cos (2 * π * f * t / fs + φ)) (hfit : i * s + l ≤ x.length) {k : ℕ}
    (hk : FlDominantBin fl wv fft abs x s nfft i k) : |trueFreq fs nfft k - f| < d := by
  have g1 : (1:ℝ) ≤ (1 + u) ^ 7 * (1 + v) ^ 2 :=
    one_le_mul_of_one_le_of_one_le (one_le_pow₀ (by linarith [h.round.nonneg])) (one_le_pow₀ (by linarith [h.v0]))
  have hH : 1 ≤ powerFactor u v := by unfold powerFactor; rw [le_div_iff₀ (by linarith)]; linarith
  refine tone_nearly (name := name) (y := fun t => x.getD t 0) (φ := φ) (i := i) (s := s) (H := powerFactor u v)
    (ε := (1 + powerFactor u v) * binError u ω δ l nfft) hl2 hl hm hf0 hf1
    (fun t _ h2 => ht t (by omega)) hA hd (by linarith) hw hk.1 fun j hj => ?_
  refine (C145_nearly h hname (by omega) hg hk hj).trans (add_le_add le_rfl ?_)
  rw [mul_assoc]
  refine mul_le_mul_of_nonneg_left ?_ (by linarith)
  have hS : ∑ j ∈ Finset.range l, |x.getD (i * s + j) 0| ≤ l * |A| := by
    have : ∀ j ∈ Finset.range l, |x.getD (i * s + j) 0| ≤ |A| := by
      intro j hj
      rw [ht _ (by have := Finset.mem_range.mp hj; omega), abs_mul]
      exact mul_le_of_le_one_right (abs_nonneg _) (abs_cos_le_one _)
    refine (Finset.sum_le_sum this).trans ?_
    simp
  unfold binError
  rw [mul_assoc _ (l : ℝ)]
  refine mul_le_mul_of_nonneg_left hS ?_
  have hu := h.round.nonneg
  have hω := h.ω0
  have hδ := h.δ0
  have : 0 ≤ (1 + u) * (1 + ω) - 1 := by nlinarith
  positivity

end

/-- The inverse of an approximate number. -/
theorem near_inv {g a b : ℝ} (h : Near g a b) (hg : g < 2) (hb : b ≠ 0) : Near (1 / (2 - g)) (1 / a) (1 / b) := by
  have hb' := abs_pos.mpr hb
  have hd : 0 < 2 - g := by linarith
  have h1 : (2 - g) * |b| ≤ |a| := by
    have := abs_sub_abs_le_abs_sub b a
    rw [abs_sub_comm] at this
    unfold Near at h
    linarith
  have ha' : 0 < |a| := lt_of_lt_of_le (mul_pos hd hb') h1
  have ha : a ≠ 0 := abs_pos.mp ha'
  unfold Near at *
  have e : 1 / a - 1 / b = -(a - b) / (a * b) := by field_simp; ring
  rw [e, abs_div, abs_neg, abs_mul, abs_div, abs_one, div_le_iff₀ (mul_pos ha' hb')]
  have e2 : (1 / (2 - g) - 1) * (1 / |b|) * (|a| * |b|) = (g - 1) * (|a| / (2 - g)) := by field_simp; ring
  rw [e2]
  have hg1 : 0 ≤ g - 1 := by
    by_contra hc
    have := abs_nonneg (a - b)
    nlinarith
  refine h.trans (mul_le_mul_of_nonneg_left ?_ hg1)
  rw [le_div_iff₀ hd]
  linarith

/-- C145: the number reported for bin `k` in floating point is, up to rounding to thousandths and the errors of seven operations,
the value of the grid. -/
theorem C145_value {u : ℝ} {fl : ℝ → ℝ} (h : Rounding u fl) {fs : ℝ} (hfs : fs ≠ 0) (hg : (1 + u) ^ 2 < 2) (nfft k : ℕ) :
    |flDominantValue fl fs nfft k - gridFreq fs nfft k| ≤
      (1 + u) / 2000 + ((1 + u) ^ 4 / (2 - (1 + u) ^ 2) - 1) * |gridFreq fs nfft k| := by
  have hu := h.nonneg
  have o1 : (1:ℝ) ≤ 1 + u := by linarith
  have hn : ((nfft / 2 + 1 : ℕ) : ℝ) ≠ 0 := by positivity
  obtain ⟨q, hq⟩ : ∃ q : ℝ, q = if 2 * k ≤ nfft / 2 then (k : ℝ) else (k : ℝ) - (nfft / 2 + 1 : ℕ) := ⟨_, rfl⟩
  have hgrid : gridFreq fs nfft k = q * (1 / ((nfft / 2 + 1 : ℕ) * (1 / fs))) := by
    rw [gridFreq, hq]
    split_ifs
    · field_simp
    · field_simp
  have hval : flDominantValue fl fs nfft k =
      fl ((roundHalfEven (fl (fl (q * fl (1 / fl ((nfft / 2 + 1 : ℕ) * fl (1 / fs)))) * 1000)) : ℝ) / 1000) := by
    rw [flDominantValue, hq]
  have a1 := (h.near _).trans o1 (Near.mul le_rfl o1 (Near.refl ((nfft / 2 + 1 : ℕ) : ℝ)) (h.near (1 / fs)))
  rw [one_mul, ← sq] at a1
  have a2 := near_inv a1 hg (mul_ne_zero hn (one_div_ne_zero hfs))
  have a3 := (h.near _).trans o1 a2
  have hd : 0 < 2 - (1 + u) ^ 2 := by linarith
  have g0 : 1 ≤ 1 / (2 - (1 + u) ^ 2) := by rw [le_div_iff₀ hd]; nlinarith
  have g1 := one_le_mul_of_one_le_of_one_le o1 g0
  have a4 := (h.near _).trans o1 (Near.mul le_rfl g1 (Near.refl q) a3)
  rw [hval]
  rw [← hgrid] at a4
  generalize fl (q * fl (1 / fl ((nfft / 2 + 1 : ℕ) * fl (1 / fs)))) = w at a4 ⊢
  generalize gridFreq fs nfft k = G at a4 ⊢
  rw [show (1 + u) * (1 * ((1 + u) * (1 / (2 - (1 + u) ^ 2)))) = (1 + u) ^ 2 / (2 - (1 + u) ^ 2) by ring] at a4
  have hw := a4.abs_le
  unfold Near at a4
  have r1 := h.err (w * 1000)
  have r2 := abs_roundHalfEven_sub (fl (w * 1000))
  have r3 := h.err ((roundHalfEven (fl (w * 1000)) : ℝ) / 1000)
  generalize fl ((roundHalfEven (fl (w * 1000)) : ℝ) / 1000) = R at r3 ⊢
  generalize (roundHalfEven (fl (w * 1000)) : ℝ) = I at r2 r3
  generalize fl (w * 1000) = y at r1 r2
  rw [abs_mul, abs_of_pos (by norm_num : (0:ℝ) < 1000)] at r1
  have e1 : |I / 1000 - w| ≤ 1 / 2000 + u * |w| := by
    have : I / 1000 - w = ((I - y) + (y - w * 1000)) / 1000 := by ring
    rw [this, abs_div, abs_of_pos (by norm_num : (0:ℝ) < 1000), div_le_iff₀ (by norm_num)]
    have := abs_add_le (I - y) (y - w * 1000)
    linarith
  have e2 : |I / 1000| ≤ 1 / 2000 + (1 + u) * |w| := by
    have := abs_sub_abs_le_abs_sub (I / 1000) w
    linarith
  have e3 := mul_le_mul_of_nonneg_left e2 hu
  have e4 : |R - w| ≤ (1 + u) / 2000 + ((1 + u) ^ 2 - 1) * |w| := by
    have := abs_sub_le R (I / 1000) w
    linarith
  have e5 := mul_le_mul_of_nonneg_left hw (by nlinarith : 0 ≤ (1 + u) ^ 2 - 1)
  have e6 := abs_sub_le R w G
  have e7 : ((1 + u) ^ 4 / (2 - (1 + u) ^ 2) - 1) * |G| =
      ((1 + u) ^ 2 - 1) * ((1 + u) ^ 2 / (2 - (1 + u) ^ 2) * |G|) + ((1 + u) ^ 2 / (2 - (1 + u) ^ 2) - 1) * |G| := by ring
  linarith

/-- C145 with the defaults at 16 kHz in `float64` (window values within `10^-15`, an FFT accurate to `10^-14`, `np.abs` within
`2^-52`): for a tone of 200 to 7800 Hz of any amplitude, phase and length, every float run finds in every frame a bin less than
45 Hz from the tone, and the number reported for it is within a thousandth of the grid value. -/
theorem C145_default {fft : (ℕ → ℝ) → ℕ → ℂ} {abs : ℂ → ℝ} {wv : ℕ → ℝ} {x : List ℝ} {i k : ℕ}
    (h : Arithmetic (1 / 2 ^ 53) (2 / 2 ^ 53) (1 / 10 ^ 15) (1 / 10 ^ 14) fl64 fft abs wv "hamming" 400 512)
    {f A φ : ℝ} (hA : A ≠ 0) (h0 : 200 ≤ f) (h1 : f ≤ 7800)
    (ht : ∀ t < x.length, x.getD t 0 = A * cos (2 * π * f * t / 16000 + φ)) (hfit : i * 160 + 400 ≤ x.length)
    (hk : FlDominantBin fl64 wv fft abs x 160 512 i k) :
    |trueFreq 16000 512 k - f| < 45 ∧ |flDominantValue fl64 16000 512 k - gridFreq 16000 512 k| ≤ 1 / 1000 := by
  have hH : powerFactor (1 / 2 ^ 53) (2 / 2 ^ 53) ≤ 1 + 1 / 10 ^ 13 := by
    unfold powerFactor
    rw [div_le_iff₀ (by norm_num)]
    norm_num
  have hH0 : 0 ≤ powerFactor (1 / 2 ^ 53) (2 / 2 ^ 53) := by
    unfold powerFactor
    exact div_nonneg (by positivity) (by norm_num)
  have hs : √((512 : ℕ) : ℝ) ≤ 23 := Real.sqrt_le_iff.mpr ⟨by norm_num, by norm_num⟩
  have hE : binError (1 / 2 ^ 53) (1 / 10 ^ 15) (1 / 10 ^ 14) (400 : ℕ) 512 ≤ 1 / 10 ^ 9 := by
    unfold binError
    have a1 : (1 / 10 ^ 14 * √((512 : ℕ) : ℝ) * ((1 + 1 / 2 ^ 53) * (1 + 1 / 10 ^ 15)) : ℝ) ≤
        1 / 10 ^ 14 * 23 * ((1 + 1 / 2 ^ 53) * (1 + 1 / 10 ^ 15)) := by gcongr
    have a2 : (1 / 10 ^ 14 * 23 * ((1 + 1 / 2 ^ 53) * (1 + 1 / 10 ^ 15)) + ((1 + 1 / 2 ^ 53) * (1 + 1 / 10 ^ 15) - 1) : ℝ) ≤
        1 / 10 ^ 12 := by norm_num
    push_cast at *
    linarith
  have hE0 : 0 ≤ binError (1 / 2 ^ 53) (1 / 10 ^ 15) (1 / 10 ^ 14) (400 : ℕ) 512 := by
    unfold binError
    have : (0:ℝ) ≤ (1 + 1 / 2 ^ 53) * (1 + 1 / 10 ^ 15) - 1 := by norm_num
    positivity
  refine ⟨C145_tone (fs := 16000) (m := 200) (d := 45) h (by simp [WindowName]) (by norm_num) (by norm_num) (by norm_num) (by norm_num) h0
    (by linarith) hA (by norm_num) ?_ ht hfit hk, ?_⟩
  · have hsharp := default_window_margin
    have e : 2 / sin (π * 200 / 16000) = 1 / sin (π * 200 / 16000) + 1 / sin (π * 200 / 16000) := by ring
    rw [e] at hsharp
    have hp1 := pi_gt_d4
    have hp2 := pi_lt_d4
    have h5 := sin_lower (x := π * 45 / 16000) (y := 0.008835) (by norm_num) (by linarith) (by linarith)
    have h6 := sin_lower (x := π * 200 / 16000) (y := 0.039268) (by norm_num) (by linarith) (by linarith)
    have h7 : 1 / sin (π * 45 / 16000) ≤ 1 / 0.008834 := one_div_le_one_div_of_le (by norm_num) (le_trans (by norm_num) h5)
    have h8 : 1 / sin (π * 200 / 16000) ≤ 1 / 0.039257 := one_div_le_one_div_of_le (by norm_num) (le_trans (by norm_num) h6)
    have p7 : 0 ≤ 1 / sin (π * 45 / 16000) := by
      refine one_div_nonneg.mpr (le_trans (by norm_num) h5)
    have p8 : 0 ≤ 1 / sin (π * 200 / 16000) := by
      refine one_div_nonneg.mpr (le_trans (by norm_num) h6)
    refine lt_of_le_of_lt ?_ hsharp
    generalize 1 / sin (π * 45 / 16000) = a at *
    generalize 1 / sin (π * 200 / 16000) = b at *
    generalize powerFactor (1 / 2 ^ 53) (2 / 2 ^ 53) = H at *
    generalize binError (1 / 2 ^ 53) (1 / 10 ^ 15) (1 / 10 ^ 14) (400 : ℕ) 512 = E at *
    have c1 : a + b ≤ 200 := by
      have : (1 / 0.008834 + 1 / 0.039257 : ℝ) ≤ 200 := by norm_num
      linarith
    have c2 : H * (a + b) ≤ (1 + 1 / 10 ^ 13) * (a + b) := mul_le_mul_of_nonneg_right hH (by linarith)
    have c3 : (1 + H) * E ≤ 3 * (1 / 10 ^ 9) := mul_le_mul (by linarith [show (1 / 10 ^ 13 : ℝ) ≤ 1 by norm_num]) hE hE0 (by norm_num)
    have c4 : (1 / 10 ^ 13 : ℝ) * (a + b) ≤ 1 / 10 ^ 13 * 200 := mul_le_mul_of_nonneg_left c1 (by norm_num)
    have c5 : (1 / 10 ^ 13 * 200 + 2 * (3 * (1 / 10 ^ 9)) : ℝ) ≤ 1 := by norm_num
    linarith
  · refine (C145_value C130_binary64.1 (by norm_num) (by norm_num) 512 k).trans ?_
    have hG : |gridFreq 16000 512 k| ≤ 16000 := by
      have hk1 : k ≤ 256 := hk.1
      have hk2 : (k : ℝ) ≤ 256 := by exact_mod_cast hk1
      have hk0 : (0 : ℝ) ≤ k := by positivity
      unfold gridFreq
      split_ifs
      · push_cast; norm_num; rw [abs_le]; constructor <;> linarith
      · push_cast; norm_num; rw [abs_le]; constructor <;> linarith
    have c : ((1 + 1 / 2 ^ 53 : ℝ) ^ 4 / (2 - (1 + 1 / 2 ^ 53) ^ 2) - 1) ≤ 1 / 10 ^ 14 := by norm_num
    have c0 : 0 ≤ ((1 + 1 / 2 ^ 53 : ℝ) ^ 4 / (2 - (1 + 1 / 2 ^ 53) ^ 2) - 1) := by norm_num
    refine (add_le_add le_rfl (mul_le_mul c hG (abs_nonneg _) (by norm_num))).trans (by norm_num)

/-- Every frame has a float run. -/
theorem flDominantBin_exists (fl : ℝ → ℝ) (wv : ℕ → ℝ) (fft : (ℕ → ℝ) → ℕ → ℂ) (abs : ℂ → ℝ) (x : List ℝ) (s nfft i : ℕ) :
    ∃ k, FlDominantBin fl wv fft abs x s nfft i k := by
  obtain ⟨h1, h2, h3⟩ := argmax_spec ((List.range (nfft / 2 + 1)).map (flPower fl wv fft abs x s nfft i)) (by simp)
  generalize Np.argmax ((List.range (nfft / 2 + 1)).map (flPower fl wv fft abs x s nfft i)) = k at h1 h2 h3
  simp only [List.length_map, List.length_range] at h1 h2
  refine ⟨k, by omega, fun j hj => ?_, fun j hj => ?_⟩
  · have := h2 j (by omega)
    rwa [getD_map_range_lt _ _ h1, getD_map_range_lt _ _ (by omega)] at this
  · have := h3 j hj
    rwa [getD_map_range_lt _ _ h1, getD_map_range_lt _ _ (by omega)] at this

/-- A `float64` run for a tone of 2000 Hz with an exact FFT: the first frame is found within 45 Hz. -/
example : ∃ k, FlDominantBin fl64 (windowWeight "hamming" 400) (fun z k => frameBin (fun _ => 1) z 400 0 512 0 k) (fun z => ‖z‖)
    tone2000 160 512 0 k ∧ |trueFreq 16000 512 k - 2000| < 45 := by
  obtain ⟨k, hk⟩ := flDominantBin_exists fl64 (windowWeight "hamming" 400) (fun z k => frameBin (fun _ => 1) z 400 0 512 0 k)
    (fun z => ‖z‖) tone2000 160 512 0
  refine ⟨k, hk, (C145_default (A := 3) (f := 2000) (φ := 1) ⟨C130_binary64.1, by norm_num, by norm_num, by norm_num, ?_, ?_, ?_⟩ (by norm_num)
    (by norm_num) (by norm_num) tone2000_spec (by simp [tone2000]) hk).1⟩
  · intro z; simp
  · intro j _; simp
  · intro z
    simp only [sub_self, norm_zero]
    norm_num
    exact Finset.sum_nonneg fun _ _ => sq_nonneg _

end Props
end Spafe
