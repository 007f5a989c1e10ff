import Verif.Lemmas.Leakage
import Verif.Props.SpecMeaning
import Verif.Props.Dominant

/-! C135 and C136: what the spectrogram functions and `get_dominant_frequencies` make of a pure tone. -/

set_option linter.unusedSectionVars false

namespace Spafe
namespace Props
open Model XF Spec Real

/-- From sample `a` to sample `b` (excluded), `y` is a tone of frequency `f` Hz at the sampling rate `fs`. -/
def IsTone (y : ℕ → ℝ) (fs f A φ : ℝ) (a b : ℕ) : Prop := ∀ t, a ≤ t → t < b → y t = A * cos (2 * π * f * t / fs + φ)

/-- The DFT of a frame of a tone: the transform of the window at the two distances from the bin. -/
theorem tone_bin {w y : ℕ → ℝ} {fs f A φ : ℝ} {l s nfft i : ℕ} (hfs : fs ≠ 0) (hl : l ≤ nfft) (hn : nfft ≠ 0)
    (hy : IsTone y fs f A φ (i * s) (i * s + l)) (k : ℕ) :
    ∃ u v : ℂ, ‖u‖ = 1 ∧ ‖v‖ = 1 ∧ frameBin w y l s nfft i k = (A / 2 : ℝ) *
      (u * windowTransform w l (2 * (π * ((f - k * fs / nfft) / fs))) +
        v * windowTransform w l (-(2 * (π * ((f + k * fs / nfft) / fs))))) := by
  have hn' : (nfft : ℂ) ≠ 0 := by exact_mod_cast hn
  have hfs' : (fs : ℂ) ≠ 0 := by exact_mod_cast hfs
  refine ⟨Complex.exp (((2 * π * f * (i * s : ℕ) / fs + φ : ℝ) : ℂ) * Complex.I),
    Complex.exp (((-(2 * π * f * (i * s : ℕ) / fs + φ) : ℝ) : ℂ) * Complex.I), Complex.norm_exp_ofReal_mul_I _,
    Complex.norm_exp_ofReal_mul_I _, ?_⟩
  unfold frameBin windowTransform
  rw [min_eq_left hl, Finset.mul_sum, Finset.mul_sum, ← Finset.sum_add_distrib, Finset.mul_sum]
  refine Finset.sum_congr rfl fun j hj => ?_
  rw [hy (i * s + j) (by omega) (by have := Finset.mem_range.mp hj; omega)]
  push_cast
  rw [Complex.cos]
  have e1 : Complex.exp ((2 * π * f * ((i : ℂ) * s + j) / fs + φ) * Complex.I) * Complex.exp (-(2 * π * Complex.I * (j * k) / nfft)) =
      Complex.exp ((2 * π * f * ((i : ℂ) * s) / fs + φ) * Complex.I) *
        Complex.exp (2 * (π * ((f - k * fs / nfft) / fs)) * j * Complex.I) := by
    rw [← Complex.exp_add, ← Complex.exp_add]
    congr 1
    field_simp
    ring
  have e2 : Complex.exp (-(2 * π * f * ((i : ℂ) * s + j) / fs + φ) * Complex.I) * Complex.exp (-(2 * π * Complex.I * (j * k) / nfft)) =
      Complex.exp (-(2 * π * f * ((i : ℂ) * s) / fs + φ) * Complex.I) *
        Complex.exp (-(2 * (π * ((f + k * fs / nfft) / fs))) * j * Complex.I) := by
    rw [← Complex.exp_add, ← Complex.exp_add]
    congr 1
    field_simp
    ring
  linear_combination (w j * A / 2 : ℂ) * e1 + (w j * A / 2 : ℂ) * e2

/-- The frequency of a bin of the real transform. -/
theorem bin_freq {fs : ℝ} {nfft k : ℕ} (hfs : 0 < fs) (hn : 0 < nfft) (hk : k ≤ nfft / 2) :
    0 ≤ k * fs / nfft ∧ k * fs / nfft ≤ fs / 2 := by
  have hn' : (0 : ℝ) < nfft := by exact_mod_cast hn
  refine ⟨by positivity, ?_⟩
  have : (k : ℝ) ≤ nfft / 2 := by
    have : ((2 * k : ℕ) : ℝ) ≤ nfft := by exact_mod_cast (by omega : 2 * k ≤ nfft)
    push_cast at this; linarith
  rw [div_le_div_iff₀ hn' two_pos]
  nlinarith

/-- Bins away from the tone: `|X_k|` is at most `|A| / 2 (1 / |sin (π (f - f_k) / fs)| + 1 / sin (π m / fs))`, where `m` is the
distance of the tone from 0 and from `fs / 2`, whatever the window and its length. -/
theorem tone_leakage {name : String} {y : ℕ → ℝ} {fs f A φ m : ℝ} {l s nfft i k : ℕ} (hl2 : 2 ≤ l) (hl : l ≤ nfft)
    (hm : 0 < m) (hf0 : m ≤ f) (hf1 : f ≤ fs / 2 - m) (hy : IsTone y fs f A φ (i * s) (i * s + l)) (hk : k ≤ nfft / 2)
    (hne : f ≠ k * fs / nfft) :
    ‖frameBin (windowWeight name l) y l s nfft i k‖ ≤
      |A| / 2 * (1 / |sin (π * (f - k * fs / nfft) / fs)| + 1 / sin (π * m / fs)) := by
  have hfs : 0 < fs := by linarith
  obtain ⟨hk0, hk1⟩ := bin_freq hfs (by omega) hk
  obtain ⟨u, v, hu, hv, he⟩ := tone_bin (w := windowWeight name l) hfs.ne' hl (by omega) hy k
  rw [he, norm_mul, Complex.norm_real, Real.norm_eq_abs, abs_div, abs_two]
  exact mul_le_mul_of_nonneg_left (pair_le hl2 hm hf0 hf1 hk0 hk1 hu hv hne) (by positivity)

/-- The bin next to the tone: `|X_k|` is at least `|A| / 2 (sin x / x Σ w - 1 / sin (π m / fs))` with `x = π l d / fs`, for
`|f - f_k| ≤ d`. -/
theorem tone_peak {name : String} {y : ℕ → ℝ} {fs f A φ m d : ℝ} {l s nfft i k : ℕ} (hl2 : 2 ≤ l) (hl : l ≤ nfft)
    (hm : 0 < m) (hf0 : m ≤ f) (hf1 : f ≤ fs / 2 - m) (hy : IsTone y fs f A φ (i * s) (i * s + l)) (hk : k ≤ nfft / 2)
    (hd0 : 0 < d) (hd : |f - k * fs / nfft| ≤ d) (hdl : l * d ≤ fs) :
    |A| / 2 * (sin (π * l * d / fs) / (π * l * d / fs) * (∑ j ∈ Finset.range l, windowWeight name l j) - 1 / sin (π * m / fs)) ≤
      ‖frameBin (windowWeight name l) y l s nfft i k‖ := by
  have hfs : 0 < fs := by linarith
  obtain ⟨hk0, hk1⟩ := bin_freq hfs (by omega) hk
  obtain ⟨u, v, hu, hv, he⟩ := tone_bin (w := windowWeight name l) hfs.ne' hl (by omega) hy k
  rw [he, norm_mul, Complex.norm_real, Real.norm_eq_abs, abs_div, abs_two]
  exact mul_le_mul_of_nonneg_left (pair_ge hl2 hm hf0 hf1 hk0 hk1 hu hv hd0 hd hdl) (by positivity)

/-- A bin that is nearly the strongest one lies within `δ` of the tone. -/
theorem tone_nearly {name : String} {y : ℕ → ℝ} {fs f A φ m δ H ε : ℝ} {l s nfft i : ℕ} (hl2 : 2 ≤ l) (hl : l ≤ nfft)
    (hm : 0 < m) (hf0 : m ≤ f) (hf1 : f ≤ fs / 2 - m) (hy : IsTone y fs f A φ (i * s) (i * s + l)) (hA : A ≠ 0) (hδ : 0 < δ)
    (hH : 0 ≤ H) (hw : H * (1 / sin (π * δ / fs) + 1 / sin (π * m / fs)) + 2 * ε + 1 / sin (π * m / fs) <
      sin (π * l / (2 * nfft)) / (π * l / (2 * nfft)) * ∑ j ∈ Finset.range l, windowWeight name l j)
    {k : ℕ} (hk : k ≤ nfft / 2) (hmax : ∀ j ≤ nfft / 2, ‖frameBin (windowWeight name l) y l s nfft i j‖ ≤
      H * ‖frameBin (windowWeight name l) y l s nfft i k‖ + ε * |A|) : |k * fs / nfft - f| < δ := by
  by_contra hc
  rw [not_lt, abs_sub_comm] at hc
  have hfs : 0 < fs := by linarith
  have hn' : (0 : ℝ) < nfft := by exact_mod_cast (by omega : 0 < nfft)
  have hln : (l : ℝ) ≤ nfft := by exact_mod_cast hl
  have hA' := abs_pos.mpr hA
  have hne : f ≠ k * fs / nfft := by
    intro h
    rw [h, sub_self, abs_zero] at hc
    linarith
  have h1 := tone_leakage (name := name) (k := k) hl2 hl hm hf0 hf1 hy hk hne
  -- the nearest bin
  have hx0 : 0 ≤ f * nfft / fs + 1 / 2 := by
    have : 0 < f := by linarith
    positivity
  obtain ⟨k0, hk0⟩ : ∃ k0, k0 = ⌊f * nfft / fs + 1 / 2⌋₊ := ⟨_, rfl⟩
  have hlo : (k0 : ℝ) ≤ f * nfft / fs + 1 / 2 := by rw [hk0]; exact Nat.floor_le hx0
  have hhi : f * nfft / fs + 1 / 2 < k0 + 1 := by rw [hk0]; exact Nat.lt_floor_add_one _
  have hd : |f - k0 * fs / nfft| ≤ fs / (2 * nfft) := by
    have e : f - k0 * fs / nfft = (f * nfft / fs - k0) * (fs / nfft) := by field_simp
    rw [e, abs_mul, abs_of_pos (by positivity : 0 < fs / (nfft : ℝ))]
    calc |f * nfft / fs - k0| * (fs / nfft) ≤ 1 / 2 * (fs / nfft) := by
          refine mul_le_mul_of_nonneg_right ?_ (by positivity)
          rw [abs_le]
          constructor <;> linarith
      _ = _ := by ring
  have hk0n : k0 ≤ nfft / 2 := by
    have : (k0 : ℝ) < nfft / 2 + 1 / 2 := by
      have : f * nfft / fs < nfft / 2 := by
        rw [div_lt_div_iff₀ hfs two_pos]
        nlinarith
      linarith
    have : ((2 * k0 : ℕ) : ℝ) < ((nfft + 1 : ℕ) : ℝ) := by push_cast; linarith
    have := Nat.cast_lt.mp this
    omega
  have h2 := tone_peak (name := name) (k := k0) hl2 hl hm hf0 hf1 hy hk0n (by positivity) hd (by
    rw [mul_div_assoc', div_le_iff₀ (by positivity)]
    nlinarith)
  have e : π * (l : ℝ) * (fs / (2 * nfft)) / fs = π * l / (2 * nfft) := by field_simp
  rw [e] at h2
  obtain ⟨hb0, hb1⟩ := bin_freq hfs (by omega) hk
  have h4 : 1 / |sin (π * (f - k * fs / nfft) / fs)| ≤ 1 / sin (π * δ / fs) := by
    obtain ⟨c1, c2⟩ := abs_sin_ge (x := (f - k * fs / nfft) / fs) (d := δ / fs) (by positivity)
      (by rw [abs_div, abs_of_pos hfs]; exact div_le_div_of_nonneg_right hc hfs.le)
      (by rw [abs_div, abs_of_pos hfs, div_le_iff₀ hfs, abs_le]; constructor <;> linarith)
    rw [mul_div_assoc π δ, mul_div_assoc]
    exact one_div_le_one_div_of_le c1 c2
  have h5 : |A| / 2 * (1 / |sin (π * (f - k * fs / nfft) / fs)| + 1 / sin (π * m / fs)) ≤
      |A| / 2 * (1 / sin (π * δ / fs) + 1 / sin (π * m / fs)) :=
    mul_le_mul_of_nonneg_left (add_le_add h4 le_rfl) (by positivity)
  have h6 := mul_le_mul_of_nonneg_left (h1.trans h5) hH
  have h3 := h2.trans ((hmax k0 hk0n).trans (add_le_add h6 le_rfl))
  have e2 : H * (|A| / 2 * (1 / sin (π * δ / fs) + 1 / sin (π * m / fs))) + ε * |A| =
      |A| / 2 * (H * (1 / sin (π * δ / fs) + 1 / sin (π * m / fs)) + 2 * ε) := by ring
  rw [e2] at h3
  have h7 := le_of_mul_le_mul_left h3 (by positivity)
  linarith

/-- The strongest bin lies within `δ` of the tone. -/
theorem tone_strongest {name : String} {y : ℕ → ℝ} {fs f A φ m δ : ℝ} {l s nfft i : ℕ} (hl2 : 2 ≤ l) (hl : l ≤ nfft)
    (hm : 0 < m) (hf0 : m ≤ f) (hf1 : f ≤ fs / 2 - m) (hy : IsTone y fs f A φ (i * s) (i * s + l)) (hA : A ≠ 0) (hδ : 0 < δ)
    (hw : 1 / sin (π * δ / fs) + 2 / sin (π * m / fs) <
      sin (π * l / (2 * nfft)) / (π * l / (2 * nfft)) * ∑ j ∈ Finset.range l, windowWeight name l j)
    {k : ℕ} (hk : k ≤ nfft / 2) (hmax : ∀ j ≤ nfft / 2, ‖frameBin (windowWeight name l) y l s nfft i j‖ ≤
      ‖frameBin (windowWeight name l) y l s nfft i k‖) : |k * fs / nfft - f| < δ := by
  refine tone_nearly (name := name) (H := 1) (ε := 0) hl2 hl hm hf0 hf1 hy hA hδ zero_le_one ?_ hk fun j hj => ?_
  · have : 2 / sin (π * m / fs) = 1 / sin (π * m / fs) + 1 / sin (π * m / fs) := by ring
    linarith
  · simpa using hmax j hj

/-! ### The spectrogram functions -/

/-- The factor by which pre-emphasis with coefficient `c` changes the amplitude of a tone. -/
noncomputable def emphGain (on : Bool) (c fs f : ℝ) : ℝ :=
  if on then ‖1 - (c : ℂ) * Complex.exp (((-(2 * π * f / fs) : ℝ) : ℂ) * Complex.I)‖ else 1

theorem emphGain_pos (on : Bool) (c : ℝ) {fs f : ℝ} (h0 : 0 < f) (h1 : f < fs / 2) : 0 < emphGain on c fs f := by
  unfold emphGain
  split_ifs
  · rw [norm_pos_iff]
    intro h
    have h2 := congrArg Complex.im h
    have h3 := congrArg Complex.re h
    rw [Complex.sub_im, Complex.one_im, Complex.im_ofReal_mul, Complex.exp_ofReal_mul_I_im, Complex.zero_im, sin_neg] at h2
    rw [Complex.sub_re, Complex.one_re, Complex.re_ofReal_mul, Complex.exp_ofReal_mul_I_re, Complex.zero_re] at h3
    have hs : 0 < sin (2 * π * f / fs) := by
      have hfs : 0 < fs := by linarith
      refine sin_pos_of_pos_of_lt_pi (by positivity) ?_
      rw [div_lt_iff₀ hfs]
      nlinarith [pi_pos]
    have hc : c = 0 := by
      have : c * sin (2 * π * f / fs) = 0 := by linarith
      exact (mul_eq_zero.mp this).resolve_right hs.ne'
    rw [hc] at h3
    norm_num at h3
  · exact one_pos

/-- Pre-emphasis makes a tone of a tone, from the second sample on. -/
theorem emphasised_tone {sig : List ℝ} {fs f A φ : ℝ} (on : Bool) (c : ℝ)
    (h : IsTone (fun t => sig.getD t 0) fs f A φ 0 sig.length) :
    ∃ ψ, IsTone (emphasised on c sig) fs f (A * emphGain on c fs f) ψ (if on then 1 else 0) sig.length := by
  cases on with
  | false =>
    refine ⟨φ, fun t _ ht => ?_⟩
    simp only [emphasised, emphGain, Bool.false_eq_true, if_false, mul_one]
    exact h t (Nat.zero_le t) ht
  | true =>
    obtain ⟨z, hz⟩ : ∃ z : ℂ, z = 1 - (c : ℂ) * Complex.exp (((-(2 * π * f / fs) : ℝ) : ℂ) * Complex.I) := ⟨_, rfl⟩
    refine ⟨φ + z.arg, fun t h1 ht => ?_⟩
    simp only [if_true] at h1
    have ha := h t (Nat.zero_le t) ht
    have hb := h (t - 1) (Nat.zero_le _) (by omega)
    beta_reduce at ha hb
    simp only [emphasised, emphGain, if_true]
    rw [if_neg (by omega), ha, hb, ← hz]
    have e1 : ‖z‖ * cos (2 * π * f * t / fs + (φ + z.arg)) =
        (z * Complex.exp (((2 * π * f * t / fs + φ : ℝ) : ℂ) * Complex.I)).re := by
      conv_rhs => rw [← Complex.norm_mul_exp_arg_mul_I z]
      rw [mul_assoc (‖z‖ : ℂ), ← Complex.exp_add, ← add_mul, ← Complex.ofReal_add, Complex.re_ofReal_mul, Complex.exp_ofReal_mul_I_re]
      congr 2
      ring
    rw [mul_assoc A, e1, hz, sub_mul, one_mul, mul_assoc (c : ℂ), ← Complex.exp_add, ← add_mul, ← Complex.ofReal_add, Complex.sub_re,
      Complex.re_ofReal_mul, Complex.exp_ofReal_mul_I_re, Complex.exp_ofReal_mul_I_re]
    have e2 : 2 * π * f * ((t - 1 : ℕ) : ℝ) / fs + φ = -(2 * π * f / fs) + (2 * π * f * t / fs + φ) := by
      rw [Nat.cast_sub h1]
      push_cast
      ring
    rw [e2]
    ring

/-- The rows from `first` on of the magnitudes `M` are spectra of a tone of amplitude `B` and frequency `f`, at a distance of at
least `m` from 0 and `fs / 2`: small away from the tone, large next to it. -/
def ToneSpectrum (M : List (List ℝ)) (first R nfft l : ℕ) (sumW fs f B m : ℝ) : Prop :=
  ∀ i, first ≤ i → i < R → ∀ k ≤ nfft / 2,
    (f ≠ k * fs / nfft → (M.getD i []).getD k 0 ≤ B / 2 * (1 / |sin (π * (f - k * fs / nfft) / fs)| + 1 / sin (π * m / fs))) ∧
    ∀ d, 0 < d → |f - k * fs / nfft| ≤ d → l * d ≤ fs →
      B / 2 * (sin (π * l * d / fs) / (π * l * d / fs) * sumW - 1 / sin (π * m / fs)) ≤ (M.getD i []).getD k 0

/-- In every row from `first` on, a bin with the largest magnitude is closer than `δ` Hz to `f`. -/
def PeakNear (M : List (List ℝ)) (first R nfft : ℕ) (fs f δ : ℝ) : Prop :=
  ∀ i, first ≤ i → i < R → ∀ k ≤ nfft / 2, (∀ j ≤ nfft / 2, (M.getD i []).getD j 0 ≤ (M.getD i []).getD k 0) →
    |k * fs / nfft - f| < δ

/-- The sum of the weights of a window. -/
noncomputable def weightSum (name : String) (l : ℕ) : ℝ := ∑ j ∈ Finset.range l, windowWeight name l j

theorem spectrogram_tone {out : XMat × List (List ℝ)} {N nfft : ℕ} {W : ℕ → ℕ → ℝ} {name : String} {on : Bool} {c : ℝ}
    {sig : List ℝ} {l s : ℕ} {fs f A φ m : ℝ}
    (ho : IsSpectrogram out ((sig.length - l) / s + 1) N nfft W (windowWeight name l) (emphasised on c sig) l s) (hs : 0 < s)
    (hlen : l ≤ sig.length) (hl2 : 2 ≤ l) (hl : l ≤ nfft) (hm : 0 < m) (hf0 : m ≤ f) (hf1 : f ≤ fs / 2 - m)
    (h : IsTone (fun t => sig.getD t 0) fs f A φ 0 sig.length) :
    ToneSpectrum out.2 (if on then 1 else 0) ((sig.length - l) / s + 1) nfft l (weightSum name l) fs f
      (|A| * emphGain on c fs f) m ∧
    ∀ δ, 0 < δ → A ≠ 0 → 1 / sin (π * δ / fs) + 2 / sin (π * m / fs) <
        sin (π * l / (2 * nfft)) / (π * l / (2 * nfft)) * weightSum name l →
      PeakNear out.2 (if on then 1 else 0) ((sig.length - l) / s + 1) nfft fs f δ := by
  obtain ⟨ψ, hψ⟩ := emphasised_tone on c h
  obtain ⟨-, -, hent⟩ := ho
  have hg := emphGain_pos on c (fs := fs) (f := f) (by linarith) (by linarith)
  have hB : |A * emphGain on c fs f| = |A| * emphGain on c fs f := by rw [abs_mul, abs_of_pos hg]
  have hframe : ∀ i, (if on then 1 else 0) ≤ i → i < (sig.length - l) / s + 1 →
      IsTone (emphasised on c sig) fs f (A * emphGain on c fs f) ψ (i * s) (i * s + l) := by
    intro i hi1 hi2 t ht1 ht2
    have h1 := (Nat.le_div_iff_mul_le hs).mp (Nat.lt_succ_iff.mp hi2)
    refine hψ t ?_ (by omega)
    have : i ≤ i * s := Nat.le_mul_of_pos_right i hs
    omega
  constructor
  · intro i hi1 hi2 k hk
    rw [(hent i hi2).2 k (by omega), ← hB]
    exact ⟨fun hne => tone_leakage hl2 hl hm hf0 hf1 (hframe i hi1 hi2) hk hne,
      fun d hd0 hd hdl => tone_peak hl2 hl hm hf0 hf1 (hframe i hi1 hi2) hk hd0 hd hdl⟩
  · intro δ hδ hA hw i hi1 hi2 k hk hmax
    refine tone_strongest hl2 hl hm hf0 hf1 (hframe i hi1 hi2) (mul_ne_zero hA hg.ne') hδ hw hk fun j hj => ?_
    rw [← (hent i hi2).2 k (by omega), ← (hent i hi2).2 j (by omega)]
    exact hmax j hj

/-- The signal is a tone of frequency `f`, `m ≤ f ≤ fs / 2 - m`, and the frames fit in the transform. -/
structure ToneInput (a : Args) (sig : List ℝ) (l : ℕ) (f A φ m : ℝ) : Prop where
  two : 2 ≤ l
  fits : l ≤ a.nfft
  pos : 0 < m
  low : m ≤ f
  high : f ≤ a.fs / 2 - m
  tone : IsTone (fun t => sig.getD t 0) a.fs f A φ 0 sig.length

/-- The magnitudes returned for a tone: `ToneSpectrum`, and the peak within `δ` if the window is long enough. The first frame
is left out with pre-emphasis (the sample before the signal is not a sample of the tone). -/
def ToneOutput (a : Args) (c : ℝ) (sig : List ℝ) (l s : ℕ) (f A m : ℝ) (M : List (List ℝ)) : Prop :=
  ToneSpectrum M (if a.preEmph then 1 else 0) ((sig.length - l) / s + 1) a.nfft l (weightSum a.win.winType l) a.fs f
    (|A| * emphGain a.preEmph c a.fs f) m ∧
  ∀ δ, 0 < δ → A ≠ 0 → 1 / sin (π * δ / a.fs) + 2 / sin (π * m / a.fs) <
      sin (π * l / (2 * a.nfft)) / (π * l / (2 * a.nfft)) * weightSum a.win.winType l →
    PeakNear M (if a.preEmph then 1 else 0) ((sig.length - l) / s + 1) a.nfft a.fs f δ

/-- C135 for `mel_spectrogram`. -/
theorem C135_mel (a : Args) (sig : List ℝ) (l s : ℕ) (h : Auto a sig l s) (high : ℝ) (w : ℕ → ℕ → ℝ)
    (hb : Band a high w) (c d : ℝ) (hm : MelConst a.approach c d) {f A φ m : ℝ} (ht : ToneInput a sig l f A φ m) :
    ∃ out, melSpectrogram a sig = .ok out ∧ ToneOutput a a.preEmphCoeff sig l s f A m out.2 := by
  obtain ⟨out, h1, h2⟩ := C113_mel a sig l s h high w hb c d hm
  exact ⟨out, h1, spectrogram_tone h2 h.pos h.long ht.two ht.fits ht.pos ht.low ht.high ht.tone⟩

/-- C135 for `linear_spectrogram`. -/
theorem C135_linear (a : Args) (sig : List ℝ) (l s : ℕ) (h : Auto a sig l s) (high : ℝ) (w : ℕ → ℕ → ℝ)
    (hb : Band a high w) {f A φ m : ℝ} (ht : ToneInput a sig l f A φ m) :
    ∃ out, linearSpectrogram a sig = .ok out ∧ ToneOutput a 0.97 sig l s f A m out.2 := by
  obtain ⟨out, h1, h2⟩ := C113_linear a sig l s h high w hb
  exact ⟨out, h1, spectrogram_tone h2 h.pos h.long ht.two ht.fits ht.pos ht.low ht.high ht.tone⟩

/-- C135 for `bark_spectrogram`. -/
theorem C135_bark (a : Args) (sig : List ℝ) (l s : ℕ) (h : Auto a sig l s) (high : ℝ) (w : ℕ → ℕ → ℝ)
    (hb : Band a high w) (B : ℝ → ℝ) (hB : BarkScale a.approach B) {f A φ m : ℝ} (ht : ToneInput a sig l f A φ m) :
    ∃ out, barkSpectrogram a sig = .ok out ∧ ToneOutput a 0.97 sig l s f A m out.2 := by
  obtain ⟨out, h1, h2⟩ := C113_bark a sig l s h high w hb B hB
  exact ⟨out, h1, spectrogram_tone h2 h.pos h.long ht.two ht.fits ht.pos ht.low ht.high ht.tone⟩

/-- C135 for `erb_spectrogram`. -/
theorem C135_erb (a : Args) (sig : List ℝ) (l s : ℕ) (h : Auto a sig l s) (high : ℝ) (w : ℕ → ℕ → ℝ)
    (hb : Band a high w) (hnf : 3 ≤ a.nfft) {f A φ m : ℝ} (ht : ToneInput a sig l f A φ m) :
    ∃ out, erbSpectrogram a sig = .ok out ∧ ToneOutput a 0.97 sig l s f A m out.2 := by
  obtain ⟨M, out, -, h1, h2⟩ := C113_erb a sig l s h high w hb hnf
  exact ⟨out, h1, spectrogram_tone h2 h.pos h.long ht.two ht.fits ht.pos ht.low ht.high ht.tone⟩

theorem sin_lower {x y : ℝ} (hy : 0 < y) (hxy : y ≤ x) (hx : x ≤ 1) : y - y ^ 3 / 6 ≤ sin x := by
  have h1 : y - y ^ 3 / 6 < sin y := sin_gt_sub_cube hy
  have h2 : sin y ≤ sin x := sin_le_sin_of_le_of_le_pi_div_two (by linarith [pi_pos]) (by linarith [pi_gt_three]) hxy
  linarith

/-- With the default window (25 ms Hamming, 16 kHz, 512-point transform) the condition on the window holds for 45 Hz and tones
at least 200 Hz away from 0 and 8000 Hz. -/
theorem default_window_margin : 1 / sin (π * 45 / 16000) + 2 / sin (π * 200 / 16000) + 1 <
    sin (π * (400 : ℕ) / (2 * (512 : ℕ))) / (π * (400 : ℕ) / (2 * (512 : ℕ))) * weightSum "hamming" 400 := by
  have h1 : weightSum "hamming" 400 = 215.54 := by
    unfold weightSum
    rw [show (400 : ℕ) = 399 + 1 from rfl, hamming_sum (by norm_num)]
    norm_num
  have hp1 := pi_gt_d4
  have hp2 := pi_lt_d4
  have h2 : sin (π * (400 : ℕ) / (2 * (512 : ℕ))) = cos (112 * π / 1024) := by
    rw [← cos_pi_div_two_sub]
    congr 1
    push_cast
    ring
  have h3 : 1 - (112 * π / 1024) ^ 2 / 2 ≤ cos (112 * π / 1024) := one_sub_sq_div_two_le_cos
  have h4 : (112 * π / 1024) ^ 2 ≤ 0.34362 ^ 2 := pow_le_pow_left₀ (by positivity) (by linarith) 2
  have h5 := sin_lower (x := π * 45 / 16000) (y := 0.008835) (by norm_num) (by linarith) (by linarith)
  have h6 := sin_lower (x := π * 200 / 16000) (y := 0.039268) (by norm_num) (by linarith) (by linarith)
  have h7 : 1 / sin (π * 45 / 16000) ≤ 1 / 0.008834 := one_div_le_one_div_of_le (by norm_num) (le_trans (by norm_num) h5)
  have h8 : 2 / sin (π * 200 / 16000) ≤ 2 / 0.039257 := div_le_div_of_nonneg_left (by norm_num) (by norm_num) (le_trans (by norm_num) h6)
  have h9 : (0.9409 : ℝ) / 1.2273 ≤ sin (π * (400 : ℕ) / (2 * (512 : ℕ))) / (π * (400 : ℕ) / (2 * (512 : ℕ))) := by
    rw [h2]
    refine div_le_div₀ ?_ ?_ (by positivity) ?_
    · exact le_trans (by norm_num : (0 : ℝ) ≤ 1 - 0.34362 ^ 2 / 2) (by linarith)
    · exact le_trans (by norm_num : (0.9409 : ℝ) ≤ 1 - 0.34362 ^ 2 / 2) (by linarith)
    · push_cast
      linarith
  rw [h1]
  calc _ ≤ (1 : ℝ) / 0.008834 + 2 / 0.039257 + 1 := add_le_add (add_le_add h7 h8) le_rfl
    _ < 0.9409 / 1.2273 * 215.54 := by norm_num
    _ ≤ _ := mul_le_mul_of_nonneg_right h9 (by norm_num)

theorem default_window_sharp : 1 / sin (π * 45 / 16000) + 2 / sin (π * 200 / 16000) <
    sin (π * (400 : ℕ) / (2 * (512 : ℕ))) / (π * (400 : ℕ) / (2 * (512 : ℕ))) * weightSum "hamming" 400 := by
  linarith [default_window_margin]

/-- C135 with the defaults at 16 kHz: for a tone of 200 to 7800 Hz, any amplitude and phase, the strongest FFT bin that
`mel_spectrogram` returns is less than 45 Hz from the tone in every frame (from the second on with pre-emphasis). -/
theorem C135_default (sig : List ℝ) (hlen : 400 ≤ sig.length) {f A φ : ℝ} (hA : A ≠ 0) (h0 : 200 ≤ f) (h1 : f ≤ 7800)
    (on : Bool) (ht : ∀ t < sig.length, sig.getD t 0 = A * cos (2 * π * f * t / 16000 + φ)) :
    ∃ out, melSpectrogram { preEmph := on } sig = .ok out ∧
      ∀ i, (on = true → 1 ≤ i) → i < (sig.length - 400) / 160 + 1 → ∀ k ≤ 256,
        (∀ j ≤ 256, (out.2.getD i []).getD j 0 ≤ (out.2.getD i []).getD k 0) → |k * 31.25 - f| < 45 := by
  have hd := default_auto sig hlen
  have hb := default_bank_band
  obtain ⟨out, h2, h3⟩ := C135_mel { preEmph := on } sig 400 160
    ⟨hd.bank, hd.filters, hd.ceps, hd.nfft, hd.window, hd.hopLe, hd.len, hd.hop, hd.pos, hd.long, fun _ => hd.samples rfl⟩ 8000 _
    ⟨hb.scale, hb.eff, hb.low0, hb.lt, hb.le⟩ 2595 700 MelConst.oshaghnessy (f := f) (A := A) (φ := φ) (m := 200)
    ⟨by norm_num, by norm_num, by norm_num, h0, by simp only []; linarith, fun t _ h => ht t h⟩
  refine ⟨out, h2, fun i hi1 hi2 k hk hmax => ?_⟩
  have h4 := h3.2 45 (by norm_num) hA default_window_sharp i (by
    cases on with
    | false => simp
    | true => simpa using hi1 rfl) hi2 k (by norm_num; exact hk) (fun j hj => hmax j (by norm_num at hj; exact hj))
  simp only [] at h4
  have e : (k : ℝ) * 16000 / (512 : ℕ) = k * 31.25 := by push_cast; ring
  rwa [e] at h4

/-! ### Dominant frequencies -/

/-- C136: for a tone, `get_dominant_frequencies` looks up, in every frame, a bin less than `δ` from the tone, on the wrong grid. -/
theorem C136_tone {sig ds : List ℝ} {fs : ℝ} {nfft l s : ℕ} {win : SlidingWindow} {f A φ m δ : ℝ}
    (hname : WindowName win.winType) (hL : pyInt (win.winLen * fs) = l) (hS : pyInt (win.winHop * fs) = s) (hs : 0 < s)
    (hl2 : 2 ≤ l) (hl : l ≤ nfft) (hm : 0 < m) (hf0 : m ≤ f) (hf1 : f ≤ fs / 2 - m) (hA : A ≠ 0) (hδ : 0 < δ)
    (hw : 1 / sin (π * δ / fs) + 2 / sin (π * m / fs) <
      sin (π * l / (2 * nfft)) / (π * l / (2 * nfft)) * weightSum win.winType l)
    (ht : ∀ t < sig.length, sig.getD t 0 = A * cos (2 * π * f * t / fs + φ))
    (h : getDominant .ok sig fs nfft win false = .ok ds) :
    ds.length = (sig.length - l) / s + 1 ∧
    ∀ i < ds.length, ∃ k ≤ nfft / 2, |trueFreq fs nfft k - f| < δ ∧ Rounded3 (gridFreq fs nfft k) (ds.getD i 0) := by
  obtain ⟨-, l', s', w, g, h1, h2, -, hlen, hwin, hg, hds⟩ := dominant_form (x := sig) rfl (by rw [hS]; exact_mod_cast hs) h
  obtain rfl : l = l' := by rw [hL] at h1; exact_mod_cast h1
  obtain rfl : s = s' := by rw [hS] at h2; exact_mod_cast h2
  simp only [Bool.false_eq_true, if_false] at hds
  have hdl : ds.length = (sig.length - l) / s + 1 := by rw [hds]; simp
  refine ⟨hdl, fun i hi => ?_⟩
  rw [hdl] at hi
  have hki := hg i hi
  have hwf : w = (List.range l).map (windowWeight win.winType l) := by
    have := C14_window_formula win.winType hname l
    rw [hwin] at this
    injection this
  have hfit : i * s + l ≤ sig.length := by
    have h1 := (Nat.le_div_iff_mul_le hs).mp (Nat.lt_succ_iff.mp hi)
    omega
  have hdft : ∀ k, Np.dft (windowedFrame sig w l s i) nfft k =
      frameBin (windowWeight win.winType l) (fun t => sig.getD t 0) l s nfft i k := fun k =>
    dft_frame (by rw [hwf]; simp) hfit (fun j hj => by rw [hwf]; exact getD_map_range_lt _ _ hj) (fun t _ => rfl) k
  refine ⟨g i, hki.1, ?_, ?_⟩
  · refine tone_strongest (name := win.winType) (y := fun t => sig.getD t 0) (φ := φ) (i := i) (s := s) hl2 hl hm hf0 hf1
      (fun t _ h2 => ht t (by omega)) hA hδ hw hki.1 fun j hj => ?_
    rw [← hdft, ← hdft]
    exact hki.2.1 j hj
  · rw [hds, getD_map_range_lt _ _ hi]
    exact round3_rounded _

/-- C136 with the defaults at 16 kHz. A tone of 200 to 3985 Hz is reported, in every frame, within 90 Hz of 512/257 times its
frequency, so about one octave too high. A tone of 4045 to 7800 Hz is not reported at all. -/
theorem C136_default (sig : List ℝ) (hlen : 400 ≤ sig.length) {f A φ : ℝ} (hA : A ≠ 0)
    (ht : ∀ t < sig.length, sig.getD t 0 = A * cos (2 * π * f * t / 16000 + φ)) :
    (200 ≤ f → f ≤ 3985 → ∃ ds, getDominant .ok sig 16000 512 ({} : Args).win true = .ok ds ∧
      ds.length = (sig.length - 400) / 160 + 1 ∧ ∀ d ∈ ds, |d - 512 / 257 * f| < 90) ∧
    (4045 ≤ f → f ≤ 7800 → getDominant .ok sig 16000 512 ({} : Args).win true = .ok []) := by
  have hd := default_auto sig hlen
  have hL : pyInt (({} : Args).win.winLen * 16000) = (400 : ℕ) := hd.len
  have hS : pyInt (({} : Args).win.winHop * 16000) = (160 : ℕ) := hd.hop
  obtain ⟨ds, hds⟩ := dominant_ok (filt := .ok) (sig := sig) (fs := 16000) (nfft := 512) (win := ({} : Args).win) false rfl
    (by norm_num) hd.window hd.hopLe (by rw [hS]; norm_num) hL hlen
  obtain ⟨-, -, -, -, -, -, hpos⟩ := (C85_count (filt := .ok) (sig := sig) (fs := 16000) (nfft := 512) (win := ({} : Args).win)
    rfl (by rw [hS]; norm_num)).1 hds
  have key : 200 ≤ f → f ≤ 7800 → _ := fun h0 h1 =>
    C136_tone (sig := sig) (fs := 16000) (nfft := 512) (win := ({} : Args).win) (m := 200) (δ := 45) (f := f) (A := A) (φ := φ)
      hd.window hL hS (by norm_num) (by norm_num) (by norm_num) (by norm_num) h0 (by linarith) hA (by norm_num)
      default_window_sharp ht hds
  constructor
  · intro h0 h1
    obtain ⟨k1, k2⟩ := key h0 (by linarith)
    have hall : ∀ d ∈ ds, 0 ≤ d ∧ |d - 512 / 257 * f| < 90 := by
      intro d hdm
      obtain ⟨i, hi, rfl⟩ := (mem_iff_getD 0 _).mp hdm
      obtain ⟨k, hk, hkf, -, hr⟩ := k2 i hi
      generalize ds.getD i 0 = d at hr ⊢
      unfold trueFreq at hkf
      have hkf := abs_lt.mp hkf
      push_cast at hkf
      have hk2 : 2 * k ≤ 256 := by
        have : (k : ℝ) < 129 := by linarith [hkf.2]
        have : k < 129 := by exact_mod_cast this
        omega
      unfold gridFreq at hr
      rw [if_pos (by norm_num; exact hk2)] at hr
      have hr := abs_le.mp hr
      push_cast at hr
      norm_num at hr
      constructor
      · linarith [hr.1, hkf.1]
      · rw [abs_lt]
        constructor <;> linarith [hr.1, hr.2, hkf.1, hkf.2]
    refine ⟨ds, ?_, k1, fun d hdm => (hall d hdm).2⟩
    rw [hpos]
    congr 1
    rw [List.filter_eq_self]
    intro d hdm
    simpa using (hall d hdm).1
  · intro h0 h1
    obtain ⟨k1, k2⟩ := key (by linarith) h1
    rw [hpos]
    congr 1
    rw [List.filter_eq_nil_iff]
    intro d hdm
    obtain ⟨i, hi, rfl⟩ := (mem_iff_getD 0 _).mp hdm
    obtain ⟨k, hk, hkf, -, hr⟩ := k2 i hi
    generalize ds.getD i 0 = d at hr ⊢
    unfold trueFreq at hkf
    have hkf := abs_lt.mp hkf
    push_cast at hkf
    have hk1 : ¬ 2 * k ≤ 256 := by
      have : (128 : ℝ) < k := by linarith [hkf.1]
      have : 128 < k := by exact_mod_cast this
      omega
    unfold gridFreq at hr
    rw [if_neg (by norm_num; omega)] at hr
    have hr := abs_le.mp hr
    have hk' : (k : ℝ) ≤ 256 := by exact_mod_cast (by norm_num at hk; exact hk : k ≤ 256)
    push_cast at hr
    norm_num at hr
    simp only [decide_eq_true_eq, not_le]
    linarith [hr.2]

/-! ### Concrete cases -/

/-- A tone of 2000 Hz, one second at 16 kHz. -/
noncomputable def tone2000 : List ℝ := (List.range 16000).map fun (t : ℕ) => 3 * cos (2 * π * 2000 * t / 16000 + 1)

theorem tone2000_spec : ∀ t < tone2000.length, tone2000.getD t 0 = 3 * cos (2 * π * 2000 * t / 16000 + 1) := by
  intro t ht
  exact getD_map_range_lt _ _ (by simpa [tone2000] using ht)

/-- `mel_spectrogram` puts the peak of all 98 frames within 45 Hz of 2000 Hz. -/
example : ∃ out, melSpectrogram { preEmph := false } tone2000 = .ok out ∧ ∀ i < 98, ∀ k ≤ 256,
    (∀ j ≤ 256, (out.2.getD i []).getD j 0 ≤ (out.2.getD i []).getD k 0) → |k * 31.25 - (2000 : ℝ)| < 45 := by
  have hlen : tone2000.length = 16000 := by simp [tone2000]
  obtain ⟨out, h1, h2⟩ := C135_default tone2000 (by omega) (A := 3) (f := 2000) (φ := 1) (by norm_num) (by norm_num) (by norm_num) false
    tone2000_spec
  exact ⟨out, h1, fun i hi => h2 i (by simp) (by omega)⟩

/-- `get_dominant_frequencies` reports between 3894 and 4075 Hz for it, 98 times. -/
example : ∃ ds, getDominant .ok tone2000 16000 512 ({} : Args).win true = .ok ds ∧ ds.length = 98 ∧ ∀ d ∈ ds, 3894 < d ∧ d < 4075 := by
  have hlen : tone2000.length = 16000 := by simp [tone2000]
  obtain ⟨ds, h1, h2, h3⟩ := (C136_default tone2000 (by omega) (A := 3) (f := 2000) (φ := 1) (by norm_num) tone2000_spec).1
    (by norm_num) (by norm_num)
  refine ⟨ds, h1, by omega, fun d hd => ?_⟩
  have := abs_lt.mp (h3 d hd)
  constructor <;> linarith [this.1, this.2]

end Props
end Spafe
