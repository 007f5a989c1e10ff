import Verif.Props.Tone
import Verif.Props.FixedChannel
import Verif.Props.PnccGain

/-! C188 and C189: a click and a constant offset in the spectrogram functions and cepstral features. -/

set_option linter.unusedSectionVars false

namespace Spafe
namespace Props
open Model XF Spec Real

/-! ### A click -/

/-- The only sample that is not zero is sample `t₀`, of value `A`. -/
def IsClick (sig : List ℝ) (t₀ : ℕ) (A : ℝ) : Prop := t₀ < sig.length ∧ ∀ t, sig.getD t 0 = if t = t₀ then A else 0

/-- The weight that frame `i` gives to sample `t` of the signal: that of the window if the sample is one of the first `nfft` of the
frame, otherwise 0. -/
noncomputable def sampleWeight (w : ℕ → ℝ) (l s nfft i t : ℕ) : ℝ := if i * s ≤ t ∧ t < i * s + min l nfft then w (t - i * s) else 0

theorem single_sample (w : ℕ → ℝ) (l s nfft i t : ℕ) (B : ℝ) (e : ℕ → ℂ) :
    ∑ j ∈ Finset.range (min l nfft), ((w j * (if i * s + j = t then B else 0) : ℝ) : ℂ) * e j =
      (B * sampleWeight w l s nfft i t : ℝ) * e (t - i * s) := by
  unfold sampleWeight
  by_cases h : i * s ≤ t ∧ t < i * s + min l nfft
  · rw [if_pos h, Finset.sum_eq_single (t - i * s)]
    · rw [if_pos (by omega), mul_comm (w _)]
    · intro j _ hj
      rw [if_neg (by omega)]
      simp
    · intro hj
      rw [Finset.mem_range] at hj
      omega
  · rw [if_neg h, mul_zero, Complex.ofReal_zero, zero_mul]
    refine Finset.sum_eq_zero fun j hj => ?_
    have hj := Finset.mem_range.mp hj
    rw [if_neg (by omega)]
    simp

theorem emphasised_click {sig : List ℝ} {t₀ : ℕ} {A : ℝ} (h : IsClick sig t₀ A) (on : Bool) (c : ℝ) (t : ℕ) :
    emphasised on c sig t = (if t = t₀ then A else 0) + if t = t₀ + 1 then (if on then -(c * A) else 0) else 0 := by
  unfold emphasised
  rw [h.2, h.2]
  cases on with
  | false => simp
  | true =>
    simp only [if_true]
    rcases Nat.eq_zero_or_pos t with rfl | ht
    · simp
    · rw [if_neg (by omega : ¬ t = 0)]
      by_cases h1 : t = t₀ + 1
      · rw [if_pos (by omega : t - 1 = t₀), if_pos h1]; ring
      · rw [if_neg (by omega : t - 1 ≠ t₀), if_neg h1]; ring

/-- What bin `k` of frame `i` shows of a click of height 1 at `t₀`. -/
noncomputable def clickBin (on : Bool) (c : ℝ) (w : ℕ → ℝ) (l s nfft i t₀ k : ℕ) : ℝ :=
  ‖(sampleWeight w l s nfft i t₀ : ℂ) -
    (if on then c else 0 : ℝ) * sampleWeight w l s nfft i (t₀ + 1) * Complex.exp (-(2 * π * Complex.I * k / nfft))‖

theorem click_frame {sig : List ℝ} {t₀ : ℕ} {A : ℝ} (h : IsClick sig t₀ A) (on : Bool) (c : ℝ) (w : ℕ → ℝ) (l s nfft i k : ℕ) :
    ‖frameBin w (emphasised on c sig) l s nfft i k‖ = |A| * clickBin on c w l s nfft i t₀ k := by
  obtain ⟨e, he⟩ : ∃ e : ℕ → ℂ, e = fun (j : ℕ) => Complex.exp (-(2 * π * Complex.I * (j * k) / nfft)) := ⟨_, rfl⟩
  have hnorm : ∀ j, ‖e j‖ = 1 := fun j => by
    rw [he]
    beta_reduce
    rw [show -(2 * π * Complex.I * (j * k) / nfft) = ((-(2 * π * (j * k) / nfft) : ℝ) : ℂ) * Complex.I by push_cast; ring]
    exact Complex.norm_exp_ofReal_mul_I _
  have hadd : ∀ j, e (j + 1) = e j * e 1 := fun j => by
    rw [he]
    beta_reduce
    rw [← Complex.exp_add]
    congr 1
    push_cast
    ring
  have h1 : frameBin w (emphasised on c sig) l s nfft i k = (A * sampleWeight w l s nfft i t₀ : ℝ) * e (t₀ - i * s) +
      ((if on then -(c * A) else 0) * sampleWeight w l s nfft i (t₀ + 1) : ℝ) * e (t₀ + 1 - i * s) := by
    rw [← single_sample, ← single_sample, ← Finset.sum_add_distrib]
    unfold frameBin
    refine Finset.sum_congr rfl fun j _ => ?_
    rw [emphasised_click h, he]
    push_cast
    ring
  have hc : ((if on then -(c * A) else 0 : ℝ)) = -((if on then c else 0) * A) := by cases on <;> simp
  have hk : Complex.exp (-(2 * π * Complex.I * k / nfft)) = e 1 := by rw [he]; simp
  rw [h1, hc]
  unfold clickBin
  rw [hk]
  by_cases h2 : i * s ≤ t₀
  · rw [Nat.sub_add_comm h2, hadd]
    rw [show ∀ p q d : ℝ, ((A * p : ℝ) : ℂ) * e (t₀ - i * s) + ((-(d * A) * q : ℝ) : ℂ) * (e (t₀ - i * s) * e 1) =
      A * e (t₀ - i * s) * (p - d * q * e 1) from fun p q d => by push_cast; ring]
    rw [norm_mul, norm_mul, hnorm, mul_one, Complex.norm_real, Real.norm_eq_abs]
  · have h3 : sampleWeight w l s nfft i t₀ = 0 := by unfold sampleWeight; rw [if_neg (by omega)]
    rw [h3]
    simp only [mul_zero, Complex.ofReal_zero, zero_mul, zero_add, zero_sub, norm_neg, norm_mul, hnorm, Complex.norm_real,
      Real.norm_eq_abs, abs_neg, abs_mul]
    ring

theorem windowWeight_nonneg_all (name : String) {l j : ℕ} (hj : j < l) : 0 ≤ windowWeight name l j := by
  obtain ⟨n, rfl⟩ : ∃ n, l = n + 1 := ⟨l - 1, by omega⟩
  rcases Nat.eq_zero_or_pos n with rfl | hn
  · simp [windowWeight]
  · exact windowWeight_nonneg' name (by omega) (by omega)

theorem sampleWeight_nonneg (name : String) (l s nfft i t : ℕ) : 0 ≤ sampleWeight (windowWeight name l) l s nfft i t := by
  unfold sampleWeight
  split
  · next h => exact windowWeight_nonneg_all name (by omega)
  · exact le_rfl

/-- Without pre-emphasis the spectrum of a click is flat. -/
theorem clickBin_flat (c : ℝ) (name : String) (l s nfft i t₀ k : ℕ) :
    clickBin false c (windowWeight name l) l s nfft i t₀ k = sampleWeight (windowWeight name l) l s nfft i t₀ := by
  unfold clickBin
  simp [abs_of_nonneg (sampleWeight_nonneg name l s nfft i t₀)]

/-- The magnitudes `M` show a click of height `A` at sample `t₀`: entry `(i, k)` is the one of `clickBin`. In particular rows of frames
that contain neither `t₀` nor (with pre-emphasis) the sample after it are zero. -/
def ClickOutput (a : Args) (c : ℝ) (sig : List ℝ) (l s t₀ : ℕ) (A : ℝ) (M : List (List ℝ)) : Prop :=
  ∀ i < (sig.length - l) / s + 1, ∀ k ≤ a.nfft / 2,
    (M.getD i []).getD k 0 = |A| * clickBin a.preEmph c (windowWeight a.win.winType l) l s a.nfft i t₀ k ∧
    (a.preEmph = false → (M.getD i []).getD k 0 = |A| * sampleWeight (windowWeight a.win.winType l) l s a.nfft i t₀) ∧
    (t₀ + 1 < i * s ∨ i * s + min l a.nfft ≤ t₀ → (M.getD i []).getD k 0 = 0)

theorem spectrogram_click {a : Args} {c : ℝ} {sig : List ℝ} {l s t₀ : ℕ} {A : ℝ} {out : XMat × List (List ℝ)} {N : ℕ} {W : ℕ → ℕ → ℝ}
    (ho : IsSpectrogram out ((sig.length - l) / s + 1) N a.nfft W (windowWeight a.win.winType l) (emphasised a.preEmph c sig) l s)
    (h : IsClick sig t₀ A) : ClickOutput a c sig l s t₀ A out.2 := by
  obtain ⟨-, -, hent⟩ := ho
  intro i hi k hk
  rw [(hent i hi).2 k (by omega), click_frame h]
  refine ⟨rfl, fun hp => by rw [hp, clickBin_flat], fun hout => ?_⟩
  have h0 : sampleWeight (windowWeight a.win.winType l) l s a.nfft i t₀ = 0 := by
    unfold sampleWeight; rw [if_neg (by omega)]
  have h1 : sampleWeight (windowWeight a.win.winType l) l s a.nfft i (t₀ + 1) = 0 := by
    unfold sampleWeight; rw [if_neg (by omega)]
  unfold clickBin
  rw [h0, h1]
  simp

/-- C188 for `mel_spectrogram`. -/
theorem C188_mel (a : Args) (sig : List ℝ) (l s : ℕ) (h : Auto a sig l s) (high : ℝ) (w : ℕ → ℕ → ℝ)
    (hb : Band a high w) (c d : ℝ) (hm : MelConst a.approach c d) {t₀ : ℕ} {A : ℝ} (ht : IsClick sig t₀ A) :
    ∃ out, melSpectrogram a sig = .ok out ∧ ClickOutput a a.preEmphCoeff sig l s t₀ A out.2 := by
  obtain ⟨out, h1, h2⟩ := C113_mel a sig l s h high w hb c d hm
  exact ⟨out, h1, spectrogram_click h2 ht⟩

/-- C188 for `linear_spectrogram`. -/
theorem C188_linear (a : Args) (sig : List ℝ) (l s : ℕ) (h : Auto a sig l s) (high : ℝ) (w : ℕ → ℕ → ℝ)
    (hb : Band a high w) {t₀ : ℕ} {A : ℝ} (ht : IsClick sig t₀ A) :
    ∃ out, linearSpectrogram a sig = .ok out ∧ ClickOutput a 0.97 sig l s t₀ A out.2 := by
  obtain ⟨out, h1, h2⟩ := C113_linear a sig l s h high w hb
  exact ⟨out, h1, spectrogram_click h2 ht⟩

/-- C188 for `bark_spectrogram`. -/
theorem C188_bark (a : Args) (sig : List ℝ) (l s : ℕ) (h : Auto a sig l s) (high : ℝ) (w : ℕ → ℕ → ℝ)
    (hb : Band a high w) (B : ℝ → ℝ) (hB : BarkScale a.approach B) {t₀ : ℕ} {A : ℝ} (ht : IsClick sig t₀ A) :
    ∃ out, barkSpectrogram a sig = .ok out ∧ ClickOutput a 0.97 sig l s t₀ A out.2 := by
  obtain ⟨out, h1, h2⟩ := C113_bark a sig l s h high w hb B hB
  exact ⟨out, h1, spectrogram_click h2 ht⟩

/-- C188 for `erb_spectrogram`. -/
theorem C188_erb (a : Args) (sig : List ℝ) (l s : ℕ) (h : Auto a sig l s) (high : ℝ) (w : ℕ → ℕ → ℝ)
    (hb : Band a high w) (hnf : 3 ≤ a.nfft) {t₀ : ℕ} {A : ℝ} (ht : IsClick sig t₀ A) :
    ∃ out, erbSpectrogram a sig = .ok out ∧ ClickOutput a 0.97 sig l s t₀ A out.2 := by
  obtain ⟨M, out, -, h1, h2⟩ := C113_erb a sig l s h high w hb hnf
  exact ⟨out, h1, spectrogram_click h2 ht⟩

/-- The sum of the weights of filter `n`. -/
noncomputable def filterSum (fb : List (List ℝ)) (nfft n : ℕ) : ℝ := ∑ k ∈ Finset.range (nfft / 2 + 1), (fb.getD n []).getD k 0

theorem click_energy {sig : List ℝ} {t₀ : ℕ} {A : ℝ} (h : IsClick sig t₀ A) (fb : List (List ℝ)) (c : ℝ) (name : String)
    (l s nfft i n : ℕ) :
    bandEnergy fb (windowWeight name l) (emphasised false c sig) l s nfft i n =
      (A * sampleWeight (windowWeight name l) l s nfft i t₀) ^ 2 / nfft * filterSum fb nfft n := by
  unfold bandEnergy filterSum framePower
  rw [Finset.mul_sum]
  refine Finset.sum_congr rfl fun k _ => ?_
  rw [click_frame h, clickBin_flat, mul_pow, sq_abs, mul_pow]

/-- C188 for the log features without pre-emphasis: in every frame that sees the click, whatever its height and its place in the frame,
the coefficients from the second on are those of the logarithms of the filter sums; the first contains the energy of the click. -/
theorem C188_features (a : Args) (f : Feature) (coeff : ℝ) (hf : (f, coeff, logFloor) ∈ compressions a)
    (fb : List (List ℝ)) (sig : List ℝ) (l s : ℕ) (h : Setup a fb sig l s) (hd : a.dctType = 2) (hu : a.useEnergy = false)
    (hl : a.lifter = none) (hn : a.normalize = none) (hp : a.preEmph = false) (hpos : ∀ n < fb.length, 0 < filterSum fb a.nfft n)
    {t₀ : ℕ} {A : ℝ} (ht : IsClick sig t₀ A) :
    ∃ m, f a sig = .ok m ∧ ∀ i k, i < (sig.length - l) / s + 1 → k < min a.numCeps fb.length →
      ∀ v, v = A * sampleWeight (windowWeight a.win.winType l) l s a.nfft i t₀ → v ≠ 0 → (m.getD i []).getD k nan =
        fin (dctII fb.length (fun n => Real.log (filterSum fb a.nfft n)) k +
          if k = 0 then √fb.length * Real.log (v ^ 2 / a.nfft) else 0) := by
  obtain ⟨m, hm, -, hent⟩ := C101_meaning a f coeff logFloor hf fb sig l s h hd hu hl hn
  refine ⟨m, hm, fun i k hi hk v hv hv0 => ?_⟩
  rw [hent i k hi hk, hp]
  have hn0 : (0 : ℝ) < a.nfft := by exact_mod_cast Nat.pos_of_ne_zero h.nfft
  rw [← dctII_const (by omega : k < fb.length), ← dctII_add]
  congr 1
  refine dctII_congr (fun n hn' => ?_) k
  have hF := hpos n hn'
  have hv2 : 0 < v ^ 2 / a.nfft := by positivity
  rw [click_energy ht, ← hv]
  unfold logFloor
  rw [if_neg (by positivity), Real.log_mul hv2.ne' hF.ne', add_comm]

/-! ### A constant offset -/

/-- Gain of the pre-emphasis for a constant. -/
noncomputable def offsetGain (on : Bool) (c : ℝ) : ℝ := if on then |1 - c| else 1

/-- The magnitudes `M` and `M'` of a signal and of the signal with `D` added to every sample. -/
def OffsetOutput (a : Args) (c : ℝ) (sig : List ℝ) (l s : ℕ) (D : ℝ) (M M' : List (List ℝ)) : Prop :=
  ∀ i < (sig.length - l) / s + 1, ∀ k, 1 ≤ k → k ≤ a.nfft / 2 →
    |(M'.getD i []).getD k 0 - (M.getD i []).getD k 0| ≤
      |D| * (offsetGain a.preEmph c * (a.nfft / (2 * k)) + if a.preEmph ∧ i = 0 then |c| else 0)

theorem emphasised_offset (sig : List ℝ) (on : Bool) (c D : ℝ) {t : ℕ} (ht : t < sig.length) :
    emphasised on c (sig.map (· + D)) t =
      emphasised on c sig t + ((if on then 1 - c else 1) * D + if t = 0 then (if on then c * D else 0) else 0) := by
  have e : ∀ r < sig.length, (sig.map (· + D)).getD r 0 = sig.getD r 0 + D := fun r hr => getD_map_lt _ _ _ _ hr
  unfold emphasised
  rw [e t ht, e (t - 1) (by omega)]
  cases on with
  | false => simp
  | true =>
    by_cases h : t = 0
    · simp [h]; ring
    · simp [h]; ring

theorem offset_frame {sig : List ℝ} {on : Bool} {c D : ℝ} {name : String} {l s nfft i k : ℕ} (hs : 0 < s) (hl2 : 2 ≤ l) (hl : l ≤ nfft)
    (hfit : i * s + l ≤ sig.length) (hk1 : 1 ≤ k) (hk : k ≤ nfft / 2) :
    |‖frameBin (windowWeight name l) (emphasised on c (sig.map (· + D))) l s nfft i k‖ -
        ‖frameBin (windowWeight name l) (emphasised on c sig) l s nfft i k‖| ≤
      |D| * (offsetGain on c * (nfft / (2 * k)) + if on ∧ i = 0 then |c| else 0) := by
  have hn : (0 : ℝ) < nfft := by exact_mod_cast (by omega : 0 < nfft)
  have hk0 : (0 : ℝ) < k := by exact_mod_cast hk1
  refine (abs_norm_sub_norm_le _ _).trans ?_
  obtain ⟨e, he⟩ : ∃ e : ℕ → ℂ, e = fun (j : ℕ) => Complex.exp (-(2 * π * Complex.I * (j * k) / nfft)) := ⟨_, rfl⟩
  have h1 : frameBin (windowWeight name l) (emphasised on c (sig.map (· + D))) l s nfft i k -
      frameBin (windowWeight name l) (emphasised on c sig) l s nfft i k =
      ((if on then 1 - c else 1) * D : ℝ) * windowTransform (windowWeight name l) l (-(2 * (π * (k / nfft)))) +
        ((if on then c * D else 0) * sampleWeight (windowWeight name l) l s nfft i 0 : ℝ) * e (0 - i * s) := by
    rw [← single_sample]
    unfold frameBin windowTransform
    rw [min_eq_left hl, ← Finset.sum_sub_distrib, Finset.mul_sum, ← Finset.sum_add_distrib]
    refine Finset.sum_congr rfl fun j hj => ?_
    have hj := Finset.mem_range.mp hj
    rw [emphasised_offset sig on c D (by omega), he]
    beta_reduce
    have e1 : Complex.exp (((-(2 * (π * (k / nfft))) : ℝ) : ℂ) * j * Complex.I) = Complex.exp (-(2 * π * Complex.I * (j * k) / nfft)) := by
      congr 1
      push_cast
      ring
    rw [e1]
    push_cast
    ring
  obtain ⟨hs1, hs2⟩ := inv_sin_le (x := -((k : ℝ) / nfft)) (by
      have : (k : ℝ) / nfft ≠ 0 := by positivity
      simpa using this) (by
      rw [abs_neg, abs_of_pos (by positivity), div_le_div_iff₀ hn two_pos]
      have : ((2 * k : ℕ) : ℝ) ≤ nfft := by exact_mod_cast (by omega : 2 * k ≤ nfft)
      push_cast at this
      linarith)
  have h2 : ‖windowTransform (windowWeight name l) l (-(2 * (π * (k / nfft))))‖ ≤ nfft / (2 * k) := by
    have hθ : -(2 * (π * ((k : ℝ) / nfft))) / 2 = π * -((k : ℝ) / nfft) := by ring
    refine (windowTransform_le name hl2 (by rw [hθ]; exact hs1)).trans ?_
    rw [hθ]
    refine hs2.trans (le_of_eq ?_)
    rw [abs_neg, abs_of_pos (by positivity)]
    field_simp
  have h3 : ‖e (0 - i * s)‖ = 1 := by
    rw [he]
    beta_reduce
    generalize 0 - i * s = j
    rw [show -(2 * π * Complex.I * (j * k) / nfft) = ((-(2 * π * (j * k) / nfft) : ℝ) : ℂ) * Complex.I by push_cast; ring]
    exact Complex.norm_exp_ofReal_mul_I _
  rw [h1]
  refine (norm_add_le _ _).trans ?_
  rw [norm_mul, norm_mul, h3, Complex.norm_real, Complex.norm_real, Real.norm_eq_abs, Real.norm_eq_abs, mul_one, abs_mul, abs_mul, mul_add]
  have hg : |if on then 1 - c else 1| = offsetGain on c := by cases on <;> simp [offsetGain]
  have hg0 : 0 ≤ offsetGain on c := by rw [← hg]; exact abs_nonneg _
  rw [hg]
  refine add_le_add ?_ ?_
  · calc _ ≤ offsetGain on c * |D| * (nfft / (2 * k)) := mul_le_mul_of_nonneg_left h2 (by positivity)
      _ = _ := by ring
  · by_cases hi : i = 0
    · subst hi
      have hw0 : |sampleWeight (windowWeight name l) l s nfft 0 0| ≤ 1 := by
        rw [abs_of_nonneg (sampleWeight_nonneg name l s nfft 0 0)]
        unfold sampleWeight
        rw [if_pos (by simp; omega)]
        obtain ⟨n, rfl⟩ : ∃ n, l = n + 1 := ⟨l - 1, by omega⟩
        exact windowWeight_le_one' name (by omega) (by omega)
      cases on with
      | false => simp
      | true =>
        simp only [if_true, and_self]
        rw [abs_mul]
        calc _ ≤ |c| * |D| * 1 := mul_le_mul_of_nonneg_left hw0 (by positivity)
          _ = _ := by ring
    · have : sampleWeight (windowWeight name l) l s nfft i 0 = 0 := by
        unfold sampleWeight
        rw [if_neg]
        have := Nat.mul_pos (Nat.pos_of_ne_zero hi) hs
        omega
      rw [this, abs_zero, mul_zero]
      split <;> positivity

theorem spectrogram_offset {a : Args} {c D : ℝ} {sig : List ℝ} {l s : ℕ} {out out' : XMat × List (List ℝ)} {N N' : ℕ} {W W' : ℕ → ℕ → ℝ}
    (ho : IsSpectrogram out ((sig.length - l) / s + 1) N a.nfft W (windowWeight a.win.winType l) (emphasised a.preEmph c sig) l s)
    (ho' : IsSpectrogram out' (((sig.map (· + D)).length - l) / s + 1) N' a.nfft W' (windowWeight a.win.winType l)
      (emphasised a.preEmph c (sig.map (· + D))) l s)
    (hs : 0 < s) (hlen : l ≤ sig.length) (hl2 : 2 ≤ l) (hl : l ≤ a.nfft) : OffsetOutput a c sig l s D out.2 out'.2 := by
  obtain ⟨-, -, hent⟩ := ho
  obtain ⟨-, -, hent'⟩ := ho'
  rw [List.length_map] at hent'
  intro i hi k hk1 hk
  have hfit := (Nat.le_div_iff_mul_le hs).mp (Nat.lt_succ_iff.mp hi)
  rw [(hent i hi).2 k (by omega), (hent' i hi).2 k (by omega)]
  exact offset_frame hs hl2 hl (by omega) hk1 hk

theorem Auto.offset {a : Args} {sig : List ℝ} {l s : ℕ} (h : Auto a sig l s) (D : ℝ) : Auto a (sig.map (· + D)) l s :=
  ⟨h.bank, h.filters, h.ceps, h.nfft, h.window, h.hopLe, h.len, h.hop, h.pos, by rw [List.length_map]; exact h.long,
    fun hp => by simpa using h.samples hp⟩

/-- C189 for `mel_spectrogram`. -/
theorem C189_mel (a : Args) (sig : List ℝ) (l s : ℕ) (h : Auto a sig l s) (high : ℝ) (w : ℕ → ℕ → ℝ)
    (hb : Band a high w) (c d : ℝ) (hm : MelConst a.approach c d) (hl2 : 2 ≤ l) (hl : l ≤ a.nfft) (D : ℝ) :
    ∃ out out', melSpectrogram a sig = .ok out ∧ melSpectrogram a (sig.map (· + D)) = .ok out' ∧
      OffsetOutput a a.preEmphCoeff sig l s D out.2 out'.2 := by
  obtain ⟨out, h1, h2⟩ := C113_mel a sig l s h high w hb c d hm
  obtain ⟨out', h1', h2'⟩ := C113_mel a _ l s (h.offset D) high w hb c d hm
  exact ⟨out, out', h1, h1', spectrogram_offset h2 h2' h.pos h.long hl2 hl⟩

/-- C189 for `linear_spectrogram`. -/
theorem C189_linear (a : Args) (sig : List ℝ) (l s : ℕ) (h : Auto a sig l s) (high : ℝ) (w : ℕ → ℕ → ℝ)
    (hb : Band a high w) (hl2 : 2 ≤ l) (hl : l ≤ a.nfft) (D : ℝ) :
    ∃ out out', linearSpectrogram a sig = .ok out ∧ linearSpectrogram a (sig.map (· + D)) = .ok out' ∧
      OffsetOutput a 0.97 sig l s D out.2 out'.2 := by
  obtain ⟨out, h1, h2⟩ := C113_linear a sig l s h high w hb
  obtain ⟨out', h1', h2'⟩ := C113_linear a _ l s (h.offset D) high w hb
  exact ⟨out, out', h1, h1', spectrogram_offset h2 h2' h.pos h.long hl2 hl⟩

/-- C189 for `bark_spectrogram`. -/
theorem C189_bark (a : Args) (sig : List ℝ) (l s : ℕ) (h : Auto a sig l s) (high : ℝ) (w : ℕ → ℕ → ℝ)
    (hb : Band a high w) (B : ℝ → ℝ) (hB : BarkScale a.approach B) (hl2 : 2 ≤ l) (hl : l ≤ a.nfft) (D : ℝ) :
    ∃ out out', barkSpectrogram a sig = .ok out ∧ barkSpectrogram a (sig.map (· + D)) = .ok out' ∧
      OffsetOutput a 0.97 sig l s D out.2 out'.2 := by
  obtain ⟨out, h1, h2⟩ := C113_bark a sig l s h high w hb B hB
  obtain ⟨out', h1', h2'⟩ := C113_bark a _ l s (h.offset D) high w hb B hB
  exact ⟨out, out', h1, h1', spectrogram_offset h2 h2' h.pos h.long hl2 hl⟩

/-- C189 for `erb_spectrogram`. -/
theorem C189_erb (a : Args) (sig : List ℝ) (l s : ℕ) (h : Auto a sig l s) (high : ℝ) (w : ℕ → ℕ → ℝ)
    (hb : Band a high w) (hnf : 3 ≤ a.nfft) (hl2 : 2 ≤ l) (hl : l ≤ a.nfft) (D : ℝ) :
    ∃ out out', erbSpectrogram a sig = .ok out ∧ erbSpectrogram a (sig.map (· + D)) = .ok out' ∧
      OffsetOutput a 0.97 sig l s D out.2 out'.2 := by
  obtain ⟨M, out, -, h1, h2⟩ := C113_erb a sig l s h high w hb hnf
  obtain ⟨M', out', -, h1', h2'⟩ := C113_erb a _ l s (h.offset D) high w hb hnf
  exact ⟨out, out', h1, h1', spectrogram_offset h2 h2' h.pos h.long hl2 hl⟩

/-! ### Examples -/

/-- A click in the middle of the only frame, without pre-emphasis: the spectrum is flat. -/
example : ∃ out, melSpectrogram { preEmph := false } ((List.range 400).map fun (t : ℕ) => if t = 100 then 3 else 0) = .ok out ∧
    ∀ k ≤ 256, (out.2.getD 0 []).getD k 0 = 3 * (0.54 - 0.46 * cos (2 * π * 100 / 399)) := by
  obtain ⟨sig, hsig⟩ : ∃ sig : List ℝ, sig = (List.range 400).map fun (t : ℕ) => if t = 100 then 3 else 0 := ⟨_, rfl⟩
  have hlen : sig.length = 400 := by rw [hsig]; simp
  have hclick : IsClick sig 100 3 := by
    refine ⟨by omega, fun t => ?_⟩
    rcases lt_or_ge t 400 with h | h
    · rw [hsig, getD_map_range_lt _ _ h]
    · rw [List.getD_eq_default _ _ (by omega), if_neg (by omega)]
  rw [← hsig]
  have hd := default_auto sig hlen.ge
  have hb := default_bank_band
  obtain ⟨out, h1, h2⟩ := C188_mel { preEmph := false } sig 400 160
    ⟨hd.bank, hd.filters, hd.ceps, hd.nfft, hd.window, hd.hopLe, hd.len, hd.hop, hd.pos, hd.long, fun _ => hd.samples rfl⟩ 8000 _
    ⟨hb.scale, hb.eff, hb.low0, hb.lt, hb.le⟩ 2595 700 MelConst.oshaghnessy hclick
  refine ⟨out, h1, fun k hk => ?_⟩
  rw [((h2 0 (by omega) k (by norm_num; exact hk)).2.1 rfl)]
  have hw : ({ preEmph := false } : Args).win.winType = "hamming" := rfl
  rw [hw]
  norm_num [sampleWeight, windowWeight, show ("hamming" : String) ≠ "hanning" by decide]

/-- The click `[0, 5, 0]` is last in frame 0 and first in frame 1, with two filters of sums 3 and 4. -/
example : ∃ m, mfcc { demo2 with preEmph := false } [0, 5, 0] = .ok m ∧
    (m.getD 0 []).getD 1 nan = fin (dctII 2 (fun n => Real.log (n + 3)) 1) ∧
    (m.getD 1 []).getD 1 nan = fin (dctII 2 (fun n => Real.log (n + 3)) 1) := by
  have S := demo2_setup
  have h0 : filterSum [[1, 2], [3, 1]] 2 0 = 3 := by norm_num [filterSum, Finset.sum_range_succ]
  have h1 : filterSum [[1, 2], [3, 1]] 2 1 = 4 := by norm_num [filterSum, Finset.sum_range_succ]
  obtain ⟨m, hm, h⟩ := C188_features { demo2 with preEmph := false } mfcc 0.97 (by simp [compressions, demo2]) [[1, 2], [3, 1]] [0, 5, 0] 2 1
    ⟨S.bank, S.cols, S.nonneg, S.rows, S.ceps, S.nfft, S.window, S.hopLe, S.len, S.hop, S.pos, by simp, by simp⟩ rfl rfl rfl rfl rfl
    (fun n hn => by
      change 0 < filterSum [[1, 2], [3, 1]] 2 n
      simp only [List.length_cons, List.length_nil] at hn
      interval_cases n
      · rw [h0]; norm_num
      · rw [h1]; norm_num)
    (t₀ := 1) (A := 5) ⟨by simp, fun t => by rcases t with _ | _ | _ | t <;> simp⟩
  have hw : ({ demo2 with preEmph := false } : Args).win.winType = "hamming" := rfl
  have hn : ({ demo2 with preEmph := false } : Args).nfft = 2 := rfl
  have hd : dctII 2 (fun n => Real.log (filterSum [[1, 2], [3, 1]] 2 n)) 1 = dctII 2 (fun n => Real.log (n + 3)) 1 := by
    refine dctII_congr (fun n hn => ?_) 1
    interval_cases n
    · rw [h0]; norm_num
    · rw [h1]; norm_num
  rw [hw, hn] at h
  refine ⟨m, hm, ?_, ?_⟩
  · rw [h 0 1 (by simp) (by simp [demo2]) _ rfl (by norm_num [sampleWeight, windowWeight, show ("hamming" : String) ≠ "hanning" by decide])]
    rw [if_neg one_ne_zero, add_zero]
    exact congrArg fin hd
  · rw [h 1 1 (by simp) (by simp [demo2]) _ rfl (by norm_num [sampleWeight, windowWeight, show ("hamming" : String) ≠ "hanning" by decide])]
    rw [if_neg one_ne_zero, add_zero]
    exact congrArg fin hd

/-- With the defaults an offset `D` changes bin `k` by at most `7.68 |D| / k` from the second frame on. -/
theorem C189_default (sig : List ℝ) (hlen : 400 ≤ sig.length) (D : ℝ) :
    ∃ out out', melSpectrogram {} sig = .ok out ∧ melSpectrogram {} (sig.map (· + D)) = .ok out' ∧
      ∀ i, 1 ≤ i → i < (sig.length - 400) / 160 + 1 → ∀ k : ℕ, 1 ≤ k → k ≤ 256 →
        |(out'.2.getD i []).getD k 0 - (out.2.getD i []).getD k 0| ≤ 7.68 * |D| / k := by
  obtain ⟨out, out', h1, h2, h3⟩ := C189_mel {} sig 400 160 (default_auto sig hlen) 8000 _ default_bank_band 2595 700
    MelConst.oshaghnessy (by norm_num) (by norm_num) D
  refine ⟨out, out', h1, h2, fun i hi1 hi k hk1 hk => (h3 i hi k hk1 (by norm_num; exact hk)).trans (le_of_eq ?_)⟩
  have hk0 : (k : ℝ) ≠ 0 := by exact_mod_cast (by omega : k ≠ 0)
  rw [if_neg (by omega), add_zero, offsetGain, if_pos rfl]
  have hc : |1 - ({} : Args).preEmphCoeff| = 0.03 := by norm_num
  have hn : ((({} : Args).nfft : ℕ) : ℝ) = 512 := by norm_num
  rw [hc, hn]
  field_simp
  ring

end Props
end Spafe
