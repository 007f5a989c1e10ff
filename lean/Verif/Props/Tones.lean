import Verif.Props.Tone

/-! C187: several tones at once in the spectrogram functions. -/

set_option linter.unusedSectionVars false

namespace Spafe
namespace Props
open Model XF Spec Real

/-- `K` tones of frequencies `f q` Hz at the sampling rate `fs`, from sample `a` to sample `b` (excluded). -/
def IsTones (y : ℕ → ℝ) (fs : ℝ) (K : ℕ) (f A φ : ℕ → ℝ) (a b : ℕ) : Prop :=
  ∀ t, a ≤ t → t < b → y t = ∑ q ∈ Finset.range K, A q * cos (2 * π * f q * t / fs + φ q)

/-- Leakage of a tone of unit amplitude into bins at a distance of at least `d`. -/
noncomputable def leak (fs m d : ℝ) : ℝ := (1 / sin (π * d / fs) + 1 / sin (π * m / fs)) / 2

/-- What a tone of unit amplitude puts at least into a bin at most half a bin away. -/
noncomputable def peak (fs m : ℝ) (nfft l : ℕ) (sumW : ℝ) : ℝ :=
  (sin (π * l / (2 * nfft)) / (π * l / (2 * nfft)) * sumW - 1 / sin (π * m / fs)) / 2

theorem frameBin_tones (w : ℕ → ℝ) (K : ℕ) (z : ℕ → ℕ → ℝ) (l s nfft i k : ℕ) :
    frameBin w (fun t => ∑ q ∈ Finset.range K, z q t) l s nfft i k = ∑ q ∈ Finset.range K, frameBin w (z q) l s nfft i k := by
  unfold frameBin
  rw [Finset.sum_comm]
  apply Finset.sum_congr rfl
  intro j _
  rw [Finset.mul_sum, ← Finset.sum_mul]
  push_cast
  rfl

theorem frameBin_frame_congr {w y z : ℕ → ℝ} {l s nfft i : ℕ} (h : ∀ t, i * s ≤ t → t < i * s + l → y t = z t) (k : ℕ) :
    frameBin w y l s nfft i k = frameBin w z l s nfft i k := by
  unfold frameBin
  apply Finset.sum_congr rfl
  intro j hj
  have hj := Finset.mem_range.mp hj
  rw [h _ (by omega) (by omega)]

theorem leak_bound {name : String} {y : ℕ → ℝ} {fs f A φ m d : ℝ} {l s nfft i k : ℕ} (hl2 : 2 ≤ l) (hl : l ≤ nfft)
    (hm : 0 < m) (hf0 : m ≤ f) (hf1 : f ≤ fs / 2 - m) (hy : IsTone y fs f A φ (i * s) (i * s + l)) (hk : k ≤ nfft / 2) (hd : 0 < d)
    (hc : d ≤ |k * fs / nfft - f|) : ‖frameBin (windowWeight name l) y l s nfft i k‖ ≤ |A| * leak fs m d := by
  have hfs : 0 < fs := by linarith
  rw [abs_sub_comm] at hc
  obtain ⟨hb0, hb1⟩ := bin_freq hfs (by omega) hk
  have hne : f ≠ k * fs / nfft := by
    intro h
    rw [h, sub_self, abs_zero] at hc
    linarith
  refine (tone_leakage hl2 hl hm hf0 hf1 hy hk hne).trans ?_
  have h4 : 1 / |sin (π * (f - k * fs / nfft) / fs)| ≤ 1 / sin (π * d / fs) := by
    obtain ⟨c1, c2⟩ := abs_sin_ge (x := (f - k * fs / nfft) / fs) (d := d / fs) (by positivity)
      (by rw [abs_div, abs_of_pos hfs]; exact div_le_div_of_nonneg_right hc hfs.le)
      (by rw [abs_div, abs_of_pos hfs, div_le_iff₀ hfs, abs_le]; constructor <;> linarith)
    rw [mul_div_assoc π d, mul_div_assoc]
    exact one_div_le_one_div_of_le c1 c2
  unfold leak
  have := mul_le_mul_of_nonneg_left (add_le_add h4 (le_refl (1 / sin (π * m / fs)))) (by positivity : 0 ≤ |A| / 2)
  linarith

theorem peak_bound {name : String} {y : ℕ → ℝ} {fs f A φ m : ℝ} {l s nfft i k : ℕ} (hl2 : 2 ≤ l) (hl : l ≤ nfft)
    (hm : 0 < m) (hf0 : m ≤ f) (hf1 : f ≤ fs / 2 - m) (hy : IsTone y fs f A φ (i * s) (i * s + l)) (hk : k ≤ nfft / 2)
    (hd : |k * fs / nfft - f| ≤ fs / (2 * nfft)) :
    |A| * peak fs m nfft l (weightSum name l) ≤ ‖frameBin (windowWeight name l) y l s nfft i k‖ := by
  have hfs : 0 < fs := by linarith
  have hn' : (0 : ℝ) < nfft := by exact_mod_cast (by omega : 0 < nfft)
  have hln : (l : ℝ) ≤ nfft := by exact_mod_cast hl
  rw [abs_sub_comm] at hd
  have h2 := tone_peak (name := name) (k := k) hl2 hl hm hf0 hf1 hy hk (by positivity) hd (by
    rw [mul_div_assoc', div_le_iff₀ (by positivity)]
    nlinarith)
  have e : π * (l : ℝ) * (fs / (2 * nfft)) / fs = π * l / (2 * nfft) := by field_simp
  rw [e] at h2
  unfold peak weightSum
  linarith

/-- Pre-emphasis of several tones. -/
theorem emphasised_tones {sig : List ℝ} {fs : ℝ} {K : ℕ} {f A φ : ℕ → ℝ} (on : Bool) (c : ℝ)
    (h : IsTones (fun t => sig.getD t 0) fs K f A φ 0 sig.length) :
    ∃ ψ : ℕ → ℝ, IsTones (emphasised on c sig) fs K f (fun q => A q * emphGain on c fs (f q)) ψ (if on then 1 else 0) sig.length := by
  have hq : ∀ q, ∃ ψ, IsTone (emphasised on c ((List.range sig.length).map fun (t : ℕ) => A q * cos (2 * π * f q * t / fs + φ q))) fs (f q)
      (A q * emphGain on c fs (f q)) ψ (if on then 1 else 0) sig.length := by
    intro q
    have := emphasised_tone (sig := (List.range sig.length).map fun (t : ℕ) => A q * cos (2 * π * f q * t / fs + φ q)) (fs := fs)
      (f := f q) (A := A q) (φ := φ q) on c fun t _ ht => getD_map_range_lt _ _ (by simpa using ht)
    simpa using this
  choose ψ hψ using hq
  refine ⟨ψ, fun t h1 ht => ?_⟩
  have e1 := h t (Nat.zero_le t) ht
  have e2 := h (t - 1) (Nat.zero_le _) (by omega)
  beta_reduce at e1 e2
  have : emphasised on c sig t = ∑ q ∈ Finset.range K,
      emphasised on c ((List.range sig.length).map fun (t : ℕ) => A q * cos (2 * π * f q * t / fs + φ q)) t := by
    have g : ∀ q, ∀ r < sig.length, ((List.range sig.length).map fun (t : ℕ) => A q * cos (2 * π * f q * t / fs + φ q)).getD r 0 =
        A q * cos (2 * π * f q * r / fs + φ q) := fun q r hr => getD_map_range_lt _ _ hr
    unfold emphasised
    cases on with
    | false =>
      simp only [Bool.false_eq_true, if_false]
      rw [e1]
      exact Finset.sum_congr rfl fun q _ => (g q t ht).symm
    | true =>
      simp only [if_true] at h1 ⊢
      rw [if_neg (by omega), e1, e2, Finset.mul_sum, ← Finset.sum_sub_distrib]
      exact Finset.sum_congr rfl fun q _ => by rw [if_neg (by omega), g q t ht, g q (t - 1) (by omega)]
  rw [this]
  exact Finset.sum_congr rfl fun q _ => hψ q t h1 ht

/-- Rows from `first` on of the magnitudes `M` show the tones `f 0, ..., f (K-1)` of amplitudes `B`: bins at a distance of at least `δ`
from every tone are small, and a bin at most half a bin from tone `p` is large. `Δ` bounds from below the distance of such a bin from the
other tones. -/
def TonesSpectrum (M : List (List ℝ)) (first R nfft l : ℕ) (sumW fs : ℝ) (K : ℕ) (f B : ℕ → ℝ) (m : ℝ) : Prop :=
  ∀ i, first ≤ i → i < R → ∀ k ≤ nfft / 2,
    (∀ δ, 0 < δ → (∀ q < K, δ ≤ |k * fs / nfft - f q|) →
      (M.getD i []).getD k 0 ≤ (∑ q ∈ Finset.range K, B q) * leak fs m δ) ∧
    ∀ p < K, ∀ Δ, 0 < Δ → |k * fs / nfft - f p| ≤ fs / (2 * nfft) → (∀ q < K, q ≠ p → Δ ≤ |k * fs / nfft - f q|) →
      B p * peak fs m nfft l sumW - (∑ q ∈ (Finset.range K).erase p, B q) * leak fs m Δ ≤ (M.getD i []).getD k 0

theorem spectrogram_tones {out : XMat × List (List ℝ)} {N nfft : ℕ} {W : ℕ → ℕ → ℝ} {name : String} {on : Bool} {c : ℝ}
    {sig : List ℝ} {l s : ℕ} {fs m : ℝ} {K : ℕ} {f A φ : ℕ → ℝ}
    (ho : IsSpectrogram out ((sig.length - l) / s + 1) N nfft W (windowWeight name l) (emphasised on c sig) l s) (hs : 0 < s)
    (hlen : l ≤ sig.length) (hl2 : 2 ≤ l) (hl : l ≤ nfft) (hm : 0 < m) (hf0 : ∀ q < K, m ≤ f q) (hf1 : ∀ q < K, f q ≤ fs / 2 - m)
    (h : IsTones (fun t => sig.getD t 0) fs K f A φ 0 sig.length) :
    TonesSpectrum out.2 (if on then 1 else 0) ((sig.length - l) / s + 1) nfft l (weightSum name l) fs K f
      (fun q => |A q| * emphGain on c fs (f q)) m := by
  obtain ⟨ψ, hψ⟩ := emphasised_tones on c h
  obtain ⟨-, -, hent⟩ := ho
  intro i hi1 hi2 k hk
  have hB : ∀ q < K, |A q * emphGain on c fs (f q)| = |A q| * emphGain on c fs (f q) := fun q hq => by
    rw [abs_mul, abs_of_pos (emphGain_pos on c (by linarith [hf0 q hq]) (by linarith [hf1 q hq]))]
  obtain ⟨y, hy⟩ : ∃ y : ℕ → ℕ → ℝ, y = fun (q t : ℕ) => A q * emphGain on c fs (f q) * cos (2 * π * f q * t / fs + ψ q) := ⟨_, rfl⟩
  have hyt : ∀ q, IsTone (y q) fs (f q) (A q * emphGain on c fs (f q)) (ψ q) (i * s) (i * s + l) := fun q t _ _ => by rw [hy]
  have hfit := (Nat.le_div_iff_mul_le hs).mp (Nat.lt_succ_iff.mp hi2)
  have hsum : frameBin (windowWeight name l) (emphasised on c sig) l s nfft i k =
      ∑ q ∈ Finset.range K, frameBin (windowWeight name l) (y q) l s nfft i k := by
    rw [← frameBin_tones]
    refine frameBin_frame_congr (fun t h1 h2 => ?_) k
    rw [hψ t (by have : i ≤ i * s := Nat.le_mul_of_pos_right i hs; omega) (by omega), hy]
  rw [(hent i hi2).2 k (by omega), hsum]
  refine ⟨fun δ hδ hfar => ?_, fun p hp Δ hΔ hnear hfar => ?_⟩
  · rw [Finset.sum_mul]
    refine (norm_sum_le _ _).trans (Finset.sum_le_sum fun q hq => ?_)
    have hq := Finset.mem_range.mp hq
    rw [← hB q hq]
    exact leak_bound hl2 hl hm (hf0 q hq) (hf1 q hq) (hyt q) hk hδ (hfar q hq)
  · have hpm := Finset.mem_range.mpr hp
    rw [← Finset.add_sum_erase _ _ hpm]
    have h1 := peak_bound (name := name) hl2 hl hm (hf0 p hp) (hf1 p hp) (hyt p) hk hnear
    rw [hB p hp] at h1
    have h2 : ‖∑ q ∈ (Finset.range K).erase p, frameBin (windowWeight name l) (y q) l s nfft i k‖ ≤
        (∑ q ∈ (Finset.range K).erase p, |A q| * emphGain on c fs (f q)) * leak fs m Δ := by
      rw [Finset.sum_mul]
      refine (norm_sum_le _ _).trans (Finset.sum_le_sum fun q hq => ?_)
      obtain ⟨hne, hq⟩ := Finset.mem_erase.mp hq
      have hq := Finset.mem_range.mp hq
      rw [← hB q hq]
      exact leak_bound hl2 hl hm (hf0 q hq) (hf1 q hq) (hyt q) hk hΔ (hfar q hq hne)
    have h3 := norm_sub_norm_le (frameBin (windowWeight name l) (y p) l s nfft i k)
      (-∑ q ∈ (Finset.range K).erase p, frameBin (windowWeight name l) (y q) l s nfft i k)
    rw [sub_neg_eq_add, norm_neg] at h3
    linarith

/-- The signal is a sum of `K` tones with frequencies between `m` and `fs / 2 - m`, and the frames fit in the transform. -/
structure TonesInput (a : Args) (sig : List ℝ) (l K : ℕ) (f A φ : ℕ → ℝ) (m : ℝ) : Prop where
  two : 2 ≤ l
  fits : l ≤ a.nfft
  pos : 0 < m
  low : ∀ q < K, m ≤ f q
  high : ∀ q < K, f q ≤ a.fs / 2 - m
  tones : IsTones (fun t => sig.getD t 0) a.fs K f A φ 0 sig.length

/-- The magnitudes returned for several tones. -/
def TonesOutput (a : Args) (c : ℝ) (sig : List ℝ) (l s K : ℕ) (f A : ℕ → ℝ) (m : ℝ) (M : List (List ℝ)) : Prop :=
  TonesSpectrum M (if a.preEmph then 1 else 0) ((sig.length - l) / s + 1) a.nfft l (weightSum a.win.winType l) a.fs K f
    (fun q => |A q| * emphGain a.preEmph c a.fs (f q)) m

/-- C187 for `mel_spectrogram`. -/
theorem C187_mel (a : Args) (sig : List ℝ) (l s : ℕ) (h : Auto a sig l s) (high : ℝ) (w : ℕ → ℕ → ℝ)
    (hb : Band a high w) (c d : ℝ) (hm : MelConst a.approach c d) {K : ℕ} {f A φ : ℕ → ℝ} {m : ℝ} (ht : TonesInput a sig l K f A φ m) :
    ∃ out, melSpectrogram a sig = .ok out ∧ TonesOutput a a.preEmphCoeff sig l s K f A m out.2 := by
  obtain ⟨out, h1, h2⟩ := C113_mel a sig l s h high w hb c d hm
  exact ⟨out, h1, spectrogram_tones h2 h.pos h.long ht.two ht.fits ht.pos ht.low ht.high ht.tones⟩

/-- C187 for `linear_spectrogram`. -/
theorem C187_linear (a : Args) (sig : List ℝ) (l s : ℕ) (h : Auto a sig l s) (high : ℝ) (w : ℕ → ℕ → ℝ)
    (hb : Band a high w) {K : ℕ} {f A φ : ℕ → ℝ} {m : ℝ} (ht : TonesInput a sig l K f A φ m) :
    ∃ out, linearSpectrogram a sig = .ok out ∧ TonesOutput a 0.97 sig l s K f A m out.2 := by
  obtain ⟨out, h1, h2⟩ := C113_linear a sig l s h high w hb
  exact ⟨out, h1, spectrogram_tones h2 h.pos h.long ht.two ht.fits ht.pos ht.low ht.high ht.tones⟩

/-- C187 for `bark_spectrogram`. -/
theorem C187_bark (a : Args) (sig : List ℝ) (l s : ℕ) (h : Auto a sig l s) (high : ℝ) (w : ℕ → ℕ → ℝ)
    (hb : Band a high w) (B : ℝ → ℝ) (hB : BarkScale a.approach B) {K : ℕ} {f A φ : ℕ → ℝ} {m : ℝ} (ht : TonesInput a sig l K f A φ m) :
    ∃ out, barkSpectrogram a sig = .ok out ∧ TonesOutput a 0.97 sig l s K f A m out.2 := by
  obtain ⟨out, h1, h2⟩ := C113_bark a sig l s h high w hb B hB
  exact ⟨out, h1, spectrogram_tones h2 h.pos h.long ht.two ht.fits ht.pos ht.low ht.high ht.tones⟩

/-- C187 for `erb_spectrogram`. -/
theorem C187_erb (a : Args) (sig : List ℝ) (l s : ℕ) (h : Auto a sig l s) (high : ℝ) (w : ℕ → ℕ → ℝ)
    (hb : Band a high w) (hnf : 3 ≤ a.nfft) {K : ℕ} {f A φ : ℕ → ℝ} {m : ℝ} (ht : TonesInput a sig l K f A φ m) :
    ∃ out, erbSpectrogram a sig = .ok out ∧ TonesOutput a 0.97 sig l s K f A m out.2 := by
  obtain ⟨M, out, -, h1, h2⟩ := C113_erb a sig l s h high w hb hnf
  exact ⟨out, h1, spectrogram_tones h2 h.pos h.long ht.two ht.fits ht.pos ht.low ht.high ht.tones⟩

/-- If the bound on the bins far from every tone is below the bound on the bins at tone `p`, the bins at tone `p` exceed all of them. -/
theorem C187_resolved {M : List (List ℝ)} {first R nfft l : ℕ} {sumW fs : ℝ} {K : ℕ} {f B : ℕ → ℝ} {m δ Δ : ℝ} {p : ℕ} (hp : p < K)
    (h : TonesSpectrum M first R nfft l sumW fs K f B m) (hδ : 0 < δ) (hΔ : 0 < Δ)
    (hsep : ∀ q < K, q ≠ p → Δ + fs / (2 * nfft) ≤ |f q - f p|)
    (hw : (∑ q ∈ Finset.range K, B q) * leak fs m δ <
      B p * peak fs m nfft l sumW - (∑ q ∈ (Finset.range K).erase p, B q) * leak fs m Δ) :
    ∀ i, first ≤ i → i < R → ∀ k ≤ nfft / 2, |k * fs / nfft - f p| ≤ fs / (2 * nfft) →
      ∀ j ≤ nfft / 2, (∀ q < K, δ ≤ |j * fs / nfft - f q|) → (M.getD i []).getD j 0 < (M.getD i []).getD k 0 := by
  intro i hi1 hi2 k hk hnear j hj hfar
  have h1 := (h i hi1 hi2 j hj).1 δ hδ hfar
  have h2 := (h i hi1 hi2 k hk).2 p hp Δ hΔ hnear fun q hq hne => by
    have h3 := abs_sub_le (f q) (k * fs / nfft) (f p)
    rw [abs_sub_comm (f q) (k * fs / nfft)] at h3
    linarith [hsep q hq hne]
  linarith

theorem default_leak : 3 * leak 16000 200 300 < peak 16000 200 512 400 (weightSum "hamming" 400) := by
  have h1 := default_window_margin
  have h6 := sin_lower (x := π * 200 / 16000) (y := 0.039268) (by norm_num) (by linarith [pi_gt_d4]) (by linarith [pi_lt_d4])
  have h7 := sin_lower (x := π * 300 / 16000) (y := 0.0589) (by norm_num) (by linarith [pi_gt_d4]) (by linarith [pi_lt_d4])
  have h8 : 1 / sin (π * 200 / 16000) ≤ 1 / 0.039257 := one_div_le_one_div_of_le (by norm_num) (le_trans (by norm_num) h6)
  have h9 : 1 / sin (π * 300 / 16000) ≤ 1 / 0.0588 := one_div_le_one_div_of_le (by norm_num) (le_trans (by norm_num) h7)
  have h10 : 164 < sin (π * (400 : ℕ) / (2 * (512 : ℕ))) / (π * (400 : ℕ) / (2 * (512 : ℕ))) * weightSum "hamming" 400 := by
    have a1 : 1 / (π * 45 / 16000) ≤ 1 / sin (π * 45 / 16000) :=
      one_div_le_one_div_of_le (sin_pos_of_pos_of_lt_pi (by positivity) (by linarith [pi_gt_d4])) (sin_le (by positivity))
    have a2 : 1 / (π * 200 / 16000) ≤ 1 / sin (π * 200 / 16000) :=
      one_div_le_one_div_of_le (sin_pos_of_pos_of_lt_pi (by positivity) (by linarith [pi_gt_d4])) (sin_le (by positivity))
    have a3 : (113 : ℝ) ≤ 1 / (π * 45 / 16000) := by
      rw [le_div_iff₀ (by positivity)]
      linarith [pi_lt_d4]
    have a4 : (25.4 : ℝ) ≤ 1 / (π * 200 / 16000) := by
      rw [le_div_iff₀ (by positivity)]
      linarith [pi_lt_d4]
    have a5 : 2 / sin (π * 200 / 16000) = 2 * (1 / sin (π * 200 / 16000)) := by ring
    rw [a5] at h1
    linarith only [h1, a1, a2, a3, a4]
  unfold leak peak
  norm_num at h8 h9 h10 ⊢
  linarith only [h8, h9, h10]

/-- C187 with the defaults at 16 kHz and no pre-emphasis: two tones of equal amplitude, 200 to 7800 Hz and at least 316 Hz apart. In
every frame each FFT bin next to one of the tones exceeds every bin at a distance of 300 Hz or more from both. -/
theorem C187_default (sig : List ℝ) (hlen : 400 ≤ sig.length) {A : ℝ} {f φ : ℕ → ℝ} (hA : A ≠ 0) (h0 : ∀ q < 2, 200 ≤ f q)
    (h1 : ∀ q < 2, f q ≤ 7800) (hsep : 316 ≤ |f 0 - f 1|)
    (ht : ∀ t < sig.length, sig.getD t 0 = A * cos (2 * π * f 0 * t / 16000 + φ 0) + A * cos (2 * π * f 1 * t / 16000 + φ 1)) :
    ∃ out, melSpectrogram { preEmph := false } sig = .ok out ∧
      ∀ i < (sig.length - 400) / 160 + 1, ∀ p < 2, ∀ k : ℕ, k ≤ 256 → |k * 31.25 - f p| ≤ 15.625 →
        ∀ j : ℕ, j ≤ 256 → (∀ q < 2, 300 ≤ |j * 31.25 - f q|) → (out.2.getD i []).getD j 0 < (out.2.getD i []).getD k 0 := by
  have hd := default_auto sig hlen
  have hb := default_bank_band
  obtain ⟨out, h2, h3⟩ := C187_mel { preEmph := false } sig 400 160
    ⟨hd.bank, hd.filters, hd.ceps, hd.nfft, hd.window, hd.hopLe, hd.len, hd.hop, hd.pos, hd.long, fun _ => hd.samples rfl⟩ 8000 _
    ⟨hb.scale, hb.eff, hb.low0, hb.lt, hb.le⟩ 2595 700 MelConst.oshaghnessy (K := 2) (f := f) (A := fun _ => A) (φ := φ) (m := 200)
    ⟨by norm_num, by norm_num, by norm_num, h0, fun q hq => by have := h1 q hq; simp only []; linarith,
      fun t _ h => by rw [Finset.sum_range_succ, Finset.sum_range_one]; exact ht t h⟩
  refine ⟨out, h2, fun i hi p hp k hk hnear j hj hfar => ?_⟩
  have e : ∀ n : ℕ, (n : ℝ) * 16000 / (512 : ℕ) = n * 31.25 := fun n => by push_cast; ring
  have eg : ∀ q, |A| * emphGain false 0.97 16000 (f q) = |A| := fun q => by simp [emphGain]
  have hA' : 0 < |A| := abs_pos.mpr hA
  have hl := default_leak
  refine C187_resolved (δ := 300) (Δ := 300) hp h3 (by norm_num) (by norm_num) ?_ ?_ i (by simp) hi k (by norm_num; exact hk) ?_ j
    (by norm_num; exact hj) ?_
  · intro q hq hne
    have : (300 : ℝ) + 16000 / (2 * (512 : ℕ)) ≤ 316 := by norm_num
    refine this.trans ?_
    interval_cases p <;> interval_cases q
    · exact absurd rfl hne
    · rwa [abs_sub_comm]
    · exact hsep
    · exact absurd rfl hne
  · simp only [eg]
    rw [Finset.sum_const, Finset.sum_const, Finset.card_erase_of_mem (Finset.mem_range.mpr hp), Finset.card_range]
    simp only [nsmul_eq_mul]
    have := mul_lt_mul_of_pos_left hl hA'
    change _ < |A| * peak 16000 200 512 400 (weightSum "hamming" 400) - _
    push_cast
    linarith only [this]
  · rw [e]
    refine hnear.trans (by norm_num)
  · intro q hq
    rw [e]
    exact hfar q hq

/-- Two tones of 1000 and 2000 Hz: bins 32 and 64 exceed bin 48, in the only frame. -/
example : ∃ out, melSpectrogram { preEmph := false } ((List.range 400).map fun (t : ℕ) =>
      cos (2 * π * 1000 * t / 16000) + cos (2 * π * 2000 * t / 16000)) = .ok out ∧
    (out.2.getD 0 []).getD 48 0 < (out.2.getD 0 []).getD 32 0 ∧ (out.2.getD 0 []).getD 48 0 < (out.2.getD 0 []).getD 64 0 := by
  obtain ⟨out, h1, h2⟩ := C187_default ((List.range 400).map fun (t : ℕ) =>
      cos (2 * π * 1000 * t / 16000) + cos (2 * π * 2000 * t / 16000)) (by simp) (A := 1) (f := fun q => 1000 * (q + 1)) (φ := fun _ => 0)
    one_ne_zero (fun q hq => by interval_cases q <;> norm_num) (fun q hq => by interval_cases q <;> norm_num) (by norm_num)
    (fun t ht => by
      rw [getD_map_range_lt _ _ (by simpa using ht)]
      norm_num)
  refine ⟨out, h1, h2 0 (by simp) 0 (by norm_num) 32 (by norm_num) (by norm_num) 48 (by norm_num) ?_,
    h2 0 (by simp) 1 (by norm_num) 64 (by norm_num) (by norm_num) 48 (by norm_num) ?_⟩ <;>
  · intro q hq
    interval_cases q <;> norm_num [abs_of_nonneg, abs_of_neg]

end Props
end Spafe
