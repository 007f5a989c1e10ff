import Verif.Props.Convolution

/-! C191: a tone is found at its frequency under any disturbance that is small enough. -/

set_option linter.unusedSectionVars false

namespace Spafe
namespace Props
open Model XF Spec Real

/-- The signal differs from a tone by at most `ρ` in every sample. -/
def NearTone (sig : List ℝ) (fs f A φ ρ : ℝ) : Prop :=
  ∀ t < sig.length, |sig.getD t 0 - A * cos (2 * π * f * t / fs + φ)| ≤ ρ

theorem emphasised_diff_le {x y : List ℝ} {ρ : ℝ} (h : ∀ t < x.length, |x.getD t 0 - y.getD t 0| ≤ ρ) (on : Bool) (c : ℝ) {t : ℕ}
    (ht : t < x.length) : |emphasised on c x t - emphasised on c y t| ≤ emphMax on c * ρ := by
  have h1 := h t ht
  have h2 := h (t - 1) (by omega)
  have h0 : 0 ≤ ρ := (abs_nonneg _).trans h1
  unfold emphasised emphMax
  cases on with
  | false => simpa using h1
  | true =>
    simp only [if_true]
    by_cases h3 : t = 0
    · rw [if_pos h3, if_pos h3, sub_zero, sub_zero]
      nlinarith [abs_nonneg c]
    · rw [if_neg h3, if_neg h3, show ∀ p q r s : ℝ, p - c * q - (r - c * s) = (p - r) - c * (q - s) from fun p q r s => by ring]
      refine (abs_sub _ _).trans ?_
      rw [abs_mul]
      have := mul_le_mul_of_nonneg_left h2 (abs_nonneg c)
      linarith

theorem frameBin_diff_le {name : String} {y z : ℕ → ℝ} {ε : ℝ} {l s nfft i : ℕ} (hl : l ≤ nfft)
    (h : ∀ t, i * s ≤ t → t < i * s + l → |y t - z t| ≤ ε) (k : ℕ) :
    ‖frameBin (windowWeight name l) y l s nfft i k - frameBin (windowWeight name l) z l s nfft i k‖ ≤ ε * weightSum name l := by
  unfold frameBin weightSum
  rw [min_eq_left hl, ← Finset.sum_sub_distrib, Finset.mul_sum]
  refine (norm_sum_le _ _).trans (Finset.sum_le_sum fun j hj => ?_)
  have hj := Finset.mem_range.mp hj
  have hw : 0 ≤ windowWeight name l j := by
    obtain ⟨n, rfl⟩ : ∃ n, l = n + 1 := ⟨l - 1, by omega⟩
    rcases Nat.eq_zero_or_pos n with rfl | hn
    · simp [windowWeight]
    · exact windowWeight_nonneg' name (by omega) (by omega)
  rw [← sub_mul, norm_mul, binRoot_pow, norm_pow, binRoot_norm, one_pow, mul_one, ← Complex.ofReal_sub, Complex.norm_real,
    Real.norm_eq_abs, ← mul_sub, abs_mul, abs_of_nonneg hw, mul_comm]
  exact mul_le_mul_of_nonneg_right (h _ (by omega) (by omega)) hw

theorem spectrogram_noisy {out : XMat × List (List ℝ)} {N nfft : ℕ} {W : ℕ → ℕ → ℝ} {name : String} {on : Bool} {c : ℝ}
    {sig : List ℝ} {l s : ℕ} {fs f A φ m ρ δ : ℝ}
    (ho : IsSpectrogram out ((sig.length - l) / s + 1) N nfft W (windowWeight name l) (emphasised on c sig) l s) (hs : 0 < s)
    (hlen : l ≤ sig.length) (hl2 : 2 ≤ l) (hl : l ≤ nfft) (hm : 0 < m) (hf0 : m ≤ f) (hf1 : f ≤ fs / 2 - m) (hA : A ≠ 0)
    (h : NearTone sig fs f A φ ρ) (hδ : 0 < δ)
    (hw : 1 / sin (π * δ / fs) + 2 / sin (π * m / fs) + 4 * (emphMax on c * ρ / (|A| * emphGain on c fs f)) * weightSum name l <
      sin (π * l / (2 * nfft)) / (π * l / (2 * nfft)) * weightSum name l) :
    PeakNear out.2 (if on then 1 else 0) ((sig.length - l) / s + 1) nfft fs f δ := by
  obtain ⟨ton, hton⟩ : ∃ ton : List ℝ, ton = (List.range sig.length).map fun (t : ℕ) => A * cos (2 * π * f * t / fs + φ) := ⟨_, rfl⟩
  have hlt : ton.length = sig.length := by rw [hton]; simp
  have hget : ∀ t < sig.length, ton.getD t 0 = A * cos (2 * π * f * t / fs + φ) := fun t ht => by
    rw [hton]; exact getD_map_range_lt _ _ ht
  obtain ⟨ψ, hψ⟩ := emphasised_tone (sig := ton) (fs := fs) (f := f) (A := A) (φ := φ) on c fun t _ ht => hget t (by omega)
  have hd : ∀ t < sig.length, |emphasised on c sig t - emphasised on c ton t| ≤ emphMax on c * ρ := fun t ht =>
    emphasised_diff_le (fun r hr => by rw [hget r hr]; exact h r hr) on c ht
  have hG := emphGain_pos on c (fs := fs) (f := f) (by linarith) (by linarith)
  have hB : |A * emphGain on c fs f| = |A| * emphGain on c fs f := by rw [abs_mul, abs_of_pos hG]
  have hA0 := abs_pos.mpr hA
  obtain ⟨-, -, hent⟩ := ho
  intro i hi1 hi2 k hk hmax
  have hfit := (Nat.le_div_iff_mul_le hs).mp (Nat.lt_succ_iff.mp hi2)
  have hclose : ∀ j, ‖frameBin (windowWeight name l) (emphasised on c sig) l s nfft i j -
      frameBin (windowWeight name l) (emphasised on c ton) l s nfft i j‖ ≤ emphMax on c * ρ * weightSum name l := fun j =>
    frameBin_diff_le hl (fun t _ h2 => hd t (by omega)) j
  refine tone_nearly (name := name) (y := emphasised on c ton) (A := A * emphGain on c fs f) (φ := ψ) (m := m) (H := 1)
    (ε := 2 * (emphMax on c * ρ / (|A| * emphGain on c fs f)) * weightSum name l) (l := l) (s := s) (i := i) hl2 hl hm hf0 hf1
    (fun t h1 h2 => hψ t (by have : i ≤ i * s := Nat.le_mul_of_pos_right i hs; omega) (by omega))
    (mul_ne_zero hA hG.ne') hδ zero_le_one ?_ hk ?_
  · have e : 2 / sin (π * m / fs) = 1 / sin (π * m / fs) + 1 / sin (π * m / fs) := by ring
    rw [e] at hw
    unfold weightSum at hw ⊢
    linarith
  · intro j hj
    have h1 := hmax j hj
    rw [(hent i hi2).2 j (by omega), (hent i hi2).2 k (by omega)] at h1
    have h2 := norm_sub_norm_le (frameBin (windowWeight name l) (emphasised on c ton) l s nfft i j)
      (frameBin (windowWeight name l) (emphasised on c sig) l s nfft i j)
    rw [norm_sub_rev] at h2
    have h3 := norm_sub_norm_le (frameBin (windowWeight name l) (emphasised on c sig) l s nfft i k)
      (frameBin (windowWeight name l) (emphasised on c ton) l s nfft i k)
    have e : 2 * (emphMax on c * ρ / (|A| * emphGain on c fs f)) * weightSum name l * |A * emphGain on c fs f| =
        2 * (emphMax on c * ρ * weightSum name l) := by
      rw [hB]
      field_simp
    rw [e]
    linarith [hclose j, hclose k]

/-- The conditions on the frames, the tone and the disturbance. -/
structure NoisyInput (a : Args) (c : ℝ) (sig : List ℝ) (l : ℕ) (f A φ m ρ δ : ℝ) : Prop where
  two : 2 ≤ l
  fits : l ≤ a.nfft
  pos : 0 < m
  low : m ≤ f
  high : f ≤ a.fs / 2 - m
  loud : A ≠ 0
  near : NearTone sig a.fs f A φ ρ
  range : 0 < δ
  small : 1 / sin (π * δ / a.fs) + 2 / sin (π * m / a.fs) +
      4 * (emphMax a.preEmph c * ρ / (|A| * emphGain a.preEmph c a.fs f)) * weightSum a.win.winType l <
    sin (π * l / (2 * a.nfft)) / (π * l / (2 * a.nfft)) * weightSum a.win.winType l

/-- C191 for `mel_spectrogram`. -/
theorem C191_mel (a : Args) (sig : List ℝ) (l s : ℕ) (h : Auto a sig l s) (high : ℝ) (w : ℕ → ℕ → ℝ)
    (hb : Band a high w) (c d : ℝ) (hm : MelConst a.approach c d) {f A φ m ρ δ : ℝ}
    (ht : NoisyInput a a.preEmphCoeff sig l f A φ m ρ δ) :
    ∃ out, melSpectrogram a sig = .ok out ∧
      PeakNear out.2 (if a.preEmph then 1 else 0) ((sig.length - l) / s + 1) a.nfft a.fs f δ := by
  obtain ⟨out, h1, h2⟩ := C113_mel a sig l s h high w hb c d hm
  exact ⟨out, h1, spectrogram_noisy h2 h.pos h.long ht.two ht.fits ht.pos ht.low ht.high ht.loud ht.near ht.range ht.small⟩

/-- C191 for `linear_spectrogram`. -/
theorem C191_linear (a : Args) (sig : List ℝ) (l s : ℕ) (h : Auto a sig l s) (high : ℝ) (w : ℕ → ℕ → ℝ)
    (hb : Band a high w) {f A φ m ρ δ : ℝ} (ht : NoisyInput a 0.97 sig l f A φ m ρ δ) :
    ∃ out, linearSpectrogram a sig = .ok out ∧
      PeakNear out.2 (if a.preEmph then 1 else 0) ((sig.length - l) / s + 1) a.nfft a.fs f δ := by
  obtain ⟨out, h1, h2⟩ := C113_linear a sig l s h high w hb
  exact ⟨out, h1, spectrogram_noisy h2 h.pos h.long ht.two ht.fits ht.pos ht.low ht.high ht.loud ht.near ht.range ht.small⟩

/-- C191 for `bark_spectrogram`. -/
theorem C191_bark (a : Args) (sig : List ℝ) (l s : ℕ) (h : Auto a sig l s) (high : ℝ) (w : ℕ → ℕ → ℝ)
    (hb : Band a high w) (B : ℝ → ℝ) (hB : BarkScale a.approach B) {f A φ m ρ δ : ℝ} (ht : NoisyInput a 0.97 sig l f A φ m ρ δ) :
    ∃ out, barkSpectrogram a sig = .ok out ∧
      PeakNear out.2 (if a.preEmph then 1 else 0) ((sig.length - l) / s + 1) a.nfft a.fs f δ := by
  obtain ⟨out, h1, h2⟩ := C113_bark a sig l s h high w hb B hB
  exact ⟨out, h1, spectrogram_noisy h2 h.pos h.long ht.two ht.fits ht.pos ht.low ht.high ht.loud ht.near ht.range ht.small⟩

/-- C191 for `erb_spectrogram`. -/
theorem C191_erb (a : Args) (sig : List ℝ) (l s : ℕ) (h : Auto a sig l s) (high : ℝ) (w : ℕ → ℕ → ℝ)
    (hb : Band a high w) (hnf : 3 ≤ a.nfft) {f A φ m ρ δ : ℝ} (ht : NoisyInput a 0.97 sig l f A φ m ρ δ) :
    ∃ out, erbSpectrogram a sig = .ok out ∧
      PeakNear out.2 (if a.preEmph then 1 else 0) ((sig.length - l) / s + 1) a.nfft a.fs f δ := by
  obtain ⟨M, out, -, h1, h2⟩ := C113_erb a sig l s h high w hb hnf
  exact ⟨out, h1, spectrogram_noisy h2 h.pos h.long ht.two ht.fits ht.pos ht.low ht.high ht.loud ht.near ht.range ht.small⟩

/-- C191 for `get_dominant_frequencies`: under a disturbance too, every frame looks up a bin less than `δ` from the tone (on the wrong
grid, see C86). -/
theorem C191_dominant {sig ds : List ℝ} {fs : ℝ} {nfft l s : ℕ} {win : SlidingWindow} {f A φ m ρ δ : ℝ}
    (hname : WindowName win.winType) (hL : pyInt (win.winLen * fs) = l) (hS : pyInt (win.winHop * fs) = s) (hs : 0 < s)
    (hl2 : 2 ≤ l) (hl : l ≤ nfft) (hm : 0 < m) (hf0 : m ≤ f) (hf1 : f ≤ fs / 2 - m) (hA : A ≠ 0) (hδ : 0 < δ)
    (hw : 1 / sin (π * δ / fs) + 2 / sin (π * m / fs) + 4 * (ρ / |A|) * weightSum win.winType l <
      sin (π * l / (2 * nfft)) / (π * l / (2 * nfft)) * weightSum win.winType l)
    (ht : NearTone sig fs f A φ ρ) (h : getDominant .ok sig fs nfft win false = .ok ds) :
    ds.length = (sig.length - l) / s + 1 ∧
    ∀ i < ds.length, ∃ k ≤ nfft / 2, |trueFreq fs nfft k - f| < δ ∧ Rounded3 (gridFreq fs nfft k) (ds.getD i 0) := by
  obtain ⟨-, l', s', w, g, h1, h2, -, hlen, hwin, hg, hds⟩ := dominant_form (x := sig) rfl (by rw [hS]; exact_mod_cast hs) h
  obtain rfl : l = l' := by rw [hL] at h1; exact_mod_cast h1
  obtain rfl : s = s' := by rw [hS] at h2; exact_mod_cast h2
  simp only [Bool.false_eq_true, if_false] at hds
  have hdl : ds.length = (sig.length - l) / s + 1 := by rw [hds]; simp
  refine ⟨hdl, fun i hi => ?_⟩
  rw [hdl] at hi
  have hki := hg i hi
  have hwf : w = (List.range l).map (windowWeight win.winType l) := by
    have := C14_window_formula win.winType hname l
    rw [hwin] at this
    injection this
  have hfit : i * s + l ≤ sig.length := by
    have h1 := (Nat.le_div_iff_mul_le hs).mp (Nat.lt_succ_iff.mp hi)
    omega
  have hdft : ∀ k, Np.dft (windowedFrame sig w l s i) nfft k =
      frameBin (windowWeight win.winType l) (fun t => sig.getD t 0) l s nfft i k := fun k =>
    dft_frame (by rw [hwf]; simp) hfit (fun j hj => by rw [hwf]; exact getD_map_range_lt _ _ hj) (fun t _ => rfl) k
  have hclose : ∀ j, ‖frameBin (windowWeight win.winType l) (fun t => sig.getD t 0) l s nfft i j -
      frameBin (windowWeight win.winType l) (fun (t : ℕ) => A * cos (2 * π * f * t / fs + φ)) l s nfft i j‖ ≤
        ρ * weightSum win.winType l := fun j => frameBin_diff_le hl (fun t _ h2 => ht t (by omega)) j
  have hA0 := abs_pos.mpr hA
  refine ⟨g i, hki.1, ?_, ?_⟩
  · refine tone_nearly (name := win.winType) (y := fun (t : ℕ) => A * cos (2 * π * f * t / fs + φ)) (A := A) (φ := φ) (m := m) (H := 1)
      (ε := 2 * (ρ / |A|) * weightSum win.winType l) (l := l) (s := s) (i := i) hl2 hl hm hf0 hf1 (fun t _ _ => rfl) hA hδ zero_le_one
      ?_ hki.1 fun j hj => ?_
    · have e : 2 / sin (π * m / fs) = 1 / sin (π * m / fs) + 1 / sin (π * m / fs) := by ring
      rw [e] at hw
      unfold weightSum at hw ⊢
      linarith
    · have h1 := hki.2.1 j hj
      rw [hdft, hdft] at h1
      have h2 := norm_sub_norm_le (frameBin (windowWeight win.winType l) (fun (t : ℕ) => A * cos (2 * π * f * t / fs + φ)) l s nfft i j)
        (frameBin (windowWeight win.winType l) (fun t => sig.getD t 0) l s nfft i j)
      rw [norm_sub_rev] at h2
      have h3 := norm_sub_norm_le (frameBin (windowWeight win.winType l) (fun t => sig.getD t 0) l s nfft i (g i))
        (frameBin (windowWeight win.winType l) (fun (t : ℕ) => A * cos (2 * π * f * t / fs + φ)) l s nfft i (g i))
      have e : 2 * (ρ / |A|) * weightSum win.winType l * |A| = 2 * (ρ * weightSum win.winType l) := by field_simp
      rw [e]
      linarith [hclose j, hclose (g i)]
  · rw [hds, getD_map_range_lt _ _ hi]
    exact round3_rounded _

theorem default_noise_margin : 1 / sin (π * 150 / 16000) + 2 / sin (π * 200 / 16000) + 78 <
    sin (π * (400 : ℕ) / (2 * (512 : ℕ))) / (π * (400 : ℕ) / (2 * (512 : ℕ))) * weightSum "hamming" 400 := by
  have h1 := default_window_margin
  have h7 := sin_lower (x := π * 150 / 16000) (y := 0.02945) (by norm_num) (by linarith [pi_gt_d4]) (by linarith [pi_lt_d4])
  have h9 : 1 / sin (π * 150 / 16000) ≤ 1 / 0.02944 := one_div_le_one_div_of_le (by norm_num) (le_trans (by norm_num) h7)
  have a1 : 1 / (π * 45 / 16000) ≤ 1 / sin (π * 45 / 16000) :=
    one_div_le_one_div_of_le (sin_pos_of_pos_of_lt_pi (by positivity) (by linarith [pi_gt_d4])) (sin_le (by positivity))
  have a3 : (113 : ℝ) ≤ 1 / (π * 45 / 16000) := by
    rw [le_div_iff₀ (by positivity)]
    linarith [pi_lt_d4]
  have a4 : (1 : ℝ) / 0.02944 < 36 := by norm_num
  linarith only [h1, h9, a1, a3, a4]

/-- C191 with the defaults at 16 kHz and no pre-emphasis: a tone of 200 to 7800 Hz and amplitude `A`, plus anything of at most
`|A| / 12` in each sample: the strongest bin is less than 150 Hz from the tone in every frame. -/
theorem C191_default (sig : List ℝ) (hlen : 400 ≤ sig.length) {f A φ : ℝ} (hA : A ≠ 0) (h0 : 200 ≤ f) (h1 : f ≤ 7800)
    (ht : ∀ t < sig.length, |sig.getD t 0 - A * cos (2 * π * f * t / 16000 + φ)| ≤ |A| / 12) :
    ∃ out, melSpectrogram { preEmph := false } sig = .ok out ∧
      ∀ i < (sig.length - 400) / 160 + 1, ∀ k : ℕ, k ≤ 256 →
        (∀ j ≤ 256, (out.2.getD i []).getD j 0 ≤ (out.2.getD i []).getD k 0) → |k * 31.25 - f| < 150 := by
  have hd := default_auto sig hlen
  have hb := default_bank_band
  have hws : weightSum "hamming" 400 = 215.54 := by
    unfold weightSum
    rw [show (400 : ℕ) = 399 + 1 from rfl, hamming_sum (by norm_num)]
    norm_num
  have hA0 := abs_pos.mpr hA
  have hq : 4 * (emphMax false 0.97 * (|A| / 12) / (|A| * emphGain false 0.97 16000 f)) * weightSum "hamming" 400 ≤ 78 := by
    have : emphMax false 0.97 * (|A| / 12) / (|A| * emphGain false 0.97 16000 f) = 1 / 12 := by
      simp only [emphMax, emphGain, Bool.false_eq_true, if_false]
      field_simp
    rw [this, hws]
    norm_num
  obtain ⟨out, h2, h3⟩ := C191_mel { preEmph := false } sig 400 160
    ⟨hd.bank, hd.filters, hd.ceps, hd.nfft, hd.window, hd.hopLe, hd.len, hd.hop, hd.pos, hd.long, fun _ => hd.samples rfl⟩ 8000 _
    ⟨hb.scale, hb.eff, hb.low0, hb.lt, hb.le⟩ 2595 700 MelConst.oshaghnessy (f := f) (A := A) (φ := φ) (m := 200) (ρ := |A| / 12)
    (δ := 150)
    ⟨by norm_num, by norm_num, by norm_num, h0, by simp only []; linarith, hA, ht, by norm_num,
      lt_of_le_of_lt (add_le_add le_rfl hq) default_noise_margin⟩
  refine ⟨out, h2, fun i hi k hk hmax => ?_⟩
  have h4 := h3 i (by simp) hi k (by norm_num; exact hk) (fun j hj => hmax j (by norm_num at hj; exact hj))
  simp only [] at h4
  have e : (k : ℝ) * 16000 / (512 : ℕ) = k * 31.25 := by push_cast; ring
  rwa [e] at h4

/-- A tone of 1000 Hz with a second tone of 3000 Hz, twelve times weaker. -/
example : ∃ out, melSpectrogram { preEmph := false } ((List.range 800).map fun (t : ℕ) =>
      12 * cos (2 * π * 1000 * t / 16000) + cos (2 * π * 3000 * t / 16000)) = .ok out ∧
    ∀ i < 3, ∀ k : ℕ, k ≤ 256 → (∀ j ≤ 256, (out.2.getD i []).getD j 0 ≤ (out.2.getD i []).getD k 0) → |k * 31.25 - (1000 : ℝ)| < 150 := by
  obtain ⟨out, h1, h2⟩ := C191_default ((List.range 800).map fun (t : ℕ) =>
      12 * cos (2 * π * 1000 * t / 16000) + cos (2 * π * 3000 * t / 16000)) (by simp) (f := 1000) (A := 12) (φ := 0) (by norm_num)
    (by norm_num) (by norm_num) (fun t ht => by
      rw [getD_map_range_lt _ _ (by simpa using ht), add_zero, add_sub_cancel_left]
      exact (abs_cos_le_one _).trans (by norm_num))
  exact ⟨out, h1, fun i hi => h2 i (by simpa using hi)⟩

/-- `get_dominant_frequencies` on such a signal: the bins it looks up are within 150 Hz of the louder tone. -/
example (sig : List ℝ) (hsig : sig = (List.range 800).map fun (t : ℕ) =>
      12 * cos (2 * π * 1000 * t / 16000) + cos (2 * π * 3000 * t / 16000)) :
    ∃ ds, getDominant .ok sig 16000 512 ({} : Args).win false = .ok ds ∧ ds.length = 3 ∧
      ∀ i < 3, ∃ k ≤ 256, |trueFreq 16000 512 k - 1000| < 150 ∧ Rounded3 (gridFreq 16000 512 k) (ds.getD i 0) := by
  have hl : sig.length = 800 := by rw [hsig]; simp
  have hn : NearTone sig 16000 1000 12 0 1 := fun t ht => by
    rw [hsig, getD_map_range_lt _ _ (by omega), add_zero, add_sub_cancel_left]
    exact abs_cos_le_one _
  have hd := default_auto sig (by omega)
  have hL : pyInt (({} : Args).win.winLen * 16000) = (400 : ℕ) := hd.len
  have hS : pyInt (({} : Args).win.winHop * 16000) = (160 : ℕ) := hd.hop
  obtain ⟨ds, hds⟩ := dominant_ok (filt := .ok) (sig := sig) (fs := 16000) (nfft := 512) (win := ({} : Args).win) false rfl
    (by norm_num) hd.window hd.hopLe (by rw [hS]; norm_num) hL (by omega)
  have hws : weightSum "hamming" 400 = 215.54 := by
    unfold weightSum
    rw [show (400 : ℕ) = 399 + 1 from rfl, hamming_sum (by norm_num)]
    norm_num
  obtain ⟨h1, h2⟩ := C191_dominant (sig := sig) (fs := 16000) (nfft := 512) (l := 400) (s := 160) (win := ({} : Args).win) (A := 12)
    (φ := 0) (m := 200) (ρ := 1) (δ := 150) (f := 1000) hd.window hL hS (by norm_num)
    (by norm_num) (by norm_num) (by norm_num) (by norm_num) (by norm_num) (by norm_num) (by norm_num)
    (lt_of_le_of_lt (add_le_add le_rfl (show 4 * (1 / |(12 : ℝ)|) * weightSum "hamming" 400 ≤ 78 by rw [hws]; norm_num))
      default_noise_margin)
    hn hds
  have h3 : ds.length = 3 := by rw [h1, hl]
  exact ⟨ds, hds, h3, fun i hi => h2 i (by omega)⟩

end Props
end Spafe
