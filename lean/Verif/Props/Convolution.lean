import Verif.Props.Tones

/-! C190: filtering the signal multiplies its spectrum, up to the samples at the edges of the frames. -/

set_option linter.unusedSectionVars false

namespace Spafe
namespace Props
open Model XF Spec Real

/-- `y` delayed by `m` samples, with zeros before the start. -/
noncomputable def delayed (m : ℕ) (y : ℕ → ℝ) (t : ℕ) : ℝ := if m ≤ t then y (t - m) else 0

/-- `sig'` is `sig` after the filter with the coefficients `h 0, ..., h (p - 1)`, cut to the length of `sig`. -/
def IsFiltered (h : ℕ → ℝ) (p : ℕ) (sig sig' : List ℝ) : Prop :=
  sig'.length = sig.length ∧
  ∀ t < sig.length, sig'.getD t 0 = ∑ m ∈ Finset.range p, h m * delayed m (fun r => sig.getD r 0) t

/-- Frequency response of the filter at bin `k`. -/
noncomputable def response (h : ℕ → ℝ) (p nfft k : ℕ) : ℂ :=
  ∑ m ∈ Finset.range p, (h m : ℂ) * Complex.exp (-(2 * π * Complex.I * (m * k) / nfft))

/-- Total variation of a window that rises to `w p` and falls afterwards. -/
theorem window_variation {w : ℕ → ℝ} {n p : ℕ} (hp : p ≤ n) (hup : ∀ j < p, w j ≤ w (j + 1))
    (hdown : ∀ j, p ≤ j → j < n → w (j + 1) ≤ w j) :
    ∑ j ∈ Finset.range n, |w (j + 1) - w j| = 2 * w p - w 0 - w n := by
  have e1 : ∑ j ∈ Finset.range p, |w (j + 1) - w j| = w p - w 0 := by
    rw [← Finset.sum_range_sub w p]
    refine Finset.sum_congr rfl fun j hj => abs_of_nonneg ?_
    linarith [hup j (Finset.mem_range.mp hj)]
  have e2 : ∑ j ∈ Finset.Ico p n, |w (j + 1) - w j| = w p - w n := by
    have := Finset.sum_Ico_sub w hp
    rw [show w p - w n = -(w n - w p) by ring, ← this, ← Finset.sum_neg_distrib]
    refine Finset.sum_congr rfl fun j hj => ?_
    rw [Finset.mem_Ico] at hj
    rw [abs_of_nonpos]
    linarith [hdown j hj.1 hj.2]
  rw [← Finset.sum_range_add_sum_Ico _ hp, e1, e2]
  ring

/-- One sample of delay, inside a frame. -/
theorem delay_step (name : String) {n : ℕ} (hn : n ≠ 0) {u v : ℕ → ℝ} {X : ℝ} (huv : ∀ j < n, v (j + 1) = u j) (hv : |v 0| ≤ X)
    (hu : ∀ j ≤ n, |u j| ≤ X) {z : ℂ} (hz : ‖z‖ = 1) :
    ‖∑ j ∈ Finset.range (n + 1), ((windowWeight name (n + 1) j * v j : ℝ) : ℂ) * z ^ j -
      z * ∑ j ∈ Finset.range (n + 1), ((windowWeight name (n + 1) j * u j : ℝ) : ℂ) * z ^ j‖ ≤ 2 * X := by
  have w0 := windowWeight_nonneg' name hn (Nat.zero_le n)
  have wn := windowWeight_nonneg' name hn (le_refl n)
  have wp := windowWeight_le_one' name hn (show n / 2 ≤ n by omega)
  have htv := window_variation (w := windowWeight name (n + 1)) (show n / 2 ≤ n by omega) (fun j hj => windowWeight_up name hj)
    (fun j h1 h2 => windowWeight_down name h1 h2)
  have hX : 0 ≤ X := (abs_nonneg _).trans hv
  generalize windowWeight name (n + 1) = w at *
  have he : ∑ j ∈ Finset.range (n + 1), ((w j * v j : ℝ) : ℂ) * z ^ j - z * ∑ j ∈ Finset.range (n + 1), ((w j * u j : ℝ) : ℂ) * z ^ j =
      ((w 0 * v 0 : ℝ) : ℂ) + ∑ j ∈ Finset.range n, (((w (j + 1) - w j) * u j : ℝ) : ℂ) * z ^ (j + 1) -
        ((w n * u n : ℝ) : ℂ) * z ^ (n + 1) := by
    rw [Finset.sum_range_succ', Finset.sum_range_succ, mul_add, Finset.mul_sum]
    have : ∑ j ∈ Finset.range n, ((w (j + 1) * v (j + 1) : ℝ) : ℂ) * z ^ (j + 1) = ∑ j ∈ Finset.range n, (((w (j + 1) - w j) * u j : ℝ) : ℂ) * z ^ (j + 1) +
        ∑ j ∈ Finset.range n, z * (((w j * u j : ℝ) : ℂ) * z ^ j) := by
      rw [← Finset.sum_add_distrib]
      refine Finset.sum_congr rfl fun j hj => ?_
      rw [huv j (Finset.mem_range.mp hj)]
      push_cast
      ring
    rw [this]
    push_cast
    ring
  rw [he]
  have h1 : ‖∑ j ∈ Finset.range n, (((w (j + 1) - w j) * u j : ℝ) : ℂ) * z ^ (j + 1)‖ ≤ (2 * w (n / 2) - w 0 - w n) * X := by
    rw [← htv, Finset.sum_mul]
    refine (norm_sum_le _ _).trans (Finset.sum_le_sum fun j hj => ?_)
    rw [norm_mul, norm_pow, hz, one_pow, mul_one, Complex.norm_real, Real.norm_eq_abs, abs_mul]
    exact mul_le_mul_of_nonneg_left (hu j (Finset.mem_range.mp hj).le) (abs_nonneg _)
  have h2 : ‖((w 0 * v 0 : ℝ) : ℂ)‖ ≤ w 0 * X := by
    rw [Complex.norm_real, Real.norm_eq_abs, abs_mul, abs_of_nonneg w0]
    exact mul_le_mul_of_nonneg_left hv w0
  have h3 : ‖((w n * u n : ℝ) : ℂ) * z ^ (n + 1)‖ ≤ w n * X := by
    rw [norm_mul, norm_pow, hz, one_pow, mul_one, Complex.norm_real, Real.norm_eq_abs, abs_mul, abs_of_nonneg wn]
    exact mul_le_mul_of_nonneg_left (hu n le_rfl) wn
  refine (norm_sub_le _ _).trans ?_
  have h4 := norm_add_le ((w 0 * v 0 : ℝ) : ℂ) (∑ j ∈ Finset.range n, (((w (j + 1) - w j) * u j : ℝ) : ℂ) * z ^ (j + 1))
  have h5 : w (n / 2) * X ≤ 1 * X := mul_le_mul_of_nonneg_right wp hX
  linarith

/-- `exp (-2 π i k / nfft)`. -/
noncomputable def binRoot (nfft k : ℕ) : ℂ := Complex.exp (-(2 * π * Complex.I * k / nfft))

theorem binRoot_norm (nfft k : ℕ) : ‖binRoot nfft k‖ = 1 := by
  unfold binRoot
  rw [show -(2 * π * Complex.I * k / nfft) = ((-(2 * π * k / nfft) : ℝ) : ℂ) * Complex.I by push_cast; ring]
  exact Complex.norm_exp_ofReal_mul_I _

theorem binRoot_pow (nfft k j : ℕ) : Complex.exp (-(2 * π * Complex.I * (j * k) / nfft)) = binRoot nfft k ^ j := by
  unfold binRoot
  rw [← Complex.exp_nat_mul]
  congr 1
  ring

theorem delay_frame (name : String) {y : ℕ → ℝ} {X : ℝ} {N l s nfft i : ℕ} (hy : ∀ t < N, |y t| ≤ X) (hl2 : 2 ≤ l) (hl : l ≤ nfft)
    (hfit : i * s + l ≤ N) (k m : ℕ) :
    ‖frameBin (windowWeight name l) (delayed m y) l s nfft i k - binRoot nfft k ^ m * frameBin (windowWeight name l) y l s nfft i k‖ ≤
      2 * m * X := by
  have hX : 0 ≤ X := (abs_nonneg _).trans (hy 0 (by omega))
  have hd : ∀ m, ∀ t < N, |delayed m y t| ≤ X := fun m t ht => by
    unfold delayed
    split
    · exact hy _ (by omega)
    · rw [abs_zero]; exact hX
  induction m with
  | zero =>
    have : delayed 0 y = y := by funext t; simp [delayed]
    rw [this]
    simp
  | succ m ih =>
    have hstep : ‖frameBin (windowWeight name l) (delayed (m + 1) y) l s nfft i k -
        binRoot nfft k * frameBin (windowWeight name l) (delayed m y) l s nfft i k‖ ≤ 2 * X := by
      unfold frameBin
      simp only [binRoot_pow, min_eq_left hl]
      obtain ⟨n, rfl⟩ : ∃ n, l = n + 1 := ⟨l - 1, by omega⟩
      refine delay_step name (by omega) (u := fun j => delayed m y (i * s + j)) (v := fun j => delayed (m + 1) y (i * s + j)) ?_ ?_ ?_
        (binRoot_norm nfft k)
      · intro j _
        unfold delayed
        by_cases h : m ≤ i * s + j
        · rw [if_pos (by omega), if_pos h]
          congr 1
          omega
        · rw [if_neg (by omega), if_neg h]
      · exact hd _ _ (by omega)
      · exact fun j hj => hd _ _ (by omega)
    have h2 : frameBin (windowWeight name l) (delayed (m + 1) y) l s nfft i k -
        binRoot nfft k ^ (m + 1) * frameBin (windowWeight name l) y l s nfft i k =
        (frameBin (windowWeight name l) (delayed (m + 1) y) l s nfft i k -
          binRoot nfft k * frameBin (windowWeight name l) (delayed m y) l s nfft i k) +
        binRoot nfft k * (frameBin (windowWeight name l) (delayed m y) l s nfft i k -
          binRoot nfft k ^ m * frameBin (windowWeight name l) y l s nfft i k) := by ring
    rw [h2]
    refine (norm_add_le _ _).trans ?_
    rw [norm_mul, binRoot_norm, one_mul]
    push_cast
    linarith

/-- Pre-emphasis and the filter can be exchanged. -/
theorem emphasised_filtered {h : ℕ → ℝ} {p : ℕ} {sig sig' : List ℝ} (hf : IsFiltered h p sig sig') (on : Bool) (c : ℝ) {t : ℕ}
    (ht : t < sig.length) :
    emphasised on c sig' t = ∑ m ∈ Finset.range p, h m * delayed m (emphasised on c sig) t := by
  have e1 := hf.2 t ht
  have e2 := hf.2 (t - 1) (by omega)
  cases on with
  | false =>
    simp only [emphasised, Bool.false_eq_true, if_false]
    exact e1
  | true =>
    simp only [emphasised, if_true]
    rw [e1]
    by_cases h0 : t = 0
    · subst h0
      rw [if_pos rfl, sub_zero]
      refine Finset.sum_congr rfl fun m _ => ?_
      unfold delayed
      by_cases hm : m ≤ 0
      · rw [if_pos hm, if_pos hm]; simp [emphasised]
      · rw [if_neg hm, if_neg hm]
    · rw [if_neg h0, e2, Finset.mul_sum, ← Finset.sum_sub_distrib]
      refine Finset.sum_congr rfl fun m _ => ?_
      unfold delayed emphasised
      simp only [if_true]
      rcases lt_trichotomy m t with hm | hm | hm
      · rw [if_pos hm.le, if_pos (by omega), if_pos hm.le, if_neg (by omega : ¬ t - m = 0), show t - 1 - m = t - m - 1 by omega]
        ring
      · rw [if_pos hm.le, if_neg (by omega), if_pos hm.le, if_pos (by omega : t - m = 0)]
        ring
      · rw [if_neg (by omega), if_neg (by omega), if_neg (by omega)]
        ring

/-- The largest factor by which pre-emphasis can raise a sample. -/
noncomputable def emphMax (on : Bool) (c : ℝ) : ℝ := if on then 1 + |c| else 1

theorem emphasised_le {sig : List ℝ} {X : ℝ} (hX : ∀ t < sig.length, |sig.getD t 0| ≤ X) (on : Bool) (c : ℝ) {t : ℕ}
    (ht : t < sig.length) : |emphasised on c sig t| ≤ emphMax on c * X := by
  have h1 := hX t ht
  have h2 := hX (t - 1) (by omega)
  have hX0 : 0 ≤ X := (abs_nonneg _).trans h1
  unfold emphasised emphMax
  cases on with
  | false => simpa using h1
  | true =>
    simp only [if_true]
    refine (abs_sub _ _).trans ?_
    have : |if t = 0 then 0 else c * sig.getD (t - 1) 0| ≤ |c| * X := by
      split
      · rw [abs_zero]; positivity
      · rw [abs_mul]; exact mul_le_mul_of_nonneg_left h2 (abs_nonneg c)
    linarith

theorem filter_frame (name : String) {h : ℕ → ℝ} {p : ℕ} {sig sig' : List ℝ} (hf : IsFiltered h p sig sig') (on : Bool) (c : ℝ) {X : ℝ}
    (hX : ∀ t < sig.length, |sig.getD t 0| ≤ X) {l s nfft i : ℕ} (hl2 : 2 ≤ l) (hl : l ≤ nfft) (hfit : i * s + l ≤ sig.length) (k : ℕ) :
    ‖frameBin (windowWeight name l) (emphasised on c sig') l s nfft i k -
        response h p nfft k * frameBin (windowWeight name l) (emphasised on c sig) l s nfft i k‖ ≤
      2 * (emphMax on c * X) * ∑ m ∈ Finset.range p, m * |h m| := by
  have h1 : frameBin (windowWeight name l) (emphasised on c sig') l s nfft i k =
      ∑ m ∈ Finset.range p, (h m : ℂ) * frameBin (windowWeight name l) (delayed m (emphasised on c sig)) l s nfft i k := by
    rw [frameBin_frame_congr (z := fun t => ∑ m ∈ Finset.range p, h m * delayed m (emphasised on c sig) t)
      fun t _ h2 => emphasised_filtered hf on c (by omega), frameBin_tones]
    refine Finset.sum_congr rfl fun m _ => ?_
    unfold frameBin
    rw [Finset.mul_sum]
    refine Finset.sum_congr rfl fun j _ => ?_
    push_cast
    ring
  rw [h1]
  unfold response
  rw [Finset.sum_mul, ← Finset.sum_sub_distrib, Finset.mul_sum]
  refine (norm_sum_le _ _).trans (Finset.sum_le_sum fun m _ => ?_)
  rw [mul_assoc, ← mul_sub, norm_mul, binRoot_pow, Complex.norm_real, Real.norm_eq_abs]
  have h2 := delay_frame name (fun t ht => emphasised_le hX on c ht) hl2 hl hfit k m
  have := mul_le_mul_of_nonneg_left h2 (abs_nonneg (h m))
  linarith

/-- The magnitudes `M` and `M'` of a signal with samples of at most `X` and of the filtered signal. -/
def FilterOutput (a : Args) (c : ℝ) (sig : List ℝ) (l s : ℕ) (h : ℕ → ℝ) (p : ℕ) (X : ℝ) (M M' : List (List ℝ)) : Prop :=
  ∀ i < (sig.length - l) / s + 1, ∀ k ≤ a.nfft / 2,
    |(M'.getD i []).getD k 0 - ‖response h p a.nfft k‖ * (M.getD i []).getD k 0| ≤
      2 * (emphMax a.preEmph c * X) * ∑ m ∈ Finset.range p, m * |h m|

theorem spectrogram_filter {a : Args} {c : ℝ} {sig sig' : List ℝ} {l s : ℕ} {h : ℕ → ℝ} {p : ℕ} {X : ℝ} (hf : IsFiltered h p sig sig')
    (hX : ∀ t < sig.length, |sig.getD t 0| ≤ X) {out out' : XMat × List (List ℝ)} {N N' : ℕ} {W W' : ℕ → ℕ → ℝ}
    (ho : IsSpectrogram out ((sig.length - l) / s + 1) N a.nfft W (windowWeight a.win.winType l) (emphasised a.preEmph c sig) l s)
    (ho' : IsSpectrogram out' ((sig'.length - l) / s + 1) N' a.nfft W' (windowWeight a.win.winType l) (emphasised a.preEmph c sig') l s)
    (hs : 0 < s) (hlen : l ≤ sig.length) (hl2 : 2 ≤ l) (hl : l ≤ a.nfft) : FilterOutput a c sig l s h p X out.2 out'.2 := by
  obtain ⟨-, -, hent⟩ := ho
  obtain ⟨-, -, hent'⟩ := ho'
  rw [hf.1] at hent'
  intro i hi k hk
  have hfit := (Nat.le_div_iff_mul_le hs).mp (Nat.lt_succ_iff.mp hi)
  rw [(hent i hi).2 k (by omega), (hent' i hi).2 k (by omega), ← norm_mul]
  exact (abs_norm_sub_norm_le _ _).trans (filter_frame _ hf a.preEmph c hX hl2 hl (by omega) k)

theorem Auto.filtered {a : Args} {sig sig' : List ℝ} {l s : ℕ} (h : Auto a sig l s) (hf : sig'.length = sig.length) : Auto a sig' l s :=
  ⟨h.bank, h.filters, h.ceps, h.nfft, h.window, h.hopLe, h.len, h.hop, h.pos, by rw [hf]; exact h.long, fun hp h0 => by
    rw [h0, List.length_nil] at hf
    exact h.samples hp (List.length_eq_zero_iff.mp hf.symm)⟩

/-- C190 for `mel_spectrogram`. -/
theorem C190_mel (a : Args) (sig sig' : List ℝ) (l s : ℕ) (h : Auto a sig l s) (high : ℝ) (w : ℕ → ℕ → ℝ)
    (hb : Band a high w) (c d : ℝ) (hm : MelConst a.approach c d) (hl2 : 2 ≤ l) (hl : l ≤ a.nfft) {g : ℕ → ℝ} {p : ℕ}
    (hf : IsFiltered g p sig sig') {X : ℝ} (hX : ∀ t < sig.length, |sig.getD t 0| ≤ X) :
    ∃ out out', melSpectrogram a sig = .ok out ∧ melSpectrogram a sig' = .ok out' ∧
      FilterOutput a a.preEmphCoeff sig l s g p X out.2 out'.2 := by
  obtain ⟨out, h1, h2⟩ := C113_mel a sig l s h high w hb c d hm
  obtain ⟨out', h1', h2'⟩ := C113_mel a sig' l s (h.filtered hf.1) high w hb c d hm
  exact ⟨out, out', h1, h1', spectrogram_filter hf hX h2 h2' h.pos h.long hl2 hl⟩

/-- C190 for `linear_spectrogram`. -/
theorem C190_linear (a : Args) (sig sig' : List ℝ) (l s : ℕ) (h : Auto a sig l s) (high : ℝ) (w : ℕ → ℕ → ℝ)
    (hb : Band a high w) (hl2 : 2 ≤ l) (hl : l ≤ a.nfft) {g : ℕ → ℝ} {p : ℕ}
    (hf : IsFiltered g p sig sig') {X : ℝ} (hX : ∀ t < sig.length, |sig.getD t 0| ≤ X) :
    ∃ out out', linearSpectrogram a sig = .ok out ∧ linearSpectrogram a sig' = .ok out' ∧
      FilterOutput a 0.97 sig l s g p X out.2 out'.2 := by
  obtain ⟨out, h1, h2⟩ := C113_linear a sig l s h high w hb
  obtain ⟨out', h1', h2'⟩ := C113_linear a sig' l s (h.filtered hf.1) high w hb
  exact ⟨out, out', h1, h1', spectrogram_filter hf hX h2 h2' h.pos h.long hl2 hl⟩

/-- C190 for `bark_spectrogram`. -/
theorem C190_bark (a : Args) (sig sig' : List ℝ) (l s : ℕ) (h : Auto a sig l s) (high : ℝ) (w : ℕ → ℕ → ℝ)
    (hb : Band a high w) (B : ℝ → ℝ) (hB : BarkScale a.approach B) (hl2 : 2 ≤ l) (hl : l ≤ a.nfft) {g : ℕ → ℝ} {p : ℕ}
    (hf : IsFiltered g p sig sig') {X : ℝ} (hX : ∀ t < sig.length, |sig.getD t 0| ≤ X) :
    ∃ out out', barkSpectrogram a sig = .ok out ∧ barkSpectrogram a sig' = .ok out' ∧
      FilterOutput a 0.97 sig l s g p X out.2 out'.2 := by
  obtain ⟨out, h1, h2⟩ := C113_bark a sig l s h high w hb B hB
  obtain ⟨out', h1', h2'⟩ := C113_bark a sig' l s (h.filtered hf.1) high w hb B hB
  exact ⟨out, out', h1, h1', spectrogram_filter hf hX h2 h2' h.pos h.long hl2 hl⟩

/-- C190 for `erb_spectrogram`. -/
theorem C190_erb (a : Args) (sig sig' : List ℝ) (l s : ℕ) (h : Auto a sig l s) (high : ℝ) (w : ℕ → ℕ → ℝ)
    (hb : Band a high w) (hnf : 3 ≤ a.nfft) (hl2 : 2 ≤ l) (hl : l ≤ a.nfft) {g : ℕ → ℝ} {p : ℕ}
    (hf : IsFiltered g p sig sig') {X : ℝ} (hX : ∀ t < sig.length, |sig.getD t 0| ≤ X) :
    ∃ out out', erbSpectrogram a sig = .ok out ∧ erbSpectrogram a sig' = .ok out' ∧
      FilterOutput a 0.97 sig l s g p X out.2 out'.2 := by
  obtain ⟨M, out, -, h1, h2⟩ := C113_erb a sig l s h high w hb hnf
  obtain ⟨M', out', -, h1', h2'⟩ := C113_erb a sig' l s (h.filtered hf.1) high w hb hnf
  exact ⟨out, out', h1, h1', spectrogram_filter hf hX h2 h2' h.pos h.long hl2 hl⟩

/-- A delay by `m` samples with the defaults, samples of at most `X`: every magnitude changes by at most `3.94 m X`. -/
theorem C190_delay (sig sig' : List ℝ) (hlen : 400 ≤ sig.length) (hlen' : sig'.length = sig.length) (m : ℕ)
    (hd : ∀ t < sig.length, sig'.getD t 0 = delayed m (fun r => sig.getD r 0) t) {X : ℝ}
    (hX : ∀ t < sig.length, |sig.getD t 0| ≤ X) :
    ∃ out out', melSpectrogram {} sig = .ok out ∧ melSpectrogram {} sig' = .ok out' ∧
      ∀ i < (sig.length - 400) / 160 + 1, ∀ k ≤ 256,
        |(out'.2.getD i []).getD k 0 - (out.2.getD i []).getD k 0| ≤ 3.94 * m * X := by
  have hf : IsFiltered (fun j => if j = m then 1 else 0) (m + 1) sig sig' := by
    refine ⟨hlen', fun t ht => ?_⟩
    rw [hd t ht, Finset.sum_eq_single m]
    · simp
    · intro j _ hj
      beta_reduce
      rw [if_neg hj, zero_mul]
    · intro hm
      exact absurd (Finset.self_mem_range_succ m) hm
  obtain ⟨out, out', h1, h2, h3⟩ := C190_mel {} sig sig' 400 160 (default_auto sig hlen) 8000 _ default_bank_band 2595 700
    MelConst.oshaghnessy (by norm_num) (by norm_num) hf hX
  refine ⟨out, out', h1, h2, fun i hi k hk => ?_⟩
  have h4 := h3 i hi k (by norm_num; exact hk)
  have hr : ‖response (fun j => if j = m then 1 else 0) (m + 1) ({} : Args).nfft k‖ = 1 := by
    unfold response
    rw [Finset.sum_eq_single m]
    · beta_reduce
      rw [binRoot_pow, if_pos rfl, norm_mul, norm_pow, binRoot_norm]
      simp
    · intro j _ hj
      beta_reduce
      rw [if_neg hj]
      simp
    · intro hm
      exact absurd (Finset.self_mem_range_succ m) hm
  have hsum : ∑ j ∈ Finset.range (m + 1), (j : ℝ) * |if j = m then (1 : ℝ) else 0| = m := by
    rw [Finset.sum_eq_single m]
    · simp
    · intro j _ hj
      beta_reduce
      rw [if_neg hj]
      simp
    · intro hm
      exact absurd (Finset.self_mem_range_succ m) hm
  have hc : emphMax ({} : Args).preEmph ({} : Args).preEmphCoeff = 1.97 := by norm_num [emphMax, abs_of_pos]
  rw [hr, one_mul, hsum, hc] at h4
  linarith

/-- An echo after one sample, half as loud: the gain at bin 0 is `3/2` and at the last bin `1/2`. -/
example (sig : List ℝ) (hlen : 400 ≤ sig.length) (hX : ∀ t < sig.length, |sig.getD t 0| ≤ 1) :
    ∃ out out', melSpectrogram {} sig = .ok out ∧
      melSpectrogram {} ((List.range sig.length).map fun (t : ℕ) => sig.getD t 0 + if t = 0 then 0 else sig.getD (t - 1) 0 / 2) = .ok out' ∧
      ∀ i < (sig.length - 400) / 160 + 1,
        |(out'.2.getD i []).getD 0 0 - 3 / 2 * (out.2.getD i []).getD 0 0| ≤ 1.97 ∧
        |(out'.2.getD i []).getD 256 0 - 1 / 2 * (out.2.getD i []).getD 256 0| ≤ 1.97 := by
  have hf : IsFiltered (fun j => if j = 0 then 1 else 1 / 2) 2 sig
      ((List.range sig.length).map fun (t : ℕ) => sig.getD t 0 + if t = 0 then 0 else sig.getD (t - 1) 0 / 2) := by
    refine ⟨by simp, fun t ht => ?_⟩
    rw [getD_map_range_lt _ _ ht, Finset.sum_range_succ, Finset.sum_range_one]
    rcases Nat.eq_zero_or_pos t with rfl | h
    · simp [delayed]
    · simp only [delayed, Nat.zero_le, if_true, Nat.sub_zero, one_mul, one_ne_zero, if_false]
      rw [if_neg (by omega), if_pos (by omega)]
      ring
  obtain ⟨out, out', h1, h2, h3⟩ := C190_mel {} sig _ 400 160 (default_auto sig hlen) 8000 _ default_bank_band 2595 700
    MelConst.oshaghnessy (by norm_num) (by norm_num) hf hX
  have hr : ∀ k, response (fun j => if j = 0 then 1 else 1 / 2) 2 ({} : Args).nfft k = 1 + 1 / 2 * binRoot 512 k := fun k => by
    unfold response
    rw [Finset.sum_range_succ, Finset.sum_range_one, binRoot_pow, binRoot_pow]
    simp
  have hc : emphMax ({} : Args).preEmph ({} : Args).preEmphCoeff = 1.97 := by norm_num [emphMax, abs_of_pos]
  have h0 : binRoot 512 0 = 1 := by simp [binRoot]
  have h256 : binRoot 512 256 = -1 := by
    unfold binRoot
    rw [show -(2 * (π : ℂ) * Complex.I * (256 : ℕ) / (512 : ℕ)) = -(π * Complex.I) by push_cast; ring, Complex.exp_neg, Complex.exp_pi_mul_I]
    norm_num
  refine ⟨out, out', h1, h2, fun i hi => ⟨?_, ?_⟩⟩
  · have h4 := h3 i hi 0 (by simp)
    rw [hr, h0, hc] at h4
    norm_num [Finset.sum_range_succ, abs_of_pos] at h4 ⊢
    exact h4
  · have h4 := h3 i hi 256 (by norm_num)
    rw [hr, h256, hc] at h4
    norm_num [Finset.sum_range_succ, abs_of_pos] at h4 ⊢
    exact h4

end Props
end Spafe
