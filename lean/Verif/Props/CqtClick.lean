import Verif.Props.CqccContinuous
import Verif.Props.CqtTone
import Verif.Props.Click

/-! C201: which samples a row of `cqt_spectrogram` sees. -/

set_option linter.unusedSectionVars false

namespace Spafe
namespace Props
open Model XF Spec

/-- Arguments with which `cqt_spectrogram` returns, for signals of at least `l` samples; frames of `l` samples, hop `s`. -/
structure CqtCall (a : CqtArgs) (l s : ℕ) : Prop where
  fs : 0 < a.fs
  rate : 0 < a.qRate
  bins : a.bins ≠ 0
  f0 : 0 < a.f0
  high : effHigh a.high a.fs ≤ a.fs / 2
  some : admissible a.f0 a.octaves a.bins a.low (effHigh a.high a.fs) a.fs a.qRate a.nfft ≠ []
  window : WindowName a.win.winType
  le : a.win.winHop ≤ a.win.winLen
  len : pyInt (a.win.winLen * a.fs) = l
  hop : pyInt (a.win.winHop * a.fs) = s
  pos : 0 < s

/-- The frequencies of the rows. -/
noncomputable def rowFreqs (a : CqtArgs) : List ℝ := admissible a.f0 a.octaves a.bins a.low (effHigh a.high a.fs) a.fs a.qRate a.nfft

/-- The number of samples in one analysis window at frequency `g`: `q_rate / (2 ^ (1 / bins) - 1)` periods, rounded up. -/
noncomputable def rowLen (a : CqtArgs) (g : ℝ) : ℕ := ⌈a.qRate / (2 ^ (1 / (a.bins : ℝ)) - 1) * a.fs / g⌉.toNat

/-- The windowed frame `i`. -/
noncomputable def windowed (a : CqtArgs) (x : List ℝ) (l s i j : ℕ) : ℝ :=
  if j < l then windowWeight a.win.winType l j * emphasised a.preEmph a.preEmphCoeff x (i * s + j) else 0

/-- What `cqt_spectrogram` computes, end to end: the entry of frequency `g` and frame `i` is the constant-Q coefficient of the windowed frame, up to the
threshold times the sum of the absolute values of the frame. -/
theorem C201_meaning (a : CqtArgs) {l s : ℕ} (h : CqtCall a l s) (ht : 0 ≤ a.thr) (x : List ℝ) (hx : l ≤ x.length) :
    ∃ q, cqtSpectrogram a x = .ok q ∧ HasShape q (rowFreqs a).length ((x.length - l) / s + 1) ∧
      ∀ k < (rowFreqs a).length, 0 < rowLen a ((rowFreqs a).getD k 0) ∧ rowLen a ((rowFreqs a).getD k 0) ≤ a.nfft ∧
        ∀ i < (x.length - l) / s + 1,
          ‖(q.getD k []).getD i 0 - cqCoeff a.nfft a.fs ((rowFreqs a).getD k 0) (rowLen a ((rowFreqs a).getD k 0))
            (windowWeight a.win.winType (rowLen a ((rowFreqs a).getD k 0))) (windowed a x l s i)‖ ≤
            a.thr * ∑ j ∈ Finset.range a.nfft, |windowed a x l s i j| := by
  obtain ⟨hfs, hq, hB, hf0, hhigh, hne, hw, hle, hL, hS, hs0⟩ := h
  have hS' : 0 < pyInt (a.win.winHop * a.fs) := by omega
  have hls : s ≤ l := by
    have := pyInt_mono (mul_le_mul_of_nonneg_right hle hfs.le)
    rw [hS, hL] at this
    exact_mod_cast this
  have hne' : x ≠ [] := by
    rintro rfl
    simp at hx
    omega
  set w : List ℝ := (List.range l).map (windowWeight a.win.winType l) with hwdef
  have hwl : w.length = l := by simp [hwdef]
  have hfe := (frontEnd_ok_iff a.toArgs a.preEmphCoeff x _ hS').mpr ⟨fun e => hne' e.2, hle, l, s, w, hL,
    hS, hs0, hx, C14_window_formula _ hw l, hwl, rfl⟩
  set W := (List.range ((x.length - l) / s + 1)).map fun (i : ℕ) =>
    List.zipWith (· * ·) w (((emph a.toArgs a.preEmphCoeff x).drop (i * s)).take l) with hW
  have hWl : W.length = (x.length - l) / s + 1 := by simp [hW]
  obtain ⟨q, hqq, hv⟩ := C91_meaning W (low := a.low) (high := some (effHigh a.high a.fs)) (O := a.octaves) (nfft := a.nfft) (t := a.win.winType)
    hfs hq hB hf0 hw ht (by rw [effHigh_idem]; exact hne)
  have hsh := C68_shape W hfs hq hB hf0 q hqq
  rw [effHigh_idem] at hv hsh
  rw [hWl] at hsh
  refine ⟨q, ?_, hsh, fun k hk => ?_⟩
  · unfold cqtSpectrogram
    rw [if_neg (not_lt.mpr hhigh), hfe, ok_bind]
    exact hqq
  · have hf := getD_mem 0 hk
    have h1 := (List.mem_filter.mp hf)
    have h2 := winLen_pos hfs hq hB (grid_pos hf0 a.octaves a.bins _ (List.mem_of_mem_filter h1.1))
    have h3 := of_decide_eq_true h1.2
    have hN : (rowLen a ((rowFreqs a).getD k 0) : ℤ) = winLen a.fs a.qRate a.bins ((rowFreqs a).getD k 0) := Int.toNat_of_nonneg h2.le
    have h2' : 0 < winLen a.fs a.qRate a.bins ((rowFreqs a).getD k 0) := h2
    have h3' : winLen a.fs a.qRate a.bins ((rowFreqs a).getD k 0) ≤ a.nfft := h3
    refine ⟨by omega, by omega, fun i hi => ?_⟩
    obtain ⟨N, v, hN', hv', hb⟩ := hv k i hk (by rw [hWl]; exact hi)
    have hNN : N = rowLen a ((rowFreqs a).getD k 0) := by
      have e : (N : ℤ) = winLen a.fs a.qRate a.bins ((rowFreqs a).getD k 0) := hN'
      omega
    have hvv := Except.ok.inj (hv'.symm.trans (C14_window_formula _ hw N))
    have hsample : ∀ j, (W.getD i []).getD j 0 = windowed a x l s i j := by
      intro j
      have h3 : i * s ≤ x.length - l := (Nat.le_div_iff_mul_le hs0).mp (by omega)
      rw [hW, getD_map_range_lt _ _ hi, frame_sample hwl (by rw [emph_length]; omega)]
      unfold windowed
      split_ifs with hj
      · rw [hwdef, getD_map_range_lt _ _ hj, emph_getD' _ _ _ (by omega)]
      · rfl
    simp only [hsample] at hb
    have hc : cqCoeff a.nfft a.fs ((rowFreqs a).getD k 0) N (fun j => v.getD j 0) (windowed a x l s i) =
        cqCoeff a.nfft a.fs ((rowFreqs a).getD k 0) N (windowWeight a.win.winType N) (windowed a x l s i) := by
      unfold cqCoeff
      congr 1
      refine Finset.sum_congr rfl fun m hm => ?_
      beta_reduce
      rw [hvv, getD_map_range_lt _ _ (Finset.mem_range.mp hm)]
    rw [← hNN, ← hc]
    exact hb

/-- The weight of sample `t` in an entry with an analysis window of `N` samples and frame `i`, as a multiple of the sample: both windows have to reach it. -/
noncomputable def cqWeight (a : CqtArgs) (l s N i t : ℕ) : ℝ :=
  if i * s + (a.nfft - N) / 2 ≤ t ∧ t < i * s + l ∧ t < i * s + (a.nfft - N) / 2 + N then
    windowWeight a.win.winType l (t - i * s) * windowWeight a.win.winType N (t - i * s - (a.nfft - N) / 2) / N
  else 0

theorem cqCoeff_click (a : CqtArgs) (hp : a.preEmph = false) (l s N i : ℕ) (f : ℝ) {x : List ℝ} {t₀ : ℕ} {A : ℝ} (hx : IsClick x t₀ A) :
    ‖cqCoeff a.nfft a.fs f N (windowWeight a.win.winType N) (windowed a x l s i)‖ = |A| * cqWeight a l s N i t₀ := by
  have hw : ∀ j, windowed a x l s i j = if j < l ∧ i * s + j = t₀ then windowWeight a.win.winType l j * A else 0 := by
    intro j
    unfold windowed emphasised
    rw [hp, hx.2]
    by_cases h1 : j < l <;> by_cases h2 : i * s + j = t₀ <;> simp [h1, h2]
  unfold cqCoeff cqWeight
  set s0 := (a.nfft - N) / 2
  by_cases hc : i * s + s0 ≤ t₀ ∧ t₀ < i * s + l ∧ t₀ < i * s + s0 + N
  · rw [if_pos hc, Finset.sum_eq_single (t₀ - i * s - s0)]
    · have e1 : s0 + (t₀ - i * s - s0) = t₀ - i * s := by omega
      rw [e1, hw, if_pos ⟨by omega, by omega⟩]
      have h1 := windowWeight_nonneg_all a.win.winType (l := l) (j := t₀ - i * s) (by omega)
      have h2 := windowWeight_nonneg_all a.win.winType (l := N) (j := t₀ - i * s - s0) (by omega)
      have he : ‖Complex.exp (-(2 * Real.pi * Complex.I * (f / a.fs) * ((t₀ - i * s - s0 : ℕ) : ℂ)))‖ = 1 := by
        rw [show -(2 * (Real.pi : ℂ) * Complex.I * (f / a.fs) * ((t₀ - i * s - s0 : ℕ) : ℂ)) =
          ((-(2 * Real.pi * (f / a.fs) * ((t₀ - i * s - s0 : ℕ) : ℝ)) : ℝ) : ℂ) * Complex.I by push_cast; ring]
        exact Complex.norm_exp_ofReal_mul_I _
      rw [norm_mul, norm_mul, norm_mul, he, norm_div, norm_one, Complex.norm_natCast, Complex.norm_real, Complex.norm_real, Real.norm_eq_abs,
        Real.norm_eq_abs, abs_mul, abs_of_nonneg h1, abs_of_nonneg h2]
      ring
    · intro m _ hm
      rw [hw, if_neg (by omega)]
      simp
    · intro hm
      exact absurd (Finset.mem_range.mpr (by omega)) hm
  · rw [if_neg hc, Finset.sum_eq_zero, mul_zero, norm_zero, mul_zero]
    intro m hm
    have := Finset.mem_range.mp hm
    rw [hw, if_neg (by omega)]
    simp

theorem windowed_click_sum (a : CqtArgs) (hp : a.preEmph = false) (l s i : ℕ) {x : List ℝ} {t₀ : ℕ} {A : ℝ} (hx : IsClick x t₀ A) :
    ∑ j ∈ Finset.range a.nfft, |windowed a x l s i j| ≤ |A| * sampleWeight (windowWeight a.win.winType l) l s a.nfft i t₀ := by
  have hw : ∀ j, windowed a x l s i j = if j < l ∧ i * s + j = t₀ then windowWeight a.win.winType l j * A else 0 := by
    intro j
    unfold windowed emphasised
    rw [hp, hx.2]
    by_cases h1 : j < l <;> by_cases h2 : i * s + j = t₀ <;> simp [h1, h2]
  unfold sampleWeight
  by_cases hc : i * s ≤ t₀ ∧ t₀ < i * s + min l a.nfft
  · rw [if_pos hc, Finset.sum_eq_single (t₀ - i * s)]
    · rw [hw, if_pos ⟨by omega, by omega⟩, abs_mul, abs_of_nonneg (windowWeight_nonneg_all _ (by omega)), mul_comm]
    · intro m _ hm
      rw [hw, if_neg (by omega), abs_zero]
    · intro hm
      exact absurd (Finset.mem_range.mpr (by omega)) hm
  · rw [if_neg hc, mul_zero]
    refine (Finset.sum_eq_zero fun m hm => ?_).le
    have := Finset.mem_range.mp hm
    rw [hw, if_neg (by omega), abs_zero]

/-- C201: a click of height `A` at sample `t₀`, without pre-emphasis. Its entry at a frequency with windows of `N` samples is `|A|` times the weight of
the sample, up to the threshold times what the frame contains of the click. With threshold 0 there is equality. -/
theorem C201_click (a : CqtArgs) {l s : ℕ} (h : CqtCall a l s) (ht : 0 ≤ a.thr) (hp : a.preEmph = false) (x : List ℝ) (hx : l ≤ x.length)
    {t₀ : ℕ} {A : ℝ} (hc : IsClick x t₀ A) :
    ∃ q, cqtSpectrogram a x = .ok q ∧ HasShape q (rowFreqs a).length ((x.length - l) / s + 1) ∧
      ∀ k < (rowFreqs a).length, ∀ i < (x.length - l) / s + 1,
        |‖(q.getD k []).getD i 0‖ - |A| * cqWeight a l s (rowLen a ((rowFreqs a).getD k 0)) i t₀| ≤
          a.thr * (|A| * sampleWeight (windowWeight a.win.winType l) l s a.nfft i t₀) := by
  obtain ⟨q, hq, hsh, hv⟩ := C201_meaning a h ht x hx
  refine ⟨q, hq, hsh, fun k hk i hi => ?_⟩
  obtain ⟨-, -, hb⟩ := hv k hk
  rw [← cqCoeff_click a hp l s _ i ((rowFreqs a).getD k 0) hc]
  exact (abs_norm_sub_norm_le _ _).trans ((hb i hi).trans (mul_le_mul_of_nonneg_left (windowed_click_sum a hp l s i hc) ht))

theorem hamming_pos {M j : ℕ} : 0 < windowWeight "hamming" M j := by
  unfold windowWeight
  split_ifs with h1 h2 h3
  · exact one_pos
  · exact absurd h2 (by decide)
  · have := Real.cos_le_one (2 * Real.pi * j / (M - 1))
    linarith
  all_goals exact absurd rfl h3

/-- C201: lower frequencies look at longer stretches, which contain those of the higher ones: with the Hamming window, a click that has an effect at one
frequency has an effect, in the same frame, at all lower ones (longer windows). -/
theorem C201_nested (a : CqtArgs) (hw : a.win.winType = "hamming") {l s N N' i t : ℕ} (h0 : 0 < N) (hN : N ≤ N') (hN' : N' ≤ a.nfft)
    (h : cqWeight a l s N i t ≠ 0) : 0 < cqWeight a l s N' i t := by
  unfold cqWeight at h ⊢
  rw [hw] at h ⊢
  have hc := not_not.mp fun hc => h (if_neg hc)
  rw [if_pos ⟨by omega, hc.2.1, by omega⟩]
  have hpos : (0 : ℝ) < N' := by exact_mod_cast lt_of_lt_of_le h0 hN
  exact div_pos (mul_pos hamming_pos hamming_pos) hpos

/-- C201 (the part that holds): if the analysis windows of a frequency are at least as long as the hop and end inside the frame, a click between
the first and the last of them has an effect in some frame (Hamming window, threshold 0, no pre-emphasis). Missing: higher frequencies, where it is false
(`C201_unheard`, `C201_violated`). -/
theorem C201_heard_partial (a : CqtArgs) {l s : ℕ} (h : CqtCall a l s) (ht : a.thr = 0) (hp : a.preEmph = false) (hw : a.win.winType = "hamming")
    (x : List ℝ) (hx : l ≤ x.length) {t₀ : ℕ} {A : ℝ} (hA : A ≠ 0) (hc : IsClick x t₀ A) {q : List (List ℂ)} (hq : cqtSpectrogram a x = .ok q)
    {k : ℕ} (hk : k < (rowFreqs a).length) (hN : s ≤ rowLen a ((rowFreqs a).getD k 0))
    (hl : (a.nfft - rowLen a ((rowFreqs a).getD k 0)) / 2 + rowLen a ((rowFreqs a).getD k 0) ≤ l)
    (h1 : (a.nfft - rowLen a ((rowFreqs a).getD k 0)) / 2 ≤ t₀)
    (h2 : t₀ < (x.length - l) / s * s + (a.nfft - rowLen a ((rowFreqs a).getD k 0)) / 2 + rowLen a ((rowFreqs a).getD k 0)) :
    ∃ i < (x.length - l) / s + 1, (q.getD k []).getD i 0 ≠ 0 := by
  obtain ⟨q', hq', -, hv⟩ := C201_click a h ht.ge hp x hx hc
  obtain rfl := Except.ok.inj (hq.symm.trans hq')
  have hs := h.pos
  set N := rowLen a ((rowFreqs a).getD k 0) with hNd
  set s0 := (a.nfft - N) / 2 with hs0
  obtain ⟨i, hi, hi1, hi2⟩ : ∃ i < (x.length - l) / s + 1, i * s + s0 ≤ t₀ ∧ t₀ < i * s + s0 + N := by
    by_cases hb : (t₀ - s0) / s ≤ (x.length - l) / s
    · refine ⟨(t₀ - s0) / s, by omega, ?_, ?_⟩
      · have := Nat.div_mul_le_self (t₀ - s0) s
        omega
      · have := Nat.lt_div_mul_add (a := t₀ - s0) hs
        omega
    · refine ⟨(x.length - l) / s, by omega, ?_, by omega⟩
      have h3 : (x.length - l) / s * s ≤ (t₀ - s0) / s * s := Nat.mul_le_mul_right s (by omega)
      have := Nat.div_mul_le_self (t₀ - s0) s
      omega
  refine ⟨i, hi, fun h0 => ?_⟩
  have hb := hv k hk i hi
  rw [ht, zero_mul, h0, norm_zero, zero_sub, abs_neg, abs_mul, abs_abs] at hb
  have hpos : 0 < cqWeight a l s N i t₀ := by
    unfold cqWeight
    rw [hw, ← hs0, if_pos ⟨hi1, by omega, hi2⟩]
    have hN0 : (0 : ℝ) < N := by exact_mod_cast lt_of_lt_of_le hs hN
    exact div_pos (mul_pos hamming_pos hamming_pos) hN0
  rw [abs_of_pos hpos] at hb
  have := mul_pos (abs_pos.mpr hA) hpos
  linarith

/-- C201 (violated): the samples before the first analysis window, and those between two windows where these are shorter than the hop, are not seen:
without pre-emphasis and threshold, two signals that agree on the other samples have the same row. -/
theorem C201_unheard (a : CqtArgs) {l s : ℕ} (h : CqtCall a l s) (ht : a.thr = 0) (hp : a.preEmph = false) {x x' : List ℝ}
    (hx : l ≤ x.length) (hlen : x'.length = x.length) {q q' : List (List ℂ)} (hq : cqtSpectrogram a x = .ok q) (hq' : cqtSpectrogram a x' = .ok q')
    {k : ℕ} (hk : k < (rowFreqs a).length)
    (hxx : ∀ t, (a.nfft - rowLen a ((rowFreqs a).getD k 0)) / 2 ≤ t →
      (t - (a.nfft - rowLen a ((rowFreqs a).getD k 0)) / 2) % s < rowLen a ((rowFreqs a).getD k 0) → x'.getD t 0 = x.getD t 0) :
    q'.getD k [] = q.getD k [] := by
  obtain ⟨q1, h1, hsh, hv⟩ := C201_meaning a h ht.ge x hx
  obtain rfl := Except.ok.inj (hq.symm.trans h1)
  obtain ⟨q2, h2, hsh', hv'⟩ := C201_meaning a h ht.ge x' (by omega)
  obtain rfl := Except.ok.inj (hq'.symm.trans h2)
  rw [hlen] at hsh' hv'
  have e1 : (q.getD k []).length = (x.length - l) / s + 1 := hsh.2 _ (getD_mem [] (by rw [hsh.1]; exact hk))
  have e2 : (q'.getD k []).length = (x.length - l) / s + 1 := hsh'.2 _ (getD_mem [] (by rw [hsh'.1]; exact hk))
  refine ext_getD 0 (by rw [e1, e2]) fun i hi => ?_
  rw [e2] at hi
  have b1 := (hv k hk).2.2 i hi
  have b2 := (hv' k hk).2.2 i hi
  rw [ht, zero_mul, norm_le_zero_iff, sub_eq_zero] at b1 b2
  rw [b1, b2]
  unfold cqCoeff
  congr 1
  refine Finset.sum_congr rfl fun m hm => ?_
  have hm := Finset.mem_range.mp hm
  congr 3
  unfold windowed emphasised
  rw [hp]
  simp only [Bool.false_eq_true, if_false]
  split_ifs with hj
  · rw [hxx]
    · omega
    · rw [show i * s + ((a.nfft - rowLen a ((rowFreqs a).getD k 0)) / 2 + m) - (a.nfft - rowLen a ((rowFreqs a).getD k 0)) / 2 = m + i * s by omega,
        Nat.add_mul_mod_self_right]
      exact lt_of_le_of_lt (Nat.mod_le _ _) hm
  · rfl

/-- The default arguments, without pre-emphasis and threshold. -/
noncomputable def plainCqt : CqtArgs := { preEmph := false, thr := 0 }

theorem plainCqt_call : CqtCall plainCqt 400 160 where
  fs := by norm_num [plainCqt]
  rate := by norm_num [plainCqt]
  bins := by norm_num [plainCqt]
  f0 := by norm_num [plainCqt]
  high := by norm_num [plainCqt, effHigh]
  some := default_admissible
  window := by simp [WindowName, plainCqt, Args.win]
  le := by norm_num [plainCqt, Args.win]
  len := default_len
  hop := by norm_num [plainCqt, Args.win, pyInt]
  pos := by norm_num

theorem plainCqt_7680 : ∃ k < (rowFreqs plainCqt).length, (rowFreqs plainCqt).getD k 0 = 7680 ∧ rowLen plainCqt 7680 = 72 := by
  have hq := default_quality
  have h64 : (2 : ℝ) ^ (((144 : ℕ) : ℝ) / (24 : ℕ)) = 64 := by
    rw [show ((144 : ℕ) : ℝ) / (24 : ℕ) = ((6 : ℕ) : ℝ) by norm_num, Real.rpow_natCast]; norm_num
  have hN : ⌈(1 : ℝ) / (2 ^ (1 / ((24 : ℕ) : ℝ)) - 1) * 16000 / 7680⌉ = 72 := by
    rw [Int.ceil_eq_iff]
    push_cast at hq ⊢
    constructor
    · rw [lt_div_iff₀ (by norm_num)]
      linarith [hq.1]
    · rw [div_le_iff₀ (by norm_num)]
      linarith [hq.2]
  have hmem : (7680 : ℝ) ∈ rowFreqs plainCqt := by
    refine mem_admissible.mpr ⟨144, by norm_num [plainCqt], ?_, by norm_num [plainCqt], by norm_num [plainCqt, effHigh], ?_⟩
    · show (7680 : ℝ) = 120 * 2 ^ (((144 : ℕ) : ℝ) / (24 : ℕ))
      rw [h64]; norm_num
    · show ⌈(1 : ℝ) / (2 ^ (1 / ((24 : ℕ) : ℝ)) - 1) * 16000 / 7680⌉ ≤ ((512 : ℕ) : ℤ)
      rw [hN]; norm_num
  obtain ⟨k, hk, e⟩ := List.getElem_of_mem hmem
  refine ⟨k, hk, by rw [List.getD_eq_getElem _ _ hk, e], ?_⟩
  show ⌈(1 : ℝ) / (2 ^ (1 / ((24 : ℕ) : ℝ)) - 1) * 16000 / 7680⌉.toNat = 72
  rw [hN]
  rfl

/-- C201 (violated) with the default grid, frames and hop: the row of 7680 Hz has windows of 72 samples every 160 samples, from sample 220 on. It does not change
if samples elsewhere, more than half of the recording, are replaced by anything: any two signals of the same length. -/
theorem C201_violated (x x' : List ℝ) (hx : 400 ≤ x.length) (hlen : x'.length = x.length)
    (hxx : ∀ t, 220 ≤ t → (t - 220) % 160 < 72 → x'.getD t 0 = x.getD t 0) :
    ∃ q q', ∃ k < (rowFreqs plainCqt).length, (rowFreqs plainCqt).getD k 0 = 7680 ∧ cqtSpectrogram plainCqt x = .ok q ∧
      cqtSpectrogram plainCqt x' = .ok q' ∧ q'.getD k [] = q.getD k [] := by
  obtain ⟨k, hk, e, hN⟩ := plainCqt_7680
  obtain ⟨q, hq, -⟩ := C201_meaning plainCqt plainCqt_call le_rfl x hx
  obtain ⟨q', hq', -⟩ := C201_meaning plainCqt plainCqt_call le_rfl x' (by omega)
  refine ⟨q, q', k, hk, e, hq, hq', C201_unheard plainCqt plainCqt_call rfl rfl hx hlen hq hq' hk ?_⟩
  rw [e, hN]
  exact hxx

theorem plainCqt_1920 : ∃ k < (rowFreqs plainCqt).length, (rowFreqs plainCqt).getD k 0 = 1920 ∧ rowLen plainCqt 1920 = 285 := by
  have hq := default_quality
  have h16 : (2 : ℝ) ^ (((96 : ℕ) : ℝ) / (24 : ℕ)) = 16 := by
    rw [show ((96 : ℕ) : ℝ) / (24 : ℕ) = ((4 : ℕ) : ℝ) by norm_num, Real.rpow_natCast]; norm_num
  have hN : ⌈(1 : ℝ) / (2 ^ (1 / ((24 : ℕ) : ℝ)) - 1) * 16000 / 1920⌉ = 285 := by
    rw [Int.ceil_eq_iff]
    push_cast at hq ⊢
    constructor
    · rw [lt_div_iff₀ (by norm_num)]
      linarith [hq.1]
    · rw [div_le_iff₀ (by norm_num)]
      linarith [hq.2]
  have hmem : (1920 : ℝ) ∈ rowFreqs plainCqt := by
    refine mem_admissible.mpr ⟨96, by norm_num [plainCqt], ?_, by norm_num [plainCqt], by norm_num [plainCqt, effHigh], ?_⟩
    · show (1920 : ℝ) = 120 * 2 ^ (((96 : ℕ) : ℝ) / (24 : ℕ))
      rw [h16]; norm_num
    · show ⌈(1 : ℝ) / (2 ^ (1 / ((24 : ℕ) : ℝ)) - 1) * 16000 / 1920⌉ ≤ ((512 : ℕ) : ℤ)
      rw [hN]; norm_num
  obtain ⟨k, hk, e⟩ := List.getElem_of_mem hmem
  refine ⟨k, hk, by rw [List.getD_eq_getElem _ _ hk, e], ?_⟩
  show ⌈(1 : ℝ) / (2 ^ (1 / ((24 : ℕ) : ℝ)) - 1) * 16000 / 1920⌉.toNat = 285
  rw [hN]
  rfl

/-- A concrete case of C201: a recording of 560 samples (two frames), all 0 but the one at 300. The row of 1920 Hz shows it, the row of 7680 Hz is that of silence. -/
example : ∃ q q₀, cqtSpectrogram plainCqt ((List.range 560).map fun (t : ℕ) => if t = 300 then (1 : ℝ) else 0) = .ok q ∧
    cqtSpectrogram plainCqt ((List.range 560).map fun (_ : ℕ) => (0 : ℝ)) = .ok q₀ ∧
    (∃ k, (rowFreqs plainCqt).getD k 0 = 1920 ∧ ∃ i < 2, (q.getD k []).getD i 0 ≠ 0) ∧
    ∃ k, (rowFreqs plainCqt).getD k 0 = 7680 ∧ q.getD k [] = q₀.getD k [] := by
  set x : List ℝ := (List.range 560).map fun (t : ℕ) => if t = 300 then (1 : ℝ) else 0 with hx
  set x₀ : List ℝ := (List.range 560).map fun (_ : ℕ) => (0 : ℝ) with hx₀
  have hl : x.length = 560 := by rw [hx, List.length_map, List.length_range]
  have hl₀ : x₀.length = 560 := by rw [hx₀, List.length_map, List.length_range]
  have hv : ∀ t, x.getD t 0 = if t = 300 then (1 : ℝ) else 0 := by
    intro t
    by_cases h : t < 560
    · rw [hx, getD_map_range_lt _ _ h]
    · rw [List.getD_eq_default _ _ (by rw [hl]; omega), if_neg (by omega)]
  have hv₀ : ∀ t, x₀.getD t 0 = 0 := by
    intro t
    by_cases h : t < 560
    · rw [hx₀, getD_map_range_lt _ _ h]
    · rw [List.getD_eq_default _ _ (by rw [hl₀]; omega)]
  obtain ⟨q₀, q, k, -, e, hq₀, hq, hr⟩ := C201_violated x₀ x (by omega) (by omega) (fun t _ h2 => by
    rw [hv, hv₀, if_neg]
    rintro rfl
    omega)
  refine ⟨q, q₀, hq, hq₀, ?_, k, e, hr⟩
  obtain ⟨k, hk, e, hN⟩ := plainCqt_1920
  have hn : plainCqt.nfft = 512 := rfl
  obtain ⟨i, hi, h⟩ := C201_heard_partial plainCqt plainCqt_call rfl rfl rfl x (by omega) one_ne_zero ⟨by rw [hl]; norm_num, hv⟩ hq hk
    (by rw [e, hN]; norm_num) (by rw [e, hN, hn]; norm_num) (by rw [e, hN, hn]; norm_num) (by rw [e, hN, hn, hl]; norm_num)
  rw [hl] at hi
  exact ⟨k, e, i, by omega, h⟩

end Props
end Spafe
