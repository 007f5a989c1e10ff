import Verif.Props.SpecMeaning

/-!
C163: what a larger FFT size does to the magnitude spectra that the spectrogram functions return
(`mfcc.py:138-163`, `lfcc.py:129-154`, `bfcc.py:159-183`, `gfcc.py:137-162`).
-/

set_option linter.unusedSectionVars false

namespace Spafe
namespace Props

open Model XF Spec Real

/-- Column `q * k` of the spectrum with `q` times as many points is column `k`: both are the frequency `k / nfft`. -/
theorem frameBin_refine (w y : ℕ → ℝ) (l s nfft i q k : ℕ) (hq : 1 ≤ q) (hl : l ≤ nfft) :
    frameBin w y l s (q * nfft) i (q * k) = frameBin w y l s nfft i k := by
  have hqn : l ≤ q * nfft := hl.trans (Nat.le_mul_of_pos_left _ hq)
  unfold frameBin
  rw [Nat.min_eq_left hl, Nat.min_eq_left hqn]
  refine Finset.sum_congr rfl fun j _ => ?_
  congr 3
  have h0 : (q : ℂ) ≠ 0 := by
    have : q ≠ 0 := by omega
    exact_mod_cast this
  push_cast
  rw [show 2 * (π : ℂ) * Complex.I * ((j : ℂ) * (q * k)) = q * (2 * π * Complex.I * (j * k)) by ring, mul_div_mul_left _ _ h0]

/-- The same magnitudes at the same frequencies: row `i` of `M` at column `k` is row `i` of `M'` at column `q * k`. -/
def Refines (M M' : List (List ℝ)) (R nfft q : ℕ) : Prop :=
  ∀ i < R, ∀ k ≤ nfft / 2, (M'.getD i []).getD (q * k) 0 = (M.getD i []).getD k 0

theorem refines_of {out out' : XMat × List (List ℝ)} {R N nfft q : ℕ} {W W' : ℕ → ℕ → ℝ} {w y : ℕ → ℝ} {l s : ℕ}
    (h : IsSpectrogram out R N nfft W w y l s) (h' : IsSpectrogram out' R N (q * nfft) W' w y l s) (hq : 1 ≤ q) (hl : l ≤ nfft) :
    Refines out.2 out'.2 R nfft q := by
  intro i hi k hk
  have hqk : q * k < q * nfft / 2 + 1 := by
    have : q * k ≤ q * (nfft / 2) := Nat.mul_le_mul_left q hk
    have : q * (nfft / 2) ≤ q * nfft / 2 := Nat.mul_div_le_mul_div_assoc ..
    omega
  rw [(h'.2.2 i hi).2 _ hqk, (h.2.2 i hi).2 _ (by omega), frameBin_refine w y l s nfft i q k hq hl]

theorem auto_refined {a : Args} {sig : List ℝ} {l s q : ℕ} (h : Auto a sig l s) (hq : 1 ≤ q) :
    Auto { a with nfft := q * a.nfft } sig l s :=
  ⟨h.bank, h.filters, h.ceps, Nat.mul_ne_zero (by omega) h.nfft, h.window, h.hopLe, h.len, h.hop, h.pos, h.long, h.samples⟩

theorem band_refined {a : Args} {high : ℝ} {w : ℕ → ℕ → ℝ} (h : Band a high w) (n : ℕ) : Band { a with nfft := n } high w :=
  ⟨h.scale, h.eff, h.low0, h.lt, h.le⟩

/-- **C163** (mel): with a frame that fits into `nfft`, an FFT of `q * nfft` points shows the old values at every `q`-th column. -/
theorem C163_mel (a : Args) (sig : List ℝ) (l s : ℕ) (h : Auto a sig l s) (high : ℝ) (w : ℕ → ℕ → ℝ)
    (hb : Band a high w) (c d : ℝ) (hm : MelConst a.approach c d) (q : ℕ) (hq : 1 ≤ q) (hl : l ≤ a.nfft) :
    ∃ out out', melSpectrogram a sig = .ok out ∧ melSpectrogram { a with nfft := q * a.nfft } sig = .ok out' ∧
      Refines out.2 out'.2 ((sig.length - l) / s + 1) a.nfft q := by
  obtain ⟨out, h1, h2⟩ := C113_mel a sig l s h high w hb c d hm
  obtain ⟨out', h3, h4⟩ := C113_mel { a with nfft := q * a.nfft } sig l s (auto_refined h hq) high w (band_refined hb _) c d hm
  exact ⟨out, out', h1, h3, refines_of h2 h4 hq hl⟩

/-- **C163** (linear). -/
theorem C163_linear (a : Args) (sig : List ℝ) (l s : ℕ) (h : Auto a sig l s) (high : ℝ) (w : ℕ → ℕ → ℝ)
    (hb : Band a high w) (q : ℕ) (hq : 1 ≤ q) (hl : l ≤ a.nfft) :
    ∃ out out', linearSpectrogram a sig = .ok out ∧ linearSpectrogram { a with nfft := q * a.nfft } sig = .ok out' ∧
      Refines out.2 out'.2 ((sig.length - l) / s + 1) a.nfft q := by
  obtain ⟨out, h1, h2⟩ := C113_linear a sig l s h high w hb
  obtain ⟨out', h3, h4⟩ := C113_linear { a with nfft := q * a.nfft } sig l s (auto_refined h hq) high w (band_refined hb _)
  exact ⟨out, out', h1, h3, refines_of h2 h4 hq hl⟩

/-- **C163** (Bark). -/
theorem C163_bark (a : Args) (sig : List ℝ) (l s : ℕ) (h : Auto a sig l s) (high : ℝ) (w : ℕ → ℕ → ℝ)
    (hb : Band a high w) (B : ℝ → ℝ) (hB : BarkScale a.approach B) (q : ℕ) (hq : 1 ≤ q) (hl : l ≤ a.nfft) :
    ∃ out out', barkSpectrogram a sig = .ok out ∧ barkSpectrogram { a with nfft := q * a.nfft } sig = .ok out' ∧
      Refines out.2 out'.2 ((sig.length - l) / s + 1) a.nfft q := by
  obtain ⟨out, h1, h2⟩ := C113_bark a sig l s h high w hb B hB
  obtain ⟨out', h3, h4⟩ := C113_bark { a with nfft := q * a.nfft } sig l s (auto_refined h hq) high w (band_refined hb _) B hB
  exact ⟨out, out', h1, h3, refines_of h2 h4 hq hl⟩

/-- **C163** (ERB). -/
theorem C163_erb (a : Args) (sig : List ℝ) (l s : ℕ) (h : Auto a sig l s) (high : ℝ) (w : ℕ → ℕ → ℝ)
    (hb : Band a high w) (hn : 3 ≤ a.nfft) (q : ℕ) (hq : 1 ≤ q) (hl : l ≤ a.nfft) :
    ∃ out out', erbSpectrogram a sig = .ok out ∧ erbSpectrogram { a with nfft := q * a.nfft } sig = .ok out' ∧
      Refines out.2 out'.2 ((sig.length - l) / s + 1) a.nfft q := by
  obtain ⟨_, out, -, h1, h2⟩ := C113_erb a sig l s h high w hb hn
  obtain ⟨_, out', -, h3, h4⟩ := C113_erb { a with nfft := q * a.nfft } sig l s (auto_refined h hq) high w (band_refined hb _)
    (hn.trans (Nat.le_mul_of_pos_left _ hq))
  exact ⟨out, out', h1, h3, refines_of h2 h4 hq hl⟩

/-- Default arguments: 1024 points show every value of 512 points at twice the column number. -/
example (sig : List ℝ) (h : 400 ≤ sig.length) :
    ∃ out out', melSpectrogram {} sig = .ok out ∧ melSpectrogram { nfft := 2 * 512 } sig = .ok out' ∧
      Refines out.2 out'.2 ((sig.length - 400) / 160 + 1) 512 2 :=
  C163_mel {} sig 400 160 (default_auto sig h) 8000 _ default_bank_band 2595 700 .oshaghnessy 2 (by norm_num) (by norm_num)

/-! ### Frames that do not fit -/

/-- Two samples in one frame; `nfft = 1` crops the second one. -/
noncomputable def cropDemo (n : ℕ) : Args :=
  { fs := 1, numCeps := 1, nfilts := 1, nfft := n, preEmph := false, window := some ⟨2, 2, "hamming"⟩,
    fbanks := some (finMat [List.replicate (n / 2 + 1) 1]) }

theorem cropDemo_setup (n : ℕ) (hn : n ≠ 0) (x y : ℝ) : Setup (cropDemo n) [List.replicate (n / 2 + 1) 1] [x, y] 2 2 where
  bank := rfl
  cols := by simp [cropDemo]
  nonneg := by
    intro r hr v hv
    simp only [List.mem_singleton] at hr
    subst hr
    rw [(List.mem_replicate.1 hv).2]
    norm_num
  rows := by simp
  ceps := by simp [cropDemo]
  nfft := hn
  window := by simp [cropDemo, Args.win, WindowName]
  hopLe := by simp [cropDemo, Args.win]
  len := by
    have : ((cropDemo n).win.winLen * (cropDemo n).fs) = ((2 : ℕ) : ℝ) := by simp [cropDemo, Args.win]
    rw [this]; simp [pyInt]
  hop := by
    have : ((cropDemo n).win.winHop * (cropDemo n).fs) = ((2 : ℕ) : ℝ) := by simp [cropDemo, Args.win]
    rw [this]; simp [pyInt]
  pos := by norm_num
  long := by simp
  samples := by simp

/-- **C163**: the condition `l ≤ nfft` is needed. A frame [1, 1] of two samples has magnitude 0.08 at 0 Hz with `nfft = 1` and 0.16 with
`nfft = 2`. -/
theorem C163_crop : ∃ out out', melSpectrogram (cropDemo 1) [1, 1] = .ok out ∧ melSpectrogram (cropDemo 2) [1, 1] = .ok out' ∧
    (out.2.getD 0 []).getD 0 0 = 0.08 ∧ (out'.2.getD 0 []).getD 0 0 = 0.16 := by
  have hw : ∀ n, ∀ j < 2, windowWeight (cropDemo n).win.winType 2 j = 0.08 := by
    intro n j hj
    obtain rfl | rfl : j = 0 ∨ j = 1 := by omega
    · simp [windowWeight, cropDemo, Args.win]
      norm_num
    · have e : (2 : ℝ) - 1 = 1 := by norm_num
      simp [windowWeight, cropDemo, Args.win, e]
      norm_num
  have key : ∀ n, n ≠ 0 → melSpectrogram (cropDemo n) [1, 1] = spectrogram (cropDemo n) (cropDemo n).preEmphCoeff
      (finMat [List.replicate (n / 2 + 1) 1]) [1, 1] := fun n hn => rfl
  refine ⟨_, _, (key 1 (by norm_num)).trans (spectrogram_meaning (cropDemo_setup 1 (by norm_num) 1 1) _),
    (key 2 (by norm_num)).trans (spectrogram_meaning (cropDemo_setup 2 (by norm_num) 1 1) _), ?_, ?_⟩
  · rw [getD_map_range_lt _ _ (by simp), getD_map_range_lt _ _ (by simp [cropDemo])]
    unfold frameBin
    rw [show min 2 (cropDemo 1).nfft = 1 from rfl, Finset.sum_range_one, hw 1 0 (by norm_num)]
    simp [emphasised, cropDemo]
    norm_num
  · rw [getD_map_range_lt _ _ (by simp), getD_map_range_lt _ _ (by simp [cropDemo])]
    unfold frameBin
    rw [show min 2 (cropDemo 2).nfft = 2 from rfl, Finset.sum_range_succ, Finset.sum_range_one, hw 2 0 (by norm_num), hw 2 1 (by norm_num)]
    simp [emphasised, cropDemo]
    norm_num

end Props
end Spafe
