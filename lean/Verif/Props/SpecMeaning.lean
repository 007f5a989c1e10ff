import Verif.Props.DefaultBank

/-! C113: what the spectrogram functions return; C114: silent frames; C115: band energies and the energy of the frame. -/

set_option linter.unusedSectionVars false

namespace Spafe
namespace Props
open Model XF Spec

/-! ### C113 -/

/-- The value of the common spectrogram body. -/
theorem spectrogram_meaning {a : Args} {fb : List (List ℝ)} {sig : List ℝ} {l s : ℕ} (h : Setup a fb sig l s)
    (coeff : ℝ) :
    spectrogram a coeff (finMat fb) sig = .ok
      ((List.range ((sig.length - l) / s + 1)).map fun (i : ℕ) =>
        ((List.range fb.length).map (energyOf a coeff fb sig l s i)).map fin,
      (List.range ((sig.length - l) / s + 1)).map fun (i : ℕ) => (List.range (a.nfft / 2 + 1)).map fun (k : ℕ) =>
        ‖frameBin (windowWeight a.win.winType l) (emphasised a.preEmph coeff sig) l s a.nfft i k‖) := by
  rw [spectrogram_ok_iff]
  refine ⟨_, h.front coeff, h.nfft, finMat_cols h.cols, ?_, ?_⟩
  · rw [List.map_map]
    apply List.map_congr_left
    intro i hi
    simp only [Function.comp]
    rw [h.specRow (List.mem_range.mp hi) coeff]
  · rw [List.map_map]
    apply List.map_congr_left
    intro i hi
    simp only [Function.comp, Np.absRfft]
    apply List.map_congr_left
    intro k _
    rw [dft_frame (by simp) (h.inside (List.mem_range.mp hi) coeff) (fun j hj => getD_map_range_lt _ _ hj)
      (fun t ht => emph_getD' a coeff sig (by simpa using ht))]

/-- `out = (features, fourrier_transform)` where `features` are the energies of the frames in the bands with weights
`W` and `fourrier_transform` the magnitudes of the DFT of the frames. -/
def IsSpectrogram (out : XMat × List (List ℝ)) (R N nfft : ℕ) (W : ℕ → ℕ → ℝ) (w y : ℕ → ℝ) (l s : ℕ) : Prop :=
  IsMatrix out.1 R N (fun i n => weightedEnergy (W n) w y l s nfft i) ∧
  out.2.length = R ∧ ∀ i < R, (out.2.getD i []).length = nfft / 2 + 1 ∧
    ∀ k < nfft / 2 + 1, (out.2.getD i []).getD k 0 = ‖frameBin w y l s nfft i k‖

theorem auto_spectrogram {a : Args} {sig : List ℝ} {l s : ℕ} (h : Auto a sig l s) {W : ℕ → ℕ → ℝ}
    (hW : ∀ j k, j < a.nfilts → k < a.nfft / 2 + 1 → 0 ≤ W j k) (coeff : ℝ) :
    ∃ out, spectrogram a coeff (finMat (matOf a.nfilts (a.nfft / 2 + 1) W)) sig = .ok out ∧
      IsSpectrogram out ((sig.length - l) / s + 1) a.nfilts a.nfft W (windowWeight a.win.winType l)
        (emphasised a.preEmph coeff sig) l s := by
  refine ⟨_, spectrogram_meaning (h.setup hW) coeff, ?_, by simp, ?_⟩
  · have hN : (matOf a.nfilts (a.nfft / 2 + 1) W).length = a.nfilts := by simp [matOf]
    refine ⟨by simp, ?_, ?_⟩
    · intro x hx
      obtain ⟨i, -, rfl⟩ := List.mem_map.mp hx
      simp [hN]
    · intro i n hi hn
      rw [getD_map_range_lt _ _ hi, List.map_map, getD_map_range_lt _ _ (by rw [hN]; exact hn)]
      exact congrArg fin (bandEnergy_matOf W _ _ l s i hn)
  · intro i hi
    rw [getD_map_range_lt _ _ hi]
    exact ⟨by simp, fun k hk => getD_map_range_lt _ _ hk⟩

/-- C113 for `mel_spectrogram`: the first array holds the energies of the frames in the mel triangles, the second the
magnitudes of their DFT. -/
theorem C113_mel (a : Args) (sig : List ℝ) (l s : ℕ) (h : Auto a sig l s) (high : ℝ) (w : ℕ → ℕ → ℝ)
    (hb : Band a high w) (c d : ℝ) (hm : MelConst a.approach c d) :
    ∃ out, melSpectrogram a sig = .ok out ∧
      IsSpectrogram out ((sig.length - l) / s + 1) a.nfilts a.nfft (fun j b => w a.nfilts j *
            tri (melPoint c d a.low high a.nfilts j) (melPoint c d a.low high a.nfilts (j + 1))
              (melPoint c d a.low high a.nfilts (j + 2)) (colFreq a.low high a.nfft b))
        (windowWeight a.win.winType l) (emphasised a.preEmph a.preEmphCoeff sig) l s := by
  obtain ⟨bank, cs, h1, h2, -⟩ := C26_mel_triangles hb.scale hm hb.eff hb.low0 hb.lt hb.le a.nfilts a.nfft
  rw [isMatrix_eq h2] at h1
  obtain ⟨out, ho, hs⟩ := auto_spectrogram h
    (fun j k hj _ => mul_nonneg (scale_nonneg hb.scale hj) (tri_nonneg _ _ _ _)) a.preEmphCoeff
  refine ⟨out, ?_, hs⟩
  rw [melSpectrogram, melBankOf, h.bank]
  simp only [getFbanks]
  rw [h1]
  exact ho

/-- C113 for `linear_spectrogram` (pre-emphasis coefficient 0.97). -/
theorem C113_linear (a : Args) (sig : List ℝ) (l s : ℕ) (h : Auto a sig l s) (high : ℝ) (w : ℕ → ℕ → ℝ)
    (hb : Band a high w) :
    ∃ out, linearSpectrogram a sig = .ok out ∧
      IsSpectrogram out ((sig.length - l) / s + 1) a.nfilts a.nfft (fun j b => w a.nfilts j *
            tri (linPoint a.low high a.nfilts j) (linPoint a.low high a.nfilts (j + 1))
              (linPoint a.low high a.nfilts (j + 2)) (colFreq a.low high a.nfft b))
        (windowWeight a.win.winType l) (emphasised a.preEmph 0.97 sig) l s := by
  obtain ⟨bank, cs, h1, h2, -⟩ := C30_linear_triangles hb.scale hb.eff hb.low0 hb.lt hb.le a.nfilts a.nfft
  rw [isMatrix_eq h2] at h1
  obtain ⟨out, ho, hs⟩ := auto_spectrogram h
    (fun j k hj _ => mul_nonneg (scale_nonneg hb.scale hj) (tri_nonneg _ _ _ _)) 0.97
  refine ⟨out, ?_, hs⟩
  rw [linearSpectrogram, h.bank]
  simp only [getFbanks]
  rw [h1]
  exact ho

/-- C113 for `bark_spectrogram` (pre-emphasis coefficient 0.97). -/
theorem C113_bark (a : Args) (sig : List ℝ) (l s : ℕ) (h : Auto a sig l s) (high : ℝ) (w : ℕ → ℕ → ℝ)
    (hb : Band a high w) (B : ℝ → ℝ) (hB : BarkScale a.approach B) :
    ∃ out, barkSpectrogram a sig = .ok out ∧
      IsSpectrogram out ((sig.length - l) / s + 1) a.nfilts a.nfft (barkWeight B w a.low high a.fs a.nfilts a.nfft)
        (windowWeight a.win.winType l) (emphasised a.preEmph 0.97 sig) l s := by
  have hfs : 0 < a.fs := by have := hb.low0; have := hb.lt; have := hb.le; linarith
  obtain ⟨bank, cs, h1, -, h2⟩ := C34_bark_ok_partial hb.scale hB hb.eff hfs hb.low0 hb.le a.nfilts a.nfft
  replace h2 : IsMatrix bank a.nfilts (a.nfft / 2 + 1) (barkWeight B w a.low high a.fs a.nfilts a.nfft) := h2
  rw [isMatrix_eq h2] at h1
  obtain ⟨out, ho, hs⟩ := auto_spectrogram h (W := barkWeight B w a.low high a.fs a.nfilts a.nfft)
    (fun j k hj _ => barkWeight_nonneg hb.scale _ _ _ hj _ _) 0.97
  refine ⟨out, ?_, hs⟩
  rw [barkSpectrogram, h.bank]
  simp only [getFbanks]
  rw [h1]
  exact ho

/-- C113 for `erb_spectrogram` (pre-emphasis coefficient 0.97). -/
theorem C113_erb (a : Args) (sig : List ℝ) (l s : ℕ) (h : Auto a sig l s) (high : ℝ) (w : ℕ → ℕ → ℝ)
    (hb : Band a high w) (hnf : 3 ≤ a.nfft) :
    ∃ M out, IsPeak a.low high a.fs a.nfilts a.nfft M ∧ erbSpectrogram a sig = .ok out ∧
      IsSpectrogram out ((sig.length - l) / s + 1) a.nfilts a.nfft (gammaWeight w a.low high a.fs a.nfilts a.nfft M)
        (windowWeight a.win.winType l) (emphasised a.preEmph 0.97 sig) l s := by
  obtain ⟨M, cs, h1, h2, h3⟩ := gamma_bank hb hnf
  obtain ⟨out, ho, hs⟩ := auto_spectrogram h h3 0.97
  refine ⟨M, out, h1, ?_, hs⟩
  rw [erbSpectrogram, gammaBankOf, h.bank]
  simp only [getFbanks]
  rw [h2]
  exact ho

/-! ### C114 -/

theorem dctII_const {N k : ℕ} (hk : k < N) (t : ℝ) : dctII N (fun _ => t) k = if k = 0 then √N * t else 0 := by
  have h1 := dctRow_two N (fun _ => t)
  rw [dctRow_fin] at h1
  simp only [List.length_map, List.length_range] at h1
  have h2 := congrArg (fun r : List (XF ℝ) => r.getD k nan) h1
  beta_reduce at h2
  rw [List.map_map, List.map_map, getD_map_range_lt _ _ hk, getD_map_range_lt _ _ hk] at h2
  injection h2 with h2
  rw [← dct2_const hk t, ← h2]
  unfold dct2
  apply Finset.sum_congr rfl
  intro n hn
  rw [getD_map_range_lt _ _ (Finset.mem_range.mp hn)]

theorem framePower_silent {w y : ℕ → ℝ} {l s nfft i : ℕ} (h : ∀ j < l, y (i * s + j) = 0) (k : ℕ) :
    framePower w y l s nfft i k = 0 := by
  unfold framePower frameBin
  rw [Finset.sum_eq_zero]
  · simp
  · intro j hj
    rw [h j (lt_of_lt_of_le (Finset.mem_range.mp hj) (min_le_left _ _))]
    simp

theorem emphasised_silent {on : Bool} {c : ℝ} {x : List ℝ} {t : ℕ} (h0 : x.getD t 0 = 0)
    (h1 : on = true → t ≠ 0 → x.getD (t - 1) 0 = 0) : emphasised on c x t = 0 := by
  unfold emphasised
  split_ifs with h2 h3
  · rw [h0, sub_zero]
  · rw [h0, h1 h2 h3]; simp
  · exact h0

/-- The samples of frame `i` are zero, and with pre-emphasis the one before it. -/
def SilentFrame (a : Args) (sig : List ℝ) (l s i : ℕ) : Prop :=
  (∀ j < l, sig.getD (i * s + j) 0 = 0) ∧ (a.preEmph = true → i * s ≠ 0 → sig.getD (i * s - 1) 0 = 0)

theorem SilentFrame.emph {a : Args} {sig : List ℝ} {l s i : ℕ} (h : SilentFrame a sig l s i) (c : ℝ) :
    ∀ j < l, emphasised a.preEmph c sig (i * s + j) = 0 := by
  intro j hj
  apply emphasised_silent (h.1 j hj)
  intro hp h0
  rcases Nat.eq_zero_or_pos j with rfl | hj0
  · exact h.2 hp h0
  · rw [show i * s + j - 1 = i * s + (j - 1) by omega]
    exact h.1 _ (by omega)

/-- C114: on a silent frame the logarithmic features are `√N · ln 2⁻⁵²` followed by zeros, wherever the frame is and
whatever the bank. -/
theorem C114_log_features (a : Args) (f : Feature) (hf : f ∈ [mfcc, imfcc, ngcc, lfcc, bfcc])
    (fb : List (List ℝ)) (sig : List ℝ) (l s : ℕ) (h : Setup a fb sig l s)
    (hd : a.dctType = 2) (hu : a.useEnergy = false) (hl : a.lifter = none) (hn : a.normalize = none) :
    ∃ m, f a sig = .ok m ∧ ∀ i k, i < (sig.length - l) / s + 1 → k < min a.numCeps fb.length →
      SilentFrame a sig l s i →
      (m.getD i []).getD k nan = fin (if k = 0 then √fb.length * Real.log (1 / 2 ^ 52) else 0) := by
  obtain ⟨coeff, G, hG, h0⟩ : ∃ coeff G, (f, coeff, G) ∈ compressions a ∧ G 0 = Real.log (1 / 2 ^ 52) := by
    have e1 : logFloor 0 = Real.log (1 / 2 ^ 52) := by simp [logFloor]
    have e2 : intensity 0 = 0 := by
      unfold intensity
      norm_num
    simp only [List.mem_cons, List.not_mem_nil, or_false] at hf
    rcases hf with rfl | rfl | rfl | rfl | rfl
    · exact ⟨a.preEmphCoeff, logFloor, by simp [compressions], e1⟩
    · exact ⟨a.preEmphCoeff, logFloor, by simp [compressions], e1⟩
    · exact ⟨a.preEmphCoeff, logFloor, by simp [compressions], e1⟩
    · exact ⟨0.97, logFloor, by simp [compressions], e1⟩
    · exact ⟨0.97, fun e => logFloor (intensity e), by simp [compressions], by beta_reduce; rw [e2, e1]⟩
  obtain ⟨m, hm, -, hv⟩ := C101_meaning a f coeff G hG fb sig l s h hd hu hl hn
  refine ⟨m, hm, fun i k hi hk hs => ?_⟩
  rw [hv i k hi hk]
  have : (fun n => G (bandEnergy fb (windowWeight a.win.winType l) (emphasised a.preEmph coeff sig) l s a.nfft i n)) =
      fun _ => Real.log (1 / 2 ^ 52) := by
    funext n
    rw [← h0]
    congr 1
    exact Finset.sum_eq_zero fun k _ => by rw [framePower_silent (hs.emph coeff), zero_mul]
  rw [this, dctII_const (lt_of_lt_of_le hk (min_le_right _ _))]

/-- C114: on a silent frame `gfcc` is zero. -/
theorem C114_gfcc (a : Args) (fb : List (List ℝ)) (sig : List ℝ) (l s : ℕ) (h : Setup a fb sig l s)
    (hd : a.dctType = 2) (hu : a.useEnergy = false) (hl : a.lifter = none) (hn : a.normalize = none) :
    ∃ m, gfcc a sig = .ok m ∧ ∀ i k, i < (sig.length - l) / s + 1 → k < min a.numCeps fb.length →
      SilentFrame a sig l s i → (m.getD i []).getD k nan = fin 0 := by
  obtain ⟨m, hm, -, hv⟩ := C101_meaning a gfcc 0.97 (fun e => e ^ (1 / 3 : ℝ)) (by simp [compressions]) fb sig l s h
    hd hu hl hn
  refine ⟨m, hm, fun i k hi hk hs => ?_⟩
  rw [hv i k hi hk]
  have : (fun n => (bandEnergy fb (windowWeight a.win.winType l) (emphasised a.preEmph 0.97 sig) l s a.nfft i n) ^
      (1 / 3 : ℝ)) = fun _ => 0 := by
    funext n
    have : bandEnergy fb (windowWeight a.win.winType l) (emphasised a.preEmph 0.97 sig) l s a.nfft i n = 0 :=
      Finset.sum_eq_zero fun k _ => by rw [framePower_silent (hs.emph 0.97), zero_mul]
    rw [this, Real.zero_rpow (by norm_num)]
  rw [this, dctII_const (lt_of_lt_of_le hk (min_le_right _ _))]
  simp

/-- C114 for `mfcc` with its own bank. -/
theorem C114_own_bank (a : Args) (sig : List ℝ) (l s : ℕ) (h : Auto a sig l s) (high : ℝ) (w : ℕ → ℕ → ℝ)
    (hb : Band a high w) (c d : ℝ) (hm : MelConst a.approach c d)
    (hd : a.dctType = 2) (hu : a.useEnergy = false) (hl : a.lifter = none) (hn : a.normalize = none) :
    ∃ m, mfcc a sig = .ok m ∧ ∀ i k, i < (sig.length - l) / s + 1 → k < a.numCeps →
      SilentFrame a sig l s i →
      (m.getD i []).getD k nan = fin (if k = 0 then √a.nfilts * Real.log (1 / 2 ^ 52) else 0) := by
  obtain ⟨m, hm, -, hv⟩ := C108_mfcc a sig l s h high w hb c d hm hd hu hl hn
  refine ⟨m, hm, fun i k hi hk hs => ?_⟩
  rw [hv i k hi hk]
  rw [dctII_congr (g := fun _ => Real.log (1 / 2 ^ 52)), dctII_const (lt_of_lt_of_le hk h.ceps)]
  intro n _
  have : ∀ W, weightedEnergy W (windowWeight a.win.winType l) (emphasised a.preEmph a.preEmphCoeff sig) l s a.nfft i = 0 :=
    fun W => Finset.sum_eq_zero fun k _ => by rw [framePower_silent (hs.emph _), zero_mul]
  rw [this]; simp [logFloor]

/-! ### C115 -/

/-- The triangles of a filter bank never sum to more than one. -/
theorem sum_tri_le_one {p : ℕ → ℝ} (hp : StrictMono p) (n : ℕ) (f : ℝ) :
    ∑ j ∈ Finset.range n, tri (p j) (p (j + 1)) (p (j + 2)) f ≤ 1 := by
  have : ∀ j, tri (p j) (p (j + 1)) (p (j + 2)) f = ramp (p j) (p (j + 1)) f - ramp (p (j + 1)) (p (j + 2)) f :=
    fun j => tri_eq_ramp_sub (hp (by omega)) (hp (by omega)) f
  simp only [this]
  rw [Finset.sum_range_sub' (fun j => ramp (p j) (p (j + 1)) f)]
  have h1 : ramp (p 0) (p (0 + 1)) f ≤ 1 := by unfold ramp; exact max_le zero_le_one (min_le_left _ _)
  have h2 : 0 ≤ ramp (p n) (p (n + 1)) f := le_max_left _ _
  linarith

theorem scale_le_one {sc : String} {w : ℕ → ℕ → ℝ} (h : Scale sc w) {n j : ℕ} (hj : j < n) : w n j ≤ 1 := by
  have hn : (0 : ℝ) < n := by exact_mod_cast (by omega : 0 < n)
  have hj' : (j : ℝ) + 1 ≤ n := by exact_mod_cast hj
  cases h with
  | ascendant => exact (div_le_one hn).mpr hj'
  | descendant => exact (div_le_one hn).mpr (by have : (0 : ℝ) ≤ j := Nat.cast_nonneg j; linarith)
  | constant => exact le_rfl

/-- The power of the lower half of the spectrum is at most the energy of the windowed frame. -/
theorem sum_framePower_le (w y : ℕ → ℝ) (l s nfft i : ℕ) (hn : nfft ≠ 0) :
    ∑ k ∈ Finset.range (nfft / 2 + 1), framePower w y l s nfft i k ≤
      ∑ j ∈ Finset.range l, (w j * y (i * s + j)) ^ 2 := by
  set x : List ℝ := (List.range (min l nfft)).map fun j => w j * y (i * s + j) with hx
  have hb : ∀ k, frameBin w y l s nfft i k = Np.dft x nfft k := by
    intro k
    unfold Np.dft Np.dftC frameBin
    rw [← Finset.sum_subset (s₁ := Finset.range (min l nfft)) (s₂ := Finset.range nfft)]
    · apply Finset.sum_congr rfl
      intro j hj
      beta_reduce
      rw [hx, getD_map_range_lt _ _ (Finset.mem_range.mp hj)]
    · intro j hj; simp at hj ⊢; omega
    · intro j hj1 hj2
      beta_reduce
      rw [hx, List.getD_eq_default _ _ (by simp at hj1 hj2 ⊢; omega)]
      simp
  have hn' : (0 : ℝ) < nfft := by exact_mod_cast Nat.pos_of_ne_zero hn
  calc ∑ k ∈ Finset.range (nfft / 2 + 1), framePower w y l s nfft i k
      ≤ ∑ k ∈ Finset.range nfft, framePower w y l s nfft i k := by
        apply Finset.sum_le_sum_of_subset_of_nonneg
        · exact Finset.range_subset_range.mpr (by omega)
        · intro k _ _; unfold framePower; positivity
    _ = (∑ k ∈ Finset.range nfft, ‖Np.dft x nfft k‖ ^ 2) / nfft := by
        rw [Finset.sum_div]
        apply Finset.sum_congr rfl
        intro k _
        rw [framePower, hb]
    _ = ∑ j ∈ Finset.range nfft, x.getD j 0 ^ 2 := by rw [parseval]; field_simp
    _ = ∑ j ∈ Finset.range (min l nfft), x.getD j 0 ^ 2 := by
        rw [← Finset.sum_subset (s₁ := Finset.range (min l nfft)) (s₂ := Finset.range nfft)]
        · intro j hj; simp at hj ⊢; omega
        · intro j hj1 hj2
          rw [List.getD_eq_default _ _ (by simp [hx] at hj1 hj2 ⊢; omega)]
          norm_num
    _ = ∑ j ∈ Finset.range (min l nfft), (w j * y (i * s + j)) ^ 2 := by
        apply Finset.sum_congr rfl
        intro j hj
        rw [hx, getD_map_range_lt _ _ (Finset.mem_range.mp hj)]
    _ ≤ ∑ j ∈ Finset.range l, (w j * y (i * s + j)) ^ 2 := by
        apply Finset.sum_le_sum_of_subset_of_nonneg
        · exact Finset.range_subset_range.mpr (min_le_left _ _)
        · intro k _ _; positivity

theorem windowWeight_range {name : String} (hn : WindowName name) {M j : ℕ} (hj : j < M) :
    0 ≤ windowWeight name M j ∧ windowWeight name M j ≤ 1 := by
  obtain ⟨w, hw, -, -, hr⟩ := (C14_window_vector name M).1 hn
  have h1 := C14_window_formula name hn M
  rw [hw] at h1
  injection h1 with h1
  have := hr j hj
  rwa [h1, getD_map_range_lt _ _ hj] at this

theorem sum_weighted_le {W : ℕ → ℕ → ℝ} {N : ℕ} {name : String} (hw : WindowName name) (y : ℕ → ℝ) (l s nfft i : ℕ)
    (hn : nfft ≠ 0) (h1 : ∀ b < nfft / 2 + 1, ∑ j ∈ Finset.range N, W j b ≤ 1) :
    ∑ j ∈ Finset.range N, weightedEnergy (W j) (windowWeight name l) y l s nfft i ≤
      ∑ t ∈ Finset.range l, y (i * s + t) ^ 2 := by
  unfold weightedEnergy
  rw [Finset.sum_comm]
  calc ∑ k ∈ Finset.range (nfft / 2 + 1), ∑ j ∈ Finset.range N, framePower (windowWeight name l) y l s nfft i k * W j k
      ≤ ∑ k ∈ Finset.range (nfft / 2 + 1), framePower (windowWeight name l) y l s nfft i k := by
        apply Finset.sum_le_sum
        intro k hk
        rw [← Finset.mul_sum]
        exact mul_le_of_le_one_right (by unfold framePower; positivity) (h1 k (Finset.mem_range.mp hk))
    _ ≤ ∑ t ∈ Finset.range l, (windowWeight name l t * y (i * s + t)) ^ 2 := sum_framePower_le _ _ _ _ _ _ hn
    _ ≤ _ := by
        apply Finset.sum_le_sum
        intro t ht
        obtain ⟨h2, h3⟩ := windowWeight_range hw (Finset.mem_range.mp ht)
        rw [mul_pow]
        exact mul_le_of_le_one_left (sq_nonneg _) (pow_le_one₀ h2 h3)

/-- C115 for `mel_spectrogram`: the band energies of a frame are non-negative and together at most the energy of the
pre-emphasised samples under the window. -/
theorem C115_mel (a : Args) (sig : List ℝ) (l s : ℕ) (h : Auto a sig l s) (high : ℝ) (w : ℕ → ℕ → ℝ)
    (hb : Band a high w) (c d : ℝ) (hm : MelConst a.approach c d) :
    ∃ out E, melSpectrogram a sig = .ok out ∧ IsMatrix out.1 ((sig.length - l) / s + 1) a.nfilts E ∧
      ∀ i < (sig.length - l) / s + 1, (∀ j < a.nfilts, 0 ≤ E i j) ∧
        ∑ j ∈ Finset.range a.nfilts, E i j ≤
          ∑ t ∈ Finset.range l, emphasised a.preEmph a.preEmphCoeff sig (i * s + t) ^ 2 := by
  obtain ⟨out, ho, hs, -⟩ := C113_mel a sig l s h high w hb c d hm
  refine ⟨out, _, ho, hs, fun i hi => ⟨fun j hj => ?_, ?_⟩⟩
  · exact Finset.sum_nonneg fun k _ => mul_nonneg (by unfold framePower; positivity)
      (mul_nonneg (scale_nonneg hb.scale hj) (tri_nonneg _ _ _ _))
  · refine sum_weighted_le h.window _ _ _ _ _ h.nfft fun b _ => ?_
    obtain ⟨-, -, hmono⟩ := C26_mel_edges hm hb.low0 hb.lt a.nfilts
    refine le_trans (Finset.sum_le_sum fun j hj => ?_) (sum_tri_le_one hmono a.nfilts (colFreq a.low high a.nfft b))
    exact mul_le_of_le_one_left (tri_nonneg _ _ _ _) (scale_le_one hb.scale (Finset.mem_range.mp hj))

/-- C115 for `linear_spectrogram`. -/
theorem C115_linear (a : Args) (sig : List ℝ) (l s : ℕ) (h : Auto a sig l s) (high : ℝ) (w : ℕ → ℕ → ℝ)
    (hb : Band a high w) :
    ∃ out E, linearSpectrogram a sig = .ok out ∧ IsMatrix out.1 ((sig.length - l) / s + 1) a.nfilts E ∧
      ∀ i < (sig.length - l) / s + 1, (∀ j < a.nfilts, 0 ≤ E i j) ∧
        ∑ j ∈ Finset.range a.nfilts, E i j ≤
          ∑ t ∈ Finset.range l, emphasised a.preEmph 0.97 sig (i * s + t) ^ 2 := by
  obtain ⟨out, ho, hs, -⟩ := C113_linear a sig l s h high w hb
  refine ⟨out, _, ho, hs, fun i hi => ⟨fun j hj => ?_, ?_⟩⟩
  · exact Finset.sum_nonneg fun k _ => mul_nonneg (by unfold framePower; positivity)
      (mul_nonneg (scale_nonneg hb.scale hj) (tri_nonneg _ _ _ _))
  · refine sum_weighted_le h.window _ _ _ _ _ h.nfft fun b _ => ?_
    have hmono := linPoint_strictMono hb.lt a.nfilts
    refine le_trans (Finset.sum_le_sum fun j hj => ?_) (sum_tri_le_one hmono a.nfilts (colFreq a.low high a.nfft b))
    exact mul_le_of_le_one_left (tri_nonneg _ _ _ _) (scale_le_one hb.scale (Finset.mem_range.mp hj))

/-- C115, the equality: with constant scale the mel bands split the power exactly, if it lies between the centres of the
first and of the last band. -/
theorem C115_mel_exact (a : Args) (sig : List ℝ) (l s : ℕ) (h : Auto a sig l s) (high : ℝ)
    (hb : Band a high fun _ _ => 1) (c d : ℝ) (hm : MelConst a.approach c d) :
    ∃ out E, melSpectrogram a sig = .ok out ∧ IsMatrix out.1 ((sig.length - l) / s + 1) a.nfilts E ∧
      ∀ i < (sig.length - l) / s + 1, ∀ P : ℕ → ℝ, P = framePower (windowWeight a.win.winType l)
          (emphasised a.preEmph a.preEmphCoeff sig) l s a.nfft i →
        (∀ b < a.nfft / 2 + 1, P b ≠ 0 → melPoint c d a.low high a.nfilts 1 ≤ colFreq a.low high a.nfft b ∧
          colFreq a.low high a.nfft b ≤ melPoint c d a.low high a.nfilts a.nfilts) →
        ∑ j ∈ Finset.range a.nfilts, E i j = ∑ b ∈ Finset.range (a.nfft / 2 + 1), P b := by
  obtain ⟨out, ho, hs, -⟩ := C113_mel a sig l s h high _ hb c d hm
  refine ⟨out, _, ho, hs, fun i hi P hP hin => ?_⟩
  obtain ⟨-, -, hmono⟩ := C26_mel_edges hm hb.low0 hb.lt a.nfilts
  unfold weightedEnergy
  rw [Finset.sum_comm, hP]
  apply Finset.sum_congr rfl
  intro b hb'
  rw [← Finset.mul_sum]
  by_cases h0 : P b = 0
  · rw [← hP, h0, zero_mul]
  · obtain ⟨k1, k2⟩ := hin b (Finset.mem_range.mp hb') h0
    simp only [one_mul]
    rw [tri_partition hmono a.nfilts k1 k2, mul_one]

/-- C115, the equality for `linear_spectrogram`. -/
theorem C115_linear_exact (a : Args) (sig : List ℝ) (l s : ℕ) (h : Auto a sig l s) (high : ℝ)
    (hb : Band a high fun _ _ => 1) :
    ∃ out E, linearSpectrogram a sig = .ok out ∧ IsMatrix out.1 ((sig.length - l) / s + 1) a.nfilts E ∧
      ∀ i < (sig.length - l) / s + 1, ∀ P : ℕ → ℝ, P = framePower (windowWeight a.win.winType l)
          (emphasised a.preEmph 0.97 sig) l s a.nfft i →
        (∀ b < a.nfft / 2 + 1, P b ≠ 0 → linPoint a.low high a.nfilts 1 ≤ colFreq a.low high a.nfft b ∧
          colFreq a.low high a.nfft b ≤ linPoint a.low high a.nfilts a.nfilts) →
        ∑ j ∈ Finset.range a.nfilts, E i j = ∑ b ∈ Finset.range (a.nfft / 2 + 1), P b := by
  obtain ⟨out, ho, hs, -⟩ := C113_linear a sig l s h high _ hb
  refine ⟨out, _, ho, hs, fun i hi P hP hin => ?_⟩
  have hmono := linPoint_strictMono hb.lt a.nfilts
  unfold weightedEnergy
  rw [Finset.sum_comm, hP]
  apply Finset.sum_congr rfl
  intro b hb'
  rw [← Finset.mul_sum]
  by_cases h0 : P b = 0
  · rw [← hP, h0, zero_mul]
  · obtain ⟨k1, k2⟩ := hin b (Finset.mem_range.mp hb') h0
    simp only [one_mul]
    rw [tri_partition hmono a.nfilts k1 k2, mul_one]

/-- The defaults satisfy the hypotheses of C113 and C115 for every signal of at least one frame, and the third frame of a
silent signal is silent. -/
example (sig : List ℝ) (h : 400 ≤ sig.length) : ∃ out, linearSpectrogram {} sig = .ok out :=
  (C113_linear {} sig 400 160 (default_auto sig h) 8000 _ default_bank_band).imp fun _ h => h.1

theorem getD_replicate_zero (n t : ℕ) : (List.replicate n (0 : ℝ)).getD t 0 = 0 := by
  rw [List.getD_eq_getElem?_getD, List.getElem?_replicate]
  split_ifs <;> rfl

example (n : ℕ) : SilentFrame {} (5 :: List.replicate n 0) 400 160 2 :=
  ⟨fun j _ => by rw [show 2 * 160 + j = (319 + j) + 1 by omega, List.getD_cons_succ, getD_replicate_zero],
    fun _ _ => getD_replicate_zero n 318⟩

end Props
end Spafe
