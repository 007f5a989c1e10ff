import Verif.Props.Features2

/-! Properties C48–C52: FFT size, energy, DCT, truncation of the cepstral features; `imfcc`. -/

set_option linter.unusedSectionVars false

namespace Spafe
namespace Props
open XF Spec Model

/-! ### C48 -/

private theorem dft_congr {w w' : List ℝ} {n : ℕ} (h : ∀ j < n, w.getD j 0 = w'.getD j 0) (k : ℕ) :
    Np.dft w n k = Np.dft w' n k := by
  unfold Np.dft Np.dftC
  apply Finset.sum_congr rfl
  intro j hj
  simp only [h j (Finset.mem_range.mp hj)]

private theorem absRfft_congr {w w' : List ℝ} {n : ℕ} (h : ∀ j < n, w.getD j 0 = w'.getD j 0) :
    Np.absRfft n w = Np.absRfft n w' := by
  unfold Np.absRfft
  simp only [dft_congr h]

private theorem featRow_congr (a : Args) (fb : XMat) (g : XF ℝ → XF ℝ) {w w' : List ℝ}
    (h : ∀ j < a.nfft, w.getD j 0 = w'.getD j 0) : featRow a fb g w = featRow a fb g w' := by
  unfold featRow specRow powRow
  rw [absRfft_congr h]

private theorem emph_getD (a : Args) (coeff : ℝ) (sig : List ℝ) {j : ℕ} (hj : j < sig.length) :
    (emph a coeff sig).getD j 0 =
      if a.preEmph then sig.getD j 0 - (if j = 0 then 0 else coeff * sig.getD (j - 1) 0) else sig.getD j 0 := by
  unfold emph
  split_ifs with h1 h2
  · rw [preEmphasis_getD _ _ _ hj, if_pos h2]
  · rw [preEmphasis_getD _ _ _ hj, if_neg h2]
  · rfl

/-- C48: samples beyond the first `nfft` of a frame have no influence. Two signals of equal length that agree on the
samples lying (with one sample of pre-emphasis history) within the first `min(frame length, nfft)` samples of some
frame have the same features: `s` is the hop, `l` the frame length. -/
theorem C48_cropped (f : Feature) (hf : f ∈ rowwiseFeatures) (a : Args) (hn : a.normalize = none) (l s : ℕ)
    (hs : 0 < s) (hL : pyInt (a.win.winLen * a.fs) = l) (hS : pyInt (a.win.winHop * a.fs) = s)
    (sig sig' : List ℝ) (hlen : sig.length = sig'.length)
    (hag : ∀ i j : ℕ, i * s ≤ j + 1 → j < i * s + min l a.nfft → sig.getD j 0 = sig'.getD j 0) (m : XMat)
    (h : f a sig = .ok m) : f a sig' = .ok m := by
  have hS0 : 0 < pyInt (a.win.winHop * a.fs) := by rw [hS]; exact_mod_cast hs
  have key : ∀ coeff fb g, featCore a coeff fb g sig = .ok m → featCore a coeff fb g sig' = .ok m := by
    intro coeff fb g h
    obtain ⟨W, hW, h1, h2, h3, rfl⟩ := (featCore_ok_iff' hn ..).mp h
    obtain ⟨he, hle, l', s', w, e1, e2, -, h4, hw, hwl, rfl⟩ := (frontEnd_ok_iff a coeff sig W hS0).mp hW
    obtain rfl : l' = l := by rw [hL] at e1; exact_mod_cast e1.symm
    obtain rfl : s' = s := by rw [hS] at e2; exact_mod_cast e2.symm
    refine (featCore_ok_iff' hn ..).mpr ⟨_, (frontEnd_ok_iff a coeff sig' _ hS0).mpr
      ⟨fun e => he ⟨e.1, List.length_eq_zero_iff.mp (by rw [hlen, e.2]; rfl)⟩, hle, l', s', w, hL, hS, hs, by omega, hw, hwl, rfl⟩, h1, h2, h3, ?_⟩
    rw [List.map_map, List.map_map, ← hlen]
    apply List.map_congr_left
    intro i hi
    rw [List.mem_range] at hi
    have hil : i * s' + l' ≤ sig.length := by
      have h4 : i ≤ (sig.length - l') / s' := by omega
      have h5 : i * s' ≤ (sig.length - l') / s' * s' := Nat.mul_le_mul_right s' h4
      have h6 := Nat.div_mul_le_self (sig.length - l') s'
      omega
    simp only [Function.comp]
    apply featRow_congr
    intro j hj
    have hlen1 : ∀ x : List ℝ, x.length = sig.length →
        (List.zipWith (· * ·) w (((emph a coeff x).drop (i * s')).take l')).length = l' := by
      intro x hx
      rw [List.length_zipWith, List.length_take, List.length_drop, emph_length, hwl, hx]; omega
    rcases Nat.lt_or_ge j l' with hjl | hjl
    · rw [getD_zipWith_lt _ _ _ 0 0 0 (by omega) (by simp; omega),
        getD_zipWith_lt _ _ _ 0 0 0 (by omega) (by simp; omega),
        getD_take_lt _ _ hjl, getD_take_lt _ _ hjl, getD_drop', getD_drop',
        emph_getD _ _ _ (by omega), emph_getD _ _ _ (by omega)]
      rw [hag i (i * s' + j) (by omega) (by omega)]
      by_cases h0 : i * s' + j = 0
      · simp only [h0, if_true]
      · rw [hag i (i * s' + j - 1) (by omega) (by omega)]
    · rw [List.getD_eq_default _ _ (by rw [hlen1 _ rfl]; exact hjl),
        List.getD_eq_default _ _ (by rw [hlen1 _ hlen.symm]; exact hjl)]
  simp only [rowwiseFeatures, List.mem_cons, List.not_mem_nil, or_false] at hf
  rcases hf with rfl | rfl | rfl | rfl | rfl | rfl | rfl
  · rw [mfcc_eq] at h ⊢; split_ifs at h ⊢
    obtain ⟨fb, hfb, h⟩ := (bind_ok_iff ..).mp h; exact (bind_ok_iff ..).mpr ⟨fb, hfb, key _ _ _ h⟩
  · rw [imfcc_eq] at h ⊢; split_ifs at h ⊢
    obtain ⟨fb, hfb, h⟩ := (bind_ok_iff ..).mp h; exact (bind_ok_iff ..).mpr ⟨fb, hfb, key _ _ _ h⟩
  · rw [lfcc_eq] at h ⊢; split_ifs at h ⊢
    obtain ⟨fb, hfb, h⟩ := (bind_ok_iff ..).mp h; exact (bind_ok_iff ..).mpr ⟨fb, hfb, key _ _ _ h⟩
  · rw [bfcc_eq] at h ⊢; split_ifs at h ⊢
    obtain ⟨fb, hfb, h⟩ := (bind_ok_iff ..).mp h; exact (bind_ok_iff ..).mpr ⟨fb, hfb, key _ _ _ h⟩
  · rw [gfcc_eq] at h ⊢; split_ifs at h ⊢
    obtain ⟨fb, hfb, h⟩ := (bind_ok_iff ..).mp h; exact (bind_ok_iff ..).mpr ⟨fb, hfb, key _ _ _ h⟩
  · rw [ngcc_eq] at h ⊢; split_ifs at h ⊢
    obtain ⟨fb, hfb, h⟩ := (bind_ok_iff ..).mp h; exact (bind_ok_iff ..).mpr ⟨fb, hfb, key _ _ _ h⟩
  · rw [msrcc_eq] at h ⊢; split_ifs at h ⊢
    obtain ⟨fb, hfb, h⟩ := (bind_ok_iff ..).mp h; exact (bind_ok_iff ..).mpr ⟨fb, hfb, key _ _ _ h⟩

/-- C48: with a frame no longer than `nfft` no sample is dropped — the half spectrum that the features are computed
from determines the frame. -/
theorem C48_no_sample_dropped (w w' : List ℝ) (nfft : ℕ) (hw : w.length ≤ nfft) (hl : w.length = w'.length)
    (h : ∀ k ≤ nfft / 2, Np.dft w nfft k = Np.dft w' nfft k) : w = w' := by
  rcases Nat.eq_zero_or_pos nfft with h0 | h0
  · rw [List.length_eq_zero_iff.mp (by omega : w.length = 0), List.length_eq_zero_iff.mp (by omega : w'.length = 0)]
  set d : List ℝ := List.zipWith (· - ·) w w' with hd
  have hdl : d.length = w.length := by simp [hd, hl]
  have hdj : ∀ j, d.getD j 0 = w.getD j 0 - w'.getD j 0 := by
    intro j
    rcases Nat.lt_or_ge j w.length with hj | hj
    · rw [hd, getD_zipWith_lt _ _ _ 0 0 0 hj (by omega)]
    · rw [List.getD_eq_default _ _ (by omega), List.getD_eq_default _ _ hj, List.getD_eq_default _ _ (by omega)]; ring
  have hdft : ∀ k, Np.dft d nfft k = Np.dft w nfft k - Np.dft w' nfft k := by
    intro k
    unfold Np.dft Np.dftC
    rw [← Finset.sum_sub_distrib]
    apply Finset.sum_congr rfl
    intro j _
    simp only [hdj]; push_cast; ring
  have hhalf : ∀ k ≤ nfft / 2, Np.dft d nfft k = 0 := fun k hk => by rw [hdft, h k hk, sub_self]
  have hall : ∀ k < nfft, Np.dft d nfft k = 0 := by
    intro k hk
    rcases Nat.lt_or_ge (nfft / 2) k with h1 | h1
    · have := dft_symm d (n := nfft) (k := nfft - k) (by omega) h0
      rw [show nfft - (nfft - k) = k by omega] at this
      rw [this, hhalf _ (by omega)]; simp
    · exact hhalf k h1
  have hpar := parseval d (n := nfft)
  rw [Finset.sum_eq_zero (fun k hk => by rw [hall k (Finset.mem_range.mp hk)]; simp)] at hpar
  have hn : (0:ℝ) < nfft := by exact_mod_cast h0
  have hz : ∑ j ∈ Finset.range nfft, d.getD j 0 ^ 2 = 0 := by
    rcases mul_eq_zero.mp hpar.symm with h1 | h1
    · exact absurd h1 hn.ne'
    · exact h1
  rw [Finset.sum_eq_zero_iff_of_nonneg (fun _ _ => sq_nonneg _)] at hz
  apply ext_getD 0 hl
  intro j hj
  have := hz j (Finset.mem_range.mpr (by omega))
  have := pow_eq_zero_iff (two_ne_zero) |>.mp this
  rw [hdj] at this
  linarith

/-! ### C49 -/

/-- Energy of a frame: `(1/nfft) Σ_{k ≤ nfft/2} |X_k|²`. -/
noncomputable def halfEnergy (nfft : ℕ) (w : List ℝ) : ℝ :=
  (∑ k ∈ Finset.range (nfft / 2 + 1), ‖Np.dft w nfft k‖ ^ 2) / nfft

theorem logEnergy_eq (nfft : ℕ) (w : List ℝ) : logEnergy nfft (Np.absRfft nfft w) =
    fin (Real.log (if halfEnergy nfft w = 0 then eps else halfEnergy nfft w)) := by
  have hs : ((Np.absRfft nfft w).map fun v => 1 / (nfft : ℝ) * (|v| * |v|)).sum = halfEnergy nfft w := by
    unfold Np.absRfft halfEnergy
    rw [List.map_map, sum_map_range, Finset.sum_div]
    apply Finset.sum_congr rfl
    intro k _
    simp only [Function.comp, abs_norm]; ring
  unfold logEnergy
  simp only [hs]
  apply XF.log_pos
  have h0 : 0 ≤ halfEnergy nfft w := by unfold halfEnergy; positivity
  split_ifs with h
  · unfold eps; positivity
  · exact lt_of_le_of_ne h0 (Ne.symm h)

/-- The features with the pre-emphasis coefficient they apply: their argument, or 0.97 whatever the argument. -/
noncomputable def energyCoeffs (a : Args) : List (Feature × ℝ) :=
  [(mfcc, a.preEmphCoeff), (imfcc, a.preEmphCoeff), (ngcc, a.preEmphCoeff), (msrcc, a.preEmphCoeff),
    (psrcc, a.preEmphCoeff), (lfcc, 0.97), (bfcc, 0.97), (gfcc, 0.97)]

/-- C49: with `use_energy` (no liftering, no normalisation) the first coefficient of every frame of every feature is
the log of the frame's half-spectrum energy (of machine epsilon for a frame without energy). `W` are the windowed
frames. -/
theorem C49_use_energy (a : Args) (f : Feature) (coeff : ℝ) (hf : (f, coeff) ∈ energyCoeffs a) (hu : a.useEnergy = true)
    (hl : a.lifter = none) (hn : a.normalize = none) (sig : List ℝ) (m : XMat) (h : f a sig = .ok m) :
    ∃ W, frontEnd a coeff sig = .ok W ∧ m.length = W.length ∧ ∀ i < m.length, (m.getD i []).getD 0 0 =
      fin (Real.log (if halfEnergy a.nfft (W.getD i []) = 0 then eps else halfEnergy a.nfft (W.getD i []))) := by
  have tail : ∀ N mag x, TailOk a N → x.length = N → (tailRow a N mag x).getD 0 0 = logEnergy a.nfft mag := by
    intro N mag x ht hx
    have hmin := ht.2.2.2.2.1 hu
    unfold tailRow
    rw [hl, hu]
    simp only [if_true]
    have hlen : 0 < ((Np.dctRow a.dctType x).take a.numCeps).length := by
      rw [List.length_take, dctRow_length, hx]; omega
    rw [List.getD_eq_getElem _ _ (by simpa using hlen)]; simp
  have key : ∀ (b : Py XMat) (coeff : ℝ) (g : XF ℝ → XF ℝ),
      (f a sig = if a.nfilts < a.numCeps then .error (.parameterError ErrorMsgs.nfilts)
        else (b >>= fun fb => featCore a coeff fb g sig)) →
      ∃ W, frontEnd a coeff sig = .ok W ∧ m.length = W.length ∧ ∀ i < m.length, (m.getD i []).getD 0 0 =
        fin (Real.log (if halfEnergy a.nfft (W.getD i []) = 0 then eps else halfEnergy a.nfft (W.getD i []))) := by
    intro b coeff g he
    rw [he] at h
    split_ifs at h
    obtain ⟨fb, hfb, h⟩ := (bind_ok_iff ..).mp h
    obtain ⟨W, hW, -, -, ht, rfl⟩ := (featCore_ok_iff' hn ..).mp h
    refine ⟨W, hW, by simp, fun i hi => ?_⟩
    rw [List.length_map] at hi
    rw [getD_map_lt _ W [] _ hi, featRow, tail _ _ _ ht (by simp), logEnergy_eq]
  simp only [energyCoeffs, List.mem_cons, Prod.mk.injEq, List.not_mem_nil, or_false] at hf
  rcases hf with ⟨rfl, rfl⟩ | ⟨rfl, rfl⟩ | ⟨rfl, rfl⟩ | ⟨rfl, rfl⟩ | ⟨rfl, rfl⟩ | ⟨rfl, rfl⟩ | ⟨rfl, rfl⟩ | ⟨rfl, rfl⟩
  · exact key _ _ _ (mfcc_eq a sig)
  · exact key _ _ _ (imfcc_eq a sig)
  · exact key _ _ _ (ngcc_eq a sig)
  · exact key _ _ _ (msrcc_eq a sig)
  · obtain ⟨-, fb, -, W, hW, -, -, ht, hm⟩ := (psrcc_ok_iff ..).mp h
    simp only [normStep, hn, Except.ok.injEq] at hm
    subst hm
    refine ⟨W, hW, by simp, fun i hi => ?_⟩
    rw [List.length_map] at hi
    rw [getD_map_lt _ W [] _ hi, tail _ _ _ ht (by simp [phX, phRow]), logEnergy_eq]
  · exact key _ _ _ (lfcc_eq a sig)
  · exact key _ _ _ (bfcc_eq a sig)
  · exact key _ _ _ (gfcc_eq a sig)

/-- C49: for an even FFT size and a frame that fits, that energy is half the frame's own energy plus the two
self-conjugate bins: `(Σ x² + (X_0² + X_{nfft/2}²)/nfft)/2` — so, up to these bins, half of the frame energy. -/
theorem C49_parseval (w : List ℝ) (h : ℕ) (hh : 0 < h) (hw : w.length ≤ 2 * h) :
    halfEnergy (2 * h) w = ((w.map (· ^ 2)).sum +
      (‖Np.dft w (2 * h) 0‖ ^ 2 + ‖Np.dft w (2 * h) h‖ ^ 2) / (2 * h : ℕ)) / 2 := by
  have hp := half_parseval w hh
  have hsum : ∑ j ∈ Finset.range (2 * h), w.getD j 0 ^ 2 = (w.map (· ^ 2)).sum := by
    rw [sum_eq_sum_getD, List.length_map, ← Finset.sum_subset (Finset.range_subset_range.mpr hw)]
    · apply Finset.sum_congr rfl
      intro j hj
      rw [getD_map_lt _ w 0 _ (Finset.mem_range.mp hj)]
    · intro j _ hj
      rw [List.getD_eq_default _ _ (by simpa using hj)]; norm_num
  unfold halfEnergy
  rw [show 2 * h / 2 = h by omega, hp, hsum]
  have : ((2 * h : ℕ) : ℝ) ≠ 0 := by exact_mod_cast (by omega)
  field_simp
  ring

/-- A frame `[1, 2]`: energy `5`, `X_0 = 3`, `X_1 = -1`; half-spectrum energy `(9 + 1)/2 = 5`. -/
example : halfEnergy 2 [1, 2] = 5 := by
  have := C49_parseval [1, 2] 1 one_pos (by simp)
  have h0 : Np.dft [(1:ℝ), 2] (2 * 1) 0 = 3 := by
    simp [Np.dft, Np.dftC, Finset.sum_range_succ]; norm_num
  have h1 : Np.dft [(1:ℝ), 2] (2 * 1) 1 = -1 := by
    simp only [Np.dft, Np.dftC]
    have : Complex.exp (-(2 * ↑Real.pi * Complex.I * (((1:ℕ):ℂ) * ((1:ℕ):ℂ)) / ((2:ℕ):ℂ))) = -1 := by
      rw [show -(2 * (Real.pi:ℂ) * Complex.I * (((1:ℕ):ℂ) * ((1:ℕ):ℂ)) / ((2:ℕ):ℂ)) = -(Real.pi * Complex.I) by
        push_cast; ring, Complex.exp_neg, Complex.exp_pi_mul_I]; norm_num
    norm_num [Finset.sum_range_succ] at this ⊢
    rw [this]; norm_num
  rw [h0, h1] at this
  norm_num at this ⊢
  exact this

/-! ### C50 -/

/-- C50: the type-2 DCT used by every feature is an isometry and is inverted by its transpose, for every row of
finite numbers. -/
theorem C50_dct_isometry (x : List ℝ) : ∃ y : List ℝ, Np.dctRow 2 (x.map fin) = y.map fin ∧
    y.length = x.length ∧ (y.map (· ^ 2)).sum = (x.map (· ^ 2)).sum ∧
    ∀ n < x.length, x.getD n 0 = ∑ k ∈ Finset.range x.length, Np.dctKernel 2 x.length k n * y.getD k 0 := by
  refine ⟨_, dctRow_fin 2 x, by simp, ?_, fun n hn => ?_⟩
  · have h := dct2_isometry x.length (fun n => x.getD n 0)
    rw [List.map_map, sum_map_range, sum_eq_sum_getD, List.length_map]
    refine Eq.trans ?_ (h.trans ?_)
    · rfl
    · apply Finset.sum_congr rfl
      intro n hn
      rw [getD_map_lt _ x 0 _ (Finset.mem_range.mp hn)]
  · have h := dct2_inverse (fun n => x.getD n 0) hn
    rw [← h]
    apply Finset.sum_congr rfl
    intro k hk
    rw [getD_map_range_lt _ _ (Finset.mem_range.mp hk)]; rfl

/-- C50 for mfcc: with as many cepstra as filters (type-2 DCT, no energy, liftering, normalisation) every row of the
result has the same sum of squares as the log filter outputs, which it determines by the transposed kernel. -/
theorem C50_mfcc_reversible (a : Args) (hd : a.dctType = 2) (hu : a.useEnergy = false) (hl : a.lifter = none)
    (hn : a.normalize = none) (fb : XMat) (hb : a.fbanks = some fb) (hc : a.numCeps = fb.length) (sig : List ℝ)
    (x : XMat) (ft : List (List ℝ)) (hx : melSpectrogram a sig = .ok (x, ft)) (hp : AllPos x) (m : XMat)
    (h : mfcc a sig = .ok m) : m.length = x.length ∧ ∀ i < m.length, ∃ y e : List ℝ, m.getD i [] = y.map fin ∧
      x.getD i [] = e.map fin ∧ y.length = e.length ∧
      (y.map (· ^ 2)).sum = (e.map fun v => Real.log v ^ 2).sum ∧
      ∀ n < e.length, Real.log (e.getD n 0) =
        ∑ k ∈ Finset.range e.length, Np.dctKernel 2 e.length k n * y.getD k 0 := by
  rw [mfcc_eq] at h
  split_ifs at h
  simp only [melBankOf, getFbanks, hb, ok_bind] at h
  simp only [melSpectrogram, melBankOf, getFbanks, hb, ok_bind] at hx
  obtain ⟨W, hW, -, -, ht, rfl⟩ := (featCore_ok_iff' hn ..).mp h
  obtain ⟨W', hW', -, -, rfl, -⟩ := (spectrogram_ok_iff ..).mp hx
  obtain rfl : W = W' := by rw [hW] at hW'; injection hW'
  refine ⟨by simp, fun i hi => ?_⟩
  rw [List.length_map] at hi
  rw [getD_map_lt _ W [] _ hi, getD_map_lt _ W [] _ hi]
  have hw := getD_mem [] hi
  set w := W.getD i []
  obtain ⟨e, he⟩ := (finRow_iff (specRow a.nfft fb w)).mp fun v hv => by
    obtain ⟨y, -, hy⟩ := hp _ (List.mem_map.mpr ⟨w, hw, rfl⟩) v hv; exact ⟨y, hy⟩
  have hpos : ∀ v ∈ e, 0 < v := by
    intro v hv
    obtain ⟨z, hz, hze⟩ := hp _ (List.mem_map.mpr ⟨w, hw, rfl⟩) (fin v) (by rw [he]; exact List.mem_map.mpr ⟨v, hv, rfl⟩)
    injection hze with hze; rw [hze]; exact hz
  have hel : e.length = fb.length := by simpa using (congrArg List.length he).symm
  have hlog : (specRow a.nfft fb w).map logG = (e.map Real.log).map fin := by
    rw [he, List.map_map, List.map_map]
    exact List.map_congr_left fun v hv => logG_pos (hpos v hv)
  obtain ⟨y, hy1, hy2, hy3, hy4⟩ := C50_dct_isometry (e.map Real.log)
  rw [List.length_map] at hy2 hy4
  refine ⟨y, e, ?_, he, hy2, by simpa [List.map_map, Function.comp_def] using hy3, fun n hn => ?_⟩
  · unfold featRow tailRow
    rw [hl, hu, hd, hlog, hy1]
    simp only [Bool.false_eq_true, if_false]
    exact List.take_of_length_le (by rw [List.length_map, hy2, hel, hc])
  · rw [← hy4 n hn, getD_map_lt _ e 0 _ hn]

/-! ### C51 -/

private theorem take_set_zero {β : Type} (r : List β) (e : β) (p : ℕ) : (r.set 0 e).take p = (r.take p).set 0 e := by
  cases r with
  | nil => simp
  | cons v r => cases p <;> simp

/-- C51: `num_ceps` only truncates: with `p ≤ q` cepstra (both accepted; no liftering, no normalisation) the features
with `p` are the first `p` columns of the features with `q`. -/
theorem C51_num_ceps_truncates (f : Feature) (hf : f ∈ rowwiseFeatures) (a : Args) (hl : a.lifter = none)
    (hn : a.normalize = none) (p q : ℕ) (hp : 1 ≤ p) (hpq : p ≤ q) (sig : List ℝ) (m : XMat)
    (h : f { a with numCeps := q } sig = .ok m) :
    f { a with numCeps := p } sig = .ok (m.map (·.take p)) := by
  have key : ∀ coeff fb g, featCore { a with numCeps := q } coeff fb g sig = .ok m →
      featCore { a with numCeps := p } coeff fb g sig = .ok (m.map (·.take p)) := by
    intro coeff fb g h
    obtain ⟨W, hW, h1, h2, h3, rfl⟩ := (featCore_ok_iff' (a := { a with numCeps := q }) hn ..).mp h
    refine (featCore_ok_iff' (a := { a with numCeps := p }) hn ..).mpr ⟨W, hW, h1, h2, ?_, ?_⟩
    · obtain ⟨t1, t2, t3, t4, -, -⟩ := h3
      exact ⟨t1, t2, t3, t4, fun _ => by show min p fb.length ≠ 0; omega,
        fun _ _ _ _ => by show min p fb.length ≠ 0; omega⟩
    · rw [List.map_map]
      apply List.map_congr_left
      intro w _
      simp only [Function.comp, featRow, tailRow, hl]
      split_ifs
      · rw [take_set_zero, List.take_take, Nat.min_eq_left hpq]
      · rw [List.take_take, Nat.min_eq_left hpq]
  have hlt : ∀ x y : Py XMat, (if a.nfilts < q then .error (.parameterError ErrorMsgs.nfilts) else x) = .ok m →
      (x = .ok m → y = .ok (m.map (·.take p))) →
      (if a.nfilts < p then .error (.parameterError ErrorMsgs.nfilts) else y) = .ok (m.map (·.take p)) := by
    intro x y hx hy
    split_ifs at hx with h1
    rw [if_neg (by omega)]
    exact hy hx
  simp only [rowwiseFeatures, List.mem_cons, List.not_mem_nil, or_false] at hf
  have bnd : ∀ (b : Py XMat) (coeff : ℝ) (g : XF ℝ → XF ℝ),
      (b >>= fun fb => featCore { a with numCeps := q } coeff fb g sig) = .ok m →
      (b >>= fun fb => featCore { a with numCeps := p } coeff fb g sig) = .ok (m.map (·.take p)) := by
    intro b coeff g h
    obtain ⟨fb, hfb, h⟩ := (bind_ok_iff ..).mp h
    exact (bind_ok_iff ..).mpr ⟨fb, hfb, key _ _ _ h⟩
  rcases hf with rfl | rfl | rfl | rfl | rfl | rfl | rfl
  · rw [mfcc_eq] at h ⊢; exact hlt _ _ h (bnd (melBankOf a) _ _)
  · rw [imfcc_eq] at h ⊢; exact hlt _ _ h (bnd _ _ _)
  · rw [lfcc_eq] at h ⊢; exact hlt _ _ h (bnd _ _ _)
  · rw [bfcc_eq] at h ⊢; exact hlt _ _ h (bnd _ _ _)
  · rw [gfcc_eq] at h ⊢; exact hlt _ _ h (bnd (gammaBankOf a) _ _)
  · rw [ngcc_eq] at h ⊢; exact hlt _ _ h (bnd (gammaBankOf a) _ _)
  · rw [msrcc_eq] at h ⊢; exact hlt _ _ h (bnd (melBankOf a) _ _)

/-! ### C52 -/

/-- C52: `imfcc` is `mfcc` on the inverse mel bank, for every signal and all arguments for which the bank exists. -/
theorem C52_imfcc (a : Args) (hb : a.fbanks = none) (fb : XMat) (cs : List (XF ℝ))
    (h : inverseMelFilterBanks a.nfilts a.nfft a.fs a.low a.high a.scale a.approach = .ok (fb, cs)) (sig : List ℝ) :
    imfcc a sig = mfcc { a with fbanks := some fb } sig := by
  unfold imfcc
  rw [hb, getFbanks, h]
  split_ifs with h1
  · simp only [mfcc, h1, if_true]
  · rfl

/-- C52 (consequence of C32): with `high_freq` left at its default `None` and no bank given, `imfcc` raises `TypeError`
on every signal, however valid the other arguments are. -/
theorem C52_imfcc_default_raises (a : Args) (hb : a.fbanks = none) (hh : a.high = none) (hc : a.numCeps ≤ a.nfilts)
    (hf : 1 ≤ a.nfilts) (h0 : 0 ≤ a.low) (h1 : a.low < a.fs / 2) {sc' : String} (hsw : SwapScale a.scale sc')
    {c d : ℝ} (hm : MelConst a.approach c d) (sig : List ℝ) : imfcc a sig = .error .typeError := by
  rw [imfcc_eq, if_neg (by omega), hb, hh, getFbanks,
    C32_default_raises_type_error hsw hm h0 h1 _ _ hf]
  rfl

example (sig : List ℝ) : imfcc {} sig = .error .typeError :=
  C52_imfcc_default_raises {} rfl rfl (by norm_num) (by norm_num) (le_refl _) (by norm_num) .constant .oshaghnessy sig

/-! Concrete case for C43, C44, C46, C50, C51: one-sample frames, one filter, the signal `[1, 2]`. All hypotheses hold
and the calls succeed. -/

private theorem tiny_mfcc (g : XF ℝ → XF ℝ) (u v : ℝ) :
    featCore { tiny with preEmph := false, preEmphCoeff := 0.97 } 0.97 [[fin 1]] g [u, v] =
      .ok [[∑ n ∈ Finset.range 1, fin 1 * ([g (fin (u * u))].getD n 0)],
        [∑ n ∈ Finset.range 1, fin 1 * ([g (fin (v * v))].getD n 0)]] :=
  tiny_core false 0.97 0.97 g u v [u, v] (by simp [emph])

example : ∃ m x ft, mfcc { tiny with preEmph := false, preEmphCoeff := 0.97 } [1, 2] = .ok m ∧
    melSpectrogram { tiny with preEmph := false, preEmphCoeff := 0.97 } [1, 2] = .ok (x, ft) ∧ AllPos x := by
  have h1 := tiny_mfcc logG 1 2
  have hm : mfcc { tiny with preEmph := false, preEmphCoeff := 0.97 } [1, 2] =
      featCore { tiny with preEmph := false, preEmphCoeff := 0.97 } 0.97 [[fin 1]] logG [1, 2] := by
    rw [mfcc_eq]; rfl
  obtain ⟨⟨x, ft⟩, h2, -⟩ := (bind_ok_iff ..).mp h1
  refine ⟨_, x, ft, hm.trans h1, h2, ?_⟩
  obtain ⟨W, hW, -, -, rfl, -⟩ := (spectrogram_ok_iff ..).mp h2
  have h3 := tiny_mfcc id 1 2
  obtain ⟨W', hW', -, -, -, h4⟩ := (featCore_ok_iff' rfl ..).mp h3
  obtain rfl : W = W' := by rw [hW] at hW'; injection hW'
  have hS : 0 < pyInt ((1:ℝ) * 1) := by norm_num [pyInt]
  obtain ⟨-, l, s, w, e1, e2, -, -, hw, -, rfl⟩ := ((frontEnd_ok_iff { tiny with preEmph := false, preEmphCoeff := 0.97 } _ _ _ hS).mp hW).2
  have hp : pyInt ((1:ℝ) * 1) = ((1:ℕ):ℤ) := by norm_num [pyInt]
  obtain rfl : l = 1 := by
    have : pyInt ((1:ℝ) * 1) = (l:ℤ) := e1
    rw [hp] at this; exact_mod_cast this.symm
  obtain rfl : s = 1 := by
    have : pyInt ((1:ℝ) * 1) = (s:ℤ) := e2
    rw [hp] at this; exact_mod_cast this.symm
  have hw' : windowVec "hamming" 1 = .ok [1] := by simp [windowVec, Np.hammingAt]
  obtain rfl : w = [1] := by
    have : windowVec "hamming" 1 = .ok w := hw
    rw [hw'] at this; injection this with this; exact this.symm
  have hs : ∀ v : ℝ, specRow 1 [[fin 1]] [1 * v] = [fin (v * v)] := by
    intro v
    simp only [specRow, powRow, Np.absRfft, List.map_cons, List.map_nil]
    have h1 : (List.range (1 / 2 + 1)).map (fun k => ‖Np.dft [1 * v] 1 k‖) = [|v|] := by
      simp [Np.dft, Np.dftC]
    rw [h1]
    simp [Np.dot]
  intro r hr
  have hr' : r ∈ [specRow 1 [[fin 1]] [1 * (1:ℝ)], specRow 1 [[fin 1]] [1 * (2:ℝ)]] := hr
  rw [hs, hs] at hr'
  intro v hv
  simp only [List.mem_cons, List.not_mem_nil, or_false] at hr'
  rcases hr' with rfl | rfl
  · simp only [List.mem_singleton] at hv; exact ⟨1 * 1, by norm_num, hv⟩
  · simp only [List.mem_singleton] at hv; exact ⟨2 * 2, by norm_num, hv⟩

end Props
end Spafe
