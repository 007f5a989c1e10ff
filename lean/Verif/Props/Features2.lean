import Verif.Props.Features
import Verif.Lemmas.Fourier

/-! Properties C43–C52: behaviour of the cepstral features under gain, extension of the signal, pre-emphasis, FFT size,
energy, DCT, truncation; `imfcc`. -/

set_option linter.unusedSectionVars false

namespace Spafe
namespace Props
open XF Spec Model

/-! ### C43 -/

private theorem logRow_smul {s : ℝ} (hs : 0 < s) {r : List ℝ} (hr : ∀ x ∈ r, 0 < x) :
    ((r.map fin).map (fin s * ·)).map logG = (r.map fun x => Real.log x + Real.log s).map fin := by
  rw [List.map_map, List.map_map, List.map_map]
  apply List.map_congr_left
  intro x hx
  have := hr x hx
  simp only [Function.comp]
  rw [XF.fin_mul, logG_pos (by positivity), Real.log_mul hs.ne' this.ne', add_comm]

private theorem posRow_iff (r : List (XF ℝ)) : (∀ v ∈ r, ∃ x : ℝ, 0 < x ∧ v = fin x) ↔
    ∃ r' : List ℝ, r = r'.map fin ∧ ∀ x ∈ r', 0 < x := by
  constructor
  · intro h
    obtain ⟨r', rfl⟩ := (finRow_iff r).mp fun v hv => by obtain ⟨x, -, hx⟩ := h v hv; exact ⟨x, hx⟩
    refine ⟨r', rfl, fun x hx => ?_⟩
    obtain ⟨y, hy, he⟩ := h (fin x) (List.mem_map.mpr ⟨x, hx, rfl⟩)
    injection he with he; rw [he]; exact hy
  · rintro ⟨r', rfl, h⟩ v hv
    obtain ⟨x, hx, rfl⟩ := List.mem_map.mp hv
    exact ⟨x, h x hx, rfl⟩

private theorem core_gain {a : Args} (hd : a.dctType = 2) (hu : a.useEnergy = false) (hl : a.lifter = none)
    (hn : a.normalize = none) {coeff : ℝ} {fb : XMat} {sig : List ℝ} {m x : XMat} {ft : List (List ℝ)}
    (hx : spectrogram a coeff fb sig = .ok (x, ft)) (hp : AllPos x) {c : ℝ} (hc : c ≠ 0)
    (h : featCore a coeff fb logG sig = .ok m) :
    ∃ m', featCore a coeff fb logG (sig.map (c * ·)) = .ok m' ∧ m'.length = m.length ∧
      ∀ i k, i < m.length → k < min a.numCeps fb.length →
        ∃ y, (m.getD i []).getD k 0 = fin y ∧
          (m'.getD i []).getD k 0 = fin (if k = 0 then y + √fb.length * (2 * Real.log |c|) else y) := by
  obtain ⟨W, hW, hn0, hcol, ht, rfl⟩ := (featCore_ok_iff' hn ..).mp h
  obtain ⟨W', hW', -, -, rfl, -⟩ := (spectrogram_ok_iff ..).mp hx
  obtain rfl : W = W' := by rw [hW] at hW'; injection hW'
  refine ⟨_, (featCore_ok_iff' hn ..).mpr ⟨_, frontEnd_smul_ok hW c, hn0, hcol, ht, rfl⟩, by simp, ?_⟩
  intro i k hi hk
  simp only [List.length_map] at hi
  rw [List.map_map, getD_map_lt _ W [] _ hi, getD_map_lt _ W [] _ hi]
  have hw := getD_mem [] hi
  set w := W.getD i []
  simp only [Function.comp]
  obtain ⟨r, hr, hpos⟩ := (posRow_iff _).mp (hp _ (List.mem_map.mpr ⟨w, hw, rfl⟩))
  have hrl : r.length = fb.length := by simpa using (congrArg List.length hr).symm
  have hlog : (specRow a.nfft fb w).map logG = (r.map Real.log).map fin := by
    rw [hr, List.map_map, List.map_map]
    exact List.map_congr_left fun v hv => logG_pos (hpos v hv)
  have e0 : ∀ r' : List ℝ, r'.length = fb.length → ∀ w', (specRow a.nfft fb w').map logG = r'.map fin →
      (featRow a fb logG w').getD k 0 = fin (dct2 fb.length (fun n => r'.getD n 0) k) := by
    intro r' hl' w' hw'
    unfold featRow tailRow
    rw [hl, hu, hd, hw', dctRow_fin]
    simp only [Bool.false_eq_true, if_false]
    rw [getD_take_lt _ _ (by omega), getD_map_lt _ _ 0 _ (by simp; omega), getD_map_range_lt _ _ (by omega), hl']
    rfl
  refine ⟨_, e0 (r.map Real.log) (by simpa using hrl) w hlog, ?_⟩
  rw [e0 (r.map fun x => Real.log x + Real.log (c ^ 2)) (by simpa using hrl)]
  · congr 1
    have hsplit : dct2 fb.length (fun n => (r.map fun x => Real.log x + Real.log (c ^ 2)).getD n 0) k =
        dct2 fb.length (fun n => (r.map Real.log).getD n 0) k + dct2 fb.length (fun _ => Real.log (c ^ 2)) k := by
      unfold dct2
      rw [← Finset.sum_add_distrib]
      apply Finset.sum_congr rfl
      intro n hnr
      have hnr := Finset.mem_range.mp hnr
      beta_reduce
      rw [getD_map_lt _ r 0 _ (by omega), getD_map_lt _ r 0 _ (by omega), mul_add]
    rw [hsplit, dct2_const (by omega), Real.log_pow, ← Real.log_abs]
    split_ifs <;> push_cast <;> ring
  · rw [specRow_smul hc, hr, logRow_smul (by positivity) hpos]

/-- C43: multiplying the signal by `c ≠ 0` adds `√(number of filters) · 2 ln|c|` to the first coefficient of every
frame of mfcc, imfcc, ngcc (spectrogram as in `mel_spectrogram`) and lfcc (as in `linear_spectrogram`) and leaves all
other coefficients unchanged, when all filter outputs are positive. (Default `dct_type`; no energy, liftering or
normalisation.) -/
theorem C43_gain (f : Feature) (F : Args → List ℝ → Py (XMat × List (List ℝ)))
    (hf : (f, F) ∈ [(mfcc, melSpectrogram), (imfcc, melSpectrogram), (ngcc, melSpectrogram), (lfcc, linearSpectrogram)])
    (a : Args) (hd : a.dctType = 2) (hu : a.useEnergy = false) (hl : a.lifter = none) (hn : a.normalize = none)
    (fb : XMat) (hb : a.fbanks = some fb) (sig : List ℝ) (x : XMat) (ft : List (List ℝ))
    (hx : F a sig = .ok (x, ft)) (hp : AllPos x) (c : ℝ) (hc : c ≠ 0) (m : XMat) (h : f a sig = .ok m) :
    ∃ m', f a (sig.map (c * ·)) = .ok m' ∧ m'.length = m.length ∧
      ∀ i k, i < m.length → k < min a.numCeps fb.length →
        ∃ y, (m.getD i []).getD k 0 = fin y ∧
          (m'.getD i []).getD k 0 = fin (if k = 0 then y + √fb.length * (2 * Real.log |c|) else y) := by
  have key : ∀ coeff, (∀ sig, f a sig = if a.nfilts < a.numCeps then .error (.parameterError ErrorMsgs.nfilts) else
      featCore a coeff fb logG sig) → F a sig = spectrogram a coeff fb sig →
      ∃ m', f a (sig.map (c * ·)) = .ok m' ∧ m'.length = m.length ∧
      ∀ i k, i < m.length → k < min a.numCeps fb.length →
        ∃ y, (m.getD i []).getD k 0 = fin y ∧
          (m'.getD i []).getD k 0 = fin (if k = 0 then y + √fb.length * (2 * Real.log |c|) else y) := by
    intro coeff he hF
    rw [he] at h
    rw [hF] at hx
    split_ifs at h with h1
    simp only [he, if_neg h1]
    exact core_gain hd hu hl hn hx hp hc h
  simp only [List.mem_cons, Prod.mk.injEq, List.not_mem_nil, or_false] at hf
  rcases hf with ⟨rfl, rfl⟩ | ⟨rfl, rfl⟩ | ⟨rfl, rfl⟩ | ⟨rfl, rfl⟩
  · refine key a.preEmphCoeff (fun s => ?_) ?_
    · rw [mfcc_eq, melBankOf, hb]; rfl
    · rw [melSpectrogram, melBankOf, hb]; rfl
  · refine key a.preEmphCoeff (fun s => ?_) ?_
    · rw [imfcc_eq, hb]; rfl
    · rw [melSpectrogram, melBankOf, hb]; rfl
  · refine key a.preEmphCoeff (fun s => ?_) ?_
    · rw [ngcc_eq, gammaBankOf, hb]; rfl
    · rw [melSpectrogram, melBankOf, hb]; rfl
  · refine key 0.97 (fun s => ?_) ?_
    · rw [lfcc_eq, hb]; rfl
    · rw [linearSpectrogram, hb]; rfl

/-! ### C44 -/

private theorem fin_mul_pinf {s : ℝ} (hs : 0 < s) : fin s * (pinf : XF ℝ) = pinf := by
  simp [XF.mul_def, XF.mul, XF.infMul, hs, hs.ne']

private theorem fin_mul_ninf {s : ℝ} (hs : 0 < s) : fin s * (ninf : XF ℝ) = ninf := by
  simp [XF.mul_def, XF.mul, XF.infMul, hs.ne', hs.le]

private theorem pow_smul {s : ℝ} (hs : 0 < s) (p : ℝ) (v : XF ℝ) : XF.pow (fin s * v) p = fin (s ^ p) * XF.pow v p := by
  have hsp : 0 < s ^ p := Real.rpow_pos_of_pos hs p
  by_cases hp : p = 0
  · subst hp; simp [XF.pow]
  have hneg : ¬ -s = 0 ∧ ¬ 0 < -s ∧ ¬ -s > 0 := ⟨by linarith, by linarith, by linarith⟩
  have hp1 : fin s * (pinf : XF ℝ) = pinf := by simp [XF.mul_def, XF.mul, XF.infMul, hs, hs.ne']
  have hn1 : fin s * (ninf : XF ℝ) = ninf := by simp [XF.mul_def, XF.mul, XF.infMul, hs.ne', hs.le]
  have hp2 : fin (s ^ p) * (pinf : XF ℝ) = pinf := by simp [XF.mul_def, XF.mul, XF.infMul, hsp, hsp.ne']
  have hn2 : fin (s ^ p) * (ninf : XF ℝ) = ninf := by simp [XF.mul_def, XF.mul, XF.infMul, hsp.ne', hsp.le]
  cases v with
  | nan => simp [XF.mul_def, XF.mul, XF.pow, hp]
  | pinf =>
    rw [hp1]
    simp only [XF.pow, if_neg hp]
    split_ifs
    · exact hp2.symm
    · simp
  | ninf =>
    rw [hn1]
    simp only [XF.pow, if_neg hp]
    split_ifs
    · simp
    · exact hn2.symm
    · exact hp2.symm
  | fin x =>
    rw [XF.fin_mul]
    simp only [XF.pow, if_neg hp]
    rcases lt_trichotomy x 0 with h | h | h
    · have hsx : s * x < 0 := mul_neg_of_pos_of_neg hs h
      rw [if_neg hsx.not_gt, if_neg hsx.ne, if_neg h.not_gt, if_neg h.ne]
      split_ifs with hz
      · rw [XF.fin_mul, mul_zpow]
        congr 2
        conv_rhs => rw [hz.choose_spec]
        rw [Real.rpow_intCast]
      · rfl
    · subst h
      simp only [mul_zero, lt_irrefl, if_false, if_true]
      split_ifs
      · simp
      · exact hp2.symm
    · have hsx : 0 < s * x := by positivity
      rw [if_pos hsx, if_pos h, XF.fin_mul, Real.mul_rpow hs.le h.le]

private theorem core_root {a : Args} (hu : a.useEnergy = false) (hl : a.lifter = none) (hn : a.normalize = none)
    {coeff : ℝ} {fb : XMat} (p : ℝ) {sig : List ℝ} {m : XMat} {c : ℝ} (hc : c ≠ 0)
    (h : featCore a coeff fb (fun v => XF.pow v p) sig = .ok m) :
    featCore a coeff fb (fun v => XF.pow v p) (sig.map (c * ·)) =
      .ok (m.map fun r => r.map (fin (|c| ^ (2 * p)) * ·)) := by
  obtain ⟨W, hW, hn0, hcol, ht, rfl⟩ := (featCore_ok_iff' hn ..).mp h
  refine (featCore_ok_iff' hn ..).mpr ⟨_, frontEnd_smul_ok hW c, hn0, hcol, ht, ?_⟩
  rw [List.map_map, List.map_map]
  apply List.map_congr_left
  intro w _
  have hs : 0 < c ^ 2 := by positivity
  have hcp : |c| ^ (2 * p) = (c ^ 2) ^ p := by
    rw [Real.rpow_mul (abs_nonneg c), ← sq_abs c]; norm_num
  simp only [Function.comp]
  unfold featRow tailRow
  rw [hl, hu]
  simp only [Bool.false_eq_true, if_false]
  rw [specRow_smul hc, List.map_map, hcp, List.map_take, ← dctRow_smul (Real.rpow_pos_of_pos hs p), List.map_map]
  congr 2
  apply List.map_congr_left
  intro v _
  simp only [Function.comp]
  exact (pow_smul hs p v).symm

/-- C44: multiplying the signal by `c ≠ 0` multiplies gfcc by `|c|^(2/3)` and msrcc by `|c|^(2·gamma)`, entry by
entry, for every signal and every bank. (No energy, liftering or normalisation; infinities and NaN included.) -/
theorem C44_root_gain (a : Args) (hu : a.useEnergy = false) (hl : a.lifter = none) (hn : a.normalize = none)
    (sig : List ℝ) (c : ℝ) (hc : c ≠ 0) (m : XMat) :
    (gfcc a sig = .ok m → gfcc a (sig.map (c * ·)) = .ok (m.map fun r => r.map (fin (|c| ^ (2 / 3 : ℝ)) * ·))) ∧
    (msrcc a sig = .ok m → msrcc a (sig.map (c * ·)) =
      .ok (m.map fun r => r.map (fin (|c| ^ (2 * a.gamma)) * ·))) := by
  constructor
  · intro h
    rw [gfcc_eq] at h ⊢
    split_ifs at h ⊢ with h1
    obtain ⟨fb, hfb, h⟩ := (bind_ok_iff ..).mp h
    rw [hfb, ok_bind, core_root hu hl hn (1 / 3) hc h]
    norm_num
  · intro h
    rw [msrcc_eq] at h ⊢
    split_ifs at h ⊢ with h1
    obtain ⟨fb, hfb, h⟩ := (bind_ok_iff ..).mp h
    rw [hfb, ok_bind, core_root hu hl hn a.gamma hc h]

/-! ### C45 -/

private theorem cepstralTail_no_energy {a : Args} (hu : a.useEnergy = false) (ft ft' : List (List ℝ)) (x : XMat) :
    cepstralTail a ft x = cepstralTail a ft' x := by
  unfold cepstralTail
  simp only [hu, Bool.false_eq_true, if_false]

/-- C45: psrcc ignores a positive gain: same result (or same exception) for `c · sig`. -/
theorem C45_psrcc_gain (a : Args) (hu : a.useEnergy = false) (sig : List ℝ) (c : ℝ) (hc : 0 < c) :
    psrcc a (sig.map (c * ·)) = psrcc a sig := by
  unfold psrcc
  split_ifs
  · rfl
  congr 1
  funext fb
  rw [frontEnd_smul]
  cases frontEnd a a.preEmphCoeff sig with
  | error e => rfl
  | ok W =>
    simp only [Except.map, ok_bind]
    unfold absFft
    split_ifs
    · rfl
    simp only [ok_bind]
    have hph : ((W.map (List.map (c * ·))).map fun w =>
        (List.range (a.nfft / 2 + 1)).map fun (k : ℕ) => phaseDeg (Np.dft w a.nfft k)) =
        W.map fun w => (List.range (a.nfft / 2 + 1)).map fun (k : ℕ) => phaseDeg (Np.dft w a.nfft k) := by
      rw [List.map_map]
      apply List.map_congr_left
      intro w _
      apply List.map_congr_left
      intro k _
      rw [dft_smul]
      unfold phaseDeg
      rw [Complex.arg_real_mul _ hc]
    rw [hph]
    congr 1
    funext y
    exact cepstralTail_no_energy hu _ _ _

/-- C45: a negative gain is not ignored (phase 0 becomes 180°): one bin, one sample. -/
theorem C45_negative_gain_matters : phaseDeg (Np.dft [(1:ℝ)] 1 0) = 0 ∧ phaseDeg (Np.dft [(-1:ℝ)] 1 0) = 180 := by
  have h1 : Np.dft [(1:ℝ)] 1 0 = 1 := by simp [Np.dft, Np.dftC]
  have h2 : Np.dft [(-1:ℝ)] 1 0 = -1 := by simp [Np.dft, Np.dftC]
  have hpi := Real.pi_pos
  rw [h1, h2]
  constructor
  · simp [phaseDeg]
  · unfold phaseDeg
    rw [Complex.arg_neg_one]
    have : Real.pi * (180 / Real.pi) = 180 := by field_simp
    simp only [this]
    norm_num

/-! ### C46 -/

/-- The features that treat every frame on its own. -/
noncomputable def rowwiseFeatures : List Feature := [mfcc, imfcc, lfcc, bfcc, gfcc, ngcc, msrcc]

theorem rowwise_form {f : Feature} (hf : f ∈ rowwiseFeatures) : ∃ (bank : Args → Py XMat) (coeff : Args → ℝ)
    (g : Args → XF ℝ → XF ℝ), (∀ a sig, f a sig = if a.nfilts < a.numCeps then
      .error (.parameterError ErrorMsgs.nfilts) else (bank a >>= fun fb => featCore a (coeff a) fb (g a) sig)) ∧
      (∀ a p, bank { a with numCeps := p } = bank a ∧ coeff { a with numCeps := p } = coeff a ∧
        g { a with numCeps := p } = g a) := by
  simp only [rowwiseFeatures, List.mem_cons, List.not_mem_nil, or_false] at hf
  rcases hf with rfl | rfl | rfl | rfl | rfl | rfl | rfl
  · exact ⟨_, _, _, mfcc_eq, fun _ _ => ⟨rfl, rfl, rfl⟩⟩
  · exact ⟨fun a => _, fun a => _, fun _ => logG, imfcc_eq, fun _ _ => ⟨rfl, rfl, rfl⟩⟩
  · exact ⟨fun a => _, fun a => _, fun _ => logG, lfcc_eq, fun _ _ => ⟨rfl, rfl, rfl⟩⟩
  · exact ⟨fun a => _, fun a => _, fun _ => fun v => logG (intensityPowerLaw v), bfcc_eq, fun _ _ => ⟨rfl, rfl, rfl⟩⟩
  · exact ⟨fun a => _, fun a => _, fun _ => _, gfcc_eq, fun _ _ => ⟨rfl, rfl, rfl⟩⟩
  · exact ⟨fun a => _, fun a => _, fun _ => _, ngcc_eq, fun _ _ => ⟨rfl, rfl, rfl⟩⟩
  · exact ⟨fun a => _, fun a => _, fun a => _, msrcc_eq, fun _ _ => ⟨rfl, rfl, rfl⟩⟩

private theorem emph_append (a : Args) (coeff : ℝ) (sig ext : List ℝ) :
    (emph a coeff (sig ++ ext)).take sig.length = emph a coeff sig := by
  unfold emph
  split_ifs
  · rw [C10_pre_emphasis_causal, List.take_left']; rfl
  · exact List.take_left' rfl

private theorem frontEnd_prefix {a : Args} {coeff : ℝ} {sig : List ℝ} {W : List (List ℝ)}
    (hS : 0 < pyInt (a.win.winHop * a.fs)) (h : frontEnd a coeff sig = .ok W) (ext : List ℝ) :
    ∃ W', frontEnd a coeff (sig ++ ext) = .ok W' ∧ W <+: W' := by
  obtain ⟨he, hle, l, s, w, h1, h2, hs, h3, hw, hwl, rfl⟩ := (frontEnd_ok_iff a coeff sig W hS).mp h
  refine ⟨_, (frontEnd_ok_iff a coeff _ _ hS).mpr ⟨fun e => he ⟨e.1, (List.append_eq_nil_iff.mp e.2).1⟩, hle, l, s, w, h1, h2, hs, by simp; omega, hw, hwl, rfl⟩, ?_⟩
  set n := (sig.length - l) / s + 1 with hn
  have hle' : n ≤ ((sig ++ ext).length - l) / s + 1 := by
    have : (sig.length - l) / s ≤ ((sig ++ ext).length - l) / s := Nat.div_le_div_right (by simp; omega)
    omega
  have hpre : List.range n <+: List.range (((sig ++ ext).length - l) / s + 1) := by
    rw [List.prefix_iff_eq_take, List.take_range, List.length_range, Nat.min_eq_left hle']
  have hcongr : (List.range n).map (fun (i : ℕ) => List.zipWith (· * ·) w (((emph a coeff sig).drop (i * s)).take l)) =
      (List.range n).map (fun (i : ℕ) => List.zipWith (· * ·) w (((emph a coeff (sig ++ ext)).drop (i * s)).take l)) := by
    apply List.map_congr_left
    intro i hi
    rw [List.mem_range] at hi
    have hil : i * s + l ≤ sig.length := by
      have h4 : i ≤ (sig.length - l) / s := by omega
      have h5 : i * s ≤ (sig.length - l) / s * s := Nat.mul_le_mul_right s h4
      have h6 := Nat.div_mul_le_self (sig.length - l) s
      omega
    rw [← emph_append a coeff sig ext, List.drop_take, List.take_take, Nat.min_eq_left (by omega)]
  rw [hcongr]
  exact hpre.map _

/-- C46: appending audio to a signal only appends rows to mfcc, imfcc, lfcc, bfcc, gfcc, ngcc and msrcc (positive hop,
no normalisation, any extension). -/
theorem C46_prefix (f : Feature) (hf : f ∈ rowwiseFeatures) (a : Args) (hn : a.normalize = none)
    (hS : 0 < pyInt (a.win.winHop * a.fs)) (sig ext : List ℝ) (m : XMat) (h : f a sig = .ok m) :
    ∃ m', f a (sig ++ ext) = .ok m' ∧ m <+: m' := by
  obtain ⟨bank, coeff, g, he, -⟩ := rowwise_form hf
  rw [he] at h
  simp only [he]
  split_ifs at h ⊢
  obtain ⟨fb, hfb, h⟩ := (bind_ok_iff ..).mp h
  obtain ⟨W, hW, h1, h2, h3, rfl⟩ := (featCore_ok_iff' hn ..).mp h
  obtain ⟨W', hW', hp⟩ := frontEnd_prefix hS hW ext
  exact ⟨_, by rw [hfb, ok_bind]; exact (featCore_ok_iff' hn ..).mpr ⟨W', hW', h1, h2, h3, rfl⟩, hp.map _⟩

/-! ### C47 -/

private theorem frontEnd_emph (a : Args) (c c' x : ℝ) (s : List ℝ) :
    frontEnd { a with preEmph := true } c (x :: s) =
      frontEnd { a with preEmph := false } c' (preEmphasis (x :: s) c) := rfl

private theorem featCore_emph (a : Args) (c c' : ℝ) (fb : XMat) (g : XF ℝ → XF ℝ) (x : ℝ) (s : List ℝ) :
    featCore { a with preEmph := true } c fb g (x :: s) =
      featCore { a with preEmph := false } c' fb g (preEmphasis (x :: s) c) := by
  unfold featCore spectrogram
  rw [frontEnd_emph a c c' x s]; rfl

/-- C47 (the part that holds): for a signal with at least one sample, mfcc, imfcc, ngcc, msrcc and psrcc with `pre_emph_coeff = c` are the features of the
signal pre-emphasised by `c` without further pre-emphasis, for every `c`; lfcc, bfcc and gfcc only for `c = 0.97`.
Missing: the claim for lfcc, bfcc, gfcc with any other coefficient, which is false (`C47_ignored`,
`C47_violated`). -/
theorem C47_pre_emph_coeff_partial (f : Feature) (a : Args) (c : ℝ) (sig : List ℝ) (hne : sig ≠ [])
    (hf : f ∈ [mfcc, imfcc, ngcc, msrcc, psrcc] ∨ (f ∈ [lfcc, bfcc, gfcc] ∧ c = 0.97)) :
    f { a with preEmph := true, preEmphCoeff := c } sig = f { a with preEmph := false } (preEmphasis sig c) := by
  obtain ⟨x, s, rfl⟩ := List.exists_cons_of_ne_nil hne
  simp only [List.mem_cons, List.not_mem_nil, or_false] at hf
  rcases hf with (rfl | rfl | rfl | rfl | rfl) | ⟨rfl | rfl | rfl, rfl⟩
  · simp only [mfcc_eq]
    split_ifs
    · rfl
    · rfl
  · simp only [imfcc_eq]
    split_ifs
    · rfl
    · rfl
  · simp only [ngcc_eq]
    split_ifs
    · rfl
    · rfl
  · simp only [msrcc_eq]
    split_ifs
    · rfl
    · rfl
  · rfl
  · simp only [lfcc_eq]
    split_ifs
    · rfl
    · rfl
  · simp only [bfcc_eq]
    split_ifs
    · rfl
    · rfl
  · simp only [gfcc_eq]
    split_ifs
    · rfl
    · rfl

/-- C47 (violation): lfcc, bfcc and gfcc do not depend on `pre_emph_coeff` at all. -/
theorem C47_ignored (f : Feature) (hf : f ∈ [lfcc, bfcc, gfcc]) (a : Args) (c c' : ℝ) (sig : List ℝ) :
    f { a with preEmphCoeff := c } sig = f { a with preEmphCoeff := c' } sig := by
  simp only [List.mem_cons, List.not_mem_nil, or_false] at hf
  rcases hf with rfl | rfl | rfl
  · rw [lfcc_eq, lfcc_eq]; rfl
  · rw [bfcc_eq, bfcc_eq]; rfl
  · rw [gfcc_eq, gfcc_eq]; rfl

/-- A tiny configuration: frames of one sample, one filter with one bin. -/
noncomputable def tiny : Args :=
  { fs := 1, numCeps := 1, nfilts := 1, nfft := 1, window := some { winLen := 1, winHop := 1 }, fbanks := some [[fin 1]] }

theorem tiny_row (b : Bool) (cc : ℝ) (g : XF ℝ → XF ℝ) (v : ℝ) :
    featRow { tiny with preEmph := b, preEmphCoeff := cc } [[fin 1]] g [1 * v] =
      [∑ n ∈ Finset.range 1, fin 1 * ([g (fin (v * v))].getD n 0)] := by
  have hk : Np.dctKernel 2 1 0 0 = 1 := by
    have h4 : √(4:ℝ) = 2 := by
      rw [show (4:ℝ) = 2 ^ 2 by norm_num]; exact Real.sqrt_sq (by norm_num)
    simp [Np.dctKernel, h4]
  have hs : specRow 1 [[fin 1]] [1 * v] = [fin (v * v)] := by
    simp only [specRow, powRow, Np.absRfft, List.map_cons, List.map_nil]
    have h1 : (List.range (1 / 2 + 1)).map (fun k => ‖Np.dft [1 * v] 1 k‖) = [|v|] := by
      simp [Np.dft, Np.dftC]
    rw [h1]
    simp [Np.dot]
  simp only [featRow, tailRow, tiny, hs, List.map_cons, List.map_nil, Bool.false_eq_true, if_false, Np.dctRow,
    List.length_cons, List.length_nil, List.range_succ, List.range_zero, List.nil_append, List.take,
    Finset.sum_range_one]
  simp [hk]

theorem tiny_core (b : Bool) (cc coeff : ℝ) (g : XF ℝ → XF ℝ) (u v : ℝ) (sig : List ℝ)
    (hs : emph { tiny with preEmph := b, preEmphCoeff := cc } coeff sig = [u, v]) :
    featCore { tiny with preEmph := b, preEmphCoeff := cc } coeff [[fin 1]] g sig =
      .ok [[∑ n ∈ Finset.range 1, fin 1 * ([g (fin (u * u))].getD n 0)],
        [∑ n ∈ Finset.range 1, fin 1 * ([g (fin (v * v))].getD n 0)]] := by
  have hsl : sig.length = 2 := by rw [← emph_length { tiny with preEmph := b, preEmphCoeff := cc } coeff sig, hs]; rfl
  have hp : pyInt ((1:ℝ) * 1) = 1 := by norm_num [pyInt]
  refine (featCore_ok_iff' rfl ..).mpr ⟨[[1 * u], [1 * v]], ?_, Nat.one_ne_zero, by simp [tiny], ?_, ?_⟩
  · refine (frontEnd_ok_iff _ _ _ _ ?_).mpr ⟨fun e => by simp [e.2] at hsl, le_refl _, 1, 1, [1], ?_, ?_, by norm_num, by omega, ?_, rfl, ?_⟩
    · show 0 < pyInt ((1:ℝ) * 1); rw [hp]; norm_num
    · show pyInt ((1:ℝ) * 1) = _; rw [hp]; rfl
    · show pyInt ((1:ℝ) * 1) = _; rw [hp]; rfl
    · show windowVec "hamming" 1 = _
      simp [windowVec, Np.hammingAt]
    · rw [hs, hsl]; rfl
  · exact ⟨one_le_two, (by norm_num : 2 ≤ 4), le_refl 1, fun h => absurd (show 2 = 1 from h) (by decide), fun h => by simp [tiny] at h,
      fun l h => by simp [tiny] at h⟩
  · simp only [List.map_cons, List.map_nil, tiny_row]

private theorem tiny_differs (g : XF ℝ → XF ℝ) (hg : ∀ y, g (fin 0) = fin y → g (fin (0.97 * 0.97)) ≠ fin y)
    (hfin : ∃ y, g (fin 0) = fin y) :
    featCore { tiny with preEmph := true, preEmphCoeff := 0 } 0.97 [[fin 1]] g [1, 0.97] ≠
      featCore { tiny with preEmph := false } 0.97 [[fin 1]] g (preEmphasis [1, 0.97] 0) := by
  have h1 := tiny_core true 0 0.97 g 1 0 [1, 0.97] (by
    have hl := preEmphasis_length [(1:ℝ), 0.97] 0.97
    apply ext_getD 0 (by simpa [emph, tiny] using hl)
    intro i hi
    have hi : i < 2 := by simpa [emph, tiny, hl] using hi
    show (preEmphasis [(1:ℝ), 0.97] 0.97).getD i 0 = _
    rw [preEmphasis_getD _ _ _ hi]
    rcases (show i = 0 ∨ i = 1 by omega) with rfl | rfl <;> simp)
  have h2 := tiny_core false 0.97 0.97 g 1 0.97 (preEmphasis [1, 0.97] 0) (by
    rw [C10_pre_emphasis_zero]; simp [emph, tiny])
  rw [h1]
  have h2' : featCore { tiny with preEmph := false } 0.97 [[fin 1]] g (preEmphasis [1, 0.97] 0) = _ := h2
  rw [h2']
  intro h
  injection h with h
  obtain ⟨y, hy⟩ := hfin
  have h3 : (fin 1 : XF ℝ) * g (fin (0 * 0)) = fin 1 * g (fin (0.97 * 0.97)) := by
    simpa using h
  rw [mul_zero, hy, XF.fin_mul, one_mul] at h3
  apply hg y hy
  cases hv : g (fin (0.97 * 0.97)) with
  | fin z => rw [hv, XF.fin_mul, one_mul] at h3; exact h3.symm
  | nan => rw [hv] at h3; cases h3
  | pinf => rw [hv, fin_mul_pinf one_pos] at h3; cases h3
  | ninf => rw [hv, fin_mul_ninf one_pos] at h3; cases h3

private theorem logG_zero : logG (fin 0) = fin (Real.log eps) := by
  unfold logG xZeroHandling
  simp only [if_true]
  rw [XF.log_pos]
  unfold eps; positivity

/-- C47 (violation, witness): with `pre_emph_coeff = 0` the features are not those of the signal itself, already on
the signal `[1, 0.97]`. -/
theorem C47_violated (f : Feature) (hf : f ∈ [lfcc, bfcc, gfcc]) : ∃ (a : Args) (c : ℝ) (sig : List ℝ),
    f { a with preEmph := true, preEmphCoeff := c } sig ≠ f { a with preEmph := false } (preEmphasis sig c) := by
  refine ⟨tiny, 0, [1, 0.97], ?_⟩
  simp only [List.mem_cons, List.not_mem_nil, or_false] at hf
  rcases hf with rfl | rfl | rfl
  · rw [lfcc_eq, lfcc_eq]
    refine tiny_differs logG ?_ ⟨_, logG_zero⟩
    intro y hy
    rw [logG_zero] at hy
    rw [logG_pos (by norm_num), ← hy]
    intro h
    injection h with h
    have := Real.log_injOn_pos (Set.mem_Ioi.mpr (by norm_num)) (Set.mem_Ioi.mpr (by unfold eps; positivity)) h
    norm_num [eps] at this
  · rw [bfcc_eq, bfcc_eq]
    have hi : ∀ x : ℝ, 0 ≤ x → intensityPowerLaw (fin x) = fin ((((x * x + 56.8 * 10 ^ 6) * (x * x * x * x)) /
        ((x * x + 6.3 * 10 ^ 6) * (x * x + 0.38 * 10 ^ 9) * (x * x * x * (x * x * x) + 9.58 * 10 ^ 26))) ^ ((1:ℝ) / 3)) := by
      intro x hx
      unfold intensityPowerLaw
      simp only [XF.fin_mul, XF.fin_add]
      have h3 : 0 ≤ x * x := mul_self_nonneg x
      have h4 : 0 ≤ x * x * x * (x * x * x) := mul_self_nonneg (x * x * x)
      rw [XF.fin_div _ _ (by positivity), XF.pow_nonneg' (by positivity) (by norm_num)]
    have h0 : logG (intensityPowerLaw (fin 0)) = fin (Real.log eps) := by
      rw [hi 0 le_rfl]
      norm_num
      exact logG_zero
    refine tiny_differs (fun v => logG (intensityPowerLaw v)) ?_ ⟨_, h0⟩
    intro y hy
    rw [h0] at hy
    rw [hi _ (by norm_num), ← hy, logG_pos (Real.rpow_pos_of_pos (by norm_num) _)]
    intro h
    injection h with h
    have h1 := Real.log_injOn_pos (Set.mem_Ioi.mpr (Real.rpow_pos_of_pos (by norm_num) _))
      (Set.mem_Ioi.mpr (by unfold eps; positivity)) h
    have h2 := congrArg (fun t : ℝ => t ^ (3:ℕ)) h1
    beta_reduce at h2
    rw [← Real.rpow_natCast, ← Real.rpow_mul (by norm_num)] at h2
    norm_num [eps] at h2
  · rw [gfcc_eq, gfcc_eq]
    have h0 : XF.pow (fin 0) (1 / 3) = (fin 0 : XF ℝ) := by
      rw [XF.pow_nonneg' le_rfl (by norm_num), Real.zero_rpow (by norm_num)]
    refine tiny_differs (fun v => XF.pow v (1 / 3)) ?_ ⟨0, h0⟩
    intro y hy
    rw [h0] at hy
    injection hy with hy
    rw [← hy, XF.pow_pos' (by norm_num)]
    intro h
    injection h with h
    have := Real.rpow_pos_of_pos (show (0:ℝ) < 0.97 * 0.97 by norm_num) (1 / 3)
    linarith

end Props
end Spafe
