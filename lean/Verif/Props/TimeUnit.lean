import Verif.Props.Dominant
import Verif.Props.Spfeats
import Verif.Model.Lpc
import Verif.Model.Cqt
import Verif.Model.Yin
import Verif.Model.Spfeats
import Verif.Lemmas.ListAux

/-! C137 and C138: what happens when time is measured in another unit, i.e. all frequencies are multiplied by `c > 0` and all
durations divided by `c`, for the same samples. -/

set_option linter.unusedSectionVars false

namespace Spafe
namespace Props
open Model XF

/-! ### Multiplication of extended floats with a positive number -/

theorem scx_fin (c x : ℝ) : fin c * fin x = fin (c * x) := rfl

theorem scx_add {c : ℝ} (hc : 0 < c) (a b : XF ℝ) : fin c * (a + b) = fin c * a + fin c * b := by
  have h1 : ¬ -c = 0 := by linarith
  have h2 : ¬ 0 < -c := by linarith
  cases a <;> cases b <;> simp [add_def, mul_def, add, mul, infMul, hc, hc.ne', mul_add]
  all_goals (try simp [hc.le, hc.not_gt, hc.not_ge])

theorem scx_neg {c : ℝ} (hc : 0 < c) (a : XF ℝ) : fin c * -a = -(fin c * a) := by
  cases a <;> simp [mul_def, neg_def, mul, neg, infMul, hc, hc.ne', hc.le, hc.not_gt, hc.not_ge]

theorem scx_sub {c : ℝ} (hc : 0 < c) (a b : XF ℝ) : fin c * (a - b) = fin c * a - fin c * b := by
  rw [sub_def, sub_def, scx_add hc, scx_neg hc]

theorem infMul_pos {c : ℝ} (hc : 0 < c) (x : ℝ) : infMul (c * x) = infMul x := by
  unfold infMul
  by_cases hx : x = 0
  · simp [hx]
  · rw [if_neg (mul_ne_zero hc.ne' hx), if_neg hx]
    by_cases h2 : 0 < x
    · rw [if_pos h2, if_pos (by positivity)]
    · rw [if_neg h2, if_neg (by rw [mul_pos_iff_of_pos_left hc]; exact h2)]

theorem scx_div {c : ℝ} (hc : 0 < c) (x y : ℝ) : fin (c * x) / fin (c * y) = (fin x / fin y : XF ℝ) := by
  by_cases hy : y = 0
  · rw [hy, mul_zero, div_def, div_def]
    simp only [inv, if_true, mul]
    exact infMul_pos hc x
  · rw [fin_div _ _ (mul_ne_zero hc.ne' hy), fin_div _ _ hy, mul_div_mul_left _ _ hc.ne']

theorem melEntry_scale {c : ℝ} (hc : 0 < c) (lo ce up f : ℝ) :
    melEntry (fin (c * lo)) (fin (c * ce)) (fin (c * up)) (fin (c * f)) = melEntry (fin lo) (fin ce) (fin up) (fin f) := by
  unfold melEntry
  simp only [leb_fin, fin_sub, ← mul_sub, scx_div hc, mul_le_mul_iff_right₀ hc]

/-! ### The change of unit -/

/-- The same window measured in the new unit. -/
noncomputable def unitWindow (c : ℝ) (w : SlidingWindow) : SlidingWindow :=
  { winLen := w.winLen / c, winHop := w.winHop / c, winType := w.winType }

/-- All frequencies times `c`, all durations divided by `c`; everything else unchanged. -/
noncomputable def unitArgs (c : ℝ) (a : Args) : Args :=
  { a with fs := c * a.fs, window := some (unitWindow c a.win), low := c * a.low, high := a.high.map (c * ·) }

theorem effHigh_unit {c : ℝ} (hc : 0 < c) (high : Option ℝ) (fs : ℝ) :
    effHigh (high.map (c * ·)) (c * fs) = c * effHigh high fs := by
  cases high with
  | none => simp [effHigh]; ring
  | some h =>
    simp only [effHigh, Option.map_some, mul_eq_zero, hc.ne', false_or]
    split_ifs <;> ring

theorem framing_unit {c : ℝ} (hc : 0 < c) (sig : List ℝ) (fs len hop : ℝ) :
    framing sig (c * fs) (len / c) (hop / c) = framing sig fs len hop := by
  unfold framing framingR
  have e : ∀ x : ℝ, x / c * (c * fs) = x * fs := fun x => by field_simp
  simp only [e, div_lt_div_iff_of_pos_right hc]

theorem frontEnd_unit {c : ℝ} (hc : 0 < c) (a : Args) (coeff : ℝ) (sig : List ℝ) :
    frontEnd (unitArgs c a) coeff sig = frontEnd a coeff sig := by
  unfold frontEnd
  have e : (unitArgs c a).win = unitWindow c a.win := rfl
  rw [e]
  simp only [unitArgs, unitWindow]
  simp only [framing_unit hc]
  rfl

theorem linspace_unit (c low high : ℝ) (n : ℕ) : Np.linspace (c * low) (c * high) n = (Np.linspace low high n).map (c * ·) := by
  unfold Np.linspace
  split_ifs
  · rfl
  · rw [List.map_map]
    apply List.map_congr_left
    intro i _
    simp only [Function.comp]
    ring

theorem scalePoints_unit {c : ℝ} (hc : 0 < c) (low high : ℝ) (n : ℕ) :
    scalePoints (fin (c * low)) (fin (c * high)) n = (scalePoints (fin low) (fin high) n).map (fin c * ·) := by
  have hn : (n : ℝ) + 1 ≠ 0 := by positivity
  unfold scalePoints
  simp only [fin_sub, abs_fin, fin_div _ _ hn, fin_mul, fin_add, List.map_map]
  apply List.map_congr_left
  intro i _
  simp only [Function.comp, fin_mul]
  rw [← mul_sub, abs_mul, abs_of_pos hc]
  congr 1
  ring

theorem scalePoints_fin (low high : ℝ) (n : ℕ) : ∀ v ∈ scalePoints (fin low) (fin high) n, ∃ x, v = fin x := by
  intro v hv
  have hn : (n : ℝ) + 1 ≠ 0 := by positivity
  unfold scalePoints at hv
  obtain ⟨i, -, rfl⟩ := List.mem_map.mp hv
  simp only [fin_sub, abs_fin, fin_div _ _ hn, fin_mul, fin_add]
  exact ⟨_, rfl⟩

theorem getD_scale {c : ℝ} (l : List (XF ℝ)) (j : ℕ) (h : ∀ v ∈ l, ∃ x, v = fin x) :
    ∃ x, l.getD j 0 = fin x ∧ (l.map (fin c * ·)).getD j 0 = fin (c * x) := by
  by_cases hj : j < l.length
  · obtain ⟨x, hx⟩ := h _ (getD_mem 0 hj)
    refine ⟨x, hx, ?_⟩
    rw [getD_map_lt (fin c * ·) l 0 0 hj, hx]
    rfl
  · refine ⟨0, ?_, ?_⟩
    · rw [List.getD_eq_getElem?_getD, List.getElem?_eq_none (by omega)]; rfl
    · rw [List.getD_eq_getElem?_getD, List.getElem?_eq_none (by simp; omega)]; simp [zero_def]

theorem melBank_unit {c : ℝ} (hc : 0 < c) (pts : List (XF ℝ)) (h : ∀ v ∈ pts, ∃ x, v = fin x) (nfilts nfft : ℕ) (low high : ℝ)
    (sc : List ℝ) : melBank (pts.map (fin c * ·)) nfilts nfft (c * low) (c * high) sc = melBank pts nfilts nfft low high sc := by
  unfold melBank melFreqs
  apply List.map_congr_left
  intro j _
  rw [linspace_unit, List.map_map]
  apply List.map_congr_left
  intro f _
  obtain ⟨x0, h0, h0'⟩ := getD_scale (c := c) pts j h
  obtain ⟨x1, h1, h1'⟩ := getD_scale (c := c) pts (j + 1) h
  obtain ⟨x2, h2, h2'⟩ := getD_scale (c := c) pts (j + 2) h
  simp only [Function.comp]
  rw [h0, h0', h1, h1', h2, h2', melEntry_scale hc]

/-- C137: `linear_filter_banks` builds the same bank, with the centre frequencies in the new unit. -/
theorem C137_linear_bank {c : ℝ} (hc : 0 < c) (nfilts nfft : ℕ) (fs low : ℝ) (high : Option ℝ) (scale : String) :
    linearFilterBanks nfilts nfft (c * fs) (c * low) (high.map (c * ·)) scale =
      (linearFilterBanks nfilts nfft fs low high scale).map fun r => (r.1, r.2.map (fin c * ·)) := by
  unfold linearFilterBanks melFilterBanksHelper
  rw [effHigh_unit hc]
  simp only []
  have e1 : c * low < 0 ↔ low < 0 := by
    constructor
    · intro h; by_contra h'; push Not at h'; have := mul_nonneg hc.le h'; linarith
    · intro h; exact mul_neg_of_pos_of_neg hc h
  have e2 : c * effHigh high fs > c * fs / 2 ↔ effHigh high fs > fs / 2 := by
    rw [mul_div_assoc]; exact mul_lt_mul_iff_right₀ hc
  by_cases h1 : low < 0
  · rw [if_pos (e1.mpr h1), if_pos h1]; rfl
  · rw [if_neg (fun h => h1 (e1.mp h)), if_neg h1]
    by_cases h2 : effHigh high fs > fs / 2
    · rw [if_pos (e2.mpr h2), if_pos h2]; rfl
    · rw [if_neg (fun h => h2 (e2.mp h)), if_neg h2, if_neg (by decide), if_neg (by decide)]
      cases (scaleFbank scale nfilts : Py (List ℝ)) with
      | error e => rfl
      | ok sc =>
        simp only [ok_bind, Except.map]
        rw [scalePoints_unit hc, melBank_unit hc _ (scalePoints_fin _ _ _), ← List.map_drop, ← List.map_take]

theorem getFbanks_map {β : Type} (fb : Option XMat) (p q : Py (XMat × β)) (g : β → β) (h : p = q.map fun r => (r.1, g r.2)) :
    getFbanks fb p = getFbanks fb q := by
  unfold getFbanks
  cases fb with
  | some b => rfl
  | none =>
    rw [h]
    cases q with
    | error e => rfl
    | ok r => rfl

theorem spectrogram_unit {c : ℝ} (hc : 0 < c) (a : Args) (coeff : ℝ) (fb : XMat) (sig : List ℝ) :
    spectrogram (unitArgs c a) coeff fb sig = spectrogram a coeff fb sig := by
  unfold spectrogram
  rw [frontEnd_unit hc]
  rfl

/-- C137: `linear_spectrogram` and `lfcc` do not depend on the unit of time (values and exceptions, all options). -/
theorem C137_lfcc {c : ℝ} (hc : 0 < c) (a : Args) (sig : List ℝ) :
    linearSpectrogram (unitArgs c a) sig = linearSpectrogram a sig ∧ lfcc (unitArgs c a) sig = lfcc a sig := by
  have h1 : linearSpectrogram (unitArgs c a) sig = linearSpectrogram a sig := by
    unfold linearSpectrogram
    have e : getFbanks (unitArgs c a).fbanks (linearFilterBanks (unitArgs c a).nfilts (unitArgs c a).nfft (unitArgs c a).fs
        (unitArgs c a).low (unitArgs c a).high (unitArgs c a).scale) =
        getFbanks a.fbanks (linearFilterBanks a.nfilts a.nfft a.fs a.low a.high a.scale) :=
      getFbanks_map _ _ _ _ (C137_linear_bank hc _ _ _ _ _ _)
    rw [e]
    simp only [spectrogram_unit hc]
  refine ⟨h1, ?_⟩
  unfold lfcc
  rw [h1]
  rfl

/-- With a given filter bank the other features do not depend on the unit either. -/
theorem C137_given_bank {c : ℝ} (hc : 0 < c) (a : Args) (fb : XMat) (h : a.fbanks = some fb) (sig : List ℝ) :
    mfcc (unitArgs c a) sig = mfcc a sig ∧ bfcc (unitArgs c a) sig = bfcc a sig ∧ gfcc (unitArgs c a) sig = gfcc a sig ∧
      ngcc (unitArgs c a) sig = ngcc a sig ∧ msrcc (unitArgs c a) sig = msrcc a sig ∧ psrcc (unitArgs c a) sig = psrcc a sig := by
  have h' : (unitArgs c a).fbanks = some fb := h
  refine ⟨?_, ?_, ?_, ?_, ?_, ?_⟩
  · simp only [mfcc, melSpectrogram, melBankOf, h, h', getFbanks, ok_bind, spectrogram_unit hc]; rfl
  · simp only [bfcc, barkSpectrogram, h, h', getFbanks, ok_bind, spectrogram_unit hc]; rfl
  · simp only [gfcc, erbSpectrogram, gammaBankOf, h, h', getFbanks, ok_bind, spectrogram_unit hc]; rfl
  · simp only [ngcc, gammaBankOf, h, h', getFbanks, ok_bind, spectrogram_unit hc]; rfl
  · simp only [msrcc, melSpectrogram, melBankOf, h, h', getFbanks, ok_bind, spectrogram_unit hc]; rfl
  · simp only [psrcc, melBankOf, h, h', getFbanks, ok_bind, frontEnd_unit hc]; rfl

/-- The arguments of `lpc` and `lpcc` in the new unit. -/
noncomputable def unitLpc (c : ℝ) (a : LpcArgs) : LpcArgs := { a with fs := c * a.fs, window := some (unitWindow c a.win) }

/-- C137: `lpc` and `lpcc` do not depend on the unit. -/
theorem C137_lpc {c : ℝ} (hc : 0 < c) (a : LpcArgs) (sig : List ℝ) :
    lpc (unitLpc c a) sig = lpc a sig ∧ lpcc (unitLpc c a) sig = lpcc a sig := by
  have h : lpcFrames (unitLpc c a) sig = lpcFrames a sig := by
    unfold lpcFrames
    have e : (unitLpc c a).win = unitWindow c a.win := rfl
    rw [e]
    simp only [unitLpc, unitWindow]
    simp only [framing_unit hc]
    rfl
  constructor
  · unfold lpc; rw [h]; rfl
  · unfold lpcc; rw [h]; rfl

/-! ### Constant-Q -/

/-- The arguments of `cqt_spectrogram` and `cqcc` in the new unit. -/
noncomputable def unitCqt (c : ℝ) (a : CqtArgs) : CqtArgs := { a with toArgs := unitArgs c a.toArgs, f0 := c * a.f0 }

theorem cqtTmpFreqs_unit (c f0 : ℝ) (o b : ℕ) : cqtTmpFreqs (c * f0) o b = (cqtTmpFreqs f0 o b).map (c * ·) := by
  unfold cqtTmpFreqs
  rw [List.map_flatMap]
  congr 1
  funext m
  rw [List.map_map]
  apply List.map_congr_left
  intro n _
  simp only [Function.comp]
  ring

theorem cqtSelect_unit {c : ℝ} (hc : 0 < c) (fs low : ℝ) (high : Option ℝ) (nfft o b : ℕ) (f0 q : ℝ) :
    cqtSelect (c * fs) (c * low) (high.map (c * ·)) nfft o b (c * f0) q =
      (cqtSelect fs low high nfft o b f0 q).map fun r => (r.1.map (c * ·), r.2) := by
  classical
  unfold cqtSelect
  rw [effHigh_unit hc, cqtTmpFreqs_unit]
  have e1 : ((cqtTmpFreqs f0 o b).map (c * ·)).filter (fun f => decide (c * low ≤ f ∧ f ≤ c * effHigh high fs)) =
      ((cqtTmpFreqs f0 o b).filter fun f => decide (low ≤ f ∧ f ≤ effHigh high fs)).map (c * ·) := by
    rw [List.filter_map]
    congr 1
    apply List.filter_congr
    intro f _
    simp only [Function.comp, mul_le_mul_iff_right₀ hc]
  simp only []
  rw [e1]
  obtain ⟨fr, hfr⟩ : ∃ fr, fr = (cqtTmpFreqs f0 o b).filter fun f => decide (low ≤ f ∧ f ≤ effHigh high fs) := ⟨_, rfl⟩
  rw [← hfr]
  by_cases hb : b = 0
  · rw [if_pos hb, if_pos hb]; rfl
  · rw [if_neg hb, if_neg hb]
    have e2 : (∃ f ∈ fr.map (c * ·), f ≤ 0) ↔ ∃ f ∈ fr, f ≤ 0 := by
      constructor
      · rintro ⟨f, hf, h0⟩
        obtain ⟨g, hg, rfl⟩ := List.mem_map.mp hf
        exact ⟨g, hg, by by_contra h; push Not at h; have := mul_pos hc h; linarith⟩
      · rintro ⟨f, hf, h0⟩
        exact ⟨c * f, List.mem_map_of_mem hf, mul_nonpos_of_nonneg_of_nonpos hc.le h0⟩
    by_cases h : ∃ f ∈ fr, f ≤ 0
    · rw [if_pos (e2.mpr h), if_pos h]; rfl
    · rw [if_neg (fun h' => h (e2.mp h')), if_neg h]
      have e3 : (fr.map (c * ·)).map (cqtWinLen (q / (2 ^ (1 / (b : ℝ)) - 1)) (c * fs)) =
          fr.map (cqtWinLen (q / (2 ^ (1 / (b : ℝ)) - 1)) fs) := by
        rw [List.map_map]
        apply List.map_congr_left
        intro f _
        simp only [Function.comp, cqtWinLen]
        rw [show ∀ Q : ℝ, Q * (c * fs) = c * (Q * fs) from fun Q => by ring, mul_div_mul_left _ _ hc.ne']
      simp only [Except.map, e3]
      congr 2
      unfold pySliceFrom
      rw [List.length_map, List.map_drop]

theorem cqtKernelRow_unit {c : ℝ} (hc : 0 < c) (nfft : ℕ) (fs fk : ℝ) (Nk : ℤ) (w : String) (thr : ℝ) :
    cqtKernelRow nfft (c * fs) (c * fk) Nk w thr = cqtKernelRow nfft fs fk Nk w thr := by
  have e : ∀ v : List ℝ, cqtAtom nfft (c * fs) (c * fk) Nk v = cqtAtom nfft fs fk Nk v := by
    intro v
    funext j
    unfold cqtAtom
    have hc' : (c : ℂ) ≠ 0 := by exact_mod_cast hc.ne'
    have e : ((c * fk : ℝ) : ℂ) / ((c * fs : ℝ) : ℂ) = (fk : ℂ) / (fs : ℂ) := by
      push_cast
      rw [mul_div_mul_left _ _ hc']
    rw [e]
  unfold cqtKernelRow
  simp only [e]

theorem pyIdx_map {β γ : Type} (g : β → γ) (l : List β) (k : ℤ) : pyIdx (l.map g) k = (pyIdx l k).map g := by
  unfold pyIdx
  simp only [List.length_map, List.getElem?_map]
  split_ifs
  · cases l[k.toNat]? <;> rfl
  · cases l[((l.length : ℤ) + k).toNat]? <;> rfl
  · rfl

theorem computeCqt_unit {c : ℝ} (hc : 0 < c) (frames : List (List ℝ)) (fs low : ℝ) (high : Option ℝ) (nfft o b : ℕ)
    (w : String) (thr f0 q : ℝ) :
    computeCqt frames (c * fs) (c * low) (high.map (c * ·)) nfft o b w thr (c * f0) q =
      computeCqt frames fs low high nfft o b w thr f0 q := by
  unfold computeCqt
  rw [cqtSelect_unit hc]
  cases cqtSelect fs low high nfft o b f0 q with
  | error e =>
    simp only [Except.map]
    rw [error_bind, error_bind]
  | ok r =>
    obtain ⟨fr, wl⟩ := r
    simp only [Except.map, ok_bind, List.length_map]
    have e : (fun k : ℕ => (do
        let Nk ← pyIdx wl (k : ℤ)
        let fk ← pyIdx (fr.map (c * ·)) (k : ℤ)
        cqtKernelRow nfft (c * fs) fk Nk w thr : Py (List ℂ))) = fun k : ℕ => (do
        let Nk ← pyIdx wl (k : ℤ)
        let fk ← pyIdx fr (k : ℤ)
        cqtKernelRow nfft fs fk Nk w thr) := by
      funext k
      cases pyIdx wl (k : ℤ) with
      | error e => rfl
      | ok Nk =>
        simp only [ok_bind, pyIdx_map]
        cases pyIdx fr (k : ℤ) with
        | error e => rfl
        | ok fk =>
          simp only [Except.map, ok_bind]
          exact cqtKernelRow_unit hc _ _ _ _ _ _
    rw [e]

/-- C137: `cqt_spectrogram` and `cqcc` do not depend on the unit. -/
theorem C137_cqt {c : ℝ} (hc : 0 < c) (a : CqtArgs) (sig : List ℝ) :
    cqtSpectrogram (unitCqt c a) sig = cqtSpectrogram a sig ∧ cqcc (unitCqt c a) sig = cqcc a sig := by
  have h1 : cqtSpectrogram (unitCqt c a) sig = cqtSpectrogram a sig := by
    unfold cqtSpectrogram
    have e1 : effHigh (unitCqt c a).high (unitCqt c a).fs = c * effHigh a.high a.fs := effHigh_unit hc _ _
    have e2 : c * effHigh a.high a.fs > (unitCqt c a).fs / 2 ↔ effHigh a.high a.fs > a.fs / 2 := by
      show c * effHigh a.high a.fs > c * a.fs / 2 ↔ _
      rw [mul_div_assoc]; exact mul_lt_mul_iff_right₀ hc
    rw [e1]
    by_cases h : effHigh a.high a.fs > a.fs / 2
    · rw [if_pos (e2.mpr h), if_pos h]
    · rw [if_neg (fun h' => h (e2.mp h')), if_neg h]
      have e3 : frontEnd (unitCqt c a).toArgs (unitCqt c a).preEmphCoeff sig = frontEnd a.toArgs a.preEmphCoeff sig :=
        frontEnd_unit hc _ _ _
      rw [e3]
      congr 1
      funext W
      exact computeCqt_unit hc W a.fs a.low (some (effHigh a.high a.fs)) a.nfft a.octaves a.bins a.win.winType a.thr a.f0 a.qRate
  refine ⟨h1, ?_⟩
  unfold cqcc
  rw [h1]
  rfl

/-! ### Pitch and dominant frequencies -/

/-- The four arrays of `compute_yin` in the new unit: frequencies times `c`, times divided by `c`. -/
noncomputable def unitYin (c : ℝ) (r : YinResult) : YinResult :=
  { pitches := r.pitches.map (fin c * ·), harmonicRates := r.harmonicRates, argmins := r.argmins.map (fin c * ·),
    times := r.times.map (· / c) }

theorem yinFrame_unit {c : ℝ} (hc : 0 < c) (fs : ℝ) (tmin tmax : ℤ) (thr : ℝ) (frame : List ℝ) :
    yinFrame (c * fs) tmin tmax thr frame = (yinFrame fs tmin tmax thr frame).map fun r =>
      { r with pitch := fin c * r.pitch, argmin := fin c * r.argmin } := by
  simp only [yinFrame]
  cases computeCmnd (computeDifference frame tmax) tmax with
  | error e => rfl
  | ok cm =>
    simp only [ok_bind]
    cases getPitch cm tmin tmax thr with
    | error e => rfl
    | ok p =>
      simp only [ok_bind]
      have e1 : (if tmin < (argminX cm : ℤ) then fin (c * fs) / fin (argminX cm : ℝ) else fin 0 : XF ℝ) =
          fin c * (if tmin < (argminX cm : ℤ) then fin fs / fin (argminX cm : ℝ) else fin 0) := by
        split_ifs
        · by_cases h0 : ((argminX cm : ℕ) : ℝ) = 0
          · rw [h0]
            simp only [div_def, inv, if_true, mul]
            rw [infMul_pos hc]
            unfold infMul
            split_ifs
            · rfl
            · simp [mul_def, mul, infMul, hc, hc.ne']
            · simp [mul_def, mul, infMul, hc, hc.ne', hc.le, hc.not_gt, hc.not_ge]
          · rw [fin_div _ _ h0, fin_div _ _ h0, fin_mul, mul_div_assoc]
        · simp
      rw [e1]
      generalize (if tmin < (argminX cm : ℤ) then fin fs / fin (argminX cm : ℝ) else fin 0 : XF ℝ) = A
      split_ifs with hp
      · cases pyIdx cm p with
        | error e => rfl
        | ok hr => simp only [ok_bind, Except.map, fin_mul, mul_div_assoc]
      · cases pyMin cm with
        | error e => rfl
        | ok hr => simp [Except.map]

/-- C137: `compute_yin` returns the same pitches, in the new unit. -/
theorem C137_yin {c : ℝ} (hc : 0 < c) (sig : List ℝ) (fs len hop low high thr : ℝ) :
    computeYin sig (c * fs) (len / c) (hop / c) (c * low) (c * high) thr =
      (computeYin sig fs len hop low high thr).map (unitYin c) := by
  unfold computeYin
  have e0 : (c * high = 0 ∨ c * low = 0) ↔ (high = 0 ∨ low = 0) := by simp [hc.ne']
  have e : ∀ x : ℝ, x / c * (c * fs) = x * fs := fun x => by field_simp
  by_cases h : high = 0 ∨ low = 0
  · rw [if_pos (e0.mpr h), if_pos h]; rfl
  · rw [if_neg (fun h' => h (e0.mp h')), if_neg h]
    simp only [e, mul_div_mul_left _ _ hc.ne']
    cases pyRangeStep 0 ((sig.length : ℤ) - pyInt (len * fs)) (pyInt (hop * fs)) with
    | error e => rfl
    | ok sc =>
      simp only [ok_bind]
      have e2 : (fun fr => yinFrame (c * fs) (pyInt (fs / high)) (pyInt (fs / low)) thr fr) = fun fr =>
          (yinFrame fs (pyInt (fs / high)) (pyInt (fs / low)) thr fr).map fun r =>
            { r with pitch := fin c * r.pitch, argmin := fin c * r.argmin } := by
        funext fr
        exact yinFrame_unit hc _ _ _ _ _
      have e3 : ∀ l : List (List ℝ), l.mapM (fun fr => (yinFrame fs (pyInt (fs / high)) (pyInt (fs / low)) thr fr).map fun r =>
            ({ r with pitch := fin c * r.pitch, argmin := fin c * r.argmin } : YinFrame)) =
          (l.mapM (yinFrame fs (pyInt (fs / high)) (pyInt (fs / low)) thr)).map (List.map fun r =>
            { r with pitch := fin c * r.pitch, argmin := fin c * r.argmin }) := by
        intro l
        induction l with
        | nil => rfl
        | cons x l ih =>
          rw [List.mapM_cons, List.mapM_cons, ih]
          cases yinFrame fs (pyInt (fs / high)) (pyInt (fs / low)) thr x with
          | error e => rfl
          | ok y =>
            simp only [Except.map, ok_bind]
            cases l.mapM (yinFrame fs (pyInt (fs / high)) (pyInt (fs / low)) thr) <;> rfl
      rw [show yinFrame (c * fs) (pyInt (fs / high)) (pyInt (fs / low)) thr = _ from e2, e3]
      cases (sc.map fun t => pySlice sig t (t + pyInt (len * fs))).mapM (yinFrame fs (pyInt (fs / high)) (pyInt (fs / low)) thr) with
      | error e => rfl
      | ok rs =>
        simp only [Except.map, ok_bind, unitYin, List.map_map]
        congr 2
        apply List.map_congr_left
        intro t _
        simp only [Function.comp]
        rw [div_div, mul_comm c fs]

theorem dominantOf_unit {c : ℝ} (hc : 0 < c) (nfft : ℕ) (fs : ℝ) (w : List ℝ) :
    dominantOf nfft (c * fs) w = (dominantOf nfft fs w).map (c * ·) := by
  unfold dominantOf
  by_cases hn : nfft = 0
  · rw [if_pos hn, if_pos hn]; rfl
  · rw [if_neg hn, if_neg hn]
    by_cases h0 : fs = 0
    · rw [if_pos h0, if_pos (by rw [h0, mul_zero])]; rfl
    · rw [if_neg h0, if_neg (mul_ne_zero hc.ne' h0)]
      simp only [Except.map]
      congr 1
      have e : ∀ n, Np.fftfreq n (c * fs) = (Np.fftfreq n fs).map (c * ·) := by
        intro n
        unfold Np.fftfreq
        rw [List.map_map]
        apply List.map_congr_left
        intro i _
        simp only [Function.comp]
        ring
      rw [e]
      generalize (List.map (fun v => 1 / (nfft : ℝ) * v ^ 2) (List.map (fun v => 1 / (nfft : ℝ) * v) (Np.absRfft nfft w))) = P
      generalize Np.argmax P = k
      generalize Np.fftfreq P.length fs = l
      by_cases hk : k < l.length
      · rw [getD_map_lt (c * ·) l 0 0 hk]
      · rw [List.getD_eq_getElem?_getD, List.getElem?_eq_none (by simp; omega), List.getD_eq_getElem?_getD,
          List.getElem?_eq_none (by omega)]
        simp

/-- C137: `get_dominant_frequencies` finds the same frequencies in the new unit, before they are rounded to three decimals:
the two results are the roundings of `ds` and `c * ds` (or the same exception). -/
theorem C137_dominant {c : ℝ} (hc : 0 < c) (sig : List ℝ) (fs : ℝ) (nfft : ℕ) (win : SlidingWindow) (op : Bool) :
    ∃ r : Py (List ℝ), ∀ k : ℝ, (k = 1 ∨ k = c) →
      getDominant .ok sig (k * fs) nfft (unitWindow k win) op = r.map fun ds =>
        (if op then ((ds.map (k * ·)).map round3).filter (fun d => decide (0 ≤ d)) else (ds.map (k * ·)).map round3) := by
  refine ⟨frontEnd (domArgs fs win) 0 sig >>= fun W => W.mapM (dominantOf nfft fs), fun k hk => ?_⟩
  have hk0 : 0 < k := by rcases hk with rfl | rfl <;> [exact one_pos; exact hc]
  rw [getDominant_eq, ok_bind]
  have e : frontEnd (domArgs (k * fs) (unitWindow k win)) 0 sig = frontEnd (domArgs fs win) 0 sig :=
    frontEnd_unit hk0 (domArgs fs win) 0 sig
  rw [e]
  cases frontEnd (domArgs fs win) 0 sig with
  | error e => rfl
  | ok W =>
    simp only [ok_bind]
    have e2 : W.mapM (dominantOf nfft (k * fs)) = (W.mapM (dominantOf nfft fs)).map (List.map (k * ·)) := by
      induction W with
      | nil => rfl
      | cons x l ih =>
        rw [List.mapM_cons, List.mapM_cons, ih, dominantOf_unit hk0]
        cases dominantOf nfft fs x with
        | error e => rfl
        | ok y =>
          simp only [Except.map, ok_bind]
          cases l.mapM (dominantOf nfft fs) <;> rfl
    rw [e2]
    cases W.mapM (dominantOf nfft fs) with
    | error e => rfl
    | ok ds => rfl

/-! ### The spectral descriptors -/

theorem scx_mul {c : ℝ} (hc : 0 < c) (a b : XF ℝ) : fin c * a * b = fin c * (a * b) := by
  have hp : infMul c = pinf := by simp [infMul, hc, hc.ne']
  have hn : infMul (-c) = ninf := by simp [infMul, hc, hc.ne', hc.le]
  have hi : ∀ x : ℝ, (fin c * infMul x : XF ℝ) = infMul x := by
    intro x
    unfold infMul
    split_ifs
    · rfl
    · exact hp
    · exact hn
  have hm : ∀ x : ℝ, infMul (-(c * x)) = (infMul (-x) : XF ℝ) := by
    intro x
    rw [← mul_neg, infMul_pos hc]
  cases a with
  | nan => rfl
  | ninf =>
    show mul (infMul (-c)) b = fin c * mul ninf b
    rw [hn]
    cases b with
    | nan => rfl
    | ninf => exact hp.symm
    | pinf => exact hn.symm
    | fin y => exact (hi _).symm
  | pinf =>
    show mul (infMul c) b = fin c * mul pinf b
    rw [hp]
    cases b with
    | nan => rfl
    | ninf => exact hn.symm
    | pinf => exact hp.symm
    | fin y => exact (hi _).symm
  | fin x =>
    show mul (fin (c * x)) b = fin c * mul (fin x) b
    cases b with
    | nan => rfl
    | ninf => exact (hm x).trans (hi _).symm
    | pinf => exact (infMul_pos hc x).trans (hi _).symm
    | fin y => simp only [mul, fin_mul]; rw [mul_assoc c]

theorem xmul_comm (a b : XF ℝ) : a * b = b * a := by
  cases a <;> cases b <;> first | rfl | simp only [mul_def, mul, mul_comm]

theorem scx_mul_right {c : ℝ} (hc : 0 < c) (a b : XF ℝ) : a * (fin c * b) = fin c * (a * b) := by
  rw [xmul_comm, scx_mul hc, xmul_comm b a]

theorem scx_scx {a b : ℝ} (ha : 0 < a) (x : XF ℝ) : fin a * (fin b * x) = fin (a * b) * x := by
  rw [← scx_mul ha, fin_mul]

theorem scx_inv {c : ℝ} (hc : 0 < c) (a : XF ℝ) : XF.inv (fin c * a) = fin c⁻¹ * XF.inv a := by
  have hc' : 0 < c⁻¹ := inv_pos.mpr hc
  cases a with
  | nan => rfl
  | ninf => simp [mul_def, mul, infMul, hc.not_gt, hc.ne', hc.le, XF.inv]
  | pinf => simp [mul_def, mul, infMul, hc, hc.ne', XF.inv]
  | fin x =>
    rw [fin_mul]
    simp only [XF.inv, mul_eq_zero, hc.ne', false_or]
    split_ifs
    · simp [mul_def, mul, infMul, hc', hc'.ne']
    · rw [mul_inv, fin_mul]

theorem scx_div' {a b : ℝ} (ha : 0 < a) (hb : 0 < b) (x y : XF ℝ) : fin a * x / (fin b * y) = fin (a / b) * (x / y) := by
  have hb' : 0 < b⁻¹ := inv_pos.mpr hb
  rw [div_def, ← mul_def, scx_inv hb, scx_mul ha, scx_mul_right hb', scx_scx ha, div_def, div_eq_mul_inv]
  rfl

theorem scx_div_left {a : ℝ} (ha : 0 < a) (x y : XF ℝ) : fin a * x / y = fin a * (x / y) := by
  rw [div_def, ← mul_def, scx_mul ha, div_def]
  rfl

theorem scx_sum {c : ℝ} (hc : 0 < c) (l : List (XF ℝ)) : (l.map (fin c * ·)).sum = fin c * l.sum := by
  induction l with
  | nil => simp [zero_def]
  | cons a l ih => rw [List.map_cons, List.sum_cons, List.sum_cons, ih, scx_add hc]

theorem scx_pow {c : ℝ} (hc : 0 < c) (x : XF ℝ) (n : ℕ) : powNat (fin c * x) n = fin (c ^ n) * powNat x n := by
  induction n with
  | zero => simp [powNat]
  | succ n ih =>
    have hn : 0 < c ^ n := pow_pos hc n
    rw [powNat, powNat, ih, scx_mul hn, scx_mul_right hc, scx_scx hn, pow_succ]

theorem scx_sqrt {c : ℝ} (hc : 0 < c) (x : XF ℝ) : XF.sqrt (fin (c ^ 2) * x) = fin c * XF.sqrt x := by
  have h2 : 0 < c ^ 2 := by positivity
  cases x with
  | nan => rfl
  | ninf => simp [mul_def, mul, infMul, h2.not_gt, hc.ne', h2.le, XF.sqrt]
  | pinf => simp [mul_def, mul, infMul, h2, hc, hc.ne', XF.sqrt]
  | fin y =>
    rw [fin_mul]
    have e : 0 ≤ c ^ 2 * y ↔ 0 ≤ y := mul_nonneg_iff_of_pos_left h2
    simp only [XF.sqrt]
    by_cases hy : 0 ≤ y
    · rw [if_pos (e.mpr hy), if_pos hy, fin_mul, Real.sqrt_mul h2.le, Real.sqrt_sq hc.le]
    · rw [if_neg (fun h => hy (e.mp h)), if_neg hy]
      rfl

theorem absFreqs_unit {c : ℝ} (hc : 0 < c) (fs : ℝ) (n : ℕ) : absFreqs (c * fs) n = (absFreqs fs n).map (List.map (c * ·)) := by
  unfold absFreqs
  have e : (c * fs = 0 ∨ n = 0) ↔ (fs = 0 ∨ n = 0) := by simp [hc.ne']
  by_cases h : fs = 0 ∨ n = 0
  · rw [if_pos (e.mpr h), if_pos h]; rfl
  · rw [if_neg (fun h' => h (e.mp h')), if_neg h]
    simp only [Except.map]
    congr 1
    unfold Np.fftfreq
    simp only [List.map_map]
    apply List.map_congr_left
    intro i _
    simp only [Function.comp]
    rw [← abs_of_pos hc, ← abs_mul, abs_of_pos hc]
    congr 1
    ring

/-- C138: the centroid of order `i` is multiplied by `c ^ i`. -/
theorem C138_centroid {c : ℝ} (hc : 0 < c) (fs : ℝ) (s : List ℂ) (i : ℕ) :
    spectralCentroid (c * fs) s i = (spectralCentroid fs s i).map (fin (c ^ i) * ·) := by
  unfold spectralCentroid
  rw [absFreqs_unit hc]
  cases absFreqs fs s.length with
  | error e => rfl
  | ok fr =>
    simp only [Except.map, ok_bind]
    rw [← scx_div_left (pow_pos hc i), fin_mul]
    congr 3
    rw [show ∀ l : List ℝ, c ^ i * l.sum = (l.map (c ^ i * ·)).sum from fun l => by
        induction l with
        | nil => simp
        | cons a l ih => rw [List.map_cons, List.sum_cons, List.sum_cons, mul_add, ih],
      List.zipWith_map_right, List.map_zipWith]
    congr 2
    funext m f
    ring

theorem moment_unit {c : ℝ} (hc : 0 < c) (p : ℕ) (fs : ℝ) (s : List ℂ) :
    spectralMoment p (c * fs) s = (spectralMoment p fs s).map (fin (c ^ p)⁻¹ * ·) := by
  unfold spectralMoment
  rw [absFreqs_unit hc, C138_centroid hc, C138_centroid hc]
  cases spectralCentroid fs s 1 with
  | error e => rfl
  | ok m1 =>
    cases spectralCentroid fs s 2 with
    | error e => rfl
    | ok m2 =>
      cases absFreqs fs s.length with
      | error e => rfl
      | ok fr =>
        simp only [Except.map, ok_bind, pow_one]
        have e1 : (List.zipWith (fun (m f : ℝ) => fin m * powNat (fin f - fin c * m1) p) (magSpec s) (fr.map (c * ·))).sum =
            fin (c ^ p) * (List.zipWith (fun (m f : ℝ) => fin m * powNat (fin f - m1) p) (magSpec s) fr).sum := by
          rw [← scx_sum (pow_pos hc p), List.zipWith_map_right, List.map_zipWith]
          congr 2
          funext m f
          rw [← fin_mul, ← scx_sub hc, scx_pow hc, scx_mul_right (pow_pos hc p)]
        have e2 : fin (magSpec s).sum * powNat (fin (c ^ 2) * m2) p = fin ((c ^ 2) ^ p) * (fin (magSpec s).sum * powNat m2 p) := by
          rw [scx_pow (pow_pos hc 2), scx_mul_right (pow_pos (pow_pos hc 2) p)]
        rw [e1, e2, scx_div' (pow_pos hc p) (pow_pos (pow_pos hc 2) p)]
        congr 3
        have : c ^ p ≠ 0 := (pow_pos hc p).ne'
        rw [← pow_mul, mul_comm 2 p, pow_mul]
        field_simp

theorem spread_unit {c : ℝ} (hc : 0 < c) (fs : ℝ) (s : List ℂ) :
    spectralSpread (c * fs) s = (spectralSpread fs s).map (List.map (fin c * ·)) := by
  unfold spectralSpread
  rw [absFreqs_unit hc, C138_centroid hc]
  cases absFreqs fs s.length with
  | error e => rfl
  | ok fr =>
    cases spectralCentroid fs s 1 with
    | error e => rfl
    | ok m1 =>
      simp only [Except.map, ok_bind, pow_one, List.map_map]
      congr 1
      apply List.map_congr_left
      intro m _
      simp only [Function.comp]
      have e : (List.map ((fun (f : ℝ) => fin f - fin c * m1) ∘ (c * ·)) fr).sum =
          fin c * (List.map (fun (f : ℝ) => fin f - m1) fr).sum := by
        rw [← scx_sum hc, List.map_map]
        congr 1
        apply List.map_congr_left
        intro f _
        simp only [Function.comp]
        rw [← fin_mul, ← scx_sub hc]
      rw [e, scx_pow hc, scx_mul (pow_pos hc 2), scx_div_left (pow_pos hc 2), scx_sqrt hc]

/-- How the descriptors change: the skewness and the kurtosis should not change at all. -/
noncomputable def unitFeats (c : ℝ) (f : SpectralFeats) : SpectralFeats :=
  { f with
    centroid := fin c * f.centroid
    skewness := fin (c ^ 3)⁻¹ * f.skewness
    kurtosis := fin (c ^ 4)⁻¹ * f.kurtosis
    spread := f.spread.map (fin c * ·)
    rolloff := f.rolloff.map ((c : ℂ) * ·) }

/-- C138: what a change of unit does to `extract_feats`, for every signal (exceptions and NaNs included). -/
theorem C138_extract_feats_partial {c : ℝ} (hc : 0 < c) (sig : List ℝ) (fs : ℝ) (nfft : ℕ) :
    extractFeats sig (c * fs) nfft = (extractFeats sig fs nfft).map (unitFeats c) := by
  unfold extractFeats
  cases rfft sig nfft with
  | error e => rfl
  | ok s =>
    simp only [ok_bind, spectralSkewness, spectralKurtosis]
    rw [C138_centroid hc, moment_unit hc, moment_unit hc, spread_unit hc]
    cases spectralCentroid fs s 1 with
    | error e => rfl
    | ok m1 =>
      cases spectralMoment 3 fs s with
      | error e => rfl
      | ok m3 =>
        cases spectralMoment 4 fs s with
        | error e => rfl
        | ok m4 =>
          cases spectralSpread fs s with
          | error e => rfl
          | ok sp =>
            cases spectralFlux s 2 with
            | error e => rfl
            | ok fl =>
              simp only [Except.map, ok_bind, pow_one, unitFeats]
              congr 2
              unfold spectralRolloffSwapped
              rw [List.map_map]
              apply List.map_congr_left
              intro z _
              simp only [Function.comp]
              rw [abs_mul, abs_of_pos hc]
              push_cast
              ring

/-- C138 fails for the skewness and the kurtosis: they divide by powers of `mu2`, which is a second moment and not a standard
deviation, so they depend on the unit. -/
theorem C138_violated : ∃ f g : SpectralFeats, extractFeats [1] 1 4 = .ok f ∧ extractFeats [1] (2 * 1) 4 = .ok g ∧
    g.skewness ≠ f.skewness ∧ g.kurtosis ≠ f.kurtosis := by
  have hd : ∀ k, Np.dft [1] 4 k = 1 := by
    intro k
    simp [Np.dft, Np.dftC, Finset.sum_range_succ]
  have hs : rfft [1] 4 = .ok [1, 1, 1] := by
    unfold rfft
    rw [if_neg (by norm_num)]
    simp [hd, List.range_succ]
  obtain ⟨h3, h4, -⟩ := C95_meaning 1 one_pos [1, 1, 1] 1 (by norm_num) one_ne_zero (by norm_num)
  have hm : ∀ k < 3, Spec.mag [1, 1, 1] k = 1 := by
    intro k hk
    unfold Spec.mag
    interval_cases k <;> simp
  have ht : Spec.total [1, 1, 1] = 3 := by
    unfold Spec.total
    simp only [List.length_cons, List.length_nil, Finset.sum_range_succ, Finset.sum_range_zero]
    rw [hm 0 (by norm_num), hm 1 (by norm_num), hm 2 (by norm_num)]; norm_num
  have hf0 : Spec.binFreq 1 3 0 = 0 := by unfold Spec.binFreq; norm_num
  have hf1 : Spec.binFreq 1 3 1 = 1 / 3 := by unfold Spec.binFreq; norm_num
  have hf2 : Spec.binFreq 1 3 2 = 1 / 3 := by unfold Spec.binFreq; norm_num
  have hb : ∀ i, Spec.barycenter 1 [1, 1, 1] i = (0 ^ i + (1 / 3) ^ i + (1 / 3) ^ i) / 3 := by
    intro i
    unfold Spec.barycenter
    rw [ht]
    simp only [List.length_cons, List.length_nil, Finset.sum_range_succ, Finset.sum_range_zero]
    rw [hm 0 (by norm_num), hm 1 (by norm_num), hm 2 (by norm_num), hf0, hf1, hf2]
    ring
  have hcm : ∀ p, Spec.centralMoment p 1 [1, 1, 1] = ((-2 / 9) ^ p + 2 * (1 / 9) ^ p) / (3 * (2 / 27) ^ p) := by
    intro p
    unfold Spec.centralMoment
    rw [ht, hb, hb]
    simp only [List.length_cons, List.length_nil, Finset.sum_range_succ, Finset.sum_range_zero]
    rw [hm 0 (by norm_num), hm 1 (by norm_num), hm 2 (by norm_num), hf0, hf1, hf2]
    norm_num
    ring
  have hex : ∃ f, extractFeats [1] 1 4 = .ok f := by
    unfold extractFeats
    rw [hs, ok_bind, C72_meaning 1 one_pos _ ⟨1, by simp, one_ne_zero⟩, ok_bind, h3, ok_bind, h4, ok_bind,
      spread_raw 1 one_pos _ ⟨1, by simp, one_ne_zero⟩, ok_bind, (C74_meaning _ 2).1 two_ne_zero, ok_bind]
    exact ⟨_, rfl⟩
  obtain ⟨f, hf⟩ := hex
  refine ⟨f, unitFeats 2 f, hf, ?_, ?_, ?_⟩
  · rw [C138_extract_feats_partial two_pos, hf]; rfl
  all_goals
    obtain ⟨s, hs', -, hsk, hku, -⟩ := extractFeats_ok_iff _ _ _ _ hf
    have : s = [1, 1, 1] := by rw [hs] at hs'; injection hs' with h; exact h.symm
    subst this
    rw [hsk] at h3
    rw [hku] at h4
    injection h3 with h3
    injection h4 with h4
    simp only [unitFeats, h3, h4, hcm, fin_mul]
    intro h
    have := fin_injective h
    norm_num at this

/-- A concrete change of unit: kHz and ms instead of Hz and s, on a signal whose spectrum is not zero. -/
example : ∃ f, extractFeats [1] 8 4 = .ok f ∧ extractFeats [1] ((1 / 1000 : ℝ) * 8) 4 = .ok (unitFeats (1 / 1000) f) := by
  obtain ⟨f, g, hf, -⟩ := C138_violated
  refine ⟨unitFeats 8 f, ?_, ?_⟩
  · have := C138_extract_feats_partial (c := 8) (by norm_num) [1] 1 4
    rw [mul_one, hf] at this
    exact this
  · have := C138_extract_feats_partial (c := 8) (by norm_num) [1] 1 4
    rw [mul_one, hf] at this
    rw [C138_extract_feats_partial (by norm_num), this]
    rfl

/-- The documented defaults of `linear_filter_banks`, in kHz. -/
example : linearFilterBanks 24 512 16 0 (some 8) "constant" =
    (linearFilterBanks 24 512 16000 0 (some 8000) "constant").map fun r => (r.1, r.2.map (fin (1 / 1000) * ·)) := by
  have h := C137_linear_bank (c := 1 / 1000) (by norm_num) 24 512 16000 0 (some 8000) "constant"
  norm_num at h ⊢
  exact h

end Props
end Spafe
