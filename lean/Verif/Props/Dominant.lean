import Verif.Lemmas.Dominant

/-! Properties C85, C86, C99 and C100: `get_dominant_frequencies`. -/

set_option linter.unusedSectionVars false

namespace Spafe
namespace Props
open Model

/-- The form of every result: the strongest bin of each frame, looked up on the grid, rounded, and filtered. -/
theorem dominant_form {filt : List ℝ → Py (List ℝ)} {sig x ds : List ℝ} {fs : ℝ} {nfft : ℕ} {win : SlidingWindow}
    {op : Bool} (hx : filt sig = .ok x) (hS : 0 < pyInt (win.winHop * fs))
    (h : getDominant filt sig fs nfft win op = .ok ds) :
    nfft ≠ 0 ∧ ∃ l s : ℕ, ∃ w, ∃ k : ℕ → ℕ, pyInt (win.winLen * fs) = l ∧ pyInt (win.winHop * fs) = s ∧ 0 < s ∧
      l ≤ x.length ∧ windowVec win.winType l = .ok w ∧
      (∀ i < (x.length - l) / s + 1, Spec.StrongestBin nfft (Spec.windowedFrame x w l s i) (k i)) ∧
      ds = (let all := (List.range ((x.length - l) / s + 1)).map fun i => round3 (Spec.gridFreq fs nfft (k i))
        if op then all.filter (fun d => decide (0 ≤ d)) else all) := by
  have hfs : fs ≠ 0 := by rintro rfl; simp [pyInt] at hS
  rw [getDominant_eq, hx, ok_bind] at h
  simp only [bind_ok_iff] at h
  obtain ⟨W, hW, es, hes, hds⟩ := h
  have hn : nfft ≠ 0 := by
    rintro rfl
    cases hWc : W with
    | nil => exact frontEnd_ne_nil hW hWc
    | cons a t =>
      rw [hWc, mapM_error _ _ _ _ (by unfold dominantOf; rw [if_pos rfl])] at hes; cases hes
  refine ⟨hn, ?_⟩
  obtain ⟨-, l, s, w, h1, h2, hs, hl, hw, hwl, hWeq⟩ := ((frontEnd_ok_iff (domArgs fs win) 0 x W hS).mp hW).2
  subst hWeq
  choose g hg using fun i => strongest_exists nfft (Spec.windowedFrame x w l s i)
  refine ⟨l, s, w, g, h1, h2, hs, hl, hw, fun i _ => hg i, ?_⟩
  have e : ∀ i, List.zipWith (· * ·) w (((emph (domArgs fs win) 0 x).drop (i * s)).take l) =
      Spec.windowedFrame x w l s i := fun i => rfl
  simp only [e] at hes
  rw [mapM_ok _ (fun f => Spec.gridFreq fs nfft (Classical.choose (strongest_exists nfft f))) _
    fun f _ => dominantOf_eq hn hfs (Classical.choose_spec (strongest_exists nfft f))] at hes
  injection hes with hes
  injection hds with hds
  rw [← hds, ← hes, List.map_map, List.map_map]
  have e2 : ∀ i, Classical.choose (strongest_exists nfft (Spec.windowedFrame x w l s i)) = g i := fun i =>
    strongest_unique (Classical.choose_spec (strongest_exists nfft (Spec.windowedFrame x w l s i))) (hg i)
  simp only [Function.comp_def, e2]

/-- Definedness, used by the examples. -/
theorem dominant_ok {filt : List ℝ → Py (List ℝ)} {sig x : List ℝ} {fs : ℝ} {nfft : ℕ} {win : SlidingWindow}
    (op : Bool) {l : ℕ} (hx : filt sig = .ok x) (hn : nfft ≠ 0) (hw : WindowName win.winType)
    (hle : win.winHop ≤ win.winLen) (hS : 0 < pyInt (win.winHop * fs)) (hL : pyInt (win.winLen * fs) = l)
    (hlen : l ≤ x.length) : ∃ ds, getDominant filt sig fs nfft win op = .ok ds := by
  have hfs : fs ≠ 0 := by rintro rfl; simp [pyInt] at hS
  obtain ⟨w, hw1, hw2, -⟩ := (C14_window_vector win.winType l).1 hw
  obtain ⟨s, hs⟩ := Int.eq_ofNat_of_zero_le hS.le
  have hW := (frontEnd_ok_iff (domArgs fs win) 0 x _ hS).mpr
    ⟨by simp [domArgs], hle, l, s, w, hL, hs, by rw [hs] at hS; exact_mod_cast hS, hlen, hw1, hw2, rfl⟩
  obtain ⟨ks, -, hks⟩ := dominant_loop hn hfs
    ((List.range ((x.length - l) / s + 1)).map fun (i : ℕ) =>
          List.zipWith (· * ·) w (((emph (domArgs fs win) 0 x).drop (i * s)).take l))
  rw [getDominant_eq, hx, ok_bind, hW, ok_bind, hks, ok_bind]
  exact ⟨_, rfl⟩

/-- C85: with a hop of at least one sample, `get_dominant_frequencies` on the (filtered) signal `x` returns at most one
value per frame, exactly one with `only_positive=False`; with `only_positive` the values are the non-negative ones of
those, in the same order. -/
theorem C85_count {filt : List ℝ → Py (List ℝ)} {sig x : List ℝ} {fs : ℝ} {nfft : ℕ} {win : SlidingWindow}
    (hx : filt sig = .ok x) (hS : 0 < pyInt (win.winHop * fs)) {ds : List ℝ} :
    (getDominant filt sig fs nfft win false = .ok ds →
      ∃ l s : ℕ, pyInt (win.winLen * fs) = l ∧ pyInt (win.winHop * fs) = s ∧ l ≤ x.length ∧
        ds.length = (x.length - l) / s + 1 ∧
        getDominant filt sig fs nfft win true = .ok (ds.filter fun d => decide (0 ≤ d))) ∧
    (getDominant filt sig fs nfft win true = .ok ds →
      ∃ l s : ℕ, pyInt (win.winLen * fs) = l ∧ pyInt (win.winHop * fs) = s ∧ l ≤ x.length ∧
        ds.length ≤ (x.length - l) / s + 1) := by
  constructor
  · intro h
    obtain ⟨-, l, s, w, k, h1, h2, -, hl, -, -, hds⟩ := dominant_form hx hS h
    refine ⟨l, s, h1, h2, hl, by rw [hds]; simp, ?_⟩
    rw [getDominant_eq, hx, ok_bind] at h ⊢
    simp only [bind_ok_iff] at h
    obtain ⟨W, hW, es, hes, he⟩ := h
    injection he with he
    rw [hW, ok_bind, hes, ok_bind, if_pos rfl, ← he]
    rfl
  · intro h
    obtain ⟨-, l, s, w, k, h1, h2, -, hl, -, -, hds⟩ := dominant_form hx hS h
    refine ⟨l, s, h1, h2, hl, ?_⟩
    rw [hds]
    exact (List.length_filter_le _ _).trans (by simp)

/-- C85: for a sampling rate that is a positive integer, every value is at most `fs / 2`, and with `only_positive` every
value is also at least 0. -/
theorem C85_range {filt : List ℝ → Py (List ℝ)} {sig x : List ℝ} {fs nfft : ℕ} {win : SlidingWindow} {op : Bool}
    (hx : filt sig = .ok x) (hfs : 0 < fs) (hS : 0 < pyInt (win.winHop * fs)) {ds : List ℝ}
    (h : getDominant filt sig fs nfft win op = .ok ds) :
    ∀ d ∈ ds, d ≤ (fs : ℝ) / 2 ∧ (op = true → 0 ≤ d) := by
  obtain ⟨-, l, s, w, k, h1, h2, -, hl, -, hk, rfl⟩ := dominant_form hx hS h
  have hfs' : (0 : ℝ) < fs := by exact_mod_cast hfs
  have hall : ∀ d ∈ (List.range ((x.length - l) / s + 1)).map (fun i => round3 (Spec.gridFreq fs nfft (k i))),
      d ≤ (fs : ℝ) / 2 := by
    intro d hd
    obtain ⟨i, hi, rfl⟩ := List.mem_map.mp hd
    have := gridFreq_le hfs' (hk i (List.mem_range.mp hi)).1
    have e : (fs : ℝ) / 2 = ((500 * fs : ℤ) : ℝ) / 1000 := by push_cast; ring
    rw [e] at this ⊢
    exact round3_le_int this
  intro d hd
  cases op with
  | false => exact ⟨hall d hd, by simp⟩
  | true =>
    simp only [if_true, List.mem_filter, decide_eq_true_eq] at hd
    exact ⟨hall d hd.1, fun _ => hd.2⟩

/-- C86: what is reported. The value of frame `i` (before the non-negative ones are selected) is, rounded to three
decimals, the entry `k` of the two-sided grid `fftfreq(nfft // 2 + 1)`, where `k` is the strongest bin of the frame in
the one-sided `nfft`-point spectrum. -/
theorem C86_meaning {filt : List ℝ → Py (List ℝ)} {sig x ds : List ℝ} {fs : ℝ} {nfft : ℕ} {win : SlidingWindow}
    (hx : filt sig = .ok x) (hS : 0 < pyInt (win.winHop * fs))
    (h : getDominant filt sig fs nfft win false = .ok ds) :
    ∃ l s : ℕ, ∃ w, pyInt (win.winLen * fs) = l ∧ pyInt (win.winHop * fs) = s ∧ windowVec win.winType l = .ok w ∧
      ∀ i < ds.length, ∀ k, Spec.StrongestBin nfft (Spec.windowedFrame x w l s i) k →
        Spec.Rounded3 (Spec.gridFreq fs nfft k) (ds.getD i 0) := by
  obtain ⟨-, l, s, w, g, h1, h2, -, hl, hw, hg, hds⟩ := dominant_form hx hS h
  refine ⟨l, s, w, h1, h2, hw, fun i hi k hk => ?_⟩
  simp only [Bool.false_eq_true, if_false] at hds
  have hi : i < (x.length - l) / s + 1 := by rw [hds] at hi; simpa using hi
  rw [hds, getD_map_range_lt _ _ hi, strongest_unique hk (hg i hi)]
  exact round3_rounded _

/-- C86, the part that holds: a frame whose strongest bin is bin 0 is reported as 0 Hz, its true frequency. What is
missing is every other bin, for which the claim is false (`C86_violated`). -/
theorem C86_dc_partial {filt : List ℝ → Py (List ℝ)} {sig x ds : List ℝ} {fs : ℝ} {nfft : ℕ} {win : SlidingWindow}
    (hx : filt sig = .ok x) (hS : 0 < pyInt (win.winHop * fs))
    (h : getDominant filt sig fs nfft win false = .ok ds) :
    ∃ l s : ℕ, ∃ w, pyInt (win.winLen * fs) = l ∧ pyInt (win.winHop * fs) = s ∧ windowVec win.winType l = .ok w ∧
      ∀ i < ds.length, Spec.StrongestBin nfft (Spec.windowedFrame x w l s i) 0 →
        ds.getD i 1 = Spec.trueFreq fs nfft 0 := by
  obtain ⟨-, l, s, w, g, h1, h2, -, hl, hw, hg, hds⟩ := dominant_form hx hS h
  refine ⟨l, s, w, h1, h2, hw, fun i hi hk => ?_⟩
  simp only [Bool.false_eq_true, if_false] at hds
  have hi : i < (x.length - l) / s + 1 := by rw [hds] at hi; simpa using hi
  rw [hds, getD_map_range_lt _ _ hi, ← strongest_unique hk (hg i hi), gridFreq_zero, round3_zero]
  simp [Spec.trueFreq]

/-- C86 is violated for every bin but the first: with `nfft ≥ 3` and a grid wider than 0.003 Hz, a frame whose strongest
bin is `k ≥ 1` is never reported within 0.0005 Hz of `k * fs / nfft`. In the lower half of the one-sided spectrum the
value is at least a third too high (up to the rounding), in the upper half it is negative. -/
theorem C86_wrong {filt : List ℝ → Py (List ℝ)} {sig x ds : List ℝ} {fs : ℝ} {nfft : ℕ} {win : SlidingWindow}
    (hx : filt sig = .ok x) (hS : 0 < pyInt (win.winHop * fs)) (hfs : 0 < fs) (hn : 3 ≤ nfft)
    (hg : 3 * (nfft : ℝ) < 1000 * fs) (h : getDominant filt sig fs nfft win false = .ok ds) :
    ∃ l s : ℕ, ∃ w, pyInt (win.winLen * fs) = l ∧ pyInt (win.winHop * fs) = s ∧ windowVec win.winType l = .ok w ∧
      ∀ i < ds.length, ∀ k, Spec.StrongestBin nfft (Spec.windowedFrame x w l s i) k → 1 ≤ k →
        ¬ Spec.Rounded3 (Spec.trueFreq fs nfft k) (ds.getD i 0) ∧
        (2 * k ≤ nfft / 2 → 4 / 3 * Spec.trueFreq fs nfft k - 1 / 2000 ≤ ds.getD i 0) ∧
        (nfft / 2 < 2 * k → ds.getD i 0 < 0) := by
  obtain ⟨l, s, w, h1, h2, h3, h4⟩ := C86_meaning hx hS h
  refine ⟨l, s, w, h1, h2, h3, fun i hi k hk hk1 => ?_⟩
  have hr := abs_le.mp (h4 i hi k hk).2
  have hn' : (0 : ℝ) < nfft := by exact_mod_cast (by omega : 0 < nfft)
  have hq : 3 / 1000 < fs / nfft := by rw [div_lt_div_iff₀ (by norm_num) hn']; linarith
  have ht : fs / nfft ≤ Spec.trueFreq fs nfft k := by
    unfold Spec.trueFreq
    have : (1 : ℝ) ≤ k := by exact_mod_cast hk1
    rw [div_le_div_iff_of_pos_right hn']; nlinarith
  have hup : nfft / 2 < 2 * k → ds.getD i 0 < 0 := fun hc => by
    have := gridFreq_upper hfs hc hk.1; linarith [hr.2]
  have hlo : 2 * k ≤ nfft / 2 → 4 / 3 * Spec.trueFreq fs nfft k - 1 / 2000 ≤ ds.getD i 0 := fun hc => by
    have := gridFreq_lower hfs hn hc; linarith [hr.1]
  refine ⟨fun hc => ?_, hlo, hup⟩
  have hc := abs_le.mp hc.2
  rcases le_or_gt (2 * k) (nfft / 2) with hk2 | hk2
  · have := hlo hk2; linarith [hc.2]
  · have := hup hk2; linarith [hc.1]

/-- C86: with `only_positive` a signal whose frames all peak in the upper half of the one-sided spectrum yields no value
at all. -/
theorem C86_upper_half_dropped {filt : List ℝ → Py (List ℝ)} {sig x ds w : List ℝ} {fs : ℝ} {nfft l s : ℕ}
    {win : SlidingWindow} (hx : filt sig = .ok x) (hfs : 0 < fs)
    (hg : (nfft : ℝ) < 2000 * fs) (hL : pyInt (win.winLen * fs) = l) (hS : pyInt (win.winHop * fs) = s) (hs : 0 < s)
    (hw : windowVec win.winType l = .ok w)
    (hup : ∀ i < (x.length - l) / s + 1, ∀ k, Spec.StrongestBin nfft (Spec.windowedFrame x w l s i) k →
      nfft / 2 < 2 * k)
    (h : getDominant filt sig fs nfft win true = .ok ds) : ds = [] := by
  obtain ⟨-, l', s', w', g, h1, h2, -, hl, hw', hk, rfl⟩ :=
    dominant_form hx (by rw [hS]; exact_mod_cast hs) h
  obtain rfl : l = l' := by rw [hL] at h1; exact_mod_cast h1
  obtain rfl : s = s' := by rw [hS] at h2; exact_mod_cast h2
  obtain rfl : w = w' := by rw [hw] at hw'; injection hw'
  simp only [if_true, List.filter_eq_nil_iff, List.mem_map, List.mem_range, decide_eq_true_eq, not_le]
  rintro d ⟨i, hi, rfl⟩
  have hki := hk i hi
  have h3 := gridFreq_upper hfs (hup i hi _ hki) hki.1
  have hn' : (0 : ℝ) < nfft := by
    have := hup i hi _ hki; have := hki.1; exact_mod_cast (by omega : 0 < nfft)
  have hq : 1 / 2000 < fs / nfft := by rw [div_lt_div_iff₀ (by norm_num) hn']; linarith
  have := (abs_le.mp (round3_rounded (Spec.gridFreq fs nfft (g i))).2).2
  linarith

/-- C99: the result does not change when the signal is multiplied by a constant other than 0, for every filter that is
homogeneous (in particular without a filter). -/
theorem C99_gain (filt : List ℝ → Py (List ℝ)) (sig : List ℝ) (fs : ℝ) (nfft : ℕ) (win : SlidingWindow) (op : Bool)
    (c : ℝ) (hc : c ≠ 0) (hf : filt (sig.map (c * ·)) = (filt sig).map (List.map (c * ·))) :
    getDominant filt (sig.map (c * ·)) fs nfft win op = getDominant filt sig fs nfft win op := by
  rw [getDominant_eq, getDominant_eq, hf]
  cases filt sig with
  | error e => rfl
  | ok x =>
    simp only [Except.map, ok_bind]
    rw [frontEnd_smul]
    cases frontEnd (domArgs fs win) 0 x with
    | error e => rfl
    | ok W =>
      simp only [Except.map, ok_bind]
      congr 1
      rw [List.mapM_map]
      congr 1
      funext w
      change dominantOf nfft fs (w.map (c * ·)) = dominantOf nfft fs w
      by_cases hn : nfft = 0
      · unfold dominantOf; rw [if_pos hn, if_pos hn]
      by_cases hfs : fs = 0
      · unfold dominantOf; rw [if_neg hn, if_neg hn, if_pos hfs, if_pos hfs]
      obtain ⟨k, hk⟩ := strongest_exists nfft w
      rw [dominantOf_eq hn hfs hk]
      exact dominantOf_eq hn hfs (strongest_smul hc hk)

/-- C99: a silent signal (no filter) is reported as 0 Hz in every frame. -/
theorem C99_silence {n nfft : ℕ} {fs : ℝ} {win : SlidingWindow} {op : Bool} {ds : List ℝ}
    (hS : 0 < pyInt (win.winHop * fs)) (h : getDominant .ok (List.replicate n 0) fs nfft win op = .ok ds) :
    ∃ l s : ℕ, pyInt (win.winLen * fs) = l ∧ pyInt (win.winHop * fs) = s ∧
      ds = List.replicate ((n - l) / s + 1) 0 := by
  obtain ⟨-, l, s, w, g, h1, h2, -, hl, hw, hg, rfl⟩ := dominant_form rfl hS h
  refine ⟨l, s, h1, h2, ?_⟩
  rw [List.length_replicate] at hg ⊢
  have hz : ∀ i < (n - l) / s + 1, g i = 0 := fun i hi => by
    refine strongest_unique (hg i hi) (strongest_zero (fun j => ?_) nfft)
    unfold Spec.windowedFrame
    by_cases hj : j < (List.zipWith (· * ·) w (((List.replicate n (0 : ℝ)).drop (i * s)).take l)).length
    · rw [getD_zipWith_lt _ _ _ _ 0 0 (by simp at hj ⊢; omega) (by simp at hj ⊢; omega)]
      rw [List.drop_replicate, List.take_replicate, getD_replicate']; simp
    · rw [List.getD_eq_default _ _ (by omega)]
  have hmap : ((List.range ((n - l) / s + 1)).map fun i => round3 (Spec.gridFreq fs nfft (g i))) =
      List.replicate ((n - l) / s + 1) 0 := by
    rw [List.eq_replicate_iff]
    refine ⟨by simp, fun b hb => ?_⟩
    obtain ⟨i, hi, rfl⟩ := List.mem_map.mp hb
    rw [hz i (List.mem_range.mp hi), gridFreq_zero, round3_zero]
  simp only [hmap]
  cases op with
  | false => rfl
  | true => rw [if_pos rfl, List.filter_replicate]; simp

/-- C100: a result exists for every signal of at least one frame, with a known window name, a hop of at least one sample
not longer than the window, and `nfft ≥ 1`; with `nfft = 0` it is a `ValueError`, and with a longer hop than window a
`ParameterError`. -/
theorem C100_defined {sig : List ℝ} {fs : ℝ} {nfft : ℕ} {win : SlidingWindow} (op : Bool) {l : ℕ}
    (hw : WindowName win.winType) (hS : 0 < pyInt (win.winHop * fs)) (hL : pyInt (win.winLen * fs) = l)
    (hlen : l ≤ sig.length) :
    (win.winHop ≤ win.winLen → nfft ≠ 0 → ∃ ds, getDominant .ok sig fs nfft win op = .ok ds) ∧
    (win.winHop ≤ win.winLen → nfft = 0 → getDominant .ok sig fs nfft win op = .error .valueError) ∧
    (win.winLen < win.winHop → ∃ msg, getDominant .ok sig fs nfft win op = .error (.parameterError msg)) := by
  refine ⟨fun hle hn => dominant_ok op rfl hn hw hle hS hL hlen, fun hle hn => ?_, fun hlt => ?_⟩
  · obtain ⟨w, hw1, hw2, -⟩ := (C14_window_vector win.winType l).1 hw
    obtain ⟨s, hs⟩ := Int.eq_ofNat_of_zero_le hS.le
    have hW := (frontEnd_ok_iff (domArgs fs win) 0 sig _ hS).mpr
      ⟨by simp [domArgs], hle, l, s, w, hL, hs, by rw [hs] at hS; exact_mod_cast hS, hlen, hw1, hw2, rfl⟩
    rw [getDominant_eq, ok_bind, hW, ok_bind, List.range_succ_eq_map, List.map_cons,
      mapM_error _ .valueError _ _ (by unfold dominantOf; rw [if_pos hn])]
    rfl
  · unfold getDominant framing framingR
    rw [ok_bind, if_pos hlt]
    exact ⟨_, rfl⟩

/-! ### Concrete cases -/

theorem hamming_two : windowVec "hamming" 2 = .ok [0.08, 0.08] := by
  have h1 : Np.hammingAt 2 0 = 0.08 := by
    unfold Np.hammingAt
    rw [if_neg (by norm_num)]
    have : Real.pi * (1 - ((2 : ℕ) : ℝ) + 2 * ((0 : ℕ) : ℝ)) / (((2 : ℕ) : ℝ) - 1) = -Real.pi := by push_cast; ring
    rw [this, Real.cos_neg, Real.cos_pi]; norm_num
  have h2 : Np.hammingAt 2 1 = 0.08 := by
    unfold Np.hammingAt
    rw [if_neg (by norm_num)]
    have : Real.pi * (1 - ((2 : ℕ) : ℝ) + 2 * ((1 : ℕ) : ℝ)) / (((2 : ℕ) : ℝ) - 1) = Real.pi := by push_cast; ring
    rw [this, Real.cos_pi]; norm_num
  simp [windowVec, List.range_succ, h1, h2]

theorem hamming_three : windowVec "hamming" 3 = .ok [0.08, 1, 0.08] := by
  have h1 : Np.hammingAt 3 0 = 0.08 := by
    unfold Np.hammingAt
    rw [if_neg (by norm_num)]
    have : Real.pi * (1 - ((3 : ℕ) : ℝ) + 2 * ((0 : ℕ) : ℝ)) / (((3 : ℕ) : ℝ) - 1) = -Real.pi := by push_cast; ring
    rw [this, Real.cos_neg, Real.cos_pi]; norm_num
  have h2 : Np.hammingAt 3 1 = 1 := by
    unfold Np.hammingAt
    rw [if_neg (by norm_num)]
    have : Real.pi * (1 - ((3 : ℕ) : ℝ) + 2 * ((1 : ℕ) : ℝ)) / (((3 : ℕ) : ℝ) - 1) = 0 := by push_cast; ring
    rw [this, Real.cos_zero]; norm_num
  have h3 : Np.hammingAt 3 2 = 0.08 := by
    unfold Np.hammingAt
    rw [if_neg (by norm_num)]
    have : Real.pi * (1 - ((3 : ℕ) : ℝ) + 2 * ((2 : ℕ) : ℝ)) / (((3 : ℕ) : ℝ) - 1) = Real.pi := by push_cast; ring
    rw [this, Real.cos_pi]; norm_num
  simp [windowVec, List.range_succ, h1, h2, h3]

theorem dft_four (x : List ℝ) (k : ℕ) : Np.dft x 4 k = x.getD 0 0 + x.getD 1 0 * (-Complex.I) ^ k +
    x.getD 2 0 * (-1) ^ k + x.getD 3 0 * Complex.I ^ k := by
  have e1 : Complex.exp (-(2 * Real.pi * Complex.I * (((1 : ℕ) : ℂ) * k) / ((4 : ℕ) : ℂ))) = (-Complex.I) ^ k := by
    rw [← Complex.exp_neg_pi_div_two_mul_I, ← Complex.exp_nat_mul]; congr 1; push_cast; ring
  have e2 : Complex.exp (-(2 * Real.pi * Complex.I * (((2 : ℕ) : ℂ) * k) / ((4 : ℕ) : ℂ))) = (-1) ^ k := by
    have : (-1 : ℂ) = (-Complex.I) ^ 2 := by simp
    rw [this, ← pow_mul, ← Complex.exp_neg_pi_div_two_mul_I, ← Complex.exp_nat_mul]; congr 1; push_cast; ring
  have e3 : Complex.exp (-(2 * Real.pi * Complex.I * (((3 : ℕ) : ℂ) * k) / ((4 : ℕ) : ℂ))) = Complex.I ^ k := by
    have : Complex.I = (-Complex.I) ^ 3 := by rw [neg_pow, Complex.I_pow_three]; ring
    conv_rhs => rw [this, ← pow_mul, ← Complex.exp_neg_pi_div_two_mul_I, ← Complex.exp_nat_mul]
    congr 1; push_cast; ring
  unfold Np.dft Np.dftC
  rw [Finset.sum_range_succ, Finset.sum_range_succ, Finset.sum_range_succ, Finset.sum_range_one]
  beta_reduce
  rw [e1, e2, e3]
  simp

theorem strongest_alternating : Spec.StrongestBin 4 [0.08, -0.08] 2 := by
  have h0 : ‖Np.dft [0.08, -0.08] 4 0‖ = 0 := by rw [dft_four]; simp
  have h1 : ‖Np.dft [0.08, -0.08] 4 1‖ ^ 2 = 2 * 0.08 ^ 2 := by
    rw [dft_four, ← Complex.normSq_eq_norm_sq, Complex.normSq_apply]; simp; norm_num
  have h2 : ‖Np.dft [0.08, -0.08] 4 2‖ ^ 2 = 4 * 0.08 ^ 2 := by
    rw [dft_four, ← Complex.normSq_eq_norm_sq, Complex.normSq_apply]; simp; norm_num
  have p2 := norm_nonneg (Np.dft [0.08, -0.08] 4 2)
  have p1 := norm_nonneg (Np.dft [0.08, -0.08] 4 1)
  have hlt : ∀ j < 2, ‖Np.dft [0.08, -0.08] 4 j‖ < ‖Np.dft [0.08, -0.08] 4 2‖ := by
    intro j hj
    rcases (by omega : j = 0 ∨ j = 1) with rfl | rfl
    · rw [h0]; nlinarith
    · nlinarith
  refine ⟨le_rfl, fun j hj => ?_, hlt⟩
  rcases Nat.lt_or_eq_of_le hj with h | h
  · exact (hlt j h).le
  · rw [h]

theorem strongest_quarter : Spec.StrongestBin 4 [0.08, 0, -0.08] 1 := by
  have h0 : ‖Np.dft [0.08, 0, -0.08] 4 0‖ = 0 := by rw [dft_four]; simp
  have h1 : ‖Np.dft [0.08, 0, -0.08] 4 1‖ ^ 2 = 4 * 0.08 ^ 2 := by
    rw [dft_four, ← Complex.normSq_eq_norm_sq, Complex.normSq_apply]; simp; norm_num
  have h2 : ‖Np.dft [0.08, 0, -0.08] 4 2‖ = 0 := by rw [dft_four]; simp
  have p1 := norm_nonneg (Np.dft [0.08, 0, -0.08] 4 1)
  have hp : 0 < ‖Np.dft [0.08, 0, -0.08] 4 1‖ := by nlinarith
  refine ⟨by norm_num, fun j hj => ?_, fun j hj => ?_⟩
  · rcases (by omega : j = 0 ∨ j = 1 ∨ j = 2) with rfl | rfl | rfl
    · rw [h0]; exact hp.le
    · exact le_rfl
    · rw [h2]; exact hp.le
  · obtain rfl : j = 0 := by omega
    rw [h0]; exact hp

/-- C86 is violated, in both ways. A frame with all its energy at a quarter of the sampling rate (4000 Hz, bin 1 of 4) is
reported as 5333.333 Hz, and a frame alternating at 8000 Hz (bin 2 of 4) is not reported at all. -/
theorem C86_violated :
    getDominant .ok [1, 0, -1] 16000 4 { winLen := 3 / 16000, winHop := 3 / 16000 } true = .ok [5333.333] ∧
    Spec.StrongestBin 4 (Spec.windowedFrame [1, 0, -1] [0.08, 1, 0.08] 3 3 0) 1 ∧ Spec.trueFreq 16000 4 1 = 4000 ∧
    getDominant .ok [1, -1] 16000 4 { winLen := 2 / 16000, winHop := 2 / 16000 } true = .ok [] ∧
    Spec.StrongestBin 4 (Spec.windowedFrame [1, -1] [0.08, 0.08] 2 2 0) 2 ∧ Spec.trueFreq 16000 4 2 = 8000 := by
  have f1 : Spec.windowedFrame [1, 0, -1] [0.08, 1, 0.08] 3 3 0 = [0.08, 0, -0.08] := by
    simp [Spec.windowedFrame]
  have f2 : Spec.windowedFrame [1, -1] [0.08, 0.08] 2 2 0 = [0.08, -0.08] := by
    simp [Spec.windowedFrame]
  have s1 : pyInt ((3 : ℝ) / 16000 * 16000) = ((3 : ℕ) : ℤ) := by norm_num [pyInt]
  have s2 : pyInt ((2 : ℝ) / 16000 * 16000) = ((2 : ℕ) : ℤ) := by norm_num [pyInt]
  refine ⟨?_, f1 ▸ strongest_quarter, by norm_num [Spec.trueFreq], ?_, f2 ▸ strongest_alternating,
    by norm_num [Spec.trueFreq]⟩
  · obtain ⟨ds, hds⟩ := dominant_ok (filt := .ok) (sig := [1, 0, -1]) (fs := 16000) (nfft := 4)
      (win := { winLen := 3 / 16000, winHop := 3 / 16000 }) true (l := 3) rfl (by norm_num) (by simp [WindowName])
      (by norm_num) (by rw [s1]; norm_num) s1 (by simp)
    rw [hds]
    obtain ⟨-, l, s, w, g, h1, h2, -, hl, hw, hg, rfl⟩ := dominant_form rfl (by rw [s1]; norm_num) hds
    rw [s1] at h1 h2
    obtain rfl : l = 3 := by exact_mod_cast h1.symm
    obtain rfl : s = 3 := by exact_mod_cast h2.symm
    have hw := hw.symm.trans hamming_three
    injection hw with hw
    subst hw
    have hg0 := hg 0 (by simp)
    rw [f1] at hg0
    have e : g 0 = 1 := strongest_unique hg0 strongest_quarter
    have hgf : Spec.gridFreq 16000 4 1 = 16000 / 3 := by norm_num [Spec.gridFreq]
    have hfl : ⌊(16000 / 3 * 1000 : ℝ)⌋ = 5333333 := by rw [Int.floor_eq_iff]; norm_num
    have hr : round3 (16000 / 3) = 5333.333 := by
      unfold round3 roundHalfEven; rw [hfl, if_pos (by norm_num)]; norm_num
    simp [e, hgf, hr]
    norm_num
  · obtain ⟨ds, hds⟩ := dominant_ok (filt := .ok) (sig := [1, -1]) (fs := 16000) (nfft := 4)
      (win := { winLen := 2 / 16000, winHop := 2 / 16000 }) true (l := 2) rfl (by norm_num) (by simp [WindowName])
      (by norm_num) (by rw [s2]; norm_num) s2 (by simp)
    rw [hds, C86_upper_half_dropped (x := [1, -1]) rfl (by norm_num) (by norm_num) s2 s2 (by norm_num) hamming_two
      (fun i hi k hk => ?_) hds]
    obtain rfl : i = 0 := by simpa using hi
    rw [f2] at hk
    rw [strongest_unique hk strongest_alternating]; norm_num

/-- The hypotheses of C85, C99 and C100 hold for the default arguments and every signal of at least 400 samples. -/
example (sig : List ℝ) (hlen : 400 ≤ sig.length) :
    ∃ ds, getDominant .ok sig ((16000 : ℕ) : ℝ) 512 {} true = .ok ds ∧ ds.length ≤ (sig.length - 400) / 160 + 1 ∧
      ∀ d ∈ ds, 0 ≤ d ∧ d ≤ 8000 := by
  have hS : pyInt ((({} : SlidingWindow).winHop) * ((16000 : ℕ) : ℝ)) = ((160 : ℕ) : ℤ) := by norm_num [pyInt]
  have hL : pyInt ((({} : SlidingWindow).winLen) * ((16000 : ℕ) : ℝ)) = ((400 : ℕ) : ℤ) := by norm_num [pyInt]
  have hS' : 0 < pyInt ((({} : SlidingWindow).winHop) * ((16000 : ℕ) : ℝ)) := by rw [hS]; norm_num
  obtain ⟨ds, hds⟩ := (C100_defined (fs := ((16000 : ℕ) : ℝ)) (nfft := 512) (win := {}) true (by simp [WindowName]) hS' hL
    hlen).1 (by norm_num) (by norm_num)
  refine ⟨ds, hds, ?_, fun d hd => ?_⟩
  · obtain ⟨l, s, h1, h2, -, h3⟩ := (C85_count rfl hS').2 hds
    rw [hL] at h1; rw [hS] at h2
    obtain rfl : l = 400 := by exact_mod_cast h1.symm
    obtain rfl : s = 160 := by exact_mod_cast h2.symm
    exact h3
  · have := C85_range rfl (by norm_num) hS' hds d hd
    exact ⟨this.2 rfl, this.1.trans (by norm_num)⟩

end Props
end Spafe
