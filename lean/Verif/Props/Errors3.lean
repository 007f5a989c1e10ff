import Verif.Props.Errors2
import Verif.Props.Cqt
import Verif.Props.Dominant
import Verif.Props.Spfeats
import Verif.Props.Yin

/-! C123: the tables of exceptions of the filter banks, framing, dominant frequencies, spectral features, pitch and
constant-Q cepstra. -/

set_option linter.unusedSectionVars false

namespace Spafe
namespace Props
open Model XF Spec

/-- C123: `mel_filter_banks`. -/
theorem C123_mel (nfilts nfft : ℕ) (fs low : ℝ) (high : Option ℝ) (scale approach : String) :
    raised (melFilterBanks nfilts nfft fs low high scale approach) = firstError
      [(low < 0, .parameterError "minimal frequency cannot be less than zero."),
        (∃ h, high = some h ∧ h ≠ 0 ∧ fs / 2 < h,
          .parameterError "maximum frequency cannot be greater than half sampling frequency."),
        (approach ∉ ["Oshaghnessy", "Lindsay"], .keyError),
        (scale ∉ ["ascendant", "descendant", "constant"], .keyError)] := by
  refine (helper_raised { nfilts, nfft, fs, low, high, scale, approach } true approach (fun _ => rfl) "mel"
    (by simp)).trans ?_
  simp only [melBankChecks, true_and]

/-- C123: `linear_filter_banks`. -/
theorem C123_linear (nfilts nfft : ℕ) (fs low : ℝ) (high : Option ℝ) (scale : String) :
    raised (linearFilterBanks nfilts nfft fs low high scale) = firstError
      [(low < 0, .parameterError "minimal frequency cannot be less than zero."),
        (∃ h, high = some h ∧ h ≠ 0 ∧ fs / 2 < h,
          .parameterError "maximum frequency cannot be greater than half sampling frequency."),
        (scale ∉ ["ascendant", "descendant", "constant"], .keyError)] := by
  refine ((raised_bind_ok _ _ fun _ _ => rfl).trans
    (helper_raised { nfilts, nfft, fs, low, high, scale } false _ (by simp) "lin" (by simp))).trans ?_
  simp [melBankChecks, firstError]
  split_ifs <;> rfl

/-- C123: `inverse_mel_filter_banks`: the scale is looked up before anything is checked, and `high_freq=None` fails at
the very end. -/
theorem C123_inverse_mel (nfilts nfft : ℕ) (fs low : ℝ) (high : Option ℝ) (scale approach : String) :
    raised (inverseMelFilterBanks nfilts nfft fs low high scale approach) = firstError
      [(scale ∉ ["ascendant", "descendant", "constant"], .keyError),
        (low < 0, .parameterError "minimal frequency cannot be less than zero."),
        (∃ h, high = some h ∧ h ≠ 0 ∧ fs / 2 < h,
          .parameterError "maximum frequency cannot be greater than half sampling frequency."),
        (approach ∉ ["Oshaghnessy", "Lindsay"], .keyError),
        (high = none ∧ nfilts ≠ 0, .typeError)] := by
  refine (inverse_mel_raised { nfilts, nfft, fs, low, high, scale, approach }).trans ?_
  simp only [inverseMelChecks, melBankChecks, firstError, List.cons_append, List.nil_append, true_and]
  split_ifs <;> first | rfl | contradiction

/-- C123: `bark_filter_banks` for the Bark formulas with a total inverse. -/
theorem C123_bark (nfilts nfft : ℕ) (fs low : ℝ) (high : Option ℝ) (scale approach : String) (hfs : 0 < fs) {B : ℝ → ℝ}
    (hB : BarkScale approach B) :
    raised (barkFilterBanks nfilts nfft fs low high scale approach) = firstError
      [(low < 0, .parameterError "minimal frequency cannot be less than zero."),
        (∃ h, high = some h ∧ h ≠ 0 ∧ fs / 2 < h,
          .parameterError "maximum frequency cannot be greater than half sampling frequency."),
        (scale ∉ ["ascendant", "descendant", "constant"], .keyError)] := by
  refine (bark_raised { nfilts, nfft, fs, low, high, scale, approach } hfs hB).trans ?_
  simp [erbBankChecks, firstError]
  split_ifs <;> rfl

/-- C123: `gammatone_filter_banks` of any order; the conversion approach is never checked. -/
theorem C123_gammatone (nfilts nfft : ℕ) (fs low : ℝ) (high : Option ℝ) (scale : String) (order : ℕ) (approach : String)
    (hfs : 0 ≤ fs) (hhi : ∀ h, high = some h → 0 ≤ h) :
    raised (gammatoneFilterBanks nfilts nfft fs low high scale order approach) = firstError
      [(low < 0, .parameterError "minimal frequency cannot be less than zero."),
        (∃ h, high = some h ∧ h ≠ 0 ∧ fs / 2 < h,
          .parameterError "maximum frequency cannot be greater than half sampling frequency."),
        (fs = 0, .zeroDivisionError), (order = 0, .zeroDivisionError), (nfft = 0, .indexError),
        (scale ∉ ["ascendant", "descendant", "constant"], .keyError)] := by
  simp only [firstError, gammatoneFilterBanks]
  have hs := scale_raised scale nfilts
  simp only [firstError] at hs
  have hgt := effHigh_gt { fs, high }
  simp only at hgt
  by_cases h1 : low < 0
  · rw [if_pos h1, if_pos h1]; rfl
  rw [if_neg h1, if_neg h1]
  by_cases h2 : effHigh high fs > fs / 2
  · rw [if_pos h2, if_pos (hgt.mp h2)]; rfl
  have h3 : ¬ effHigh high fs < 0 := by
    rw [not_lt]
    unfold effHigh
    cases hv : high with
    | none => simp only; linarith
    | some h =>
      simp only
      split_ifs
      · linarith
      · exact hhi h hv
  rw [if_neg h2, if_neg (fun h => h2 (hgt.mpr h))]
  by_cases h5 : fs = 0
  · rw [if_pos h5, if_pos h5]; rfl
  rw [if_neg h5, if_neg h5, if_neg h3]
  by_cases h6 : order = 0
  · rw [if_pos h6, if_pos h6]; rfl
  rw [if_neg h6, if_neg h6]
  by_cases h4 : nfft = 0
  · rw [if_pos h4, if_pos h4]; rfl
  rw [if_neg h4, if_neg h4, ← hs]
  exact raised_bind_ok _ _ fun _ _ => rfl

/-- C123: `framing`. -/
theorem C123_framing (sig : List ℝ) (fs winLen winHop : ℝ) (hfs : 0 ≤ fs) (hh : 0 ≤ winHop) :
    raised (framing sig fs winLen winHop) = firstError
      [(winLen < winHop, .parameterError "window's length has to be larger than the window's hop"),
        (⌊winHop * fs⌋ = 0, .zeroDivisionError),
        (⌊winHop * fs⌋ < ⌊winLen * fs⌋ - sig.length, .valueError),
        ((sig.length : ℤ) < ⌊winLen * fs⌋, .indexError)] := by
  have h := frontEnd_raised { fs, preEmph := false, window := some { winLen, winHop, winType := "hamming" } } 0 sig hfs hh
  have he : frontEnd { fs, preEmph := false, window := some { winLen, winHop, winType := "hamming" } } 0 sig =
    framing sig fs winLen winHop >>= fun p => windowing p.1 p.2.toNat "hamming" := rfl
  rw [he, raised_bind_ok _ _ ?_] at h
  · rw [h]
    simp [frontChecks, frameChecks, firstError, Args.win]
    split_ifs <;> rfl
  · intro p _
    obtain ⟨v, hv, -⟩ := (C14_window_vector "hamming" p.2.toNat).1 (by simp [WindowName])
    rw [windowing, hv]; rfl

/-- C123: `windowing`. -/
theorem C123_windowing (frames : List (List ℝ)) (l : ℕ) (winType : String) :
    raised (windowing frames l winType) = firstError
      [(winType ∉ ["hanning", "bartlet", "kaiser", "blackman", "hamming"], .keyError)] := by
  have hw := C14_window_vector winType l
  simp only [firstError, windowing]
  by_cases h5 : WindowName winType
  · obtain ⟨v, hv, -⟩ := hw.1 h5
    rw [hv, if_neg]
    · rfl
    · rw [not_not]
      simpa [WindowName, or_comm, or_left_comm, or_assoc] using h5
  · rw [hw.2 h5, if_pos]
    · rfl
    · simpa [WindowName, or_comm, or_left_comm, or_assoc] using h5

/-- C123: `get_dominant_frequencies` without the Butterworth filter. -/
theorem C123_dominant (sig : List ℝ) (fs : ℝ) (nfft : ℕ) (win : SlidingWindow) (op : Bool) (hfs : 0 ≤ fs)
    (hh : 0 ≤ win.winHop) :
    raised (getDominant .ok sig fs nfft win op) =
      firstError (frameChecks fs win sig.length ++ [(nfft = 0, .valueError)]) := by
  have h := frontEnd_raised { fs, preEmph := false, window := some win } 0 sig hfs hh
  have he : frontEnd { fs, preEmph := false, window := some win } 0 sig =
    framing sig fs win.winLen win.winHop >>= fun p => windowing p.1 p.2.toNat win.winType := rfl
  have hd : getDominant .ok sig fs nfft win op = frontEnd { fs, preEmph := false, window := some win } 0 sig >>=
      fun W => W.mapM (dominantOf nfft fs) >>= fun ds =>
        .ok (if op then (ds.map round3).filter (fun d => decide (0 ≤ d)) else ds.map round3) := by
    rw [he, bind_assoc]; rfl
  rw [firstError_append]
  have hfc : firstError (frontChecks false fs win sig.length) = firstError (frameChecks fs win sig.length) := by
    simp [frontChecks, firstError]
  change raised (frontEnd _ 0 sig) = firstError (frontChecks false fs win sig.length) at h
  rw [hfc] at h
  rw [hd, ← h]
  cases hW : frontEnd { fs, preEmph := false, window := some win } 0 sig with
  | error e => rfl
  | ok W =>
    rw [hW] at h
    have hne := frontEnd_ne_nil hW
    obtain ⟨-, hS, -⟩ := frameChecks_none hfs hh h.symm
    have hfs0 : fs ≠ 0 := by
      rintro rfl
      simp [pyInt] at hS
    simp only [raised, firstError, ok_bind]
    by_cases hn : nfft = 0
    · rw [if_pos hn, mapM_eq_error _ .valueError]
      · rfl
      · exact fun x _ => Or.inr (by rw [dominantOf, if_pos hn])
      · obtain ⟨w, hw⟩ := List.exists_mem_of_ne_nil W hne
        exact ⟨w, hw, by rw [dominantOf, if_pos hn]⟩
    · rw [if_neg hn]
      obtain ⟨v, hv⟩ := mapM_total (f := dominantOf nfft fs) (fun x => ⟨_, by
        rw [dominantOf, if_neg hn, if_neg hfs0]⟩) W
      rw [hv]; rfl

/-- C123: `extract_feats`. -/
theorem C123_extract_feats (sig : List ℝ) (fs : ℝ) (nfft : ℕ) :
    raised (extractFeats sig fs nfft) = firstError [(nfft = 0, .valueError), (fs = 0, .zeroDivisionError)] := by
  simp only [firstError]
  by_cases hn : nfft = 0
  · rw [if_pos hn, extractFeats, rfft, if_pos hn]; rfl
  rw [if_neg hn]
  by_cases hf : fs = 0
  · rw [if_pos hf, extractFeats, rfft, if_neg hn, ok_bind, spectralCentroid, absFreqs, if_pos (Or.inl hf)]; rfl
  rw [if_neg hf]
  obtain ⟨f, h⟩ := C76_defined sig fs hf nfft hn
  rw [h]; rfl

/-- A window of two samples: the one difference is broadcast against every lag. -/
theorem yinFrame_two (fs : ℝ) (a T : ℕ) (thr : ℝ) (x : List ℝ) (h : x.length = 2) (hT : 3 ≤ T) :
    ∃ r, yinFrame fs a T thr x = .ok r := by
  simp only [yinFrame]
  obtain ⟨c, hc, hl⟩ : ∃ c, computeCmnd (computeDifference x T) T = .ok c ∧ c.length = T := by
    rw [computeDifference_nat, h, min_eq_right (by omega), computeCmnd]
    obtain ⟨u, hu⟩ : ∃ u : ℝ, pySliceFrom ((List.range 2).map (Spec.yinDiff x)) 1 = [u] := by
      rw [pySliceFrom_one]; exact ⟨_, rfl⟩
    obtain ⟨y, y', B, hB, hBl⟩ : ∃ y y' B, pyRange 1 (T : ℤ) = y :: y' :: B ∧ B.length + 3 = T := by
      have hl2 : (pyRange 1 (T : ℤ)).length = T - 1 := by simp [pyRange]
      rcases hq : pyRange 1 (T : ℤ) with _ | ⟨y, _ | ⟨y', B⟩⟩ <;> rw [hq] at hl2 <;> simp at hl2
      · omega
      · omega
      · exact ⟨y, y', B, rfl, by omega⟩
    obtain ⟨v, hv⟩ : ∃ v : ℝ, cumsum [u] = [v] := ⟨_, rfl⟩
    rw [hu, hB, hv]
    exact ⟨_, rfl, by simp [hBl]⟩
  rw [hc, ok_bind]
  obtain ⟨p, hp, hpl⟩ : ∃ p : ℕ, getPitch c a T thr = .ok (p : ℤ) ∧ p < T := by
    rcases getPitch_spec c T hl.ge thr _ a rfl with ⟨h, -⟩ | ⟨t0, p, h, -, -, h4, -⟩
    · exact ⟨0, h, by omega⟩
    · exact ⟨p, h, by omega⟩
  rw [hp, ok_bind]
  obtain ⟨m, hm⟩ : ∃ m, pyMin c = .ok m := by
    cases c with
    | nil => simp at hl; omega
    | cons b l => exact pyMin_ok b l
  rw [pyIdx_nat _ nan (by omega), hm, ok_bind, ok_bind]
  split_ifs <;> exact ⟨_, rfl⟩

/-- A window of at most one sample against more lags than samples. -/
theorem yinFrame_tiny (fs : ℝ) (a T : ℕ) (thr : ℝ) (x : List ℝ) (h : x.length ≤ 1) (hT : x.length < T) :
    raised (yinFrame fs a T thr x) = firstError [(T = 2 ∧ a ≤ 1, .indexError), (3 ≤ T, .valueError)] := by
  have hd : pySliceFrom (computeDifference x T) 1 = [] := by
    rw [computeDifference_nat, min_eq_right (by omega), pySliceFrom_one]
    exact List.eq_nil_of_length_eq_zero (by simp; omega)
  have hl2 : (pyRange 1 (T : ℤ)).length = T - 1 := by simp [pyRange]
  simp only [yinFrame, computeCmnd, hd, firstError]
  by_cases h3 : 3 ≤ T
  · rw [if_neg (by omega), if_pos h3]
    rcases hq : pyRange 1 (T : ℤ) with _ | ⟨y, _ | ⟨y', B⟩⟩ <;> rw [hq] at hl2 <;> simp at hl2
    · omega
    · omega
    · rfl
  rw [if_neg h3]
  have hc : (broadcast (fun (v : ℝ) (t : ℤ) => v * (t : ℝ)) [] (pyRange 1 (T : ℤ)) >>= fun num =>
      broadcast (fun a b => fin a / fin b) num (cumsum []) >>= fun q => (Except.ok (fin 1 :: q) : Py (List (XF ℝ)))) =
      .ok [fin 1] := by
    rcases hq : pyRange 1 (T : ℤ) with _ | ⟨y, _ | ⟨y', B⟩⟩ <;> rw [hq] at hl2 <;> simp at hl2
    · rfl
    · rfl
    · omega
  rw [hc, ok_bind]
  by_cases ha : T = 2 ∧ a ≤ 1
  · rw [if_pos ha]
    have hp : getPitch [fin 1] (a : ℤ) (T : ℤ) thr = .error .indexError := by
      obtain ⟨rfl, ha⟩ := ha
      have he : pyIdx [fin (1 : ℝ)] 1 = .error .indexError := rfl
      have h0 : pyIdx [fin (1 : ℝ)] 0 = .ok (fin 1) := rfl
      have h1 : getPitch [fin 1] 1 2 thr = .error .indexError := by
        rw [getPitch, dif_pos (by norm_num), he]; rfl
      obtain rfl | rfl : a = 0 ∨ a = 1 := by omega
      · rw [getPitch, dif_pos (by norm_num)]
        simp only [Nat.cast_zero, zero_add, Nat.cast_ofNat]
        rw [h0, ok_bind]
        split_ifs
        · rw [descend, dif_pos (by norm_num)]
          simp only [zero_add]
          rw [he]; rfl
        · exact h1
      · exact h1
    rw [hp]; rfl
  · rw [if_neg ha]
    have hp : getPitch [fin 1] (a : ℤ) (T : ℤ) thr = .ok 0 := by
      rw [getPitch]
      split_ifs with h4
      · obtain rfl : T = 1 := by omega
        obtain rfl : a = 0 := by omega
        have h0 : pyIdx [fin (1 : ℝ)] 0 = .ok (fin 1) := rfl
        simp only [Nat.cast_zero, zero_add, Nat.cast_one]
        rw [h0, ok_bind]
        split_ifs
        · rw [descend, dif_neg (by norm_num)]
        · rw [getPitch, dif_neg (by norm_num)]
      · rfl
    rw [hp, ok_bind, if_neg (by norm_num)]
    rfl

/-- C123: `compute_yin`, with `w` samples per window and `fs / low_freq` lags: a zero frequency; a hop of no sample; then,
if there is a window at all, the oddities of windows that are shorter than the number of lags. -/
theorem C123_yin (sig : List ℝ) (fs winLen winHop low high thr : ℝ) (hfs : 0 ≤ fs) (hw : 0 ≤ winLen) (hh : 0 ≤ winHop)
    (hlow : 0 ≤ low) (hhigh : 0 ≤ high) :
    raised (computeYin sig fs winLen winHop low high thr) = firstError
      [(low = 0 ∨ high = 0, .zeroDivisionError),
        (⌊winHop * fs⌋₊ = 0, .valueError),
        (⌊winLen * fs⌋₊ < sig.length ∧ ⌊winLen * fs⌋₊ ≤ 1 ∧ ⌊fs / low⌋₊ = 2 ∧ ⌊fs / high⌋₊ ≤ 1, .indexError),
        (⌊winLen * fs⌋₊ < sig.length ∧ ⌊winLen * fs⌋₊ ≠ 2 ∧ ⌊winLen * fs⌋₊ < ⌊fs / low⌋₊ ∧ 3 ≤ ⌊fs / low⌋₊,
          .valueError)] := by
  simp only [firstError]
  by_cases h0 : low = 0 ∨ high = 0
  · rw [if_pos h0, (C97_errors sig fs winLen winHop low high thr).1 h0]; rfl
  rw [if_neg h0]
  push Not at h0
  by_cases h1 : ⌊winHop * fs⌋₊ = 0
  · rw [if_pos h1, (C97_errors sig fs winLen winHop low high thr).2 h0.1 h0.2]
    · rfl
    · rw [abs_of_nonneg (mul_nonneg hh hfs)]
      exact Nat.floor_eq_zero.mp h1
  rw [if_neg h1]
  have hs : 0 < ⌊winHop * fs⌋₊ := by omega
  have h1' : 1 ≤ winHop * fs := Nat.floor_pos.mp hs
  have hfs' : 0 < fs := by
    rcases hfs.eq_or_lt with h | h
    · rw [← h, mul_zero] at h1'; linarith
    · exact h
  rw [computeYin_eq sig hfs' (lt_of_le_of_ne hlow (Ne.symm h0.1)) (lt_of_le_of_ne hhigh (Ne.symm h0.2)) hw h1']
  generalize hW : ⌊winLen * fs⌋₊ = w
  generalize hT : ⌊fs / low⌋₊ = T
  generalize hA : ⌊fs / high⌋₊ = A
  generalize hS : ⌊winHop * fs⌋₊ = s at *
  have hfl : ∀ x ∈ (List.range (Spec.yinCount sig.length w s)).map fun (i : ℕ) => (sig.drop (i * s)).take w,
      x.length = w := by
    intro x hx
    obtain ⟨i, hi, rfl⟩ := List.mem_map.mp hx
    exact frame_length sig hs (List.mem_range.mp hi)
  have hone : w < sig.length → ∃ x, x ∈ (List.range (Spec.yinCount sig.length w s)).map
      fun (i : ℕ) => (sig.drop (i * s)).take w := by
    intro h
    exact ⟨_, List.mem_map.mpr ⟨0, List.mem_range.mpr (lt_count hs (by omega)), rfl⟩⟩
  have hnil : ¬ w < sig.length → (List.range (Spec.yinCount sig.length w s)).map
      (fun (i : ℕ) => (sig.drop (i * s)).take w) = [] := by
    intro h
    rw [List.map_eq_nil_iff, List.range_eq_nil]
    by_contra h2
    have := count_start_lt hs (Nat.pos_of_ne_zero h2)
    omega
  generalize (List.range (Spec.yinCount sig.length w s)).map (fun (i : ℕ) => (sig.drop (i * s)).take w) = W at *
  by_cases hlen : w < sig.length
  swap
  · rw [if_neg (fun h => hlen h.1), if_neg (fun h => hlen h.1), hnil hlen]; rfl
  have herr : ∀ e, (∀ x ∈ W, yinFrame fs A T thr x = .error e) → W.mapM (yinFrame fs A T thr) = .error e := by
    intro e h
    obtain ⟨x, hx⟩ := hone hlen
    exact mapM_eq_error _ e _ (fun x hx => Or.inr (h x hx)) ⟨x, hx, h x hx⟩
  have hok : (∀ x ∈ W, ∃ r, yinFrame fs A T thr x = .ok r) → ∃ v, W.mapM (yinFrame fs A T thr) = .ok v := by
    intro h
    haveI : Nonempty YinFrame := ⟨⟨nan, nan, nan⟩⟩
    choose! g hg using h
    exact ⟨_, mapM_ok _ g _ hg⟩
  by_cases c1 : T ≤ w
  · rw [if_neg (by omega), if_neg (by omega)]
    obtain ⟨v, hv⟩ := hok fun x hx => yinFrame_ok fs A T thr x (by rw [hfl x hx]; exact c1)
    rw [hv]; rfl
  by_cases c2 : 3 ≤ w
  · rw [if_neg (by omega), if_pos (by omega),
      herr .valueError fun x hx => yinFrame_short _ _ _ _ _ (by rw [hfl x hx]; omega) (by rw [hfl x hx]; omega)]
    rfl
  by_cases c3 : w = 2
  · rw [if_neg (by omega), if_neg (by omega)]
    obtain ⟨v, hv⟩ := hok fun x hx => yinFrame_two fs A T thr x (by rw [hfl x hx]; exact c3) (by omega)
    rw [hv]; rfl
  have ht : ∀ x ∈ W, raised (yinFrame fs A T thr x) =
      firstError [(T = 2 ∧ A ≤ 1, .indexError), (3 ≤ T, .valueError)] := fun x hx =>
    yinFrame_tiny fs A T thr x (by rw [hfl x hx]; omega) (by rw [hfl x hx]; omega)
  simp only [firstError] at ht
  by_cases c4 : T = 2 ∧ A ≤ 1
  · rw [if_pos (by omega), herr .indexError fun x hx => raised_some (by rw [ht x hx, if_pos c4])]; rfl
  by_cases c5 : 3 ≤ T
  · rw [if_neg (by omega), if_pos (by omega),
      herr .valueError fun x hx => raised_some (by rw [ht x hx, if_neg c4, if_pos c5])]; rfl
  · rw [if_neg (by omega), if_neg (by omega)]
    obtain ⟨v, hv⟩ := hok fun x hx => raised_none (by rw [ht x hx, if_neg c4, if_neg c5])
    rw [hv]; rfl

/-- The checks of `cqt_spectrogram`: the upper frequency; framing; no bins per octave; every window longer than `nfft`. -/
noncomputable def cqtChecks (a : CqtArgs) (len : ℕ) : List (Prop × Err) :=
  (a.fs / 2 < effHigh a.high a.fs, .parameterError "maximum frequency cannot be greater than half sampling frequency.") ::
    (frontChecks a.preEmph a.fs a.win len ++ [(a.bins = 0, .zeroDivisionError),
      (admissible a.f0 a.octaves a.bins a.low (effHigh a.high a.fs) a.fs a.qRate a.nfft = [], .indexError)])

theorem cqt_run (a : CqtArgs) (sig : List ℝ) (hfs : 0 < a.fs) (hq : 0 < a.qRate) (hf0 : 0 < a.f0)
    (hh : 0 ≤ a.win.winHop)
    (hband : a.bins ≠ 0 → inBand a.f0 a.octaves a.bins a.low (effHigh a.high a.fs) ≠ []) :
    raised (cqtSpectrogram a sig) = firstError (cqtChecks a sig.length) ∧
      ∀ q, cqtSpectrogram a sig = .ok q → a.bins ≠ 0 ∧
        admissible a.f0 a.octaves a.bins a.low (effHigh a.high a.fs) a.fs a.qRate a.nfft ≠ [] := by
  unfold cqtChecks cqtSpectrogram
  rw [firstError]
  by_cases h1 : effHigh a.high a.fs > a.fs / 2
  · rw [if_pos h1, if_pos h1]; exact ⟨rfl, fun q h => by cases h⟩
  rw [if_neg h1, if_neg h1, firstError_append, ← frontEnd_raised a.toArgs a.preEmphCoeff sig hfs.le hh]
  cases hW : frontEnd a.toArgs a.preEmphCoeff sig with
  | error e => exact ⟨rfl, fun q h => by cases h⟩
  | ok W =>
    have hnone := frontEnd_raised a.toArgs a.preEmphCoeff sig hfs.le hh
    rw [hW] at hnone
    obtain ⟨-, -, -, -, -, hw⟩ := frameChecks_none hfs.le hh (frontChecks_none hnone.symm)
    rw [ok_bind]
    simp only [raised, firstError]
    by_cases hB : a.bins = 0
    · rw [if_pos hB, computeCqt, cqtSelect, if_pos hB]
      exact ⟨rfl, fun q h => by cases h⟩
    rw [if_neg hB]
    by_cases hA : admissible a.f0 a.octaves a.bins a.low (effHigh a.high a.fs) a.fs a.qRate a.nfft = []
    · rw [if_pos hA]
      obtain ⟨f, hf⟩ := List.exists_mem_of_ne_nil _ (hband hB)
      rw [inBand, List.mem_filter, grid, List.mem_map] at hf
      obtain ⟨⟨i, hi, rfl⟩, hf⟩ := hf
      have herr := C69_raises W (low := a.low) (high := some (effHigh a.high a.fs)) (O := a.octaves) (nfft := a.nfft)
        (thr := a.thr) (t := a.win.winType) hfs hq hB hf0
        ⟨i, List.mem_range.mp hi, by rw [effHigh_idem]; simpa using hf⟩ (by
          intro j hj j1 j2
          rw [effHigh_idem] at j2
          by_contra j3
          have := List.ne_nil_of_mem (mem_admissible.mpr ⟨j, hj, rfl, j1, j2, not_lt.mp j3⟩)
          exact this hA)
      rw [herr]
      exact ⟨rfl, fun q h => by cases h⟩
    · rw [if_neg hA]
      choose w' hw' _ using fun n => (C14_window_vector a.win.winType n).1 hw
      have hcq := computeCqt_ok W (low := a.low) (high := some (effHigh a.high a.fs)) (O := a.octaves) (nfft := a.nfft)
        (thr := a.thr) hfs hq hB hf0 (by rw [effHigh_idem]; exact hA) w' hw'
      rw [hcq]
      exact ⟨rfl, fun _ _ => ⟨hB, hA⟩⟩

/-- C123: `cqt_spectrogram`, with some frequency of the grid in the band. -/
theorem C123_cqt_spectrogram (a : CqtArgs) (sig : List ℝ) (hfs : 0 < a.fs) (hq : 0 < a.qRate) (hf0 : 0 < a.f0)
    (hh : 0 ≤ a.win.winHop)
    (hband : a.bins ≠ 0 → inBand a.f0 a.octaves a.bins a.low (effHigh a.high a.fs) ≠ []) :
    raised (cqtSpectrogram a sig) = firstError (cqtChecks a sig.length) :=
  (cqt_run a sig hfs hq hf0 hh hband).1

/-- C123: `cqcc`: then no row left by the resampling, and the checks of the DCT and the post-processing on as many
values as there are admissible frequencies. -/
theorem C123_cqcc (a : CqtArgs) (sig : List ℝ) (hfs : 0 < a.fs) (hq : 0 < a.qRate) (hf0 : 0 < a.f0)
    (hh : 0 ≤ a.win.winHop)
    (hband : a.bins ≠ 0 → inBand a.f0 a.octaves a.bins a.low (effHigh a.high a.fs) ≠ []) :
    raised (cqcc a sig) = firstError (cqtChecks a sig.length ++
      [((((sig.length - ⌊a.win.winLen * a.fs⌋₊) / ⌊a.win.winHop * a.fs⌋₊ + 1 : ℕ) : ℝ) * a.ratio < 1, .valueError)] ++
      tailChecks { a.toArgs with useEnergy := false }
        (admissible a.f0 a.octaves a.bins a.low (effHigh a.high a.fs) a.fs a.qRate a.nfft).length) := by
  obtain ⟨hr, hok⟩ := cqt_run a sig hfs hq hf0 hh hband
  rw [List.append_assoc, firstError_append, ← hr, cqcc_eq]
  cases hcq : cqtSpectrogram a sig with
  | error e => rfl
  | ok q =>
    obtain ⟨hB, hA⟩ := hok q hcq
    obtain ⟨-, W, hW, hc, hrows⟩ := cqtSpectrogram_ok hcq
    have hnone := frontEnd_raised a.toArgs a.preEmphCoeff sig hfs.le hh
    rw [hW] at hnone
    obtain ⟨hle, hS, hS', hL', -, -⟩ := frameChecks_none hfs.le hh (frontChecks_none hnone.symm)
    obtain ⟨l, s, h1, h2, h3, h4⟩ := frontEnd_length hS hW
    have el : ⌊a.win.winLen * a.fs⌋₊ = l := by
      rw [← Int.floor_toNat, ← hL', h1]; rfl
    have es : ⌊a.win.winHop * a.fs⌋₊ = s := by
      rw [← Int.floor_toNat, ← hS', h2]; rfl
    have hshape := C68_shape W hfs hq hB hf0 q hc
    rw [effHigh_idem] at hshape
    have hne : q ≠ [] := by
      rw [← List.length_pos_iff, hshape.1]
      exact List.length_pos_iff.mpr hA
    have hcols : Np.ncols (q.map fun r => r.map cqtLogPower) = W.length := by
      cases q with
      | nil => exact absurd rfl hne
      | cons r q => simpa [Np.ncols] using hrows r (by simp)
    rw [ok_bind, el, es, ← h4, ← hshape.1]
    simp only [hcols, raised, List.cons_append, List.nil_append, firstError]
    have hnum : pyInt ((W.length : ℝ) * a.ratio) ≤ 0 ↔ (W.length : ℝ) * a.ratio < 1 := by
      unfold pyInt
      split_ifs with h
      · rw [← not_lt, Int.floor_pos, not_le]
      · push Not at h
        exact ⟨fun _ => by linarith, fun _ => Int.ceil_nonpos.mpr h.le⟩
    by_cases hn : (W.length : ℝ) * a.ratio < 1
    · rw [if_pos (Or.inr (hnum.mpr hn)), if_pos hn]
    rw [if_neg (by push Not; exact ⟨hne, by rw [← not_le, hnum]; exact hn⟩), if_neg hn]
    have hn0 : (pyInt ((W.length : ℝ) * a.ratio)).toNat ≠ 0 := by
      have : 0 < pyInt ((W.length : ℝ) * a.ratio) := by rw [← not_le, hnum]; exact hn
      omega
    generalize (pyInt ((W.length : ℝ) * a.ratio)).toNat = n at hn0
    rw [← cepstralTail_raised { a.toArgs with useEnergy := false } (List.range n) (by simpa using hn0) (fun _ => [])
      (cqccRow n q) q.length (by simp [cqccRow])]
    have : ((List.range n).map fun (t : ℕ) =>
        ((q.map fun r => r.map cqtLogPower).map (resample n)).map fun c => fin (c.getD t 0)) =
        (List.range n).map (cqccRow n q) := by
      apply List.map_congr_left
      intro t _
      rw [List.map_map, List.map_map]
      rfl
    rw [this]
    rfl

/-- An inverse mel bank without an upper frequency fails, but an unknown scale is reported first. -/
example : raised (inverseMelFilterBanks 24 512 16000 0 none "constant" "Oshaghnessy") = some .typeError ∧
    raised (inverseMelFilterBanks 24 512 16000 0 none "up" "Oshaghnessy") = some .keyError := by
  rw [C123_inverse_mel, C123_inverse_mel]
  simp [firstError]

/-- A gammatone bank accepts any conversion approach, and reports an order of 0 as a division by zero. -/
example : raised (gammatoneFilterBanks 24 512 16000 0 none "constant" 4 "?") = none ∧
    raised (gammatoneFilterBanks 24 512 16000 0 none "constant" 0 "Glasberg") = some .zeroDivisionError := by
  rw [C123_gammatone _ _ _ _ _ _ _ _ (by norm_num) (by simp), C123_gammatone _ _ _ _ _ _ _ _ (by norm_num) (by simp)]
  simp [firstError]

/-- Windows of 3 samples with 4 lags: `ValueError`; windows of 2 samples: no exception; windows of 1 sample with 2 lags:
`IndexError`. -/
example : raised (computeYin [1, 2, 3, 4, 5] 8 (3 / 8) (1 / 8) 2 4 0.1) = some .valueError ∧
    raised (computeYin [1, 2, 3, 4, 5] 8 (2 / 8) (1 / 8) 2 4 0.1) = none ∧
    raised (computeYin [1, 2, 3, 4, 5] 8 (1 / 8) (1 / 8) 4 8 0.1) = some .indexError := by
  rw [C123_yin _ _ _ _ _ _ _ (by norm_num) (by norm_num) (by norm_num) (by norm_num) (by norm_num),
    C123_yin _ _ _ _ _ _ _ (by norm_num) (by norm_num) (by norm_num) (by norm_num) (by norm_num),
    C123_yin _ _ _ _ _ _ _ (by norm_num) (by norm_num) (by norm_num) (by norm_num) (by norm_num)]
  norm_num [firstError]

/-- A signal that is too short is reported before an FFT size of 0. -/
example (sig : List ℝ) (h : sig.length < 400) (h2 : 240 ≤ sig.length) :
    raised (getDominant .ok sig 16000 0 {} false) = some .indexError ∧
    raised (getDominant .ok (sig ++ sig) 16000 0 {} false) = some .valueError := by
  have h3 : ⌊(0.025 : ℝ) * 16000⌋ = 400 := by norm_num [Int.floor_eq_iff]
  have h4 : ⌊(0.01 : ℝ) * 16000⌋ = 160 := by norm_num [Int.floor_eq_iff]
  rw [C123_dominant _ _ _ _ _ (by norm_num) (by norm_num), C123_dominant _ _ _ _ _ (by norm_num) (by norm_num)]
  constructor
  · simp only [frameChecks, firstError, List.cons_append, h3, h4]
    norm_num
    rw [if_neg (by omega), if_pos (by omega)]
  · simp only [frameChecks, firstError, List.cons_append, h3, h4, List.length_append]
    norm_num
    rw [if_neg (by omega)]
    simp [firstError]

/-- A resampling ratio of 0 leaves no row: `ValueError` for every signal that is long enough. -/
example (sig : List ℝ) (h : 400 ≤ sig.length) : raised (cqcc { ratio := 0 } sig) = some .valueError := by
  have h3 : ⌊(0.025 : ℝ) * 16000⌋ = 400 := by norm_num [Int.floor_eq_iff]
  have h4 : ⌊(0.010 : ℝ) * 16000⌋ = 160 := by norm_num [Int.floor_eq_iff]
  rw [C123_cqcc _ _ (by norm_num) (by norm_num) (by norm_num) (by norm_num [Args.win])]
  · have had := default_admissible
    simp only [cqtChecks, frontChecks, frameChecks, firstError, Args.win, List.cons_append, Option.getD_none, h3, h4]
    rw [if_neg (by norm_num [effHigh]), if_neg (by omega), if_neg (by norm_num), if_neg (by norm_num), if_neg (by omega), if_neg (by omega),
      if_neg (by simp)]
    simp only [List.nil_append, List.cons_append, firstError]
    rw [if_neg (by norm_num), if_neg had, if_pos (by norm_num)]
  · intro _
    apply List.ne_nil_of_mem (a := (120 : ℝ))
    rw [inBand, List.mem_filter]
    refine ⟨?_, by norm_num [effHigh]⟩
    rw [grid, List.mem_map]
    exact ⟨0, by simp, by norm_num⟩

end Props
end Spafe
