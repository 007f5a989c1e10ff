import Verif.Lemmas.PnccCausal
import Verif.Props.Locality
import Verif.Props.Dominant
import Verif.Props.Resample

/-! C140: how far the remaining frame-wise results look: `pncc` two frames ahead, `psrcc`, `cqcc` without resampling and
`get_dominant_frequencies` not beyond the frame. -/

set_option linter.unusedSectionVars false

namespace Spafe
namespace Props
open Model XF Spec

/-- The first `T` samples of two signals are the same. -/
def SameStart (sig sig' : List ℝ) (T : ℕ) : Prop := ∀ t < T, sig.getD t 0 = sig'.getD t 0

theorem SameStart.window {sig sig' : List ℝ} {T : ℕ} (h : SameStart sig sig' T) (b : Bool) {p l : ℕ} (hp : p + l ≤ T) :
    SameWindow b sig sig' p p l := by
  refine ⟨fun j hj => h _ (by omega), fun _ => ?_⟩
  unfold before
  split_ifs with h0
  · rfl
  · rcases Nat.lt_or_ge (p - 1) T with h1 | h1
    · exact h _ h1
    · omega

/-- C140: row `i` of `pncc` depends on the samples up to the end of frame `i + 2` only (two signals of any lengths for which frame
`i + 2` exists). -/
theorem C140_pncc (a : Args) (power : ℝ) (hn : a.normalize = none) (l s : ℕ)
    (hl : pyInt (a.win.winLen * a.fs) = l) (hs : pyInt (a.win.winHop * a.fs) = s) (h0 : 0 < s) (sig sig' : List ℝ)
    (m m' : XMat) (h : pncc a power sig = .ok m) (h' : pncc a power sig' = .ok m') (i : ℕ) (hi : i + 2 < m.length)
    (hi' : i + 2 < m'.length) (hw : SameStart sig sig' ((i + 2) * s + l)) : m.getD i [] = m'.getD i [] := by
  obtain ⟨-, fb, hfb, W, hW, -, -, V, hV, -, hm⟩ := (pncc_ok_iff ..).mp h
  obtain ⟨-, fb', hfb', W', hW', -, -, V', hV', -, hm'⟩ := (pncc_ok_iff ..).mp h'
  obtain rfl : fb = fb' := by rw [hfb] at hfb'; injection hfb'
  have hnn : a.noEnergy.normalize = none := hn
  simp only [normStep, hnn, Except.ok.injEq] at hm hm'
  have hrect : ∀ X : List (List ℝ), Np.Rect (X.map (pnRow a.nfft power fb)) fb.length := by
    intro X r hr
    obtain ⟨w, -, rfl⟩ := List.mem_map.mp hr
    simp [pnRow]
  obtain ⟨lV, -⟩ := nonlin_shape (hrect W) (by simpa using frontEnd_ne_nil hW) hV
  obtain ⟨lV', -⟩ := nonlin_shape (hrect W') (by simpa using frontEnd_ne_nil hW') hV'
  rw [List.length_map] at lV lV'
  subst hm hm'
  rw [List.length_map] at hi hi'
  have hrows : (W.map (pnRow a.nfft power fb)).take (i + 1 + 2) = (W'.map (pnRow a.nfft power fb)).take (i + 1 + 2) := by
    rw [← List.map_take, ← List.map_take]
    congr 1
    refine take_ext (by omega) (by omega) [] fun j hj => ?_
    refine frontEnd_local hl hs h0 hW hW' (by omega) (by omega) (hw.window _ ?_)
    have : j * s ≤ (i + 2) * s := Nat.mul_le_mul_right s (by omega)
    omega
  have hVV := nonlin_take (n := i + 1) (by omega) (hrect W) (hrect W') (by rw [List.length_map]; omega)
    (by rw [List.length_map]; omega) hrows hV hV'
  rw [getD_map_lt _ _ [] [] (by omega), getD_map_lt _ _ [] [] (by omega), getD_of_take (Nat.lt_succ_self i) hVV]

/-- C140: appending audio changes at most the last two rows of `pncc`. -/
theorem C140_pncc_append (a : Args) (power : ℝ) (hn : a.normalize = none) (l s : ℕ)
    (hl : pyInt (a.win.winLen * a.fs) = l) (hs : pyInt (a.win.winHop * a.fs) = s) (h0 : 0 < s) (sig ext : List ℝ)
    (m m' : XMat) (h : pncc a power sig = .ok m) (h' : pncc a power (sig ++ ext) = .ok m') (i : ℕ) (hi : i + 2 < m.length) :
    m.getD i [] = m'.getD i [] := by
  have len : ∀ (x : List ℝ) (M : XMat), pncc a power x = .ok M → l ≤ x.length ∧ M.length = (x.length - l) / s + 1 := by
    intro x M hM
    obtain ⟨-, fb, -, W, hW, -, -, V, hV, -, hm⟩ := (pncc_ok_iff ..).mp hM
    have hnn : a.noEnergy.normalize = none := hn
    simp only [normStep, hnn, Except.ok.injEq] at hm
    obtain ⟨lV, -⟩ := nonlin_shape (c := fb.length) (fun r hr => by
      obtain ⟨w, -, rfl⟩ := List.mem_map.mp hr
      simp [pnRow]) (by simpa using frontEnd_ne_nil hW) hV
    obtain ⟨-, l1, s1, w, e1, e2, -, e3, -, -, rfl⟩ := ((frontEnd_ok_iff a _ x W (by omega)).mp hW).2
    obtain rfl : l1 = l := by omega
    obtain rfl : s1 = s := by omega
    subst hm
    refine ⟨e3, ?_⟩
    rw [List.length_map, lV]
    simp
  obtain ⟨e1, e2⟩ := len _ _ h
  obtain ⟨e1', e2'⟩ := len _ _ h'
  have hmono : (sig.length - l) / s ≤ ((sig ++ ext).length - l) / s := Nat.div_le_div_right (by simp; omega)
  refine C140_pncc a power hn l s hl hs h0 sig (sig ++ ext) m m' h h' i hi (by omega) fun t ht => ?_
  have hfit := frame_fits (n := sig.length) (i := i + 2) (s := s) e1 (by omega)
  rw [List.getD_append _ _ _ _ (by omega)]

/-- The medium-time processing raises nothing on a matrix of numbers with one column per filter. -/
theorem pnccNonlin_total {n : ℕ} (hn : 1 ≤ n) {P : List (List ℝ)} (hPr : Np.Rect P n) (hP0 : P ≠ []) :
    ∃ V, pnccNonlin n (finMat P) = .ok V := by
  have hPl0 : 0 < P.length := List.length_pos_iff.mpr hP0
  have hQr := matOf_rect P.length n (rMedium 2 P)
  have hQ0 : matOf P.length n (rMedium 2 P) ≠ [] := by
    intro h; have := congrArg List.length h; rw [matOf_length, List.length_nil] at this; omega
  simp only [pnccNonlin]
  rw [mediumTimePower_fin hPr hP0, noiseSuppression_fin hQr hQ0, ok_bind, matOf_length]
  have hRr := matOf_rect P.length n (rNoise 0 (matOf P.length n (rMedium 2 P)))
  rw [weightSmoothing_ok (finMat_rect hRr) (by
    intro h; have := congrArg List.length h; rw [finMat_length, matOf_length, List.length_nil] at this; omega) le_rfl
    (fun l hl => by unfold wsLo wsHi; omega), ok_bind]
  generalize hT : mapMat2 (fun p s : XF ℝ => p * s) (finMat P) _ = T
  have hTs : T ≠ [] ∧ Np.Rect T n := by
    rw [← hT]
    refine ⟨fun h => ?_, mapMat2_rect _ (finMat_rect hPr) ?_⟩
    · have := congrArg List.length h
      rw [mapMat2_length _ _ _ (by simp), finMat_length, List.length_nil] at this; omega
    · intro r hr; obtain ⟨k, -, rfl⟩ := List.mem_map.mp hr; simp
  have hloop : ∀ (ts : XMat) (p : XF ℝ), Np.Rect ts n → ∃ v, myuLoop 0.999 n p ts = .ok v := by
    intro ts
    induction ts with
    | nil => intro p _; exact ⟨[], rfl⟩
    | cons t ts ih =>
      intro p hts
      simp only [myuLoop]
      rw [if_neg (by omega), if_neg (by rw [hts t (by simp)]; omega)]
      obtain ⟨v, hv⟩ := ih (fin (0.999 : ℝ) * p + fin ((1 - 0.999 : ℝ) / (n : ℕ)) * (t.take n).sum)
        (fun s hs => hts s (by simp [hs]))
      rw [hv]; exact ⟨_, rfl⟩
  cases T with
  | nil => exact absurd rfl hTs.1
  | cons t ts =>
    obtain ⟨v, hv⟩ := hloop ts (fin 0.0001) (fun s hs => hTs.2 s (by simp [hs]))
    simp only [meanPowerNormalization, hv, ok_bind]
    exact ⟨_, rfl⟩

/-- C140: with a non-negative bank of `nfilts ≥ 1` rows, a known window and a positive hop `pncc` is defined on every signal of at
least one frame, silent or not. -/
theorem C140_pncc_defined (a : Args) (power : ℝ) (hp : 0 < power) (fb : XMat) (hb : gammaBankOf a = .ok fb) (hfb : AllNonneg fb)
    (hfl : fb.length = a.nfilts) (h1 : 1 ≤ a.nfilts) (hc : a.numCeps ≤ a.nfilts) (hcol : ∀ r ∈ fb, r.length = a.nfft / 2 + 1)
    (hf : a.nfft ≠ 0) (hwin : WindowName a.win.winType) (hop : a.win.winHop ≤ a.win.winLen) (l s : ℕ)
    (hL : pyInt (a.win.winLen * a.fs) = l) (hS : pyInt (a.win.winHop * a.fs) = s) (h0 : 0 < s) (ht : TailOk a.noEnergy fb.length)
    (hn : a.normalize = none) (sig : List ℝ) (h : l ≤ sig.length) (hne : sig ≠ []) :
    ∃ m, pncc a power sig = .ok m ∧ HasShape m ((sig.length - l) / s + 1) (min a.numCeps fb.length) := by
  obtain ⟨w, hw1, hw2, -⟩ := (C14_window_vector a.win.winType l).1 hwin
  have hfe := (frontEnd_ok_iff a a.preEmphCoeff sig _ (by omega)).mpr ⟨fun e => hne e.2, hop, l, s, w, hL, hS, h0, h, hw1, hw2, rfl⟩
  obtain ⟨W, hW, hWl⟩ : ∃ W, frontEnd a a.preEmphCoeff sig = .ok W ∧ W.length = (sig.length - l) / s + 1 := ⟨_, hfe, by simp⟩
  obtain ⟨P, hP, -, hPr, hPl⟩ := pnMat hfb a.nfft hp W
  have hW0 := frontEnd_ne_nil hW
  have hP0 : P ≠ [] := by intro h; rw [h] at hPl; exact hW0 (List.length_eq_zero_iff.mp hPl.symm)
  rw [hfl] at hPr
  obtain ⟨V, hV⟩ := pnccNonlin_total h1 hPr hP0
  refine ⟨V.map fun x => tailRow a.noEnergy fb.length [] x, (pncc_ok_iff ..).mpr ⟨hc, fb, hb, W, hW, hf, hcol, V, ?_, ht, ?_⟩, ?_⟩
  · rw [hP]; exact hV
  · have hnn : a.noEnergy.normalize = none := hn
    simp only [normStep, hnn]
  · obtain ⟨e1, e2⟩ := nonlin_shape (finMat_rect hPr) (by
      intro h; have := congrArg List.length h; rw [finMat_length, List.length_nil] at this
      exact hP0 (List.length_eq_zero_iff.mp this)) hV
    refine ⟨by rw [List.length_map, e1, finMat_length, hPl, hWl], fun r hr => ?_⟩
    obtain ⟨x, hx, rfl⟩ := List.mem_map.mp hr
    exact tailRow_length ht [] x (by rw [hfl]; exact e2 x hx)

theorem pncc_default_defined (sig : List ℝ) (h : 400 ≤ sig.length) :
    ∃ m, pncc pnccDefaults 2 sig = .ok m ∧ m.length = (sig.length - 400) / 160 + 1 := by
  obtain ⟨fb, hb, hnn, hfl, hcol⟩ := pncc_defaults_bank
  obtain ⟨m, h1, h2⟩ := C140_pncc_defined pnccDefaults 2 (by norm_num) fb hb hnn hfl (by norm_num [pnccDefaults]) (by norm_num [pnccDefaults]) hcol
    (by norm_num [pnccDefaults]) (by simp [WindowName, Args.win, pnccDefaults]) (by norm_num [Args.win, pnccDefaults]) 400 160
    default_len (by norm_num [pnccDefaults, Args.win, pyInt]) (by norm_num) (by rw [hfl]; exact default_tail) rfl sig h
    (fun e => by simp [e] at h)
  exact ⟨m, h1, h2.1⟩

theorem demo2_bank_nonneg : AllNonneg (finMat [[1, 2], [3, 1]]) := by
  intro r hr v hv
  simp only [finMat, List.map_cons, List.map_nil, List.mem_cons, List.not_mem_nil, or_false] at hr
  rcases hr with rfl | rfl <;> simp at hv <;> rcases hv with rfl | rfl <;> exact ⟨_, by norm_num, rfl⟩

/-- C140: the two frames of look-ahead are used: frames of two samples with hop one, a signal of four zeros against three zeros and
a one. They differ in the last sample only, that is in frame 2, and row 0 is NaN for one and finite for the other. -/
theorem C140_pncc_lookahead : ∃ m m', pncc demo2 2 [0, 0, 0, 0] = .ok m ∧ pncc demo2 2 [0, 0, 0, 1] = .ok m' ∧
    m.length = 3 ∧ m'.length = 3 ∧ (m.getD 0 []).getD 0 0 = nan ∧ ∃ x, (m'.getD 0 []).getD 0 nan = fin x := by
  have S := demo2_setup
  have hS : ∀ x : List ℝ, x.length = 4 → Setup demo2 [[1, 2], [3, 1]] x 2 1 := fun x hx =>
    ⟨S.bank, S.cols, S.nonneg, S.rows, S.ceps, S.nfft, S.window, S.hopLe, S.len, S.hop, S.pos, by omega, fun _ e => by simp [e] at hx⟩
  obtain ⟨m, h1, h2⟩ := C140_pncc_defined demo2 2 (by norm_num) (finMat [[1, 2], [3, 1]]) rfl demo2_bank_nonneg (by simp [demo2])
    (by simp [demo2]) (by simp [demo2]) (finMat_cols S.cols) S.nfft S.window S.hopLe 2 1 S.len S.hop S.pos
    (by simp [TailOk, Args.noEnergy, demo2]) rfl [0, 0, 0, 0] (by simp) (by simp)
  obtain ⟨m', h1', h2', h3'⟩ := C106_pncc_meaning demo2 2 (by norm_num) _ [0, 0, 0, 1] 2 1 (hS _ rfl) rfl rfl rfl rfl 3 rfl _ rfl (by
    intro i n hi hn1 hn2
    have hn : n = 1 := by simp at hn2; omega
    subst hn
    unfold mediumTime
    apply div_pos _ (by norm_num)
    have h0 : i - 2 = 0 := by omega
    have h3 : min 3 (i + 3) = 3 := by omega
    rw [h0, h3]
    have hnn := bandPower_nonneg (fb := [[1, 2], [3, 1]]) S.nonneg 2 (windowWeight demo2.win.winType 2)
      (emphasised demo2.preEmph demo2.preEmphCoeff [0, 0, 0, 1]) 2 1 demo2.nfft
    refine Finset.sum_pos' (fun j _ => hnn j 1) ⟨2, by simp, ?_⟩
    unfold bandPower
    refine Finset.sum_pos' (fun k _ => ?_) ⟨0, by simp, ?_⟩
    · apply mul_nonneg (by positivity)
      rcases k with _ | _ | k <;> simp
    · have hz : frameBin (windowWeight demo2.win.winType 2)
          (emphasised demo2.preEmph demo2.preEmphCoeff [0, 0, 0, 1]) 2 1 demo2.nfft 2 0 ≠ 0 := by
        unfold frameBin
        simp [demo2, Args.win, windowWeight, emphasised, Finset.sum_range_succ]
        try norm_num
      have : (0 : ℝ) < ‖frameBin (windowWeight demo2.win.winType 2)
          (emphasised demo2.preEmph demo2.preEmphCoeff [0, 0, 0, 1]) 2 1 demo2.nfft 2 0‖ := norm_pos_iff.mpr hz
      have h2 : (0 : ℝ) < demo2.nfft := by simp [demo2]
      simp only [List.getD_cons_succ, List.getD_cons_zero]
      positivity)
  refine ⟨m, m', h1, h1', by simpa using h2.1, h2'.1, ?_, _, h3' 0 0 (by norm_num) (by simp [demo2])⟩
  obtain ⟨-, h4⟩ := C42_pncc_silence_nan demo2 2 (by norm_num) (finMat [[1, 2], [3, 1]]) rfl demo2_bank_nonneg (by simp [demo2])
    (by simp [demo2]) rfl rfl 4 m h1
  have hl : 0 < m.length := by rw [h2.1]; simp
  exact h4 _ (getD_mem _ hl) _ (getD_mem _ (by rw [h2.2 _ (getD_mem _ hl)]; simp [demo2]))

/-- The hypotheses are met: with the default arguments all but the last two of the 98 rows of one second are final. -/
example (sig ext : List ℝ) (h : sig.length = 16000) : ∃ m m', pncc pnccDefaults 2 sig = .ok m ∧
    pncc pnccDefaults 2 (sig ++ ext) = .ok m' ∧ m.length = 98 ∧ ∀ i < 96, m.getD i [] = m'.getD i [] := by
  obtain ⟨m, h1, h2⟩ := pncc_default_defined sig (by omega)
  obtain ⟨m', h1', h2'⟩ := pncc_default_defined (sig ++ ext) (by simp; omega)
  rw [h] at h2
  norm_num at h2
  refine ⟨m, m', h1, h1', h2, fun i hi => ?_⟩
  exact C140_pncc_append pnccDefaults 2 rfl 400 160 default_len (by norm_num [pnccDefaults, Args.win, pyInt]) (by norm_num)
    sig ext m m' h1 h1' i (by omega)

theorem phX_regular {a : Args} {fb : XMat} (hfb : AllNonneg fb) (w : List ℝ) :
    ∀ v ∈ phX a fb w, v.isNan = false ∧ v ≠ ninf := by
  intro v hv
  obtain ⟨u, hu, rfl⟩ := List.mem_map.mp hv
  obtain ⟨y, hy, rfl⟩ := phRow_nonneg hfb _ _ u hu
  rcases hy.lt_or_eq with h1 | rfl
  · unfold nanToZero XF.pow
    by_cases hg : a.gamma = 0
    · simp [hg, isNan]
    · simp [hg, h1, isNan]
  · unfold nanToZero XF.pow
    by_cases hg : a.gamma = 0
    · simp [hg, isNan]
    · by_cases hg' : 0 < a.gamma <;> simp [hg, hg', isNan]

/-- With a non-negative bank `psrcc` without normalisation is computed frame by frame: the maximum over the whole array is only
put in places where it is already. -/
theorem psrcc_rows {a : Args} {fb : XMat} (hb : melBankOf a = .ok fb) (hfb : AllNonneg fb) (hn : a.normalize = none)
    {sig : List ℝ} {m : XMat} (h : psrcc a sig = .ok m) : ∃ W, frontEnd a a.preEmphCoeff sig = .ok W ∧
      m = W.map fun w => tailRow a fb.length (Np.absRfft a.nfft w) (phX a fb w) := by
  obtain ⟨-, fb', hb', W, hW, -, -, ht, hm⟩ := (psrcc_ok_iff ..).mp h
  obtain rfl : fb = fb' := by rw [hb] at hb'; injection hb'
  simp only [normStep, hn, Except.ok.injEq] at hm
  subst hm
  refine ⟨W, hW, ?_⟩
  have hfix : infToMax (W.map (phX a fb)) = W.map (phX a fb) := by
    apply C42_psrcc_repair_is_identity
    intro r hr v hv
    obtain ⟨w, -, rfl⟩ := List.mem_map.mp hr
    exact phX_regular hfb w v hv
  have h1 : W.map (fun w => (phX a fb w).map (fixInf (phMax a fb W))) = W.map (phX a fb) := by
    conv_rhs => rw [← hfix]
    unfold infToMax; rw [List.map_map]; rfl
  apply List.map_congr_left
  intro w hw
  rw [List.map_inj_left.mp h1 w hw]

/-- C140: a row of `psrcc` depends on the samples under its window only, although the code takes a maximum over all frames. -/
theorem C140_psrcc (a : Args) (fb : XMat) (hb : melBankOf a = .ok fb) (hfb : AllNonneg fb) (hn : a.normalize = none) (l s : ℕ)
    (hl : pyInt (a.win.winLen * a.fs) = l) (hs : pyInt (a.win.winHop * a.fs) = s) (h0 : 0 < s) (sig sig' : List ℝ)
    (m m' : XMat) (h : psrcc a sig = .ok m) (h' : psrcc a sig' = .ok m') (i i' : ℕ) (hi : i < m.length) (hi' : i' < m'.length)
    (hw : SameWindow a.preEmph sig sig' (i * s) (i' * s) l) : m.getD i [] = m'.getD i' [] := by
  obtain ⟨W, hW, rfl⟩ := psrcc_rows hb hfb hn h
  obtain ⟨W', hW', rfl⟩ := psrcc_rows hb hfb hn h'
  rw [List.length_map] at hi hi'
  rw [getD_map_lt _ _ [] [] hi, getD_map_lt _ _ [] [] hi', frontEnd_local hl hs h0 hW hW' hi hi' hw]

/-- The hypotheses are met, whatever sample 3 of a four-sample signal is: the first two rows are those of the first three samples. -/
example (y : ℝ) : ∃ m m', psrcc demo2 [5, 1, 4] = .ok m ∧ psrcc demo2 [5, 1, 4, y] = .ok m' ∧ m.length = 2 ∧
    m.getD 1 [] = m'.getD 1 [] := by
  have S := demo2_setup
  have S' : Setup demo2 [[1, 2], [3, 1]] [5, 1, 4, y] 2 1 :=
    ⟨S.bank, S.cols, S.nonneg, S.rows, S.ceps, S.nfft, S.window, S.hopLe, S.len, S.hop, S.pos, by simp, by simp⟩
  obtain ⟨m, h1, h2, -⟩ := C101_psrcc_meaning demo2 _ _ 2 1 S rfl rfl rfl rfl (Or.inl (by simp [demo2]))
  obtain ⟨m', h1', h2', -⟩ := C101_psrcc_meaning demo2 _ _ 2 1 S' rfl rfl rfl rfl (Or.inl (by simp [demo2]))
  refine ⟨m, m', h1, h1', by rw [h2.1]; simp, ?_⟩
  refine C140_psrcc demo2 (finMat [[1, 2], [3, 1]]) rfl demo2_bank_nonneg rfl 2 1 S.len S.hop (by norm_num) _ _ m m' h1 h1' 1 1
    (by rw [h2.1]; simp) (by rw [h2'.1]; simp) ⟨fun j hj => ?_, fun _ => ?_⟩
  · rcases j with _ | _ | j <;> simp at hj ⊢
  · simp [before]

/-- C140: without resampling in time and without normalisation a row of `cqcc` depends on the samples under its window only. -/
theorem C140_cqcc (a : CqtArgs) (hr : a.ratio = 1) (hn : a.normalize = none) (l s : ℕ)
    (hl : pyInt (a.win.winLen * a.fs) = l) (hs : pyInt (a.win.winHop * a.fs) = s) (h0 : 0 < s) (sig sig' : List ℝ)
    (m m' : XMat) (h : cqcc a sig = .ok m) (h' : cqcc a sig' = .ok m') (i i' : ℕ) (hi : i < m.length) (hi' : i' < m'.length)
    (hw : SameWindow a.preEmph sig sig' (i * s) (i' * s) l) : m.getD i [] = m'.getD i' [] := by
  have key : ∀ (x : List ℝ) (M : XMat), cqcc a x = .ok M → ∃ q, cqtSpectrogram a x = .ok q ∧ (∀ r ∈ q, r.length = M.length) ∧
      ∀ i < M.length, M.getD i [] = tailRow { a.toArgs with useEnergy := false } q.length []
        ((q.map fun r => cqtLogPower (r.getD i 0)).map fin) := by
    intro x M hM
    obtain ⟨q, hcq, hne, hnum, ht, hns⟩ := (cqcc_ok_iff a x M).mp hM
    obtain ⟨-, W, hW, -, hrows⟩ := cqtSpectrogram_ok hcq
    have hcols : Np.ncols q = W.length := by
      cases q with
      | nil => exact absurd rfl hne
      | cons r q => simpa [Np.ncols] using hrows r (by simp)
    have hN : cqccNum a.ratio (Np.ncols q) = (W.length : ℤ) := by
      unfold cqccNum
      rw [hr, mul_one, hcols]
      simp [pyInt]
    rw [hN, Int.toNat_natCast] at hns
    have hns2 : ∀ (N : ℕ) (x : XMat), normStep { a.toArgs with useEnergy := false } N x = .ok x := by
      intro N x
      unfold normStep
      simp only [hn]
    rw [hns2] at hns
    injection hns with hns
    have hlen : M.length = W.length := by rw [← hns]; simp
    refine ⟨q, hcq, fun r hr => by rw [hrows r hr, hlen], fun i hi => ?_⟩
    rw [hlen] at hi
    rw [← hns, getD_map_range_lt _ _ hi]
    refine congrArg _ ?_
    unfold cqccRow
    rw [List.map_map]
    apply List.map_congr_left
    intro r hr
    have e : (r.map cqtLogPower).length = W.length := by rw [List.length_map, hrows r hr]
    rw [← e, resample_self, getD_map_lt _ r 0 _ (by rw [hrows r hr]; exact hi)]
    rfl
  obtain ⟨q, hq, hrows, hM⟩ := key _ _ h
  obtain ⟨q', hq', hrows', hM'⟩ := key _ _ h'
  obtain ⟨hqq, hloc⟩ := C111_cqt_local a l s hl hs h0 sig sig' q q' hq hq'
  rw [hM i hi, hM' i' hi', hqq]
  congr 2
  refine ext_getD 0 (by simp [hqq]) fun k hk => ?_
  rw [List.length_map] at hk
  rw [getD_map_lt _ q [] _ hk, getD_map_lt _ q' [] _ (by omega)]
  congr 1
  refine hloc k hk i i' ?_ ?_ hw
  · rw [hrows _ (getD_mem _ hk)]; exact hi
  · rw [hrows' _ (getD_mem _ (by omega))]; exact hi'

/-- The hypotheses are met: with the default arguments the rows of `cqcc` stay when audio is appended. -/
example (sig ext : List ℝ) (h : 400 ≤ sig.length) : ∃ m m', cqcc {} sig = .ok m ∧ cqcc {} (sig ++ ext) = .ok m' ∧
    m.getD 0 [] = m'.getD 0 [] := by
  have hdef : ∀ x : List ℝ, 400 ≤ x.length → ∃ m, cqcc {} x = .ok m ∧ AllFinite m := by
    intro x hx
    refine C93_defined {} (by norm_num) (by norm_num) (by norm_num) (by norm_num) (by norm_num [effHigh]) ?_
      (by simp [WindowName, Args.win]) (by norm_num [Args.win]) default_hop default_len rfl rfl rfl x hx ?_
    · exact default_admissible
    · rw [mul_one]
      exact_mod_cast Nat.le_add_left 1 _
  have hpos : ∀ {x : List ℝ} {m : XMat}, cqcc {} x = .ok m → 0 < m.length := by
    intro x m hm
    obtain ⟨q, -, -, -, -, h0, -⟩ := cqcc_entry {} rfl rfl rfl x m hm
    exact h0
  obtain ⟨m, h1, -⟩ := hdef sig h
  obtain ⟨m', h1', -⟩ := hdef (sig ++ ext) (by simp; omega)
  refine ⟨m, m', h1, h1', C140_cqcc {} rfl rfl 400 160 default_len (by norm_num [Args.win, pyInt]) (by norm_num) sig (sig ++ ext)
    m m' h1 h1' 0 0 (hpos h1) (hpos h1') ⟨fun j hj => ?_, fun _ => rfl⟩⟩
  rw [List.getD_append _ _ _ _ (by omega)]

/-- C140: an entry of `get_dominant_frequencies` (no filter, all values kept) depends on the samples under its window only. -/
theorem C140_dominant {sig sig' ds ds' : List ℝ} {fs : ℝ} {nfft l s : ℕ} {win : SlidingWindow}
    (hl : pyInt (win.winLen * fs) = l) (hs : pyInt (win.winHop * fs) = s) (h0 : 0 < s)
    (h : getDominant .ok sig fs nfft win false = .ok ds) (h' : getDominant .ok sig' fs nfft win false = .ok ds')
    (i i' : ℕ) (hi : i < ds.length) (hi' : i' < ds'.length)
    (hw : ∀ j < l, sig.getD (i * s + j) 0 = sig'.getD (i' * s + j) 0) : ds.getD i 0 = ds'.getD i' 0 := by
  obtain ⟨-, l1, s1, w, k, e1, e2, -, e3, e4, hk, hds⟩ := dominant_form (x := sig) rfl (by omega) h
  obtain ⟨-, l2, s2, w', k', e1', e2', -, e3', e4', hk', hds'⟩ := dominant_form (x := sig') rfl (by omega) h'
  obtain rfl : l1 = l := by omega
  obtain rfl : s1 = s := by omega
  obtain rfl : l2 = l1 := by omega
  obtain rfl : s2 = s1 := by omega
  obtain rfl : w = w' := by rw [e4] at e4'; injection e4'
  simp only [Bool.false_eq_true, if_false] at hds hds'
  subst hds hds'
  rw [List.length_map, List.length_range] at hi hi'
  rw [getD_map_range_lt _ _ hi, getD_map_range_lt _ _ hi']
  have hf : windowedFrame sig w l2 s2 i = windowedFrame sig' w l2 s2 i' := by
    unfold windowedFrame
    congr 1
    have := same_frame (b := false) (c := 0) (sig := sig) (sig' := sig') (p := i * s2) (p' := i' * s2) (l := l2)
      ⟨hw, by simp⟩ (frame_fits e3 hi) (frame_fits e3' hi')
    simpa using this
  have h1 := hk i hi
  have h2 := hk' i' hi'
  rw [hf] at h1
  have : k i = k' i' := by
    rcases Nat.lt_trichotomy (k i) (k' i') with h3 | h3 | h3
    · exact absurd (h1.2.1 _ h2.1) (not_le.mpr (h2.2.2 _ h3))
    · exact h3
    · exact absurd (h2.2.1 _ h1.1) (not_le.mpr (h1.2.2 _ h3))
  rw [this]

/-- The hypotheses are met by the default arguments: the first entry of a signal of 400 samples stays when audio is appended. -/
example (sig ext : List ℝ) (h : sig.length = 400) : ∃ ds ds', getDominant .ok sig 16000 512 {} false = .ok ds ∧
    getDominant .ok (sig ++ ext) 16000 512 {} false = .ok ds' ∧ ds.getD 0 0 = ds'.getD 0 0 := by
  have hS : pyInt ((({} : SlidingWindow).winHop) * 16000) = ((160 : ℕ) : ℤ) := by norm_num [pyInt]
  have hL : pyInt ((({} : SlidingWindow).winLen) * 16000) = ((400 : ℕ) : ℤ) := by norm_num [pyInt]
  have hS' : 0 < pyInt ((({} : SlidingWindow).winHop) * 16000) := by rw [hS]; norm_num
  obtain ⟨ds, hds⟩ := (C100_defined (sig := sig) (fs := 16000) (nfft := 512) (win := {}) false (by simp [WindowName]) hS' hL
    (by omega)).1 (by norm_num) (by norm_num)
  obtain ⟨ds', hds'⟩ := (C100_defined (sig := sig ++ ext) (fs := 16000) (nfft := 512) (win := {}) false (by simp [WindowName]) hS' hL
    (by simp; omega)).1 (by norm_num) (by norm_num)
  have hpos : ∀ {x e : List ℝ}, getDominant .ok x 16000 512 {} false = .ok e → 0 < e.length := by
    intro x e he
    obtain ⟨-, l, s, w, k, -, -, -, -, -, -, rfl⟩ := dominant_form (x := x) rfl hS' he
    simp
  refine ⟨ds, ds', hds, hds', C140_dominant hL hS (by norm_num) hds hds' 0 0 (hpos hds) (hpos hds') fun j hj => ?_⟩
  rw [List.getD_append _ _ _ _ (by omega)]

end Props
end Spafe
