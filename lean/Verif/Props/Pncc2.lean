import Verif.Lemmas.Pncc2
import Verif.Props.Pncc
import Verif.Props.Features2

/-! Properties C37, C38, C39, C42 and C47 for `pncc`, `spafe/features/pncc.py:274-457`. -/

set_option linter.unusedSectionVars false

namespace Spafe
namespace Props
open XF Spec Model

/-! ### C37 -/

private theorem noParam_myu (lam : ℝ) (L : ℕ) (ts : XMat) (p : XF ℝ) : NoParam (myuLoop lam L p ts) := by
  induction ts generalizing p with
  | nil => exact NoParam.ok _
  | cons t ts ih =>
    simp only [myuLoop]
    split_ifs
    · exact NoParam.err _ (by simp)
    · exact NoParam.err _ (by simp)
    · exact (ih _).bind fun _ => NoParam.ok _

private theorem noParam_asym (Q : XMat) (a b : ℝ) : NoParam (asymmetricLowpass Q a b) := by
  unfold asymmetricLowpass; split_ifs
  · exact NoParam.err _ (by simp)
  · exact NoParam.ok _

private theorem noParam_mask (Q : XMat) (a b : ℝ) : NoParam (temporalMasking Q a b) := by
  unfold temporalMasking
  cases Q with
  | nil => exact NoParam.err _ (by simp)
  | cons q qs => exact NoParam.ok _

private theorem noParam_ws (R Q : XMat) (L N : ℕ) : NoParam (weightSmoothing R Q L N) := by
  unfold weightSmoothing
  apply NoParam.mapM
  intro m
  apply NoParam.mapM
  intro l
  unfold wsEntry; split_ifs
  · exact NoParam.err _ (by simp)
  · exact NoParam.err _ (by simp)
  · exact NoParam.ok _

private theorem noParam_mean (T : XMat) (lam : ℝ) (L : ℕ) (k : ℝ) : NoParam (meanPowerNormalization T lam L k) := by
  unfold meanPowerNormalization
  cases T with
  | nil => exact NoParam.err _ (by simp)
  | cons t ts => exact (noParam_myu _ _ _ _).bind fun _ => NoParam.ok _

private theorem noParam_nonlin (n : ℕ) (P : XMat) : NoParam (pnccNonlin n P) := by
  unfold pnccNonlin
  refine NoParam.bind ?_ fun R => (noParam_ws _ _ _ _).bind fun S => (noParam_mean _ _ _ _).bind fun U => NoParam.ok _
  unfold noiseSuppression
  exact (noParam_asym _ _ _).bind fun _ => (noParam_asym _ _ _).bind fun _ => (noParam_mask _ _ _).bind fun _ =>
    NoParam.ok _

/-- C37 for pncc: `ParameterError(nfilts)` exactly when more cepstra than filters are requested. -/
theorem C37_pncc_nfilts_check (a : Args) (power : ℝ) (sig : List ℝ) :
    pncc a power sig = .error (.parameterError "number of filters must be bigger than number of cepstrums") ↔
      a.nfilts < a.numCeps := by
  unfold pncc
  split_ifs with h
  · simp only [h, iff_true]; rfl
  · simp only [h, iff_false]
    refine NoNf.ne (NoNf.bind (noNf_getFbanks (noNf_gamma ..)) fun fb => NoNf.bind ?_ fun P => noNfP
      ((noParam_nonlin _ _).bind fun V => noParam_tail _ _ _))
    unfold pnccPower
    refine (noNf_frontEnd _ _ _).bind fun W => noNfP ((noParam_absFft _ _).bind fun ft => ?_)
    split_ifs
    · exact NoParam.ok _
    · exact NoParam.err _ (by simp)

/-! ### C38 -/

/-- C38 for pncc: one row per frame and `min(num_ceps, number of filters)` columns. -/
theorem C38_pncc_shape (a : Args) (power : ℝ) (sig : List ℝ) (m : XMat) (hS : 0 < pyInt (a.win.winHop * a.fs))
    (h : pncc a power sig = .ok m) :
    ∃ l s : ℕ, pyInt (a.win.winLen * a.fs) = l ∧ pyInt (a.win.winHop * a.fs) = s ∧ l ≤ sig.length ∧
      HasShape m ((sig.length - l) / s + 1) (min a.numCeps (numFilters a)) := by
  obtain ⟨-, fb, hfb, W, hW, -, -, V, hV, ht, hm⟩ := (pncc_ok_iff ..).mp h
  have hfl : fb.length = numFilters a :=
    getFbanks_length (fun p hp => (C25_gammatone_shape (bank := p.1) (cs := p.2) hp).1) hfb
  have hr : Np.Rect (W.map (pnRow a.nfft power fb)) fb.length := by
    intro r hr
    obtain ⟨w, -, rfl⟩ := List.mem_map.mp hr
    simp [pnRow]
  obtain ⟨h1, h2⟩ := nonlin_shape hr (by simpa using frontEnd_ne_nil hW) hV
  have := normStep_shape (fun r hr => ?_) hm
  · obtain ⟨l, s, h3, h4, h5, h6⟩ := frontEnd_length hS hW
    refine ⟨l, s, h3, h4, h5, ?_, fun r hr => ?_⟩
    · rw [this.1, List.length_map, h1, List.length_map, h6]
    · rw [this.2 r hr, hfl]; rfl
  · obtain ⟨w, hw, rfl⟩ := List.mem_map.mp hr
    exact tailRow_length ht _ _ (h2 w hw)

/-! ### C39 -/

/-- C39 for pncc: passing the bank of `gammatone_filter_banks` for the same parameters changes nothing. -/
theorem C39_pncc_precomputed_bank (a : Args) (power : ℝ) (sig : List ℝ) (fb : XMat) (cs : List (Option (XF ℝ)))
    (h : gammatoneFilterBanks a.nfilts a.nfft a.fs a.low a.high a.scale 4 a.approach = .ok (fb, cs)) :
    pncc { a with fbanks := some fb } power sig = pncc { a with fbanks := none } power sig := by
  simp only [pncc, gammaBankOf, getFbanks, h, ok_bind]; rfl

/-! ### C42 -/

private theorem pnRow_nonneg {fb : XMat} (h : AllNonneg fb) (nfft : ℕ) {power : ℝ} (hp : 0 < power) (w : List ℝ) :
    NonnegRow (pnRow nfft power fb w) := by
  intro v hv
  obtain ⟨f, hf, rfl⟩ := List.mem_map.mp hv
  have hfr : NonnegRow f := h f hf
  obtain ⟨f', rfl⟩ := (finRow_iff f).mp hfr.finRow
  have e : ((Np.absRfft nfft w).map fun v => fin (1 / (nfft : ℝ)) * XF.pow (fin v) power) =
      ((Np.absRfft nfft w).map fun v => 1 / (nfft : ℝ) * v ^ power).map fin := by
    rw [List.map_map]
    apply List.map_congr_left
    intro v hv
    obtain ⟨k, -, rfl⟩ := List.mem_map.mp hv
    rw [XF.pow_nonneg' (norm_nonneg _) hp]; rfl
  rw [e]
  refine ⟨_, dot_nonneg ?_ ?_, dot_fin _ _⟩
  · intro x hx
    obtain ⟨v, hv, rfl⟩ := List.mem_map.mp hx
    obtain ⟨k, -, rfl⟩ := List.mem_map.mp hv
    have := Real.rpow_nonneg (norm_nonneg (Np.dft w nfft k)) power
    positivity
  · intro x hx
    obtain ⟨y, hy, he⟩ := hfr (fin x) (List.mem_map.mpr ⟨x, hx, rfl⟩)
    injection he with he; rw [he]; exact hy

theorem pnMat {fb : XMat} (h : AllNonneg fb) (nfft : ℕ) {power : ℝ} (hp : 0 < power) (W : List (List ℝ)) :
    ∃ P, W.map (pnRow nfft power fb) = finMat P ∧ NonnegMat P ∧ Np.Rect P fb.length ∧ P.length = W.length := by
  have hfin : AllFinite (W.map (pnRow nfft power fb)) := by
    intro r hr v hv
    obtain ⟨w, -, rfl⟩ := List.mem_map.mp hr
    exact (pnRow_nonneg h nfft hp w).finRow v hv
  obtain ⟨P, hP⟩ := finMat_of_allFinite hfin
  have hmem : ∀ r ∈ P, ∃ w ∈ W, pnRow nfft power fb w = r.map fin := by
    intro r hr
    have : r.map fin ∈ finMat P := List.mem_map.mpr ⟨r, hr, rfl⟩
    rw [← hP] at this
    exact List.mem_map.mp this
  refine ⟨P, hP, ?_, ?_, ?_⟩
  · intro r hr v hv
    obtain ⟨w, -, hw⟩ := hmem r hr
    obtain ⟨x, hx, he⟩ := pnRow_nonneg h nfft hp w (fin v) (by rw [hw]; exact List.mem_map.mpr ⟨v, hv, rfl⟩)
    injection he with he; rw [he]; exact hx
  · intro r hr
    obtain ⟨w, -, hw⟩ := hmem r hr
    have := congrArg List.length hw
    simpa [pnRow] using this.symm
  · have := congrArg List.length hP
    simpa using this.symm

/-- C42 (violated by pncc): let frame `j` of the windowed signal and its neighbours up to distance two be silent. Then
row `j` of the result is all NaN; if `j ≥ 1`, so is **every later row**, whatever the signal does afterwards, because
the running mean power has become NaN. (Any bank of `nfilts ≥ 2` non-negative filters, any `power > 0`.) -/
theorem C42_pncc_silent_stretch_nan (a : Args) (power : ℝ) (hp : 0 < power) (fb : XMat) (hb : gammaBankOf a = .ok fb)
    (hfb : AllNonneg fb) (hlen : fb.length = a.nfilts) (hn2 : 2 ≤ a.nfilts) (hl : a.lifter = none)
    (hn : a.normalize = none) (sig : List ℝ) (W : List (List ℝ)) (hW : frontEnd a a.preEmphCoeff sig = .ok W)
    (j : ℕ) (hj : j < W.length)
    (hsil : ∀ i, i < W.length → i ≤ j + 2 → j ≤ i + 2 → ∀ k, (W.getD i []).getD k 0 = 0)
    (m : XMat) (h : pncc a power sig = .ok m) (i : ℕ) (hi : i < W.length) (hij : i = j ∨ (1 ≤ j ∧ j ≤ i)) :
    ∀ v ∈ m.getD i [], v = nan := by
  obtain ⟨-, fb', hb', W', hW', -, hcol, V, hV, ht, hm⟩ := (pncc_ok_iff ..).mp h
  obtain rfl : fb = fb' := by rw [hb] at hb'; injection hb'
  obtain rfl : W = W' := by rw [hW] at hW'; injection hW'
  have hn' : a.noEnergy.normalize = none := hn
  simp only [normStep, hn', Except.ok.injEq] at hm
  obtain ⟨P, hP, hnn, hPr, hPl⟩ := pnMat hfb a.nfft hp W
  rw [hP] at hV
  have hP' : Np.Rect P a.nfilts := by rw [← hlen]; exact hPr
  have hzero : ∀ i, i < P.length → i ≤ j + 2 → j ≤ i + 2 → ∀ l, l < a.nfilts → Np.at2 P i l = 0 := by
    intro i hi h1 h2 l hl
    have hz := hsil i (by omega) h1 h2
    have hrow : pnRow a.nfft power fb (W.getD i []) = (P.getD i []).map fin := by
      have h3 : (W.map (pnRow a.nfft power fb)).getD i [] = (finMat P).getD i [] := by rw [hP]
      rw [getD_map_lt _ _ [] _ (by omega), finMat, getD_map_lt _ _ [] _ hi] at h3
      exact h3
    have hl' : l < fb.length := by omega
    have h4 : fin (Np.at2 P i l) = fin 0 := by
      have : ((P.getD i []).map fin).getD l 0 = fin (Np.at2 P i l) := by
        rw [getD_map_lt _ _ 0 _ (by rw [rect_row hPr hi]; exact hl')]; rfl
      rw [← this, ← hrow, pnRow, getD_map_lt _ _ [] _ hl']
      have hp0 : ((Np.absRfft a.nfft (W.getD i [])).map fun v => fin (1 / (a.nfft : ℝ)) * XF.pow (fin v) power) =
          ((List.range (a.nfft / 2 + 1)).map fun _ => (0:ℝ)).map fin := by
        unfold Np.absRfft
        rw [List.map_map, List.map_map]
        apply List.map_congr_left
        intro k _
        simp only [Function.comp, dft_silence hz, norm_zero]
        rw [XF.pow_nonneg' le_rfl hp, Real.zero_rpow hp.ne', XF.fin_mul, mul_zero]
      rw [hp0]
      exact dot_zeros _ (hfb _ (getD_mem _ hl'))
    injection h4
  have hVn := pnccNonlin_nan hP' hn2 hnn hV (j := j) (by omega) hzero hij (by omega)
  have hVl : i < V.length := by
    have := (nonlin_shape (finMat_rect hPr) (by
      intro h; have := congrArg List.length h; rw [finMat_length, List.length_nil] at this; omega) hV).1
    rw [this, finMat_length]; omega
  rw [← hm, getD_map_lt _ _ [] _ hVl]
  intro v hv
  simp only [tailRow, Model.Args.noEnergy, hl, Bool.false_eq_true, if_false] at hv
  exact dctRow_nan hVn _ v (List.mem_of_mem_take hv)

/-- C42 (violated by pncc): on a silent signal the whole result is NaN. -/
theorem C42_pncc_silence_nan (a : Args) (power : ℝ) (hp : 0 < power) (fb : XMat) (hb : gammaBankOf a = .ok fb)
    (hfb : AllNonneg fb) (hlen : fb.length = a.nfilts) (hn2 : 2 ≤ a.nfilts) (hl : a.lifter = none)
    (hn : a.normalize = none) (n : ℕ) (m : XMat) (h : pncc a power (List.replicate n 0) = .ok m) :
    m ≠ [] ∧ ∀ r ∈ m, ∀ v ∈ r, v = nan := by
  obtain ⟨-, fb', hb', W, hW, -, -, V, hV, ht, hm⟩ := (pncc_ok_iff ..).mp h
  have hn' : a.noEnergy.normalize = none := hn
  simp only [normStep, hn', Except.ok.injEq] at hm
  have hr : Np.Rect (W.map (pnRow a.nfft power fb')) fb'.length := by
    intro r hr
    obtain ⟨w, -, rfl⟩ := List.mem_map.mp hr
    simp [pnRow]
  have hW0 := frontEnd_ne_nil hW
  have h1 := (nonlin_shape hr (by simpa using hW0) hV).1
  have hml : m.length = W.length := by rw [← hm, List.length_map, h1, List.length_map]
  refine ⟨fun h => ?_, fun r hr => ?_⟩
  · rw [h] at hml; exact hW0 (List.length_eq_zero_iff.mp hml.symm)
  · obtain ⟨i, hi, rfl⟩ := (mem_iff_getD [] r).mp hr
    exact C42_pncc_silent_stretch_nan a power hp fb hb hfb hlen hn2 hl hn _ W hW i (by omega)
      (fun k hk _ _ => frontEnd_silence hW _ (getD_mem _ hk)) m h i (by omega) (.inl rfl)

/-- C42 (the part that holds for pncc): with a non-negative bank of `nfilts ≥ 1` filters, `power > 0` and no
normalisation, the result is finite if in every channel but the first, every frame has a frame at distance at most two
with positive filter output (`pnccPower` is the matrix of filter outputs). Missing: signals with silent stretches or
empty channels. -/
theorem C42_pncc_finite_partial (a : Args) (power : ℝ) (hp : 0 < power) (fb : XMat) (hb : gammaBankOf a = .ok fb)
    (hfb : AllNonneg fb) (hlen : fb.length = a.nfilts) (hn1 : 1 ≤ a.nfilts) (hl : LiftOk a.lifter)
    (hn : a.normalize = none) (sig : List ℝ) (P : XMat) (hP : pnccPower a power fb sig = .ok P)
    (hpos : ∀ j l, j < P.length → 1 ≤ l → l < a.nfilts →
      ∃ i, i < P.length ∧ i ≤ j + 2 ∧ j ≤ i + 2 ∧ ∃ x : ℝ, 0 < x ∧ Np.at2 P i l = fin x)
    (m : XMat) (h : pncc a power sig = .ok m) : AllFinite m := by
  obtain ⟨-, fb', hb', W', hW', -, hcol, V, hV, ht, hm⟩ := (pncc_ok_iff ..).mp h
  obtain rfl : fb = fb' := by rw [hb] at hb'; injection hb'
  obtain ⟨W, hW, -, -, rfl⟩ := (pnccPower_ok_iff ..).mp hP
  obtain rfl : W = W' := by rw [hW] at hW'; injection hW'
  have hn' : a.noEnergy.normalize = none := hn
  simp only [normStep, hn', Except.ok.injEq] at hm
  obtain ⟨Q, hQ, hnn, hQr, hQl⟩ := pnMat hfb a.nfft hp W
  rw [hQ] at hV hpos
  rw [hlen] at hQr
  have hW0 := frontEnd_ne_nil hW
  have hQ0 : Q ≠ [] := by
    intro h; rw [h] at hQl; exact hW0 (List.length_eq_zero_iff.mp hQl.symm)
  obtain ⟨V', hV', -, -, -⟩ := pnccNonlin_finite hQr hQ0 hn1 le_rfl (by omega) hnn (fun j l hj h1 h2 => by
    obtain ⟨i, hi, h3, h4, x, hx, he⟩ := hpos j l (by simpa using hj) h1 h2
    rw [finMat_length] at hi
    rw [at2_finMat hQr hi h2] at he
    injection he with he
    exact ⟨i, hi, h3, h4, by rw [he]; exact hx⟩)
  rw [hV'] at hV
  injection hV with hV
  intro r hr
  rw [← hm, ← hV] at hr
  obtain ⟨x, hx, rfl⟩ := List.mem_map.mp hr
  obtain ⟨y, -, rfl⟩ := List.mem_map.mp hx
  exact FinRow.tail (a := a.noEnergy) hl ((finRow_iff _).mpr ⟨y, rfl⟩) _ _

/-- The default arguments of `pncc`. -/
noncomputable def pnccDefaults : Args := { approach := "Glasberg" }

theorem pncc_defaults_bank : ∃ fb, gammaBankOf pnccDefaults = .ok fb ∧ AllNonneg fb ∧ fb.length = 24 ∧
    ∀ r ∈ fb, r.length = 512 / 2 + 1 := by
  obtain ⟨fb, cs, -, h1, h2, h3, h4⟩ := gamma_bank_nonneg (a := pnccDefaults) rfl default_band (by norm_num [pnccDefaults])
  exact ⟨fb, h1, h2, h3, h4⟩

/-- With the default arguments `pncc` succeeds on 400 zero samples, and every coefficient is NaN. -/
theorem C42_pncc_violated : ∃ m, pncc pnccDefaults 2 (List.replicate 400 0) = .ok m ∧ m ≠ [] ∧
    ∀ r ∈ m, r.length = 13 ∧ ∀ v ∈ r, v = nan := by
  obtain ⟨fb, hb, hnn, hfl, hcol⟩ := pncc_defaults_bank
  have hwin : WindowName pnccDefaults.win.winType := by simp [WindowName, Args.win, pnccDefaults]
  obtain ⟨w, hw1, hw2, -⟩ := (C14_window_vector pnccDefaults.win.winType 400).1 hwin
  have hS : 0 < pyInt (pnccDefaults.win.winHop * pnccDefaults.fs) := default_hop
  have hL : pyInt (pnccDefaults.win.winLen * pnccDefaults.fs) = ((400 : ℕ) : ℤ) := default_len
  have hfe := (frontEnd_ok_iff pnccDefaults pnccDefaults.preEmphCoeff (List.replicate 400 0) _ hS).mpr
    ⟨fun e => List.cons_ne_nil _ _ e.2, by norm_num [Args.win, pnccDefaults], 400, (pyInt (pnccDefaults.win.winHop * pnccDefaults.fs)).toNat, w, hL,
      by omega, by omega, by rw [List.length_replicate], hw1, hw2, rfl⟩
  obtain ⟨W, hW⟩ : ∃ W, frontEnd pnccDefaults pnccDefaults.preEmphCoeff (List.replicate 400 0) = .ok W := ⟨_, hfe⟩
  obtain ⟨P, hP, hnnP, hPr, hPl⟩ := pnMat hnn 512 (power := 2) (by norm_num) W
  have hW0 := frontEnd_ne_nil hW
  have hP0 : P ≠ [] := by intro h; rw [h] at hPl; exact hW0 (List.length_eq_zero_iff.mp hPl.symm)
  have hPl0 : 0 < P.length := List.length_pos_iff.mpr hP0
  rw [hfl] at hPr
  -- nothing is raised in the medium-time processing
  have hV : ∃ V, pnccNonlin 24 (finMat P) = .ok V := by
    have hQr := matOf_rect P.length 24 (rMedium 2 P)
    have hQ0 : matOf P.length 24 (rMedium 2 P) ≠ [] := by
      intro h; have := congrArg List.length h; rw [matOf_length, List.length_nil] at this; omega
    simp only [pnccNonlin]
    rw [mediumTimePower_fin hPr hP0, noiseSuppression_fin hQr hQ0, ok_bind, matOf_length]
    have hRr := matOf_rect P.length 24 (rNoise 0 (matOf P.length 24 (rMedium 2 P)))
    rw [weightSmoothing_ok (finMat_rect hRr) (by
      intro h; have := congrArg List.length h; rw [finMat_length, matOf_length, List.length_nil] at this; omega) le_rfl
      (fun l hl => by unfold wsLo wsHi; omega), ok_bind]
    generalize hT : mapMat2 (fun p s : XF ℝ => p * s) (finMat P) _ = T
    have hTs : T ≠ [] ∧ Np.Rect T 24 := by
      rw [← hT]
      refine ⟨fun h => ?_, mapMat2_rect _ (finMat_rect hPr) ?_⟩
      · have := congrArg List.length h
        rw [mapMat2_length _ _ _ (by simp), finMat_length, List.length_nil] at this; omega
      · intro r hr; obtain ⟨k, -, rfl⟩ := List.mem_map.mp hr; simp
    have hloop : ∀ (ts : XMat) (p : XF ℝ), Np.Rect ts 24 → ∃ v, myuLoop 0.999 24 p ts = .ok v := by
      intro ts
      induction ts with
      | nil => intro p _; exact ⟨[], rfl⟩
      | cons t ts ih =>
        intro p hts
        simp only [myuLoop]
        rw [if_neg (by norm_num), if_neg (by rw [hts t (by simp)]; omega)]
        obtain ⟨v, hv⟩ := ih (fin (0.999 : ℝ) * p + fin ((1 - 0.999 : ℝ) / (24 : ℕ)) * (t.take 24).sum)
          (fun s hs => hts s (by simp [hs]))
        rw [hv]; exact ⟨_, rfl⟩
    cases T with
    | nil => exact absurd rfl hTs.1
    | cons t ts =>
      obtain ⟨v, hv⟩ := hloop ts (fin 0.0001) (fun s hs => hTs.2 s (by simp [hs]))
      simp only [meanPowerNormalization, hv, ok_bind]
      exact ⟨_, rfl⟩
  obtain ⟨V, hV⟩ := hV
  have ht : TailOk pnccDefaults.noEnergy fb.length := by rw [hfl]; exact default_tail
  have hok : pncc pnccDefaults 2 (List.replicate 400 0) =
      .ok (V.map fun x => tailRow pnccDefaults.noEnergy fb.length [] x) := by
    refine (pncc_ok_iff ..).mpr ⟨by norm_num [pnccDefaults], fb, hb, W, hW, by norm_num [pnccDefaults], hcol, V, ?_, ht, rfl⟩
    show pnccNonlin 24 (W.map (pnRow 512 2 fb)) = _
    rw [hP]; exact hV
  obtain ⟨h1, h2⟩ := C42_pncc_silence_nan pnccDefaults 2 (by norm_num) fb hb hnn hfl (by norm_num [pnccDefaults]) rfl rfl
    400 _ hok
  refine ⟨_, hok, h1, fun r hr => ⟨?_, h2 r hr⟩⟩
  obtain ⟨x, hx, rfl⟩ := List.mem_map.mp hr
  rw [tailRow_length ht [] x]
  · rw [hfl]; rfl
  · rw [hfl]
    exact (nonlin_shape (finMat_rect hPr) (by
      intro h; have := congrArg List.length h; rw [finMat_length, List.length_nil] at this; omega) hV).2 x hx

/-! ### C47 -/

/-- C47 for pncc: the given coefficient is used; the result is that of the pre-emphasised signal without
pre-emphasis. -/
theorem C47_pncc_honoured (a : Args) (power c : ℝ) (sig : List ℝ) (hne : sig ≠ []) :
    pncc { a with preEmph := true, preEmphCoeff := c } power sig =
      pncc { a with preEmph := false } power (preEmphasis sig c) := by
  obtain ⟨x, s, rfl⟩ := List.exists_cons_of_ne_nil hne
  rfl

end Props
end Spafe
