import Verif.Props.Errors
import Verif.Props.SpecMeaning
import Verif.Props.LpMeaning
import Verif.Props.PnccMeaning

/-! C117: the complete tables of exceptions of the spectrograms, pncc, lpc, lpcc and plp. -/

set_option linter.unusedSectionVars false

namespace Spafe
namespace Props
open Model XF Spec

/-! ### Spectrograms -/

theorem spectrogram_raised (a : Args) (coeff : ℝ) (fb : XMat) (sig : List ℝ) (hfs : 0 ≤ a.fs) (hh : 0 ≤ a.win.winHop) :
    raised (spectrogram a coeff fb sig) =
      firstError (frontChecks a.preEmph a.fs a.win sig.length ++ bankChecks a.nfft (fb.map List.length)) := by
  rw [firstError_append, ← frontEnd_raised a coeff sig hfs hh]
  cases hW : frontEnd a coeff sig with
  | error e => unfold spectrogram; rw [hW]; rfl
  | ok W =>
    simp only [raised, bankChecks, firstError]
    by_cases h1 : a.nfft = 0
    · unfold spectrogram
      rw [hW, ok_bind, absFft, if_pos h1, if_pos h1]; rfl
    rw [if_neg h1]
    by_cases h2 : ∀ r ∈ fb, r.length = a.nfft / 2 + 1
    · rw [(spectrogram_ok_iff a coeff fb sig _ _).mpr ⟨W, hW, h1, h2, rfl, rfl⟩, if_neg (by simpa using h2)]
    · unfold spectrogram
      rw [hW, ok_bind, absFft, if_neg h1, ok_bind, dotFbanks, if_neg h2, if_pos (by simpa using h2)]; rfl

/-- C117: the spectrogram functions called with a bank raise exactly by the table of framing and bank checks. -/
theorem C117_spectrograms (f : Args → List ℝ → Py (XMat × List (List ℝ)))
    (hf : f ∈ [melSpectrogram, linearSpectrogram, barkSpectrogram, erbSpectrogram]) (a : Args) (fb : XMat)
    (hb : a.fbanks = some fb) (sig : List ℝ) (hfs : 0 ≤ a.fs) (hh : 0 ≤ a.win.winHop) :
    raised (f a sig) = firstError (frontChecks a.preEmph a.fs a.win sig.length ++ bankChecks a.nfft (fb.map List.length)) := by
  simp only [List.mem_cons, List.not_mem_nil, or_false] at hf
  rcases hf with rfl | rfl | rfl | rfl
  · rw [melSpectrogram, melBankOf, hb]; exact spectrogram_raised a _ fb sig hfs hh
  · rw [linearSpectrogram, hb]; exact spectrogram_raised a _ fb sig hfs hh
  · rw [barkSpectrogram, hb]; exact spectrogram_raised a _ fb sig hfs hh
  · rw [erbSpectrogram, gammaBankOf, hb]; exact spectrogram_raised a _ fb sig hfs hh

/-! ### pncc -/

theorem noise_ok {Q : XMat} (h : Q ≠ []) (t : ℝ) : ∃ R, noiseSuppression Q t = .ok R := by
  have ha : ∀ (A : XMat) (x y : ℝ), A ≠ [] → asymmetricLowpass A x y = .ok (scanRows (asymStep x y) (asymInit A) A) := by
    intro A x y hA
    rw [asymmetricLowpass, if_neg (by simpa using hA)]
  unfold noiseSuppression
  rw [ha Q _ _ h, ok_bind]
  dsimp only
  have h0 : (mapMat2 (fun q e => q - e) Q (scanRows (asymStep 0.999 0.5) (asymInit Q) Q)).map
      (fun r => r.map fun v => if ltb v (fin t) then fin 0 else v) ≠ [] := by
    intro h'
    have := congrArg List.length h'
    simp [mapMat2, scanRows_length] at this
    exact h this
  generalize (mapMat2 (fun q e => q - e) Q (scanRows (asymStep 0.999 0.5) (asymInit Q) Q)).map
      (fun r => r.map fun v => if ltb v (fin t) then fin 0 else v) = q0 at *
  rw [ha q0 _ _ h0, ok_bind]
  cases q0 with
  | nil => exact absurd rfl h0
  | cons q qs => exact ⟨_, rfl⟩

/-- The checks inside pncc's noise processing, for `c` channels and `nfilts` (`two`: there are two frames): with fewer channels than `nfilts`
the smoothing reads past the last channel; with 6 more (or `nfilts = 0`) it divides by zero; without channels the mean
power does, from the second frame on. -/
def pnccChecks (nfilts c : ℕ) (two : Prop) : List (Prop × Err) :=
  [(0 < c ∧ c < nfilts, .indexError), ((0 < c ∧ nfilts = 0) ∨ nfilts + 6 ≤ c, .zeroDivisionError),
    (c = 0 ∧ nfilts = 0 ∧ two, .zeroDivisionError), (c = 0 ∧ 0 < nfilts ∧ two, .indexError)]

theorem ws_raised {R Q : XMat} {r c n : ℕ} (hR : HasShape R r c) (hr : 0 < r) :
    raised (weightSmoothing R Q n 4) = firstError [(0 < c ∧ c < n, .indexError),
      ((0 < c ∧ n = 0) ∨ n + 6 ≤ c, .zeroDivisionError)] := by
  simp only [firstError]
  by_cases h1 : 0 < c ∧ c < n
  · rw [if_pos h1, C56_too_many_filters R Q r c n 4 hR hr h1.1 (by norm_num) h1.2]; rfl
  rw [if_neg h1]
  have h0 : R ≠ [] := by intro h; rw [h] at hR; have := hR.1; simp at this; omega
  have hcols : Np.ncols R = c := ncols_of_rect hR.2 h0
  have hent : ∀ m l, l < c → wsEntry c 4 n R Q m l = if (wsHi 4 n l : ℤ) - wsLo 4 l + 1 = 0 then .error .zeroDivisionError
      else .ok (fin (1 / (((wsHi 4 n l : ℤ) - wsLo 4 l + 1 : ℤ) : ℝ)) *
        ∑ k ∈ Finset.Ico (wsLo 4 l) (wsHi 4 n l), Np.at2 R m k / Np.at2 Q m k) := by
    intro m l hl
    unfold wsEntry
    congr 1
    rw [if_neg (by unfold wsLo wsHi; omega)]
  unfold weightSmoothing
  rw [hcols, hR.1]
  by_cases h2 : (0 < c ∧ n = 0) ∨ n + 6 ≤ c
  · rw [if_pos h2]
    have hrow : ∀ m, (List.range c).mapM (fun (l : ℕ) => wsEntry c 4 n R Q m l) = .error .zeroDivisionError := by
      intro m
      apply mapM_eq_error
      · intro l hl
        rw [hent m l (by simpa using hl)]
        split_ifs
        · exact .inr rfl
        · exact .inl ⟨_, rfl⟩
      · by_cases hn : n = 0
        · refine ⟨0, by simp; omega, ?_⟩
          rw [hent m 0 (by omega), if_pos (by simp [wsHi, wsLo, hn])]
        · refine ⟨n + 5, by simp; omega, ?_⟩
          rw [hent m _ (by omega), if_pos (by unfold wsHi wsLo; omega)]
    rw [mapM_eq_error _ .zeroDivisionError]
    · rfl
    · intro m _; exact .inr (hrow m)
    · exact ⟨0, by simpa using hr, hrow 0⟩
  · rw [if_neg h2]
    have : ∀ m, ∃ v, (List.range c).mapM (fun (l : ℕ) => wsEntry c 4 n R Q m l) = .ok v := by
      intro m
      refine ⟨_, mapM_ok _ (fun l => fin (1 / (((wsHi 4 n l : ℤ) - wsLo 4 l + 1 : ℤ) : ℝ)) *
        ∑ k ∈ Finset.Ico (wsLo 4 l) (wsHi 4 n l), Np.at2 R m k / Np.at2 Q m k) _ fun l hl => ?_⟩
      have hl : l < c := by simpa using hl
      rw [hent m l hl, if_neg (by unfold wsHi wsLo; omega)]
    obtain ⟨v, hv⟩ := mapM_total this (List.range r)
    rw [hv]; rfl

theorem myu_raised (lam : ℝ) (L c : ℕ) (ts : XMat) (hc : ∀ t ∈ ts, t.length = c) (hL : c = 0 ∨ (0 < L ∧ L ≤ c)) (p : XF ℝ) :
    raised (myuLoop lam L p ts) = firstError [(c = 0 ∧ L = 0 ∧ 1 ≤ ts.length, .zeroDivisionError),
      (c = 0 ∧ 0 < L ∧ 1 ≤ ts.length, .indexError)] := by
  simp only [firstError]
  rcases hL with rfl | ⟨h1, h2⟩
  · cases ts with
    | nil => simp [myuLoop, raised]
    | cons t ts =>
      have := hc t (by simp)
      rcases Nat.eq_zero_or_pos L with hL | hL
      · simp [myuLoop, hL, raised]
      · simp [myuLoop, hL, hL.ne', raised, this]
  · rw [if_neg (by omega), if_neg (by omega)]
    induction ts generalizing p with
    | nil => rfl
    | cons t ts ih =>
      rw [myuLoop, if_neg (by omega), if_neg (by rw [hc t (by simp)]; omega)]
      simp only
      rw [raised_bind_ok]
      · exact ih (fun t ht => hc t (by simp [ht])) _
      · intro v _; rfl

theorem mean_raised {T : XMat} {r c n : ℕ} (hT : HasShape T r c) (hr : 0 < r) (hn : c = 0 ∨ (0 < n ∧ n ≤ c)) :
    raised (meanPowerNormalization T (nfilts := n)) = firstError [(c = 0 ∧ n = 0 ∧ 2 ≤ r, .zeroDivisionError),
      (c = 0 ∧ 0 < n ∧ 2 ≤ r, .indexError)] := by
  cases T with
  | nil => have := hT.1; simp at this; omega
  | cons t ts =>
    unfold meanPowerNormalization
    simp only
    rw [raised_bind_ok _ _ fun _ _ => rfl, myu_raised _ n c ts (fun t ht => hT.2 t (by simp [ht])) hn]
    have := hT.1
    simp only [List.length_cons] at this
    have e : 1 ≤ ts.length ↔ 2 ≤ r := by omega
    simp only [e]

theorem nonlin_raised {P : XMat} {r c n : ℕ} (hP : HasShape P r c) (hr : 0 < r) :
    raised (pnccNonlin n P) = firstError (pnccChecks n c (2 ≤ r)) := by
  have h0 : P ≠ [] := by intro h; rw [h] at hP; have := hP.1; simp at this; omega
  obtain ⟨l1, r1⟩ := medium_shape (M := 2) hP.2 h0
  have hQ0 : mediumTimePower P ≠ [] := by intro h; rw [h] at l1; simp at l1; exact h0 (List.length_eq_zero_iff.mp l1.symm)
  obtain ⟨R, hR⟩ := noise_ok hQ0 0
  obtain ⟨l2, r2⟩ := noise_shape r1 hR
  have hRs : HasShape R r c := ⟨by rw [l2, l1]; exact hP.1, r2⟩
  have hR0 : R ≠ [] := by intro h; rw [h] at hRs; have := hRs.1; simp at this; omega
  have hws := ws_raised (Q := mediumTimePower P) (n := n) hRs hr
  have hsplit : pnccChecks n c (2 ≤ r) = [(0 < c ∧ c < n, .indexError), ((0 < c ∧ n = 0) ∨ n + 6 ≤ c, .zeroDivisionError)] ++
      [(c = 0 ∧ n = 0 ∧ 2 ≤ r, .zeroDivisionError), (c = 0 ∧ 0 < n ∧ 2 ≤ r, .indexError)] := rfl
  unfold pnccNonlin
  dsimp only
  rw [hR, ok_bind, raised_bind, hsplit, firstError_append, ← hws]
  cases hS : weightSmoothing R (mediumTimePower P) n with
  | error e => rfl
  | ok S =>
    obtain ⟨l3, r3⟩ := ws_shape r2 hR0 hS
    have hT : HasShape (mapMat2 (fun p s => p * s) P S) r c := by
      refine ⟨?_, mapMat2_rect _ hP.2 r3⟩
      rw [mapMat2_length _ _ _ (by rw [l3, l2, l1])]; exact hP.1
    refine Eq.trans (raised_bind_ok _ _ fun _ _ => rfl) (Eq.trans (mean_raised hT hr ?_) rfl)
    have hnone : firstError [(0 < c ∧ c < n, Err.indexError), ((0 < c ∧ n = 0) ∨ n + 6 ≤ c, .zeroDivisionError)] = none := by
      rw [← hws]; show raised (weightSmoothing R (mediumTimePower P) n) = none; rw [hS]; rfl
    rw [firstError_eq_none] at hnone
    have q1 := hnone _ List.mem_cons_self
    have q2 := hnone _ (List.mem_cons_of_mem _ List.mem_cons_self)
    simp only at q1 q2
    omega

/-- The signal is long enough for a second frame. -/
def SecondFrame (fs : ℝ) (w : SlidingWindow) (len : ℕ) : Prop := ⌊w.winLen * fs⌋ + ⌊w.winHop * fs⌋ ≤ len

/-- What framing needs, once its checks pass. -/
theorem frameChecks_none {fs : ℝ} {w : SlidingWindow} {len : ℕ} (hfs : 0 ≤ fs) (hh : 0 ≤ w.winHop)
    (h : firstError (frameChecks fs w len) = none) :
    w.winHop ≤ w.winLen ∧ 0 < pyInt (w.winHop * fs) ∧ pyInt (w.winHop * fs) = ⌊w.winHop * fs⌋ ∧
      pyInt (w.winLen * fs) = ⌊w.winLen * fs⌋ ∧ 0 < pyInt (w.winLen * fs) ∧ WindowName w.winType := by
  rw [firstError_eq_none] at h
  simp only [frameChecks, List.mem_cons, List.not_mem_nil, or_false, forall_eq_or_imp, forall_eq, not_not, not_lt] at h
  obtain ⟨h1, h2, -, -, h5⟩ := h
  have e1 : pyInt (w.winHop * fs) = ⌊w.winHop * fs⌋ := pyInt_nonneg_floor (mul_nonneg hh hfs)
  have e2 : pyInt (w.winLen * fs) = ⌊w.winLen * fs⌋ := pyInt_nonneg_floor (mul_nonneg (hh.trans h1) hfs)
  have p1 : 0 ≤ ⌊w.winHop * fs⌋ := Int.floor_nonneg.mpr (mul_nonneg hh hfs)
  have p2 : ⌊w.winHop * fs⌋ ≤ ⌊w.winLen * fs⌋ := Int.floor_le_floor (mul_le_mul_of_nonneg_right h1 hfs)
  refine ⟨h1, by omega, e1, e2, by omega, ?_⟩
  simpa [WindowName, or_comm, or_left_comm, or_assoc] using h5

/-- The checks of framing are among those of the front end. -/
theorem frontChecks_none {pe : Bool} {fs : ℝ} {w : SlidingWindow} {len : ℕ}
    (h : firstError (frontChecks pe fs w len) = none) : firstError (frameChecks fs w len) = none := by
  simp only [frontChecks, firstError] at h
  split_ifs at h
  exact h

theorem second_frame_iff {a : Args} {coeff : ℝ} {sig : List ℝ} {W : List (List ℝ)} (hfs : 0 ≤ a.fs)
    (hh : 0 ≤ a.win.winHop) (hW : frontEnd a coeff sig = .ok W) :
    2 ≤ W.length ↔ SecondFrame a.fs a.win sig.length := by
  have hn : firstError (frontChecks a.preEmph a.fs a.win sig.length) = none := by
    rw [← frontEnd_raised a coeff sig hfs hh, hW]; rfl
  obtain ⟨-, h1, h2, h3, -⟩ := frameChecks_none hfs hh (frontChecks_none hn)
  obtain ⟨l, s, e1, e2, h4, h5⟩ := frontEnd_length h1 hW
  rw [h5, SecondFrame, ← h2, ← h3, e1, e2]
  have hs : 0 < s := by rw [e2] at h1; exact_mod_cast h1
  have : 1 ≤ (sig.length - l) / s ↔ s ≤ sig.length - l := by
    rw [Nat.le_div_iff_mul_le hs, one_mul]
  omega

/-- All checks of pncc after its bank of `c` filters is known. -/
noncomputable def pnccBankChecks (a : Args) (cols : List ℕ) (len : ℕ) : List (Prop × Err) :=
  frontChecks a.preEmph a.fs a.win len ++ bankChecks a.nfft cols ++
    pnccChecks a.nfilts cols.length (SecondFrame a.fs a.win len) ++ tailChecks a.noEnergy cols.length

theorem pncc_raised (a : Args) (power : ℝ) (fb : XMat) (hb : gammaBankOf a = .ok fb) (hc : ¬ a.nfilts < a.numCeps)
    (sig : List ℝ) (hfs : 0 ≤ a.fs) (hh : 0 ≤ a.win.winHop) :
    raised (pncc a power sig) = firstError (pnccBankChecks a (fb.map List.length) sig.length) := by
  unfold pnccBankChecks pncc
  rw [if_neg hc, hb, ok_bind, List.append_assoc, List.append_assoc, firstError_append,
    ← frontEnd_raised a a.preEmphCoeff sig hfs hh]
  cases hW : frontEnd a a.preEmphCoeff sig with
  | error e => unfold pnccPower; rw [hW]; rfl
  | ok W =>
    simp only [raised, bankChecks, List.cons_append, List.nil_append, firstError, List.length_map]
    by_cases h1 : a.nfft = 0
    · unfold pnccPower; rw [hW, ok_bind, absFft, if_pos h1, if_pos h1]; rfl
    rw [if_neg h1]
    by_cases h2 : ∀ r ∈ fb, r.length = a.nfft / 2 + 1
    · rw [(pnccPower_ok_iff a power fb sig _).mpr ⟨W, hW, h1, h2, rfl⟩, ok_bind, if_neg (by simpa using h2)]
      have h0 := frontEnd_ne_nil hW
      have hP : HasShape (W.map (pnRow a.nfft power fb)) W.length fb.length := by
        refine ⟨by simp, fun r hr => ?_⟩
        obtain ⟨w, -, rfl⟩ := List.mem_map.mp hr
        simp [pnRow]
      have hnl := nonlin_raised (n := a.nfilts) hP (List.length_pos_iff.mpr h0)
      rw [firstError_append, ← propext (second_frame_iff hfs hh hW), ← hnl]
      cases hV : pnccNonlin a.nfilts (W.map (pnRow a.nfft power fb)) with
      | error e => rfl
      | ok V =>
        rw [ok_bind]
        have hV0 : W.map (pnRow a.nfft power fb) ≠ [] := by simpa using h0
        obtain ⟨l1, r1⟩ := nonlin_shape hP.2 hV0 hV
        have hVn : V ≠ [] := by
          intro h; rw [h] at l1; simp at l1; exact h0 (List.length_eq_zero_iff.mp l1.symm)
        have := cepstralTail_raised a.noEnergy V hVn (fun _ => []) id fb.length (fun w hw => r1 w hw)
        rw [List.map_id] at this
        exact this
    · unfold pnccPower
      rw [hW, ok_bind, absFft, if_neg h1, ok_bind, if_neg h2, if_pos (by simpa using h2)]; rfl

/-- C117 for pncc called with a bank. -/
theorem C117_pncc_given_bank (a : Args) (power : ℝ) (fb : XMat) (hb : a.fbanks = some fb) (sig : List ℝ) (hfs : 0 ≤ a.fs)
    (hh : 0 ≤ a.win.winHop) :
    raised (pncc a power sig) = firstError
      ((a.nfilts < a.numCeps, .parameterError "number of filters must be bigger than number of cepstrums") ::
        pnccBankChecks a (fb.map List.length) sig.length) := by
  rw [firstError]
  by_cases hc : a.nfilts < a.numCeps
  · rw [if_pos hc, (C37_pncc_nfilts_check a power sig).mpr hc]; rfl
  · rw [if_neg hc]
    exact pncc_raised a power fb (by rw [gammaBankOf, hb]; rfl) hc sig hfs hh

/-- C117 for pncc called without a bank: after the checks of the gammatone bank and of framing, only `nfilts = 0` and the
options of the last steps are left. -/
theorem C117_pncc (a : Args) (power : ℝ) (hb : a.fbanks = none) (sig : List ℝ) (hfs : 0 < a.fs)
    (hh : 0 ≤ a.win.winHop) (hhi : ∀ h, a.high = some h → 0 ≤ h) :
    raised (pncc a power sig) = firstError
      ((a.nfilts < a.numCeps, .parameterError "number of filters must be bigger than number of cepstrums") ::
        (erbBankChecks a true ++ frontChecks a.preEmph a.fs a.win sig.length ++
          [(a.nfilts = 0 ∧ SecondFrame a.fs a.win sig.length, .zeroDivisionError)] ++ tailChecks a.noEnergy a.nfilts)) := by
  rw [firstError, List.append_assoc, List.append_assoc, firstError_append]
  by_cases hc : a.nfilts < a.numCeps
  · rw [if_pos hc, (C37_pncc_nfilts_check a power sig).mpr hc]; rfl
  rw [if_neg hc, ← gammatone_raised a hfs hhi]
  cases hg : gammatoneFilterBanks a.nfilts a.nfft a.fs a.low a.high a.scale 4 a.approach with
  | error e =>
    unfold pncc gammaBankOf
    rw [if_neg hc, hb]
    simp only [getFbanks]
    rw [hg]; rfl
  | ok p =>
    have hn : firstError (erbBankChecks a true) = none := by rw [← gammatone_raised a hfs hhi, hg]; rfl
    rw [firstError_eq_none] at hn
    have h0 := hn _ (List.mem_cons_of_mem _ (List.mem_cons_of_mem _ List.mem_cons_self))
    simp only [true_and] at h0
    obtain ⟨s1, s2, -⟩ := C25_gammatone_shape (bank := p.1) (cs := p.2) hg
    have hbk : gammaBankOf a = .ok p.1 := by
      unfold gammaBankOf
      rw [hb]
      simp only [getFbanks]
      rw [hg]; rfl
    rw [pncc_raised a power p.1 hbk hc sig hfs.le hh, pnccBankChecks, List.append_assoc, List.append_assoc,
      firstError_append]
    have e2 : firstError (bankChecks a.nfft (p.1.map List.length) ++ (pnccChecks a.nfilts (p.1.map List.length).length
        (SecondFrame a.fs a.win sig.length) ++ tailChecks a.noEnergy (p.1.map List.length).length)) =
        firstError ([(a.nfilts = 0 ∧ SecondFrame a.fs a.win sig.length, .zeroDivisionError)] ++
          tailChecks a.noEnergy a.nfilts) := by
      rw [List.length_map, s1]
      simp only [bankChecks, pnccChecks, List.cons_append, List.nil_append, firstError]
      rw [if_neg h0, if_neg (by simpa using s2), if_neg (by omega), if_neg (by omega)]
      by_cases h3 : a.nfilts = 0 ∧ SecondFrame a.fs a.win sig.length
      · rw [if_pos ⟨h3.1, h3⟩, if_pos h3]
      · rw [if_neg (fun h => h3 h.2), if_neg (by omega), if_neg h3]
    rw [e2, ← firstError_append]
    rfl

/-! ### lpc and lpcc -/

/-- The check of the last steps for matrices with at least one row and column: only an unknown normalisation fails. -/
def normChecks (normalize : Option String) : List (Prop × Err) :=
  [(∃ n, normalize = some n ∧ n ∉ ["", "mvn", "ms", "vn", "mn"], .keyError)]

theorem lifter_shape {m m' : XMat} {r c : ℕ} {q : ℝ} (hm : HasShape m r c) (hc : 0 < c) (h : lifterCeps m c q = .ok m') :
    HasShape m' r c := by
  unfold lifterCeps at h
  split_ifs at h with h1 h2 h3
  · injection h with h; rw [← h]; exact hm
  · injection h with h
    rw [← h]
    refine ⟨by simpa using hm.1, fun x hx => ?_⟩
    obtain ⟨y, -, rfl⟩ := List.mem_map.mp hx
    simp [dotDiag, liftVecPos]; omega
  · injection h with h
    rw [← h]
    refine ⟨by simpa using hm.1, fun x hx => ?_⟩
    obtain ⟨y, hy, rfl⟩ := List.mem_map.mp hx
    simp [liftVecNeg, hm.2 y hy]

theorem lifter_total {m : XMat} {c : ℕ} (q : ℝ) (hc : 0 < c) : ∃ m', lifterCeps m c q = .ok m' := by
  unfold lifterCeps
  split_ifs with h1 h2 h3
  · exact ⟨_, rfl⟩
  · omega
  · exact ⟨_, rfl⟩
  · exact ⟨_, rfl⟩

theorem normalize_raised {m : XMat} {r c : ℕ} (hm : HasShape m r c) (hr : 0 < r) (hc : 0 < c) (no : Option String) :
    raised (match no with
      | none => .ok m
      | some s => if s = "" then .ok m else normalizeCeps m c s) = firstError (normChecks no) := by
  simp only [normChecks, firstError]
  have hf : m.flatten ≠ [] := by
    intro h
    rw [List.flatten_eq_nil_iff] at h
    obtain ⟨x, hx⟩ := List.exists_mem_of_ne_nil m (by intro h; have := hm.1; rw [h] at this; simp at this; omega)
    have := hm.2 x hx
    rw [h x hx] at this
    simp at this; omega
  cases no with
  | none => simp [raised]
  | some n =>
    simp only [Option.some.injEq, exists_eq_left']
    by_cases h6 : n = ""
    · simp [h6, raised]
    rw [if_neg h6]
    unfold normalizeCeps
    rw [if_neg hf]
    by_cases m1 : n = "mvn"
    · simp [m1, raised]
    by_cases m2 : n = "ms"
    · simp [m2, raised]
    by_cases m3 : n = "vn"
    · simp [m3, raised]
    by_cases m4 : n = "mn"
    · simp [m4, raised]
    simp [m1, m2, m3, m4, h6, raised]

theorem lpcFrames_raised (a : LpcArgs) (sig : List ℝ) (hfs : 0 ≤ a.fs) (hh : 0 ≤ a.win.winHop) :
    raised (lpcFrames a sig) = firstError (frontChecks a.preEmph a.fs a.win sig.length) := by
  refine Eq.trans ?_ (frontEnd_raised { fs := a.fs, preEmph := a.preEmph, window := a.window } 0.97 sig hfs hh)
  rw [lpcFrames_eq]
  have : frontEnd { fs := a.fs, preEmph := a.preEmph, window := a.window } 0.97 sig =
      if a.preEmph = true ∧ sig = [] then .error .valueError else
        framing (a.emph sig) a.fs a.win.winLen a.win.winHop >>= fun p => windowing p.1 p.2.toNat a.win.winType :=
    frontEnd_eq ..
  rw [this]
  split_ifs
  · rfl
  cases framing (a.emph sig) a.fs a.win.winLen a.win.winHop with
  | error e => rfl
  | ok p =>
    rw [ok_bind, ok_bind]
    exact raised_bind_ok (windowing p.1 p.2.toNat a.win.winType) _ fun _ _ => rfl

/-- Some frame of `l` samples at hop `s` is completely silent. -/
def ZeroFrame (y : ℕ → ℝ) (len l s : ℕ) : Prop := ∃ i < (len - l) / s + 1, ∀ j < l, y (i * s + j) = 0

/-- The checks of lpc: those of framing, then the linear system. -/
noncomputable def lpcChecks (a : LpcArgs) (sig : List ℝ) : List (Prop × Err) :=
  frontChecks a.preEmph a.fs a.win sig.length ++
    [(ZeroFrame (emphasised a.preEmph 0.97 sig) sig.length ⌊a.win.winLen * a.fs⌋.toNat ⌊a.win.winHop * a.fs⌋.toNat,
      .linAlgError)]

theorem silent_iff {a : LpcArgs} {sig : List ℝ} {l s : ℕ} (hl : pyInt (a.win.winLen * a.fs) = l)
    (hs : pyInt (a.win.winHop * a.fs) = s) (hs0 : 0 < s) {F : List (List ℝ)} (hF : lpcFrames a sig = .ok F) :
    ZeroFrame (emphasised a.preEmph 0.97 sig) sig.length l s ↔ ∃ f ∈ F, ¬ NotSilent f := by
  obtain ⟨-, rfl⟩ := lpcFrames_meaning hl hs hs0 hF
  unfold ZeroFrame NotSilent
  simp

/-- C117 for lpc with at least one predictor coefficient. -/
theorem C117_lpc (a : LpcArgs) (sig : List ℝ) (ho : 2 ≤ a.order) (hfs : 0 ≤ a.fs) (hh : 0 ≤ a.win.winHop) :
    raised (lpc a sig) = firstError (lpcChecks a sig) := by
  unfold lpcChecks
  rw [firstError_append, ← lpcFrames_raised a sig hfs hh]
  cases hF : lpcFrames a sig with
  | error e => unfold lpc; rw [hF]; rfl
  | ok F =>
    have hn : firstError (frontChecks a.preEmph a.fs a.win sig.length) = none := by
      rw [← lpcFrames_raised a sig hfs hh, hF]; rfl
    obtain ⟨-, h1, h2, h3, h4, -⟩ := frameChecks_none hfs hh (frontChecks_none hn)
    have e := silent_iff (l := ⌊a.win.winLen * a.fs⌋.toNat) (s := ⌊a.win.winHop * a.fs⌋.toNat) (by omega) (by omega)
      (by omega) hF
    obtain ⟨c1, c2, -⟩ := C61_lpc_defined_iff a sig F hF h1 h4 ho
    simp only [raised, firstError]
    by_cases hx : ∃ f ∈ F, ¬ NotSilent f
    · rw [(c2 hx).1, if_pos (e.mpr hx)]
    · rw [if_neg (fun h => hx (e.mp h))]
      push Not at hx
      obtain ⟨q, hq⟩ := c1.mpr hx
      rw [hq]

/-- C117 for lpcc with at least one predictor coefficient. -/
theorem C117_lpcc (a : LpcArgs) (sig : List ℝ) (ho : 2 ≤ a.order) (hfs : 0 ≤ a.fs) (hh : 0 ≤ a.win.winHop) :
    raised (lpcc a sig) = firstError (lpcChecks a sig ++ normChecks a.normalize) := by
  unfold lpcChecks
  rw [List.append_assoc, firstError_append, ← lpcFrames_raised a sig hfs hh]
  cases hF : lpcFrames a sig with
  | error e => unfold lpcc; rw [hF]; rfl
  | ok F =>
    have hn : firstError (frontChecks a.preEmph a.fs a.win sig.length) = none := by
      rw [← lpcFrames_raised a sig hfs hh, hF]; rfl
    obtain ⟨-, h1, h2, h3, h4, -⟩ := frameChecks_none hfs hh (frontChecks_none hn)
    have e := silent_iff (l := ⌊a.win.winLen * a.fs⌋.toNat) (s := ⌊a.win.winHop * a.fs⌋.toNat) (by omega) (by omega)
      (by omega) hF
    obtain ⟨-, c2, -⟩ := C61_lpc_defined_iff a sig F hF h1 h4 ho
    have c3 := (C61_lpc_defined_iff { a with lifter := none, normalize := none } sig F hF h1 h4 ho).2.2
    simp only [raised, List.cons_append, List.nil_append]
    rw [firstError]
    by_cases hx : ∃ f ∈ F, ¬ NotSilent f
    · rw [(c2 hx).2, if_pos (e.mpr hx)]
    · rw [if_neg (fun h => hx (e.mp h))]
      push Not at hx
      obtain ⟨m, hm⟩ := c3 hx rfl rfl
      have hsh := (C107_lpcc_meaning { a with lifter := none, normalize := none } sig ⌊a.win.winLen * a.fs⌋.toNat
        ⌊a.win.winHop * a.fs⌋.toNat (by show pyInt (a.win.winLen * a.fs) = _; omega)
        (by show pyInt (a.win.winHop * a.fs) = _; omega) (by omega) rfl rfl m hm).1
      have hF' : lpcFrames { a with lifter := none, normalize := none } sig = .ok F := hF
      unfold lpcc at hm ⊢
      rw [hF', ok_bind] at hm
      rw [hF, ok_bind]
      simp only [bind_ok_iff] at hm
      obtain ⟨rows, hr, m', h5, h6⟩ := hm
      injection h5 with h5
      injection h6 with h6
      subst h5; subst h6
      simp only at hr hsh
      rw [hr, ok_bind]
      cases hl : a.lifter with
      | none => exact normalize_raised hsh (Nat.succ_pos _) (by omega) _
      | some q =>
        simp only
        by_cases hq : q = 0
        · rw [if_pos hq]; exact normalize_raised hsh (Nat.succ_pos _) (by omega) _
        · rw [if_neg hq]
          obtain ⟨m', h'⟩ := lifter_total (m := rows) (c := a.order - 1 + 1) q (by omega)
          rw [h', ok_bind]
          exact normalize_raised (lifter_shape hsh (by omega) h') (Nat.succ_pos _) (by omega) _

/-! ### plp -/

/-- The checks of plp called with a bank: number of filters, framing, bank; then some frame without energy in every
band (a singular linear system); then the normalisation. -/
noncomputable def plpChecks (a : Args) (fb : List (List ℝ)) (sig : List ℝ) : List (Prop × Err) :=
  (a.nfilts < a.numCeps, .parameterError "number of filters must be bigger than number of cepstrums") ::
    (frontChecks a.preEmph a.fs a.win sig.length ++ bankChecks a.nfft (fb.map List.length) ++
      [(∃ i < (sig.length - ⌊a.win.winLen * a.fs⌋.toNat) / ⌊a.win.winHop * a.fs⌋.toNat + 1, ∀ n < min a.nfft fb.length,
        bandEnergy fb (windowWeight a.win.winType ⌊a.win.winLen * a.fs⌋.toNat)
          (emphasised a.preEmph a.preEmphCoeff sig) ⌊a.win.winLen * a.fs⌋.toNat ⌊a.win.winHop * a.fs⌋.toNat a.nfft i n = 0,
        .linAlgError)] ++ normChecks a.normalize)

/-- C117 for plp called with a non-negative bank, with at least one predictor coefficient. -/
theorem C117_plp (a : Args) (fb : List (List ℝ)) (hb : a.fbanks = some (finMat fb))
    (hnn : ∀ r ∈ fb, ∀ v ∈ r, 0 ≤ v) (h1 : 1 ≤ fb.length) (ho : 2 ≤ a.numCeps) (sig : List ℝ) (hfs : 0 ≤ a.fs)
    (hh : 0 ≤ a.win.winHop) : raised (plp a sig) = firstError (plpChecks a fb sig) := by
  have hbk : plpBank a = .ok (finMat fb) := by unfold plpBank getFbanks; rw [hb]
  rw [plpChecks, firstError]
  by_cases hc : a.nfilts < a.numCeps
  · rw [if_pos hc, plp, rastaplp, if_pos hc]; rfl
  rw [if_neg hc]
  have hcols : (finMat fb).map List.length = fb.map List.length := by
    unfold finMat; rw [List.map_map]; apply List.map_congr_left; intro r _; simp
  have hsp := spectrogram_raised a a.preEmphCoeff (finMat fb) sig hfs hh
  rw [hcols] at hsp
  rw [List.append_assoc, firstError_append, ← hsp]
  cases hx : spectrogram a a.preEmphCoeff (finMat fb) sig with
  | error e =>
    simp only [plp, rastaplp]
    rw [if_neg hc, plpBank_eq, hbk, ok_bind, hx]; rfl
  | ok p =>
    rw [hx] at hsp
    have hnone := firstError_eq_none.mp (hsp.symm.trans rfl)
    have hfr : firstError (frontChecks a.preEmph a.fs a.win sig.length) = none :=
      firstError_eq_none.mpr fun q hq => hnone q (List.mem_append_left _ hq)
    obtain ⟨f1, f2, f3, f4, f5, f6⟩ := frameChecks_none hfs hh (frontChecks_none hfr)
    have b1 := hnone (a.nfft = 0, .valueError) (by simp [bankChecks])
    have b2 := hnone (∃ c ∈ fb.map List.length, c ≠ a.nfft / 2 + 1, .valueError) (by simp [bankChecks])
    have b3 := hnone ((sig.length : ℤ) < ⌊a.win.winLen * a.fs⌋, .indexError) (by simp [frontChecks, frameChecks])
    simp only at b1 b2 b3
    have hset : Setup a fb sig ⌊a.win.winLen * a.fs⌋.toNat ⌊a.win.winHop * a.fs⌋.toNat :=
      { bank := hb, cols := by simpa using b2, nonneg := hnn, rows := h1, ceps := by omega, nfft := b1, window := f6,
        hopLe := f1, len := by omega, hop := by omega, pos := by omega, long := by omega,
        samples := fun e e' => hnone (a.preEmph = true ∧ sig.length = 0, .valueError) (by simp [frontChecks]) ⟨e, by simp [e']⟩ }
    generalize ⌊a.win.winLen * a.fs⌋.toNat = l at *
    generalize ⌊a.win.winHop * a.fs⌋.toNat = s at *
    obtain ⟨ft, hx'⟩ := hset.spectrogram a.preEmphCoeff
    set E := energyOf a a.preEmphCoeff fb sig l s with hE
    set x : XMat := (List.range ((sig.length - l) / s + 1)).map fun (i : ℕ) =>
      ((List.range fb.length).map (E i)).map fin with hxdef
    have hx0 : AllNonneg x := by
      intro r hr v hv
      obtain ⟨i, -, rfl⟩ := List.mem_map.mp hr
      obtain ⟨e, he, rfl⟩ := List.mem_map.mp hv
      obtain ⟨n, -, rfl⟩ := List.mem_map.mp he
      exact ⟨_, bandEnergy_nonneg hnn .., rfl⟩
    obtain ⟨d1, d2⟩ := C66_plp_defined { a with lifter := none, normalize := none } sig (finMat fb) x ft hbk hx' hx0 ho
      (not_lt.mp hc) rfl rfl
    have hcond : (∀ r ∈ x, ∃ v ∈ r.take a.nfft, v ≠ fin 0) ↔
        ¬ ∃ i < (sig.length - l) / s + 1, ∀ n < min a.nfft fb.length, E i n = 0 := by
      push Not
      constructor
      · intro h i hi
        obtain ⟨v, hv, hv0⟩ := h (((List.range fb.length).map (E i)).map fin) (List.mem_map.mpr ⟨i, by simpa using hi, rfl⟩)
        obtain ⟨n, hn, rfl⟩ := (mem_iff_getD (fin 0) _).mp hv
        have hn : n < min a.nfft fb.length := by simpa using hn
        refine ⟨n, hn, fun h0 => hv0 ?_⟩
        rw [getD_take_lt _ _ (by omega), getD_map_lt fin _ 0 _ (by simp; omega), getD_map_range_lt _ _ (by omega), h0]
      · intro h r hr
        obtain ⟨i, hi, rfl⟩ := List.mem_map.mp hr
        obtain ⟨n, hn, hne⟩ := h i (List.mem_range.mp hi)
        refine ⟨fin (E i n), ?_, fun h => hne (XF.fin_injective h)⟩
        refine (mem_iff_getD (fin 0) _).mpr ⟨n, by simpa using hn, ?_⟩
        rw [getD_take_lt _ _ (by omega), getD_map_lt fin _ 0 _ (by simp; omega), getD_map_range_lt _ _ (by omega)]
    have hp : plp a sig = ((x.map fun r => r.map loudness).mapM (plpRow a.nfft a.numCeps) >>= plpTail a) :=
      rastaplp_eq hbk hx' (not_lt.mp hc)
    have hp' : plp { a with lifter := none, normalize := none } sig =
        ((x.map fun r => r.map loudness).mapM (plpRow a.nfft a.numCeps) >>= fun m => .ok m) := by
      refine (rastaplp_eq (a := { a with lifter := none, normalize := none }) hbk hx' (not_lt.mp hc)).trans ?_
      rfl
    show raised (plp a sig) = firstError ((∃ i < (sig.length - l) / s + 1, ∀ n < min a.nfft fb.length, E i n = 0,
      .linAlgError) :: normChecks a.normalize)
    rw [firstError]
    by_cases hz : ∃ i < (sig.length - l) / s + 1, ∀ n < min a.nfft fb.length, E i n = 0
    · rw [if_pos hz]
      have := d2 (fun h => hcond.mp h hz)
      rw [hp'] at this
      cases hM : (x.map fun r => r.map loudness).mapM (plpRow a.nfft a.numCeps) with
      | ok m => rw [hM] at this; cases this
      | error e =>
        rw [hM] at this
        injection this with this
        rw [hp, hM, this]; rfl
    · rw [if_neg hz]
      obtain ⟨m, hm, -⟩ := d1 (hcond.mpr hz)
      have hsh := C66_plp_shape plp (by simp) { a with lifter := none, normalize := none } sig m f2 hm
      obtain ⟨l', s', -, -, -, hsh⟩ := hsh
      rw [hp'] at hm
      obtain ⟨m', hM, hm⟩ := (bind_ok_iff ..).mp hm
      injection hm with hm
      subst hm
      rw [hp, hM, ok_bind, plpTail]
      simp only at hsh
      cases hl : a.lifter with
      | none => exact normalize_raised hsh (Nat.succ_pos _) (by omega) _
      | some q =>
        simp only
        obtain ⟨m'', h'⟩ := lifter_total (m := m') (c := a.numCeps) q (by omega)
        rw [h', ok_bind]
        exact normalize_raised (lifter_shape hsh (by omega) h') (Nat.succ_pos _) (by omega) _

/-! ### Examples -/

/-- 400 samples of silence: `lpc` fails with a singular matrix; 399 samples: the frame is not complete. -/
example : raised (lpc {} (List.replicate 400 0)) = some .linAlgError ∧
    raised (lpc {} (List.replicate 399 0)) = some .indexError := by
  have hw : ({} : LpcArgs).win = {} := rfl
  have h2 : ⌊(0.025 : ℝ) * 16000⌋ = 400 := by norm_num [Int.floor_eq_iff]
  have h3 : ⌊(0.01 : ℝ) * 16000⌋ = 160 := by norm_num [Int.floor_eq_iff]
  constructor
  · rw [C117_lpc _ _ (by norm_num) (by norm_num) (by rw [hw]; norm_num)]
    have hz : ZeroFrame (emphasised true 0.97 (List.replicate 400 0)) 400 400 160 := by
      refine ⟨0, by norm_num, fun j _ => ?_⟩
      have h0 : ∀ t, (List.replicate 400 (0 : ℝ)).getD t 0 = 0 := by
        intro t
        rw [List.getD_eq_getElem?_getD, List.getElem?_replicate]
        split_ifs <;> rfl
      rw [emphasised, h0, h0]
      split_ifs <;> ring
    simp only [lpcChecks, hw, frontChecks, frameChecks, List.cons_append, List.nil_append, firstError, h2, h3, List.length_replicate]
    norm_num
    intro h
    norm_num at hz
    exact absurd hz h
  · rw [C117_lpc _ _ (by norm_num) (by norm_num) (by rw [hw]; norm_num)]
    simp only [lpcChecks, hw, frontChecks, frameChecks, List.cons_append, List.nil_append, firstError, h2, h3, List.length_replicate]
    norm_num

/-- pncc with a bank of one filter although `nfilts = 24`. -/
example (sig : List ℝ) (h : 400 ≤ sig.length) :
    raised (pncc { nfft := 2, fbanks := some (finMat [[1, 1]]) } 2 sig) = some .indexError := by
  have hw : ({ nfft := 2, fbanks := some (finMat [[1, 1]]) } : Args).win = {} := rfl
  have h2 : ⌊(0.025 : ℝ) * 16000⌋ = 400 := by norm_num [Int.floor_eq_iff]
  have h3 : ⌊(0.01 : ℝ) * 16000⌋ = 160 := by norm_num [Int.floor_eq_iff]
  rw [C117_pncc_given_bank _ 2 _ rfl sig (by norm_num) (by rw [hw]; norm_num)]
  simp only [pnccBankChecks, Args.win, Option.getD_none, frontChecks, frameChecks, bankChecks, pnccChecks, List.cons_append, List.nil_append, firstError, h2, h3,
    finMat]
  have h4 : sig.length ≠ 0 := by omega
  have h5 : sig ≠ [] := fun e => h4 (by simp [e])
  norm_num [h4, h5]
  omega

end Props
end Spafe
