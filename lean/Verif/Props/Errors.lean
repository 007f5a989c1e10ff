import Verif.Spec.Errors
import Verif.Props.DefaultBank
import Verif.Lemmas.Psrcc

/-! C116: the complete table of exceptions of the cepstral features. -/

set_option linter.unusedSectionVars false

namespace Spafe
namespace Props
open Model XF Spec

section table

/-- The checks of framing and windowing, in their order: window shorter than hop; hop of less than one sample; signal
shorter than the window by more than a hop; signal shorter than the window; unknown window. -/
def frameChecks (fs : ℝ) (w : SlidingWindow) (len : ℕ) : List (Prop × Err) :=
  [(w.winLen < w.winHop, .parameterError "window's length has to be larger than the window's hop"),
    (⌊w.winHop * fs⌋ = 0, .zeroDivisionError),
    (⌊w.winHop * fs⌋ < ⌊w.winLen * fs⌋ - len, .valueError),
    ((len : ℤ) < ⌊w.winLen * fs⌋, .indexError),
    (w.winType ∉ ["hanning", "bartlet", "kaiser", "blackman", "hamming"], .keyError)]

/-- The checks of pre-emphasis (an empty signal), framing and windowing. -/
def frontChecks (preEmph : Bool) (fs : ℝ) (w : SlidingWindow) (len : ℕ) : List (Prop × Err) :=
  (preEmph = true ∧ len = 0, .valueError) :: frameChecks fs w len

/-- The checks on the spectrum and on a bank of `N` filters with column counts `cols`. -/
def bankChecks (nfft : ℕ) (cols : List ℕ) : List (Prop × Err) :=
  [(nfft = 0, .valueError), (∃ c ∈ cols, c ≠ nfft / 2 + 1, .valueError)]

/-- The checks of DCT, energy, liftering and normalisation of `N` band values. -/
def tailChecks (a : Args) (N : ℕ) : List (Prop × Err) :=
  [(a.dctType ∉ [1, 2, 3, 4], .valueError), (N = 0, .valueError), (a.dctType = 1 ∧ N = 1, .valueError),
    (a.useEnergy = true ∧ a.numCeps = 0, .indexError),
    ((∃ q, a.lifter = some q ∧ 0 < q ∧ q ≤ 10) ∧ a.numCeps = 0, .valueError),
    ((∃ n, a.normalize = some n ∧ n ≠ "") ∧ a.numCeps = 0, .valueError),
    (∃ n, a.normalize = some n ∧ n ∉ ["", "mvn", "ms", "vn", "mn"], .keyError)]

end table

theorem firstError_append (l l' : List (Prop × Err)) :
    firstError (l ++ l') = match firstError l with
      | some e => some e
      | none => firstError l' := by
  induction l with
  | nil => rfl
  | cons p l ih =>
    obtain ⟨p, e⟩ := p
    simp only [List.cons_append, firstError]
    split_ifs
    · rfl
    · exact ih

theorem raised_bind {α β : Type} (x : Py α) (f : α → Py β) :
    raised (x >>= f) = match x with
      | .ok v => raised (f v)
      | .error e => some e := by cases x <;> rfl

theorem raised_none {α : Type} {x : Py α} (h : raised x = none) : ∃ v, x = .ok v := by
  cases x with
  | ok v => exact ⟨v, rfl⟩
  | error e => simp [raised] at h

theorem raised_some {α : Type} {x : Py α} {e : Err} (h : raised x = some e) : x = .error e := by
  cases x with
  | ok v => simp [raised] at h
  | error e' => simp [raised] at h; rw [h]

theorem pyInt_nonneg_floor {x : ℝ} (h : 0 ≤ x) : pyInt x = ⌊x⌋ := if_pos h

theorem frontEnd_raised (a : Args) (coeff : ℝ) (sig : List ℝ) (hfs : 0 ≤ a.fs) (hh : 0 ≤ a.win.winHop) :
    raised (frontEnd a coeff sig) = firstError (frontChecks a.preEmph a.fs a.win sig.length) := by
  have hlen : (emph a coeff sig).length = sig.length := emph_length ..
  rw [frontEnd_eq]
  simp only [frontChecks, firstError, List.length_eq_zero_iff]
  by_cases he : a.preEmph = true ∧ sig = []
  · rw [if_pos he, if_pos he]; rfl
  rw [if_neg he, if_neg he, raised_bind]
  generalize a.win = w at *
  have eH : pyInt (id (w.winHop * a.fs)) = ⌊w.winHop * a.fs⌋ := pyInt_nonneg_floor (mul_nonneg hh hfs)
  have hH0 : 0 ≤ ⌊w.winHop * a.fs⌋ := Int.floor_nonneg.mpr (mul_nonneg hh hfs)
  by_cases h1 : w.winLen < w.winHop
  · rw [framing, framingR, if_pos h1]
    simp [firstError, frameChecks, h1, ErrorMsgs.winLenWinHop]
  have eL : pyInt (id (w.winLen * a.fs)) = ⌊w.winLen * a.fs⌋ :=
    pyInt_nonneg_floor (mul_nonneg (le_trans hh (not_lt.mp h1)) hfs)
  by_cases h2 : ⌊w.winHop * a.fs⌋ = 0
  · rw [framing, C12_framing_zero_hop id _ _ _ _ (not_lt.mp h1) (by rw [eH, h2])]
    simp [firstError, frameChecks, h1, h2]
  obtain ⟨-, c2, c3, c4⟩ := C12_framing_cases id monotone_id (emph a coeff sig) a.fs w.winLen w.winHop hfs
    (by rw [eH]; omega)
  rw [eH, eL, hlen] at c2
  rw [eH, eL, hlen] at c3
  rw [eL, hlen] at c4
  by_cases h3 : ⌊w.winHop * a.fs⌋ < ⌊w.winLen * a.fs⌋ - sig.length
  · rw [framing, c3 (not_lt.mp h1) h3]
    simp only [firstError, frameChecks]
    rw [if_neg h1, if_neg h2, if_pos h3]
  by_cases h4 : (sig.length : ℤ) < ⌊w.winLen * a.fs⌋
  · rw [framing, c2 (not_lt.mp h1) h4 (not_lt.mp h3)]
    simp only [firstError, frameChecks]
    rw [if_neg h1, if_neg h2, if_neg h3, if_pos h4]
  obtain ⟨fr, hfr⟩ := c4 (not_lt.mp h1) (not_lt.mp h4)
  rw [framing, hfr]
  simp only [firstError, frameChecks, windowing]
  rw [if_neg h1, if_neg h2, if_neg h3, if_neg h4, raised_bind]
  have hw := C14_window_vector w.winType ⌊w.winLen * a.fs⌋.toNat
  by_cases h5 : WindowName w.winType
  · obtain ⟨v, hv, -⟩ := hw.1 h5
    rw [hv, if_neg]
    · rfl
    · rw [not_not]
      simpa [WindowName, or_comm, or_left_comm, or_assoc] using h5
  · rw [hw.2 h5, if_pos]
    simpa [WindowName, or_comm, or_left_comm, or_assoc] using h5

theorem firstError_eq_none {l : List (Prop × Err)} : firstError l = none ↔ ∀ p ∈ l, ¬ p.1 := by
  induction l with
  | nil => simp [firstError]
  | cons p l ih =>
    obtain ⟨p, e⟩ := p
    simp only [firstError]
    split_ifs with h
    · simp [h]
    · simp [h, ih]

theorem cepstralTail_norm (a : Args) (ft : List (List ℝ)) (x : XMat) :
    cepstralTail a ft x = cepstralTail { a with normalize := none } ft x >>= normStep a (Np.ncols x) := by
  unfold cepstralTail normStep
  simp only [bind_assoc, ok_bind]
  cases a.lifter <;> cases a.normalize <;> rfl

theorem cepstralTail_raised {β : Type} (a : Args) (W : List β) (hW : W ≠ []) (mag : β → List ℝ) (R : β → List (XF ℝ))
    (N : ℕ) (hR : ∀ w ∈ W, (R w).length = N) :
    raised (cepstralTail a (W.map mag) (W.map R)) = firstError (tailChecks a N) := by
  have hN : Np.ncols (W.map R) = N := by
    cases W with
    | nil => exact absurd rfl hW
    | cons w W => simpa [Np.ncols] using hR w (by simp)
  have hmem : a.dctType ∈ [1, 2, 3, 4] ↔ ¬ (a.dctType < 1 ∨ 4 < a.dctType) := by simp; omega
  simp only [firstError, tailChecks]
  by_cases h1 : a.dctType < 1 ∨ 4 < a.dctType
  · rw [if_pos (by rw [hmem, not_not]; exact h1), cepstralTail, Np.dct, if_pos h1]
    rfl
  rw [if_neg (by rw [hmem, not_not]; exact h1)]
  by_cases h2 : N = 0
  · rw [if_pos h2, cepstralTail, hN, Np.dct, if_neg h1, if_pos (by omega)]
    rfl
  rw [if_neg h2]
  by_cases h3 : a.dctType = 1 ∧ N = 1
  · rw [if_pos h3, cepstralTail, hN, Np.dct, if_neg h1, if_neg (by omega), if_pos (by omega)]
    rfl
  rw [if_neg h3]
  have hd : ∀ t : Py XMat, Np.dct a.dctType N (W.map R) = .ok ((W.map R).map (Np.dctRow a.dctType)) := by
    intro _
    rw [Np.dct, if_neg h1, if_neg (by omega), if_neg (by omega)]
  replace hd := hd (.ok [])
  by_cases h4 : a.useEnergy = true ∧ a.numCeps = 0
  · rw [if_pos h4, cepstralTail, hN, hd]
    simp only [ok_bind]
    rw [if_pos h4.1, if_pos (by omega)]
    rfl
  rw [if_neg h4]
  have hu : ∃ v, (if a.useEnergy then
      (if min a.numCeps N = 0 then .error .indexError else .ok (setFirstCol (((W.map R).map
        (Np.dctRow a.dctType)).map (·.take a.numCeps)) ((W.map mag).map (logEnergy a.nfft))))
    else .ok (((W.map R).map (Np.dctRow a.dctType)).map (·.take a.numCeps)) : Py XMat) = .ok v := by
    split_ifs with e1 e2
    · exact absurd ⟨e1, by omega⟩ h4
    · exact ⟨_, rfl⟩
    · exact ⟨_, rfl⟩
  by_cases h5 : (∃ q, a.lifter = some q ∧ 0 < q ∧ q ≤ 10) ∧ a.numCeps = 0
  · rw [if_pos h5, cepstralTail, hN, hd]
    obtain ⟨⟨q, hq, q0, q1⟩, hc⟩ := h5
    obtain ⟨v, hv⟩ := hu
    simp only [ok_bind]
    rw [hv]
    simp only [ok_bind, hq]
    rw [if_neg q0.ne', lifterCeps, if_neg (by rintro (h | h) <;> linarith), if_pos q0, if_pos (by omega)]
    rfl
  rw [if_neg h5]
  have ht : TailOk { a with normalize := none } N := by
    refine ⟨?_, ?_, by omega, ?_, ?_, ?_⟩
    · simp only; omega
    · simp only; omega
    · simp only; omega
    · intro hu hc
      exact h4 ⟨hu, by simp only at hc; omega⟩
    · intro q hq q0 q1 hc
      exact h5 ⟨⟨q, hq, q0, q1⟩, by simp only at hc; omega⟩
  have hrow : ∀ w ∈ W, (tailRow { a with normalize := none } N (mag w) (R w)).length = min a.numCeps N :=
    fun w hw => tailRow_length ht _ _ (hR w hw)
  have hok := (cepstralTail_ok_iff { a with normalize := none } W hW mag R N hR _).mpr ⟨ht, rfl⟩
  rw [cepstralTail_norm, hok, ok_bind, hN]
  unfold normStep
  cases hn : a.normalize with
  | none => simp [raised]
  | some n =>
    simp only [Option.some.injEq, exists_eq_left']
    by_cases h6 : n = ""
    · simp [h6, raised]
    · rw [if_neg h6]
      have hflat : (W.map fun w => tailRow { a with normalize := none } N (mag w) (R w)).flatten = [] ↔ a.numCeps = 0 := by
        rw [List.flatten_eq_nil_iff]
        constructor
        · intro h
          obtain ⟨w, hw⟩ := List.exists_mem_of_ne_nil W hW
          have h7 := h _ (List.mem_map.mpr ⟨w, hw, rfl⟩)
          have h8 := hrow w hw
          rw [h7] at h8
          simp at h8
          omega
        · intro h l hl
          obtain ⟨w, hw, rfl⟩ := List.mem_map.mp hl
          exact List.eq_nil_of_length_eq_zero (by rw [hrow w hw]; omega)
      unfold normalizeCeps
      by_cases h7 : a.numCeps = 0
      · rw [if_pos (hflat.mpr h7), if_pos ⟨h6, h7⟩]; rfl
      · rw [if_neg (fun h => h7 (hflat.mp h))]
        simp only [h7, and_false, if_false]
        by_cases m1 : n = "mvn"
        · simp [m1, raised]
        by_cases m2 : n = "ms"
        · simp [m2, raised]
        by_cases m3 : n = "vn"
        · simp [m3, raised]
        by_cases m4 : n = "mn"
        · simp [m4, raised]
        simp [m1, m2, m3, m4, h6, raised]

/-- The checks after the bank is known. -/
theorem featCore_raised (a : Args) (coeff : ℝ) (fb : XMat) (g : XF ℝ → XF ℝ) (sig : List ℝ) (hfs : 0 ≤ a.fs)
    (hh : 0 ≤ a.win.winHop) :
    raised (featCore a coeff fb g sig) = firstError (frontChecks a.preEmph a.fs a.win sig.length ++
      bankChecks a.nfft (fb.map List.length) ++ tailChecks a fb.length) := by
  rw [List.append_assoc, firstError_append, ← frontEnd_raised a coeff sig hfs hh]
  cases hW : frontEnd a coeff sig with
  | error e =>
    unfold featCore spectrogram
    rw [hW]; rfl
  | ok W =>
    simp only [raised, bankChecks, List.cons_append, List.nil_append, firstError]
    by_cases h1 : a.nfft = 0
    · unfold featCore spectrogram
      rw [hW, ok_bind, absFft, if_pos h1, if_pos h1]; rfl
    rw [if_neg h1]
    by_cases h2 : ∀ r ∈ fb, r.length = a.nfft / 2 + 1
    · have h3 := (spectrogram_ok_iff a coeff fb sig _ _).mpr ⟨W, hW, h1, h2, rfl, rfl⟩
      rw [featCore, h3, ok_bind, if_neg (by simpa using h2)]
      dsimp only
      rw [List.map_map]
      exact cepstralTail_raised a W (frontEnd_ne_nil hW) _ _ fb.length (by simp)
    · unfold featCore spectrogram
      rw [hW, ok_bind, absFft, if_neg h1, ok_bind, dotFbanks, if_neg h2, if_pos (by simpa using h2)]; rfl

theorem psrcc_raised (a : Args) (fb : XMat) (hb : melBankOf a = .ok fb) (sig : List ℝ) (hfs : 0 ≤ a.fs)
    (hh : 0 ≤ a.win.winHop) (hc : ¬ a.nfilts < a.numCeps) :
    raised (psrcc a sig) = firstError (frontChecks a.preEmph a.fs a.win sig.length ++
      bankChecks a.nfft (fb.map List.length) ++ tailChecks a fb.length) := by
  rw [List.append_assoc, firstError_append, ← frontEnd_raised a a.preEmphCoeff sig hfs hh]
  unfold psrcc
  rw [if_neg hc, hb, ok_bind]
  cases hW : frontEnd a a.preEmphCoeff sig with
  | error e => rfl
  | ok W =>
    simp only [raised, bankChecks, List.cons_append, List.nil_append, firstError, ok_bind]
    by_cases h1 : a.nfft = 0
    · rw [absFft, if_pos h1, if_pos h1]; rfl
    rw [if_neg h1, absFft, if_neg h1, ok_bind, dotFbanks]
    by_cases h2 : ∀ r ∈ fb, r.length = a.nfft / 2 + 1
    · rw [if_pos h2, ok_bind, if_neg (by simpa using h2)]
      have hx : infToMax ((Np.dotT ((W.map (phases a.nfft)).map fun r => r.map fin) fb).map
          fun r => r.map fun v => nanToZero (XF.pow v a.gamma)) =
          W.map fun w => (phX a fb w).map (fixInf (phMax a fb W)) := by
        unfold infToMax phMax
        rw [Np.dotT]
        simp only [List.map_map]
        rfl
      unfold phases at hx
      rw [hx]
      exact cepstralTail_raised a W (frontEnd_ne_nil hW) _ _ fb.length (by simp [phX, phRow])
    · rw [if_neg h2, if_pos (by simpa using h2)]; rfl

/-- All checks of a feature called with a bank, in their order. -/
noncomputable def featureChecks (a : Args) (cols : List ℕ) (len : ℕ) : List (Prop × Err) :=
  (a.nfilts < a.numCeps, .parameterError "number of filters must be bigger than number of cepstrums") ::
    (frontChecks a.preEmph a.fs a.win len ++ bankChecks a.nfft cols ++ tailChecks a cols.length)

/-- C116: a feature called with a bank raises exactly the exception of the first failing check of the table, and
returns a matrix if none fails. -/
theorem C116_given_bank (f : Feature) (hf : f ∈ cepstralFeatures) (a : Args) (fb : XMat) (hb : a.fbanks = some fb)
    (sig : List ℝ) (hfs : 0 ≤ a.fs) (hh : 0 ≤ a.win.winHop) :
    raised (f a sig) = firstError (featureChecks a (fb.map List.length) sig.length) := by
  simp only [featureChecks, firstError, List.length_map]
  by_cases hc : a.nfilts < a.numCeps
  · rw [if_pos hc, (C37_nfilts_check f hf a sig).mpr hc]; rfl
  rw [if_neg hc]
  have hm : melBankOf a = .ok fb := by rw [melBankOf, hb]; rfl
  have hg : gammaBankOf a = .ok fb := by rw [gammaBankOf, hb]; rfl
  simp only [cepstralFeatures, List.mem_cons, List.not_mem_nil, or_false] at hf
  rcases hf with rfl | rfl | rfl | rfl | rfl | rfl | rfl | rfl
  · rw [mfcc_eq, if_neg hc, hm, ok_bind]; exact featCore_raised _ _ _ _ _ hfs hh
  · rw [imfcc_eq, if_neg hc, hb]; exact featCore_raised _ _ _ _ _ hfs hh
  · rw [lfcc_eq, if_neg hc, hb]; exact featCore_raised _ _ _ _ _ hfs hh
  · rw [bfcc_eq, if_neg hc, hb]; exact featCore_raised _ _ _ _ _ hfs hh
  · rw [gfcc_eq, if_neg hc, hg, ok_bind]; exact featCore_raised _ _ _ _ _ hfs hh
  · rw [ngcc_eq, if_neg hc, hg, ok_bind]; exact featCore_raised _ _ _ _ _ hfs hh
  · rw [msrcc_eq, if_neg hc, hm, ok_bind]; exact featCore_raised _ _ _ _ _ hfs hh
  · exact psrcc_raised a fb hm sig hfs hh hc

/-- The checks of a mel bank (`mel = true`) or linear bank, in their order. -/
noncomputable def melBankChecks (a : Args) (mel : Bool) : List (Prop × Err) :=
  [(a.low < 0, .parameterError "minimal frequency cannot be less than zero."),
    (∃ h, a.high = some h ∧ h ≠ 0 ∧ a.fs / 2 < h,
      .parameterError "maximum frequency cannot be greater than half sampling frequency."),
    (mel = true ∧ a.approach ∉ ["Oshaghnessy", "Lindsay"], .keyError),
    (a.scale ∉ ["ascendant", "descendant", "constant"], .keyError)]

theorem scale_raised (scale : String) (n : ℕ) :
    raised (scaleFbank (α := ℝ) scale n) = firstError [(scale ∉ ["ascendant", "descendant", "constant"], .keyError)] := by
  simp only [firstError, scaleFbank, List.mem_cons, List.not_mem_nil, or_false]
  by_cases h1 : scale = "ascendant"
  · simp [h1, raised]
  by_cases h2 : scale = "descendant"
  · simp [h2, raised]
  by_cases h3 : scale = "constant"
  · simp [h3, raised]
  simp [h1, h2, h3, raised]

theorem raised_bind_ok {α β : Type} (x : Py α) (f : α → Py β) (h : ∀ v, x = .ok v → raised (f v) = none) :
    raised (x >>= f) = raised x := by
  cases x with
  | ok v => exact h v rfl
  | error e => rfl

theorem mapM_total {α β : Type} {f : α → Py β} (h : ∀ x, ∃ y, f x = .ok y) (l : List α) : ∃ v, l.mapM f = .ok v := by
  choose g hg using h
  exact ⟨l.map g, mapM_ok _ _ _ fun x _ => hg x⟩

theorem helper_raised (a : Args) (mel : Bool) (ap : String) (hap : mel = true → ap = a.approach) (ty : String)
    (hty : ty = "mel" ↔ mel = true) :
    raised (melFilterBanksHelper a.nfilts a.nfft a.fs a.low a.high a.scale ty ap) = firstError (melBankChecks a mel) := by
  simp only [melBankChecks, firstError, melFilterBanksHelper]
  have hs := scale_raised a.scale a.nfilts
  simp only [firstError] at hs
  by_cases h1 : a.low < 0
  · rw [if_pos h1, if_pos h1]; rfl
  rw [if_neg h1, if_neg h1]
  have hh : effHigh a.high a.fs > a.fs / 2 ↔ ∃ h, a.high = some h ∧ h ≠ 0 ∧ a.fs / 2 < h := by
    unfold effHigh
    cases a.high with
    | none => simp
    | some h =>
      simp only [Option.some.injEq, exists_eq_left']
      by_cases h0 : h = 0
      · simp [h0]
      · simp [h0]
  by_cases h2 : effHigh a.high a.fs > a.fs / 2
  · rw [if_pos h2, if_pos (hh.mp h2)]; rfl
  rw [if_neg h2, if_neg (fun h => h2 (hh.mpr h))]
  by_cases h3 : mel = true
  · rw [if_pos (hty.mpr h3), hap h3]
    by_cases h4 : a.approach ∈ ["Oshaghnessy", "Lindsay"]
    · rw [if_neg (by simp only [not_and, not_not]; exact fun _ => h4), ← hs]
      have hz : ∀ x, ∃ y, hz2mel x a.approach = .ok y := by
        intro x
        simp only [List.mem_cons, List.not_mem_nil, or_false] at h4
        rcases h4 with h4 | h4 <;> simp [hz2mel, h4]
      have mz : ∀ x, ∃ y, mel2hz x a.approach = .ok y := by
        intro x
        simp only [List.mem_cons, List.not_mem_nil, or_false] at h4
        rcases h4 with h4 | h4 <;> simp [mel2hz, h4]
      obtain ⟨y1, e1⟩ := hz (fin a.low)
      obtain ⟨y2, e2⟩ := hz (fin (effHigh a.high a.fs))
      obtain ⟨y3, e3⟩ := mapM_total mz (scalePoints y1 y2 a.nfilts)
      rw [e1, ok_bind, e2, ok_bind, e3, ok_bind]
      exact raised_bind_ok _ _ fun _ _ => rfl
    · rw [if_pos ⟨h3, h4⟩]
      simp only [List.mem_cons, List.not_mem_nil, or_false, not_or] at h4
      rw [hz2mel, if_neg h4.1, if_neg h4.2]; rfl
  · rw [if_neg (fun h => h3 (hty.mp h)), if_neg (fun h => h3 h.1), ← hs]
    exact raised_bind_ok _ _ fun _ _ => rfl

/-- Without a bank the checks of the bank come second; the bank then always has the right number of columns. -/
noncomputable def ownBankChecks (a : Args) (bank : List (Prop × Err)) (len : ℕ) : List (Prop × Err) :=
  (a.nfilts < a.numCeps, .parameterError "number of filters must be bigger than number of cepstrums") ::
    (bank ++ frontChecks a.preEmph a.fs a.win len ++ [(a.nfft = 0, .valueError)] ++ tailChecks a a.nfilts)

theorem own_bank_raised (f : Feature) (hf : f ∈ cepstralFeatures) (a : Args) (sig : List ℝ)
    (hfs : 0 ≤ a.fs) (hh : 0 ≤ a.win.winHop) (hn : a.fbanks = none) (bank : Py XMat) (checks : List (Prop × Err))
    (hb : raised bank = firstError checks)
    (hshape : ∀ fb, bank = .ok fb → fb.length = a.nfilts ∧ ∀ r ∈ fb, r.length = a.nfft / 2 + 1)
    (hrun : ¬ a.nfilts < a.numCeps → f a sig = bank >>= fun fb => f { a with fbanks := some fb } sig) :
    raised (f a sig) = firstError (ownBankChecks a checks sig.length) := by
  simp only [ownBankChecks, List.append_assoc, firstError]
  by_cases hc : a.nfilts < a.numCeps
  · rw [if_pos hc, (C37_nfilts_check f hf a sig).mpr hc]; rfl
  rw [if_neg hc, firstError_append, ← hb, hrun hc]
  cases hbk : bank with
  | error e => rfl
  | ok fb =>
    rw [ok_bind]
    show raised (f { a with fbanks := some fb } sig) = _
    have h1 := C116_given_bank f hf { a with fbanks := some fb } fb rfl sig hfs hh
    rw [h1]
    obtain ⟨s1, s2⟩ := hshape fb hbk
    simp only [featureChecks, firstError, List.length_map, List.append_assoc]
    rw [if_neg hc]
    have h3 : ({ a with fbanks := some fb } : Args).win = a.win := rfl
    have h4 : tailChecks { a with fbanks := some fb } fb.length = tailChecks a a.nfilts := by rw [s1]; rfl
    rw [h3, h4, firstError_append, firstError_append (frontChecks _ _ _ _)]
    have h5 : firstError (bankChecks a.nfft (fb.map List.length) ++ tailChecks a a.nfilts) =
        firstError ([(a.nfft = 0, .valueError)] ++ tailChecks a a.nfilts) := by
      simp only [bankChecks, List.cons_append, List.nil_append, firstError]
      rw [if_neg (c := ∃ c ∈ fb.map List.length, c ≠ a.nfft / 2 + 1) (by simpa using s2)]
    rw [h5]
    rfl

theorem getFbanks_run {β : Type} (a : Args) (hn : a.fbanks = none) (c : Py (XMat × β)) (g : XMat → Py XMat) :
    getFbanks a.fbanks c >>= g = (c >>= fun p => .ok p.1) >>= g := by
  rw [hn]; rfl

theorem raised_fst {α β : Type} (c : Py (α × β)) : raised (c >>= fun p => .ok p.1) = raised c :=
  raised_bind_ok _ _ fun _ _ => rfl

/-- C116 for the features on a mel bank called without a bank. -/
theorem C116_mel_features (f : Feature) (hf : f ∈ [mfcc, msrcc, psrcc]) (a : Args) (hn : a.fbanks = none)
    (sig : List ℝ) (hfs : 0 ≤ a.fs) (hh : 0 ≤ a.win.winHop) :
    raised (f a sig) = firstError (ownBankChecks a (melBankChecks a true) sig.length) := by
  have hmem : f ∈ cepstralFeatures := by
    simp only [List.mem_cons, List.not_mem_nil, or_false] at hf
    rcases hf with rfl | rfl | rfl <;> simp [cepstralFeatures]
  refine own_bank_raised f hmem a sig hfs hh hn (melFilterBanks a.nfilts a.nfft a.fs a.low a.high a.scale a.approach >>=
    fun p => .ok p.1) _ ((raised_fst _).trans (helper_raised a true a.approach (fun _ => rfl) "mel" (by simp))) ?_ ?_
  · intro fb h
    rw [bind_ok_iff] at h
    obtain ⟨p, hp, h⟩ := h
    injection h with h
    obtain ⟨h1, h2, -⟩ := C25_mel_shape (bank := p.1) (cs := p.2) hp
    rw [← h]; exact ⟨h1, h2⟩
  · intro hc
    simp only [List.mem_cons, List.not_mem_nil, or_false] at hf
    rcases hf with rfl | rfl | rfl
    · simp only [mfcc_eq, if_neg hc, melBankOf]
      rw [getFbanks_run a hn]; rfl
    · simp only [msrcc_eq, if_neg hc, melBankOf]
      rw [getFbanks_run a hn]; rfl
    · unfold psrcc
      simp only [if_neg hc, melBankOf]
      rw [getFbanks_run a hn]; rfl

/-- C116 for `lfcc` called without a bank. -/
theorem C116_lfcc (a : Args) (hn : a.fbanks = none) (sig : List ℝ) (hfs : 0 ≤ a.fs) (hh : 0 ≤ a.win.winHop) :
    raised (lfcc a sig) = firstError (ownBankChecks a (melBankChecks a false) sig.length) := by
  refine own_bank_raised lfcc (by simp [cepstralFeatures]) a sig hfs hh hn
    (linearFilterBanks a.nfilts a.nfft a.fs a.low a.high a.scale >>= fun p => .ok p.1) _
    ((raised_fst _).trans ((raised_bind_ok _ _ fun _ _ => rfl).trans
      (helper_raised a false _ (by simp) "lin" (by simp)))) ?_ ?_
  · intro fb h
    rw [bind_ok_iff] at h
    obtain ⟨p, hp, h⟩ := h
    injection h with h
    obtain ⟨h1, h2, -⟩ := C25_linear_shape (bank := p.1) (cs := p.2) hp
    rw [← h]; exact ⟨h1, h2⟩
  · intro hc
    simp only [lfcc_eq, if_neg hc]
    rw [getFbanks_run a hn]; rfl

/-- The checks of the inverse mel bank: the scale first, then those of the mel bank, then the upper frequency, which must
be given (unless there is no filter). -/
noncomputable def inverseMelChecks (a : Args) : List (Prop × Err) :=
  (a.scale ∉ ["ascendant", "descendant", "constant"], .keyError) :: (melBankChecks a true ++
    [(a.high = none ∧ a.nfilts ≠ 0, .typeError)])

theorem inverse_mel_raised (a : Args) :
    raised (inverseMelFilterBanks a.nfilts a.nfft a.fs a.low a.high a.scale a.approach) =
      firstError (inverseMelChecks a) := by
  simp only [inverseMelChecks, firstError]
  by_cases hs : ∃ t, SwapScale a.scale t
  · obtain ⟨t, ht⟩ := hs
    have hsc : (a.scale = "ascendant" ∨ a.scale = "descendant" ∨ a.scale = "constant") ∧
        (t = "ascendant" ∨ t = "descendant" ∨ t = "constant") := by
      generalize a.scale = sc at ht
      cases ht <;> simp
    rw [if_neg (not_not.mpr (by simpa using hsc.1))]
    unfold inverseMelFilterBanks
    rw [inverseScale_ok ht, ok_bind]
    have hscale : raised (melFilterBanksHelper a.nfilts a.nfft a.fs a.low a.high t "mel" a.approach) =
        firstError (melBankChecks a true) := by
      have := helper_raised { a with scale := t } true a.approach (fun _ => rfl) "mel" (by simp)
      refine Eq.trans this ?_
      simp only [melBankChecks, firstError]
      rw [if_neg (c := t ∉ _) (not_not.mpr (by simpa using hsc.2)), if_neg (c := a.scale ∉ _) (not_not.mpr (by simpa using hsc.1))]
    rw [firstError_append, ← hscale]
    cases hm : melFilterBanksHelper a.nfilts a.nfft a.fs a.low a.high t "mel" a.approach with
    | error e => rfl
    | ok p =>
      have hnone : firstError (melBankChecks a true) = none := by rw [← hscale, hm]; rfl
      rw [firstError_eq_none] at hnone
      have hap := hnone _ (List.mem_cons_of_mem _ (List.mem_cons_of_mem _ List.mem_cons_self))
      simp only [true_and, not_not, List.mem_cons, List.not_mem_nil, or_false] at hap
      have hz : ∀ x, ∃ y, hz2mel x a.approach = .ok y := by
        intro x
        rcases hap with h4 | h4 <;> simp [hz2mel, h4]
      have mz : ∀ x, ∃ y, mel2hz x a.approach = .ok y := by
        intro x
        rcases hap with h4 | h4 <;> simp [mel2hz, h4]
      obtain ⟨v, hv⟩ := mapM_total mz p.2
      have hl : v.length = a.nfilts := by
        rw [mapM_length _ _ _ hv]
        exact (C25_mel_shape (bank := p.1) (cs := p.2) hm).2.2
      rw [ok_bind]
      dsimp only
      rw [hv, ok_bind]
      simp only [raised, firstError]
      cases a.high with
      | none =>
        simp only [true_and]
        by_cases h0 : v = []
        · rw [if_pos h0, if_neg (by rw [not_not, ← hl, h0]; rfl)]
        · rw [if_neg h0, if_pos (by rw [← hl]; simpa using h0)]
      | some h =>
        simp only [reduceCtorEq, false_and, if_false]
        obtain ⟨u, hu⟩ := mapM_total (fun x => hz (fin h - x)) v
        rw [hu]; rfl
  · push Not at hs
    rw [C24_inverse_mel_unknown_scale _ _ _ _ _ _ _ hs, if_pos]
    · rfl
    · simp only [List.mem_cons, List.not_mem_nil, or_false, not_or]
      refine ⟨fun h => hs "descendant" ?_, fun h => hs "ascendant" ?_, fun h => hs "constant" ?_⟩ <;> rw [h]
      exacts [.ascendant, .descendant, .constant]

/-- C116 for `imfcc` called without a bank. -/
theorem C116_imfcc (a : Args) (hn : a.fbanks = none) (sig : List ℝ) (hfs : 0 ≤ a.fs) (hh : 0 ≤ a.win.winHop) :
    raised (imfcc a sig) = firstError (ownBankChecks a (inverseMelChecks a) sig.length) := by
  refine own_bank_raised imfcc (by simp [cepstralFeatures]) a sig hfs hh hn
    (inverseMelFilterBanks a.nfilts a.nfft a.fs a.low a.high a.scale a.approach >>= fun p => .ok p.1) _
    ((raised_fst _).trans (inverse_mel_raised a)) ?_ ?_
  · intro fb h
    rw [bind_ok_iff] at h
    obtain ⟨p, hp, h⟩ := h
    injection h with h
    obtain ⟨h1, h2, -⟩ := C25_inverse_mel_shape (bank := p.1) (cs := p.2) hp
    rw [← h]; exact ⟨h1, h2⟩
  · intro hc
    simp only [imfcc_eq, if_neg hc]
    rw [getFbanks_run a hn]; rfl

/-- The checks of a gammatone bank (`gamma = true`) or Bark bank, in their order. -/
noncomputable def erbBankChecks (a : Args) (gamma : Bool) : List (Prop × Err) :=
  [(a.low < 0, .parameterError "minimal frequency cannot be less than zero."),
    (∃ h, a.high = some h ∧ h ≠ 0 ∧ a.fs / 2 < h,
      .parameterError "maximum frequency cannot be greater than half sampling frequency."),
    (gamma = true ∧ a.nfft = 0, .indexError),
    (a.scale ∉ ["ascendant", "descendant", "constant"], .keyError)]

theorem effHigh_gt (a : Args) : effHigh a.high a.fs > a.fs / 2 ↔ ∃ h, a.high = some h ∧ h ≠ 0 ∧ a.fs / 2 < h := by
  unfold effHigh
  cases a.high with
  | none => simp
  | some h =>
    simp only [Option.some.injEq, exists_eq_left']
    by_cases h0 : h = 0
    · simp [h0]
    · simp [h0]

theorem gammatone_raised (a : Args) (hfs : 0 < a.fs) (hhi : ∀ h, a.high = some h → 0 ≤ h) :
    raised (gammatoneFilterBanks a.nfilts a.nfft a.fs a.low a.high a.scale 4 a.approach) =
      firstError (erbBankChecks a true) := by
  simp only [erbBankChecks, firstError, gammatoneFilterBanks]
  have hs := scale_raised a.scale a.nfilts
  simp only [firstError] at hs
  by_cases h1 : a.low < 0
  · rw [if_pos h1, if_pos h1]; rfl
  rw [if_neg h1, if_neg h1]
  by_cases h2 : effHigh a.high a.fs > a.fs / 2
  · rw [if_pos h2, if_pos ((effHigh_gt a).mp h2)]; rfl
  have h3 : ¬ effHigh a.high a.fs < 0 := by
    rw [not_lt]
    unfold effHigh
    cases hv : a.high with
    | none => simp only; linarith
    | some h =>
      simp only
      split_ifs
      · linarith
      · exact hhi h hv
  rw [if_neg h2, if_neg (fun h => h2 ((effHigh_gt a).mpr h)), if_neg hfs.ne', if_neg h3, if_neg (by norm_num)]
  by_cases h4 : a.nfft = 0
  · rw [if_pos h4, if_pos ⟨trivial, h4⟩]; rfl
  rw [if_neg h4, if_neg (fun h => h4 h.2), ← hs]
  exact raised_bind_ok _ _ fun _ _ => rfl

/-- C116 for `gfcc` and `ngcc` called without a bank. -/
theorem C116_gfcc_ngcc (f : Feature) (hf : f ∈ [gfcc, ngcc]) (a : Args) (hn : a.fbanks = none)
    (sig : List ℝ) (hfs : 0 < a.fs) (hh : 0 ≤ a.win.winHop) (hhi : ∀ h, a.high = some h → 0 ≤ h) :
    raised (f a sig) = firstError (ownBankChecks a (erbBankChecks a true) sig.length) := by
  have hmem : f ∈ cepstralFeatures := by
    simp only [List.mem_cons, List.not_mem_nil, or_false] at hf
    rcases hf with rfl | rfl <;> simp [cepstralFeatures]
  refine own_bank_raised f hmem a sig hfs.le hh hn
    (gammatoneFilterBanks a.nfilts a.nfft a.fs a.low a.high a.scale 4 a.approach >>= fun p => .ok p.1) _
    ((raised_fst _).trans (gammatone_raised a hfs hhi)) ?_ ?_
  · intro fb h
    rw [bind_ok_iff] at h
    obtain ⟨p, hp, h⟩ := h
    injection h with h
    obtain ⟨h1, h2, -⟩ := C25_gammatone_shape (bank := p.1) (cs := p.2) hp
    rw [← h]; exact ⟨h1, h2⟩
  · intro hc
    simp only [List.mem_cons, List.not_mem_nil, or_false] at hf
    rcases hf with rfl | rfl
    · simp only [gfcc_eq, if_neg hc, gammaBankOf]
      rw [getFbanks_run a hn]; rfl
    · simp only [ngcc_eq, if_neg hc, gammaBankOf]
      rw [getFbanks_run a hn]; rfl

theorem bark_raised (a : Args) (hfs : 0 < a.fs) {B : ℝ → ℝ} (hB : BarkScale a.approach B) :
    raised (barkFilterBanks a.nfilts a.nfft a.fs a.low a.high a.scale a.approach) =
      firstError (erbBankChecks a false) := by
  by_cases h1 : a.low < 0
  · simp only [erbBankChecks, firstError, barkFilterBanks]
    rw [if_pos h1, if_pos h1]; rfl
  by_cases h2 : effHigh a.high a.fs > a.fs / 2
  · simp only [erbBankChecks, firstError, barkFilterBanks]
    rw [if_neg h1, if_neg h1, if_pos h2, if_pos ((effHigh_gt a).mp h2)]; rfl
  obtain ⟨bank, cs, h, -⟩ := C34_bark_ok_partial (scale := "constant") .constant hB (effHigh_spec a.high a.fs) hfs
    (not_lt.mp h1) (not_lt.mp h2) a.nfilts a.nfft
  simp only [erbBankChecks, firstError]
  have hs := scale_raised a.scale a.nfilts
  simp only [firstError] at hs
  rw [if_neg h1, if_neg (fun h => h2 ((effHigh_gt a).mpr h)), if_neg (by simp), ← hs]
  simp only [barkFilterBanks] at h ⊢
  rw [if_neg h1, if_neg h2] at h ⊢
  rw [bind_ok_iff] at h
  obtain ⟨rows, hr, -⟩ := h
  rw [hr, ok_bind]
  exact raised_bind_ok _ _ fun _ _ => rfl

/-- C116 for `bfcc` called without a bank, for the three Bark formulas with a total inverse. -/
theorem C116_bfcc (a : Args) (hn : a.fbanks = none) (sig : List ℝ) (hfs : 0 < a.fs) (hh : 0 ≤ a.win.winHop)
    (hB : ∃ B, BarkScale a.approach B) :
    raised (bfcc a sig) = firstError (ownBankChecks a (erbBankChecks a false) sig.length) := by
  obtain ⟨B, hB⟩ := hB
  refine own_bank_raised bfcc (by simp [cepstralFeatures]) a sig hfs.le hh hn
    (barkFilterBanks a.nfilts a.nfft a.fs a.low a.high a.scale a.approach >>= fun p => .ok p.1) _
    ((raised_fst _).trans (bark_raised a hfs hB)) ?_ ?_
  · intro fb h
    rw [bind_ok_iff] at h
    obtain ⟨p, hp, h⟩ := h
    injection h with h
    obtain ⟨h1, h2, -⟩ := C25_bark_shape (bank := p.1) (cs := p.2) hp
    rw [← h]; exact ⟨h1, h2⟩
  · intro hc
    simp only [bfcc_eq, if_neg hc]
    rw [getFbanks_run a hn]; rfl

/-- The default call of `mfcc` passes every check once the signal has 400 samples. -/
example (sig : List ℝ) (h : 400 ≤ sig.length) : raised (mfcc {} sig) = none := by
  rw [C116_mel_features mfcc (by simp) {} rfl sig (by norm_num) (by norm_num [Args.win])]
  have h2 : ⌊(0.025 : ℝ) * 16000⌋ = 400 := by norm_num [Int.floor_eq_iff]
  simp [ownBankChecks, melBankChecks, frontChecks, frameChecks, tailChecks, firstError, Args.win, h2]
  norm_num
  rw [if_neg (fun e => by simp [e] at h), if_neg (by omega), if_neg (by omega)]

/-- Two mistakes at once: too many coefficients and a negative lowest frequency. The first is reported. -/
example (sig : List ℝ) : raised (mfcc { numCeps := 30, low := -1 } sig) =
    some (.parameterError "number of filters must be bigger than number of cepstrums") := by
  rw [C116_mel_features mfcc (by simp) _ rfl sig (by norm_num) (by norm_num [Args.win])]
  simp [ownBankChecks, firstError]

/-- A negative lowest frequency is reported before a signal that is too short. -/
example : raised (lfcc { low := -1 } []) =
    some (.parameterError "minimal frequency cannot be less than zero.") := by
  rw [C116_lfcc _ rfl _ (by norm_num) (by norm_num [Args.win])]
  simp [ownBankChecks, melBankChecks, firstError]

/-- The default call of `imfcc` fails on every signal. -/
example (sig : List ℝ) : raised (imfcc {} sig) = some .typeError := by
  rw [C116_imfcc {} rfl sig (by norm_num) (by norm_num [Args.win])]
  simp [ownBankChecks, inverseMelChecks, melBankChecks, firstError]

/-- An FFT size of 0 is an `IndexError` for `gfcc`, a `ValueError` for `bfcc`. -/
example (sig : List ℝ) (h : 400 ≤ sig.length) : raised (gfcc { nfft := 0 } sig) = some .indexError ∧
    raised (bfcc { nfft := 0, approach := "Wang" } sig) = some .valueError := by
  rw [C116_gfcc_ngcc gfcc (by simp) _ rfl sig (by norm_num) (by norm_num [Args.win]) (by simp),
    C116_bfcc _ rfl sig (by norm_num) (by norm_num [Args.win]) ⟨_, .wang⟩]
  have h2 : ⌊(0.025 : ℝ) * 16000⌋ = 400 := by norm_num [Int.floor_eq_iff]
  constructor
  · simp [ownBankChecks, erbBankChecks, firstError]
  · simp [ownBankChecks, erbBankChecks, frontChecks, frameChecks, firstError, Args.win, h2]
    norm_num
    intro _ _ h3; omega

end Props
end Spafe
