import Verif.Lemmas.Psrcc
import Verif.Props.MelFbanks
import Verif.Props.BarkFbanks
import Verif.Props.GammatoneFbanks

/-! Properties C37–C42: validation, shape, precomputed banks, non-negativity and finiteness of the cepstral
features in `spafe/features/{mfcc,lfcc,bfcc,gfcc,ngcc,msrcc,psrcc}.py`. -/

set_option linter.unusedSectionVars false

namespace Spafe
namespace Props
open XF Spec Model

/-- The type of the feature functions. -/
abbrev Feature := Args → List ℝ → Py XMat

/-- The eight cepstral features of these files. -/
noncomputable def cepstralFeatures : List Feature := [mfcc, imfcc, lfcc, bfcc, gfcc, ngcc, msrcc, psrcc]

/-! ### C37 -/

theorem nfilts_ne_low : ErrorMsgs.nfilts ≠ "minimal frequency cannot be less than zero." := by decide
theorem nfilts_ne_high :
    ErrorMsgs.nfilts ≠ "maximum frequency cannot be greater than half sampling frequency." := by decide

/-- The computation does not raise the number-of-filters error. -/
structure NoNf {β : Type} (x : Py β) : Prop where
  ne : x ≠ .error (.parameterError ErrorMsgs.nfilts)

theorem noNfP {β : Type} {x : Py β} (h : NoParam x) : NoNf x := ⟨h _⟩

theorem NoNf.bind {β γ : Type} {x : Py β} {f : β → Py γ} (hx : NoNf x) (hf : ∀ a, NoNf (f a)) :
    NoNf (x >>= f) := by
  refine ⟨fun h => ?_⟩
  cases x with
  | error e => rw [error_bind] at h; injection h with h; exact hx.ne (by rw [h])
  | ok a => rw [ok_bind] at h; exact (hf a).ne h

theorem noNf_getFbanks {β : Type} {o : Option XMat} {c : Py (XMat × β)} (h : NoNf c) :
    NoNf (getFbanks o c) := by
  unfold getFbanks
  cases o with
  | some f => exact noNfP (NoParam.ok _)
  | none => exact h.bind fun _ => noNfP (NoParam.ok _)

theorem noNf_frontEnd (a : Args) (coeff : ℝ) (sig : List ℝ) : NoNf (frontEnd a coeff sig) := by
  rw [frontEnd_eq]
  split_ifs
  · exact noNfP (NoParam.err _ (by simp))
  refine NoNf.bind ⟨fun h => ?_⟩ fun p => ?_
  · have := ((C12_framing_param_iff id _ _ _ _ _).mp h).2
    exact absurd this (by decide)
  · have hw : ∀ name M, NoParam (windowVec name M) := by
      intro name M
      unfold windowVec
      split_ifs
      · exact NoParam.ok _
      · exact NoParam.ok _
      · exact NoParam.ok _
      · exact NoParam.ok _
      · exact NoParam.ok _
      · exact NoParam.err _ (by simp)
    exact noNfP ((hw _ _).bind fun _ => NoParam.ok _)

theorem noParam_dct (t c : ℕ) (m : XMat) : NoParam (Np.dct t c m) := by
  unfold Np.dct
  split_ifs
  · exact NoParam.err _ (by simp)
  · exact NoParam.err _ (by simp)
  · exact NoParam.err _ (by simp)
  · exact NoParam.ok _

theorem noParam_lifter (m : XMat) (c : ℕ) (l : ℝ) : NoParam (lifterCeps m c l) := by
  unfold lifterCeps
  split_ifs
  · exact NoParam.ok _
  · exact NoParam.err _ (by simp)
  · exact NoParam.ok _
  · exact NoParam.ok _

theorem noParam_normalize (m : XMat) (c : ℕ) (s : String) : NoParam (normalizeCeps m c s) := by
  unfold normalizeCeps
  split_ifs
  · exact NoParam.err _ (by simp)
  · exact NoParam.ok _
  · exact NoParam.ok _
  · exact NoParam.ok _
  · exact NoParam.ok _
  · exact NoParam.err _ (by simp)

theorem noParam_tail (a : Args) (ft : List (List ℝ)) (x : XMat) : NoParam (cepstralTail a ft x) := by
  unfold cepstralTail
  refine (noParam_dct _ _ _).bind fun m => NoParam.bind ?_ fun m => NoParam.bind ?_ fun m => ?_
  · split_ifs
    · exact NoParam.err _ (by simp)
    · exact NoParam.ok _
    · exact NoParam.ok _
  · cases a.lifter with
    | none => exact NoParam.ok _
    | some l =>
      simp only
      split_ifs
      · exact NoParam.ok _
      · exact noParam_lifter _ _ _
  · cases a.normalize with
    | none => exact NoParam.ok _
    | some s =>
      simp only
      split_ifs
      · exact NoParam.ok _
      · exact noParam_normalize _ _ _

theorem noParam_absFft (n : ℕ) (w : List (List ℝ)) : NoParam (absFft n w) := by
  unfold absFft; split_ifs
  · exact NoParam.err _ (by simp)
  · exact NoParam.ok _

theorem noParam_dotFbanks (n : ℕ) (w : List (List ℝ)) (fb : XMat) : NoParam (dotFbanks n w fb) := by
  unfold dotFbanks; split_ifs
  · exact NoParam.ok _
  · exact NoParam.err _ (by simp)

theorem noNf_featCore (a : Args) (coeff : ℝ) (fb : XMat) (g : XF ℝ → XF ℝ) (sig : List ℝ) :
    NoNf (featCore a coeff fb g sig) := by
  unfold featCore spectrogram
  refine NoNf.bind ?_ fun p => noNfP (noParam_tail _ _ _)
  exact (noNf_frontEnd _ _ _).bind fun _ => noNfP ((noParam_absFft _ _).bind fun _ =>
    (noParam_dotFbanks _ _ _).bind fun _ => NoParam.ok _)

theorem noNf_of_valid {β : Type} {x : Py β} {P Q : Prop} (h : ∀ m, x = .error (.parameterError m) ↔
      (P ∧ m = "minimal frequency cannot be less than zero.") ∨
      (Q ∧ m = "maximum frequency cannot be greater than half sampling frequency.")) : NoNf x := by
  refine ⟨fun hx => ?_⟩
  rcases (h _).mp hx with h1 | h1
  · exact nfilts_ne_low h1.2
  · exact nfilts_ne_high h1.2

theorem noNf_mel (n nfft : ℕ) (fs low : ℝ) (hf : Option ℝ) (sc ap : String) :
    NoNf (melFilterBanks n nfft fs low hf sc ap) :=
  noNf_of_valid (P := low < 0) (Q := 0 ≤ low ∧ fs / 2 < effHigh hf fs) fun m => by
    rw [C24_mel_validation n nfft fs low _ hf sc ap (effHigh_spec hf fs) m, and_assoc]

theorem noNf_lin (n nfft : ℕ) (fs low : ℝ) (hf : Option ℝ) (sc : String) :
    NoNf (linearFilterBanks n nfft fs low hf sc) :=
  noNf_of_valid (P := low < 0) (Q := 0 ≤ low ∧ fs / 2 < effHigh hf fs) fun m => by
    rw [C24_linear_validation n nfft fs low _ hf sc (effHigh_spec hf fs) m, and_assoc]

theorem noNf_bark (n nfft : ℕ) (fs low : ℝ) (hf : Option ℝ) (sc ap : String) :
    NoNf (barkFilterBanks n nfft fs low hf sc ap) :=
  noNf_of_valid (P := low < 0) (Q := 0 ≤ low ∧ fs / 2 < effHigh hf fs) fun m => by
    rw [C24_bark_validation n nfft fs low _ hf sc ap (effHigh_spec hf fs) m, and_assoc]

theorem noNf_gamma (n nfft : ℕ) (fs low : ℝ) (hf : Option ℝ) (sc : String) (o : ℕ) (ap : String) :
    NoNf (gammatoneFilterBanks n nfft fs low hf sc o ap) :=
  noNf_of_valid (P := low < 0) (Q := 0 ≤ low ∧ fs / 2 < effHigh hf fs) fun m => by
    rw [C24_gammatone_validation n nfft fs low _ hf sc o ap (effHigh_spec hf fs) m, and_assoc]

theorem noNf_imel (n nfft : ℕ) (fs low : ℝ) (hf : Option ℝ) (sc ap : String) :
    NoNf (inverseMelFilterBanks n nfft fs low hf sc ap) := by
  by_cases hs : ∃ t, SwapScale sc t
  · obtain ⟨t, ht⟩ := hs
    exact noNf_of_valid (P := low < 0) (Q := 0 ≤ low ∧ fs / 2 < effHigh hf fs) fun m => by
      rw [C24_inverse_mel_validation n nfft fs low _ hf sc t ap ht (effHigh_spec hf fs) m, and_assoc]
  · push Not at hs
    constructor
    rw [C24_inverse_mel_unknown_scale n nfft fs low hf sc ap hs]; simp

/-- C37: each feature raises `ParameterError(nfilts)` exactly when more cepstra than filters are requested — whatever
all other arguments (even invalid ones) and the signal are. -/
theorem C37_nfilts_check (f : Feature) (hf : f ∈ cepstralFeatures) (a : Args) (sig : List ℝ) :
    f a sig = .error (.parameterError "number of filters must be bigger than number of cepstrums") ↔
      a.nfilts < a.numCeps := by
  have key : ∀ x y : Py XMat, NoNf y → (x = if a.nfilts < a.numCeps then
      .error (.parameterError ErrorMsgs.nfilts) else y) →
      (x = .error (.parameterError "number of filters must be bigger than number of cepstrums") ↔
        a.nfilts < a.numCeps) := by
    intro x y hy hx
    rw [hx]
    split_ifs with h
    · simp only [h, iff_true]; rfl
    · simp only [h, iff_false]; exact hy.ne
  simp only [cepstralFeatures, List.mem_cons, List.not_mem_nil, or_false] at hf
  rcases hf with rfl | rfl | rfl | rfl | rfl | rfl | rfl | rfl
  · exact key _ _ ((noNf_getFbanks (noNf_mel ..)).bind fun _ => noNf_featCore ..) (mfcc_eq a sig)
  · exact key _ _ ((noNf_getFbanks (noNf_imel ..)).bind fun _ => noNf_featCore ..) (imfcc_eq a sig)
  · exact key _ _ ((noNf_getFbanks (noNf_lin ..)).bind fun _ => noNf_featCore ..) (lfcc_eq a sig)
  · exact key _ _ ((noNf_getFbanks (noNf_bark ..)).bind fun _ => noNf_featCore ..) (bfcc_eq a sig)
  · exact key _ _ ((noNf_getFbanks (noNf_gamma ..)).bind fun _ => noNf_featCore ..) (gfcc_eq a sig)
  · exact key _ _ ((noNf_getFbanks (noNf_gamma ..)).bind fun _ => noNf_featCore ..) (ngcc_eq a sig)
  · exact key _ _ ((noNf_getFbanks (noNf_mel ..)).bind fun _ => noNf_featCore ..) (msrcc_eq a sig)
  · refine key _ _ ?_ rfl
    exact (noNf_getFbanks (noNf_mel ..)).bind fun _ => (noNf_frontEnd _ _ _).bind fun _ =>
      noNfP ((noParam_absFft _ _).bind fun _ => (noParam_dotFbanks _ _ _).bind fun _ => noParam_tail _ _ _)

/-- The check comes before every other one: an empty signal, a negative frequency and an unknown scale. -/
example : mfcc { numCeps := 30, low := -5, scale := "x" } [] =
    .error (.parameterError "number of filters must be bigger than number of cepstrums") :=
  (C37_nfilts_check mfcc (by simp [cepstralFeatures]) _ _).mpr (by norm_num)

/-! ### C38 -/

/-- The number of filters: rows of the given bank, else `nfilts`. -/
def numFilters (a : Args) : ℕ := (a.fbanks.map List.length).getD a.nfilts

/-- Every feature is `bank` followed by the common core, or is `psrcc`. -/
private theorem feature_form (f : Feature) (hf : f ∈ cepstralFeatures) (a : Args) (sig : List ℝ) (m : XMat)
    (h : f a sig = .ok m) : ∃ (fb : XMat) (coeff : ℝ) (W : List (List ℝ)), fb.length = numFilters a ∧ frontEnd a coeff sig = .ok W ∧
      m.length = W.length ∧ ∀ r ∈ m, r.length = min a.numCeps fb.length := by
  have key : ∀ (b : Py XMat) (coeff : ℝ) (g : XF ℝ → XF ℝ),
      (∀ fb, b = .ok fb → fb.length = numFilters a) →
      (f a sig = if a.nfilts < a.numCeps then .error (.parameterError ErrorMsgs.nfilts)
        else (b >>= fun fb => featCore a coeff fb g sig)) →
      ∃ (fb : XMat) (coeff : ℝ) (W : List (List ℝ)), fb.length = numFilters a ∧ frontEnd a coeff sig = .ok W ∧
        m.length = W.length ∧ ∀ r ∈ m, r.length = min a.numCeps fb.length := by
    intro b coeff g hb he
    rw [he] at h
    split_ifs at h
    obtain ⟨fb, hfb, h⟩ := (bind_ok_iff ..).mp h
    obtain ⟨W, hW, h1, h2⟩ := featCore_shape h
    exact ⟨fb, coeff, W, hb fb hfb, hW, h1, h2⟩
  have hmel : ∀ fb, melBankOf a = .ok fb → fb.length = numFilters a := fun fb h =>
    getFbanks_length (fun p hp => (C25_mel_shape (bank := p.1) (cs := p.2) hp).1) h
  have hgam : ∀ fb, gammaBankOf a = .ok fb → fb.length = numFilters a := fun fb h =>
    getFbanks_length (fun p hp => (C25_gammatone_shape (bank := p.1) (cs := p.2) hp).1) h
  simp only [cepstralFeatures, List.mem_cons, List.not_mem_nil, or_false] at hf
  rcases hf with rfl | rfl | rfl | rfl | rfl | rfl | rfl | rfl
  · exact key _ _ _ hmel (mfcc_eq a sig)
  · exact key _ _ _ (fun fb h => getFbanks_length
      (fun p hp => (C25_inverse_mel_shape (bank := p.1) (cs := p.2) hp).1) h) (imfcc_eq a sig)
  · exact key _ _ _ (fun fb h => getFbanks_length
      (fun p hp => (C25_linear_shape (bank := p.1) (cs := p.2) hp).1) h) (lfcc_eq a sig)
  · exact key _ _ _ (fun fb h => getFbanks_length
      (fun p hp => (C25_bark_shape (bank := p.1) (cs := p.2) hp).1) h) (bfcc_eq a sig)
  · exact key _ _ _ hgam (gfcc_eq a sig)
  · exact key _ _ _ hgam (ngcc_eq a sig)
  · exact key _ _ _ hmel (msrcc_eq a sig)
  · obtain ⟨fb, W, hfb, hW, h1, h2⟩ := psrcc_shape h
    exact ⟨fb, _, W, hmel fb hfb, hW, h1, h2⟩

/-- C38: a successful call of any cepstral feature returns one row per frame (`⌊(len - L)/S⌋ + 1` frames of `L`
samples every `S`) and `min(num_ceps, number of filters)` columns, whatever the energy, liftering and normalisation
options. -/
theorem C38_feature_shape (f : Feature) (hf : f ∈ cepstralFeatures) (a : Args) (sig : List ℝ) (m : XMat)
    (hS : 0 < pyInt (a.win.winHop * a.fs)) (h : f a sig = .ok m) :
    ∃ l s : ℕ, pyInt (a.win.winLen * a.fs) = l ∧ pyInt (a.win.winHop * a.fs) = s ∧ l ≤ sig.length ∧
      HasShape m ((sig.length - l) / s + 1) (min a.numCeps (numFilters a)) := by
  obtain ⟨fb, coeff, W, hfb, hW, h1, h2⟩ := feature_form f hf a sig m h
  obtain ⟨l, s, h3, h4, h5, h6⟩ := frontEnd_length hS hW
  exact ⟨l, s, h3, h4, h5, by rw [h1, h6], fun r hr => by rw [h2 r hr, hfb]⟩

/-- C38: with at most as many cepstra as filters and no bank given there are exactly `num_ceps` columns. -/
theorem C38_num_ceps_columns (f : Feature) (hf : f ∈ cepstralFeatures) (a : Args) (sig : List ℝ) (m : XMat)
    (hb : a.fbanks = none) (h : f a sig = .ok m) : ∀ r ∈ m, r.length = a.numCeps := by
  obtain ⟨fb, coeff, W, hfb, -, -, h2⟩ := feature_form f hf a sig m h
  have hc : ¬ a.nfilts < a.numCeps := by
    intro hlt
    have := (C37_nfilts_check f hf a sig).mpr hlt
    rw [h] at this; cases this
  intro r hr
  rw [h2 r hr, hfb, numFilters, hb]
  simp only [Option.map_none, Option.getD_none]
  omega

/-- C38 (the calls succeed): for a valid bank and `dct_type`, a known window, a positive hop not above the window
length and a signal with at least one frame, the core of every feature succeeds. -/
theorem featCore_succeeds {a : Args} {coeff : ℝ} {fb : XMat} {g : XF ℝ → XF ℝ} {sig : List ℝ} {l : ℕ}
    (hcol : ∀ r ∈ fb, r.length = a.nfft / 2 + 1) (hn : a.nfft ≠ 0) (ht : TailOk a fb.length)
    (hnorm : a.normalize = none) (hw : WindowName a.win.winType) (hle : a.win.winHop ≤ a.win.winLen)
    (hS : 0 < pyInt (a.win.winHop * a.fs)) (hL : pyInt (a.win.winLen * a.fs) = l) (hlen : l ≤ sig.length) (hne : sig ≠ []) :
    ∃ m, featCore a coeff fb g sig = .ok m := by
  obtain ⟨w, hw1, hw2, -⟩ := (C14_window_vector a.win.winType l).1 hw
  have hfe := (frontEnd_ok_iff a coeff sig _ hS).mpr ⟨fun e => hne e.2, hle, l, (pyInt (a.win.winHop * a.fs)).toNat, w, hL,
    by omega, by omega, hlen, hw1, hw2, rfl⟩
  exact ⟨_, (featCore_ok_iff' hnorm ..).mpr ⟨_, hfe, hn, hcol, ht, rfl⟩⟩

/-! ### C39 -/

/-- C39: passing the bank that the corresponding filter-bank function returns gives the same result as `None`:
mfcc, msrcc and psrcc with the mel bank, lfcc, bfcc, gfcc and ngcc with theirs, imfcc with the inverse bank. -/
theorem C39_precomputed_bank (a : Args) (sig : List ℝ) (fb : XMat) :
    (∀ cs, melFilterBanks a.nfilts a.nfft a.fs a.low a.high a.scale a.approach = .ok (fb, cs) →
      mfcc { a with fbanks := some fb } sig = mfcc { a with fbanks := none } sig ∧
      msrcc { a with fbanks := some fb } sig = msrcc { a with fbanks := none } sig ∧
      psrcc { a with fbanks := some fb } sig = psrcc { a with fbanks := none } sig) ∧
    (∀ cs, linearFilterBanks a.nfilts a.nfft a.fs a.low a.high a.scale = .ok (fb, cs) →
      lfcc { a with fbanks := some fb } sig = lfcc { a with fbanks := none } sig) ∧
    (∀ cs, barkFilterBanks a.nfilts a.nfft a.fs a.low a.high a.scale a.approach = .ok (fb, cs) →
      bfcc { a with fbanks := some fb } sig = bfcc { a with fbanks := none } sig) ∧
    (∀ cs, gammatoneFilterBanks a.nfilts a.nfft a.fs a.low a.high a.scale 4 a.approach = .ok (fb, cs) →
      gfcc { a with fbanks := some fb } sig = gfcc { a with fbanks := none } sig ∧
      ngcc { a with fbanks := some fb } sig = ngcc { a with fbanks := none } sig) ∧
    (∀ cs, inverseMelFilterBanks a.nfilts a.nfft a.fs a.low a.high a.scale a.approach = .ok (fb, cs) →
      imfcc { a with fbanks := some fb } sig = imfcc { a with fbanks := none } sig) := by
  refine ⟨fun cs h => ⟨?_, ?_, ?_⟩, fun cs h => ?_, fun cs h => ?_, fun cs h => ⟨?_, ?_⟩, fun cs h => ?_⟩
  · simp only [mfcc_eq, melBankOf, getFbanks, h, ok_bind]; rfl
  · simp only [msrcc_eq, melBankOf, getFbanks, h, ok_bind]; rfl
  · simp only [psrcc, melBankOf, getFbanks, h, ok_bind]; rfl
  · simp only [lfcc_eq, getFbanks, h, ok_bind]; rfl
  · simp only [bfcc_eq, getFbanks, h, ok_bind]; rfl
  · simp only [gfcc_eq, gammaBankOf, getFbanks, h, ok_bind]; rfl
  · simp only [ngcc_eq, gammaBankOf, getFbanks, h, ok_bind]; rfl
  · simp only [imfcc_eq, getFbanks, h, ok_bind]; rfl

/-- C39: with a given bank the frequency range, the scale and the conversion approach are ignored. -/
theorem C39_given_bank_ignores_band (f : Feature) (hf : f ∈ cepstralFeatures) (a : Args) (fb : XMat)
    (hb : a.fbanks = some fb) (low : ℝ) (high : Option ℝ) (scale approach : String) (sig : List ℝ) :
    f { a with low := low, high := high, scale := scale, approach := approach } sig = f a sig := by
  simp only [cepstralFeatures, List.mem_cons, List.not_mem_nil, or_false] at hf
  rcases hf with rfl | rfl | rfl | rfl | rfl | rfl | rfl | rfl
  · simp only [mfcc_eq, melBankOf, getFbanks, hb, ok_bind]; rfl
  · simp only [imfcc_eq, getFbanks, hb, ok_bind]; rfl
  · simp only [lfcc_eq, getFbanks, hb, ok_bind]; rfl
  · simp only [bfcc_eq, getFbanks, hb, ok_bind]; rfl
  · simp only [gfcc_eq, gammaBankOf, getFbanks, hb, ok_bind]; rfl
  · simp only [ngcc_eq, gammaBankOf, getFbanks, hb, ok_bind]; rfl
  · simp only [msrcc_eq, melBankOf, getFbanks, hb, ok_bind]; rfl
  · simp only [psrcc, melBankOf, getFbanks, hb, ok_bind]; rfl

/-! ### C40 -/

/-- A band that the bank functions accept, with a documented scale. -/
def ValidBand (a : Args) : Prop := ∃ high w, EffHigh a.fs a.high high ∧ 0 ≤ a.low ∧ a.low < high ∧
  high ≤ a.fs / 2 ∧ Scale a.scale w

private theorem allNonneg_of {bank : XMat} {n c : ℕ} (hl : bank.length = n) (hc : ∀ r ∈ bank, r.length = c)
    (h : ∀ j k, j < n → k < c → ∃ v : ℝ, (bank.getD j []).getD k (fin 0) = fin v ∧ 0 ≤ v) : AllNonneg bank := by
  intro r hr v hv
  obtain ⟨j, hj, rfl⟩ := (mem_iff_getD [] r).mp hr
  obtain ⟨k, hk, rfl⟩ := (mem_iff_getD (fin 0) v).mp hv
  obtain ⟨x, hx, h0⟩ := h j k (hl ▸ hj) (by rw [← hc _ hr]; exact hk)
  exact ⟨x, h0, hx⟩

theorem mel_bank_nonneg {a : Args} (hb : a.fbanks = none) (hv : ValidBand a)
    (hm : ∃ c d, MelConst a.approach c d) : ∃ fb cs, melFilterBanks a.nfilts a.nfft a.fs a.low a.high a.scale
      a.approach = .ok (fb, cs) ∧ melBankOf a = .ok fb ∧ AllNonneg fb ∧ fb.length = a.nfilts ∧
      ∀ r ∈ fb, r.length = a.nfft / 2 + 1 := by
  obtain ⟨high, w, he, h0, h1, h2, hs⟩ := hv
  obtain ⟨c, d, hm⟩ := hm
  obtain ⟨bank, cs, hok, h⟩ := C26_mel_range hs hm he h0 h1 h2 a.nfilts a.nfft
  obtain ⟨hl, hc, -⟩ := C25_mel_shape hok
  refine ⟨bank, cs, hok, by rw [melBankOf, hb, getFbanks, hok]; rfl, allNonneg_of hl hc fun j k hj hk => ?_, hl, hc⟩
  obtain ⟨v, h1, h2, -⟩ := h j k hj hk
  exact ⟨v, h1, h2⟩

theorem imel_bank_nonneg {a : Args} (hb : a.fbanks = none) {high : ℝ} (hh : a.high = some high) (h0 : 0 ≤ a.low)
    (h1 : a.low < high) (h2 : high ≤ a.fs / 2) {sc' : String} (hsw : SwapScale a.scale sc')
    (hm : ∃ c d, MelConst a.approach c d) : ∃ fb cs, inverseMelFilterBanks a.nfilts a.nfft a.fs a.low a.high a.scale
      a.approach = .ok (fb, cs) ∧ getFbanks a.fbanks (inverseMelFilterBanks a.nfilts a.nfft a.fs a.low a.high a.scale
      a.approach) = .ok fb ∧ AllNonneg fb ∧ fb.length = a.nfilts ∧ ∀ r ∈ fb, r.length = a.nfft / 2 + 1 := by
  obtain ⟨c, d, hm⟩ := hm
  obtain ⟨bank, cs, cs', hok, hok'⟩ := C31_inverse_mel_is_mirror hsw hm h0 h1 h2 a.nfilts a.nfft
  obtain ⟨w, hs⟩ : ∃ w, Scale sc' w := by
    generalize a.scale = sc at hsw
    cases hsw
    · exact ⟨_, .descendant⟩
    · exact ⟨_, .ascendant⟩
    · exact ⟨_, .constant⟩
  obtain ⟨bank2, cs2, hok2, h⟩ := C26_mel_range hs hm (.given high (by linarith)) h0 h1 h2 a.nfilts a.nfft
  rw [hok] at hok2
  injection hok2 with hok2
  obtain ⟨rfl, rfl⟩ := Prod.mk.inj hok2
  obtain ⟨hl, hc, -⟩ := C25_mel_shape hok
  rw [← hh] at hok'
  have hnn : AllNonneg bank := allNonneg_of hl hc fun j k hj hk => by
    obtain ⟨v, h1, h2, -⟩ := h j k hj hk
    exact ⟨v, h1, h2⟩
  refine ⟨_, _, hok', by rw [hb, getFbanks, hok']; rfl, ?_, by simpa using hl, ?_⟩
  · intro r hr v hv
    obtain ⟨s, hs, rfl⟩ := List.mem_map.mp hr
    exact hnn s hs v (List.mem_reverse.mp hv)
  · intro r hr
    obtain ⟨s, hs, rfl⟩ := List.mem_map.mp hr
    rw [List.length_reverse]; exact hc s hs

theorem lin_bank_nonneg {a : Args} (hb : a.fbanks = none) (hv : ValidBand a) :
    ∃ fb cs, linearFilterBanks a.nfilts a.nfft a.fs a.low a.high a.scale = .ok (fb, cs) ∧
      getFbanks a.fbanks (linearFilterBanks a.nfilts a.nfft a.fs a.low a.high a.scale) = .ok fb ∧
      AllNonneg fb ∧ fb.length = a.nfilts ∧ ∀ r ∈ fb, r.length = a.nfft / 2 + 1 := by
  obtain ⟨high, w, he, h0, h1, h2, hs⟩ := hv
  obtain ⟨bank, cs, hok, -, h, -⟩ := C30_linear_triangles hs he h0 h1 h2 a.nfilts a.nfft
  obtain ⟨hl, hc, -⟩ := C25_linear_shape hok
  refine ⟨bank, cs, hok, by rw [hb, getFbanks, hok]; rfl, allNonneg_of hl hc fun j k hj hk => ?_, hl, hc⟩
  obtain ⟨v, h1, h2, -⟩ := h j k hj hk
  exact ⟨v, h1, h2⟩

theorem bark_bank_nonneg {a : Args} (hb : a.fbanks = none) (hv : ValidBand a) (hB : ∃ B, BarkScale a.approach B) :
    ∃ fb cs, barkFilterBanks a.nfilts a.nfft a.fs a.low a.high a.scale a.approach = .ok (fb, cs) ∧
      getFbanks a.fbanks (barkFilterBanks a.nfilts a.nfft a.fs a.low a.high a.scale a.approach) = .ok fb ∧
      AllNonneg fb ∧ fb.length = a.nfilts ∧ ∀ r ∈ fb, r.length = a.nfft / 2 + 1 := by
  obtain ⟨high, w, he, h0, h1, h2, hs⟩ := hv
  obtain ⟨B, hB⟩ := hB
  obtain ⟨bank, cs, hok, h⟩ := C33_bank_range hs hB he (by linarith) h0 h2 a.nfilts a.nfft
  obtain ⟨hl, hc, -⟩ := C25_bark_shape hok
  refine ⟨bank, cs, hok, by rw [hb, getFbanks, hok]; rfl, allNonneg_of hl hc fun j k hj hk => ?_, hl, hc⟩
  obtain ⟨v, h1, h2, -⟩ := h j k hj hk
  exact ⟨v, h1, h2⟩

theorem gamma_bank_nonneg {a : Args} (hb : a.fbanks = none) (hv : ValidBand a) (hn : 3 ≤ a.nfft) :
    ∃ fb cs, gammatoneFilterBanks a.nfilts a.nfft a.fs a.low a.high a.scale 4 a.approach = .ok (fb, cs) ∧
      gammaBankOf a = .ok fb ∧ AllNonneg fb ∧ fb.length = a.nfilts ∧ ∀ r ∈ fb, r.length = a.nfft / 2 + 1 := by
  obtain ⟨high, w, he, h0, h1, h2, hs⟩ := hv
  obtain ⟨bank, cs, hok, h⟩ := C35_peak (ap := a.approach) hs he h0 h1 h2 (n := a.nfilts) hn (order := 4) (by norm_num)
  obtain ⟨hl, hc, -⟩ := C25_gammatone_shape hok
  refine ⟨bank, cs, hok, by rw [gammaBankOf, hb, getFbanks, hok]; rfl, allNonneg_of hl hc fun j k hj hk => ?_, hl, hc⟩
  obtain ⟨v, h1, h2, -⟩ := (h j hj).1 k hk
  exact ⟨v, h1, h2⟩

/-- The four spectrogram functions. -/
noncomputable def spectrogramFunctions : List (Args → List ℝ → Py (XMat × List (List ℝ))) :=
  [melSpectrogram, linearSpectrogram, barkSpectrogram, erbSpectrogram]

private theorem spec_nonneg {a : Args} {coeff : ℝ} {fb : XMat} (hfb : AllNonneg fb) {sig : List ℝ} {x : XMat}
    {ft : List (List ℝ)} (h : spectrogram a coeff fb sig = .ok (x, ft)) : AllNonneg x := by
  obtain ⟨W, -, -, -, rfl, -⟩ := (spectrogram_ok_iff ..).mp h
  intro r hr
  obtain ⟨w, -, rfl⟩ := List.mem_map.mp hr
  exact specRow_nonneg hfb _ _

/-- C40: with a given non-negative bank every spectrogram value is a finite number `≥ 0`, for every signal. -/
theorem C40_spectrogram_nonneg (F : Args → List ℝ → Py (XMat × List (List ℝ))) (hF : F ∈ spectrogramFunctions)
    (a : Args) (fb : XMat) (hb : a.fbanks = some fb) (hfb : AllNonneg fb) (sig : List ℝ) (x : XMat)
    (ft : List (List ℝ)) (h : F a sig = .ok (x, ft)) : AllNonneg x := by
  simp only [spectrogramFunctions, List.mem_cons, List.not_mem_nil, or_false] at hF
  rcases hF with rfl | rfl | rfl | rfl
  · simp only [melSpectrogram, melBankOf, getFbanks, hb, ok_bind] at h; exact spec_nonneg hfb h
  · simp only [linearSpectrogram, getFbanks, hb, ok_bind] at h; exact spec_nonneg hfb h
  · simp only [barkSpectrogram, getFbanks, hb, ok_bind] at h; exact spec_nonneg hfb h
  · simp only [erbSpectrogram, gammaBankOf, getFbanks, hb, ok_bind] at h; exact spec_nonneg hfb h

/-- C40: likewise for the library's own banks: mel and linear for every valid band, Bark for the approaches Wang,
Tjomov, Schroeder, ERB for `nfft ≥ 3`. -/
theorem C40_own_banks (a : Args) (hb : a.fbanks = none) (hv : ValidBand a) (sig : List ℝ) (x : XMat)
    (ft : List (List ℝ)) :
    ((∃ c d, MelConst a.approach c d) → melSpectrogram a sig = .ok (x, ft) → AllNonneg x) ∧
    (linearSpectrogram a sig = .ok (x, ft) → AllNonneg x) ∧
    ((∃ B, BarkScale a.approach B) → barkSpectrogram a sig = .ok (x, ft) → AllNonneg x) ∧
    (3 ≤ a.nfft → erbSpectrogram a sig = .ok (x, ft) → AllNonneg x) := by
  refine ⟨fun hm h => ?_, fun h => ?_, fun hB h => ?_, fun hn h => ?_⟩
  · obtain ⟨fb, cs, -, hok, hnn, -⟩ := mel_bank_nonneg hb hv hm
    simp only [melSpectrogram, hok, ok_bind] at h; exact spec_nonneg hnn h
  · obtain ⟨fb, cs, -, hok, hnn, -⟩ := lin_bank_nonneg hb hv
    simp only [linearSpectrogram, hok, ok_bind] at h; exact spec_nonneg hnn h
  · obtain ⟨fb, cs, -, hok, hnn, -⟩ := bark_bank_nonneg hb hv hB
    simp only [barkSpectrogram, hok, ok_bind] at h; exact spec_nonneg hnn h
  · obtain ⟨fb, cs, -, hok, hnn, -⟩ := gamma_bank_nonneg hb hv hn
    simp only [erbSpectrogram, hok, ok_bind] at h; exact spec_nonneg hnn h

/-! ### C41 -/

private theorem g_log : ∀ x : ℝ, 0 ≤ x → ∃ y, logG (fin x) = fin y := fun _ => logG_nonneg
private theorem g_bark : ∀ x : ℝ, 0 ≤ x → ∃ y, (fun v => logG (intensityPowerLaw v)) (fin x) = fin y := by
  intro x hx
  obtain ⟨y, hy, he⟩ := intensity_fin hx
  simp only [he]; exact logG_nonneg hy
private theorem g_cube : ∀ x : ℝ, 0 ≤ x → ∃ y, (fun v => XF.pow v (1 / 3)) (fin x) = fin y := by
  intro x hx
  exact ⟨_, XF.pow_nonneg' hx (by norm_num)⟩

/-- C41: with a non-negative bank, without normalisation and with any lifter outside `(-1, 0)`, the features mfcc,
imfcc, lfcc, ngcc, bfcc and gfcc contain only finite numbers, for every signal (silence included). -/
theorem C41_finite_given_bank (f : Feature) (hf : f ∈ [mfcc, imfcc, lfcc, ngcc, bfcc, gfcc]) (a : Args) (fb : XMat)
    (hb : a.fbanks = some fb) (hfb : AllNonneg fb) (hn : a.normalize = none) (hl : LiftOk a.lifter)
    (sig : List ℝ) (m : XMat) (h : f a sig = .ok m) : AllFinite m := by
  simp only [List.mem_cons, List.not_mem_nil, or_false] at hf
  rcases hf with rfl | rfl | rfl | rfl | rfl | rfl
  · rw [mfcc_eq] at h; split_ifs at h
    simp only [melBankOf, getFbanks, hb, ok_bind] at h; exact featCore_finite hn hl hfb g_log h
  · rw [imfcc_eq] at h; split_ifs at h
    simp only [getFbanks, hb, ok_bind] at h; exact featCore_finite hn hl hfb g_log h
  · rw [lfcc_eq] at h; split_ifs at h
    simp only [getFbanks, hb, ok_bind] at h; exact featCore_finite hn hl hfb g_log h
  · rw [ngcc_eq] at h; split_ifs at h
    simp only [gammaBankOf, getFbanks, hb, ok_bind] at h; exact featCore_finite hn hl hfb g_log h
  · rw [bfcc_eq] at h; split_ifs at h
    simp only [getFbanks, hb, ok_bind] at h; exact featCore_finite hn hl hfb g_bark h
  · rw [gfcc_eq] at h; split_ifs at h
    simp only [gammaBankOf, getFbanks, hb, ok_bind] at h; exact featCore_finite hn hl hfb g_cube h

/-- C41: the same with the library's own banks on a valid band. -/
theorem C41_finite_own_bank (a : Args) (hb : a.fbanks = none) (hv : ValidBand a) (hn : a.normalize = none)
    (hl : LiftOk a.lifter) (sig : List ℝ) (m : XMat) :
    ((∃ c d, MelConst a.approach c d) → mfcc a sig = .ok m → AllFinite m) ∧
    ((∃ c d, MelConst a.approach c d) → a.high ≠ none → a.high ≠ some 0 → imfcc a sig = .ok m → AllFinite m) ∧
    (lfcc a sig = .ok m → AllFinite m) ∧
    (3 ≤ a.nfft → ngcc a sig = .ok m → AllFinite m) ∧
    (3 ≤ a.nfft → gfcc a sig = .ok m → AllFinite m) ∧
    ((∃ B, BarkScale a.approach B) → bfcc a sig = .ok m → AllFinite m) := by
  refine ⟨fun hm h => ?_, fun hm hh hh0 h => ?_, fun h => ?_, fun h3 h => ?_, fun h3 h => ?_, fun hB h => ?_⟩
  · obtain ⟨fb, cs, -, hok, hnn, -⟩ := mel_bank_nonneg hb hv hm
    rw [mfcc_eq] at h; split_ifs at h
    simp only [hok, ok_bind] at h; exact featCore_finite hn hl hnn g_log h
  · obtain ⟨high, w, he, h0, h1, h2, hs⟩ := hv
    obtain ⟨hi, hhi⟩ : ∃ hi, a.high = some hi := Option.ne_none_iff_exists'.mp hh
    have hhe : high = hi := by
      rw [hhi] at he hh0
      cases he
      · exact absurd rfl hh0
      · rfl
    obtain ⟨sc', hsw⟩ : ∃ t, SwapScale a.scale t := by
      generalize a.scale = sc at hs
      cases hs
      · exact ⟨_, .ascendant⟩
      · exact ⟨_, .descendant⟩
      · exact ⟨_, .constant⟩
    obtain ⟨fb, cs, -, hok, hnn, -⟩ := imel_bank_nonneg hb hhi h0 (hhe ▸ h1) (hhe ▸ h2) hsw hm
    rw [imfcc_eq] at h; split_ifs at h
    simp only [hok, ok_bind] at h; exact featCore_finite hn hl hnn g_log h
  · obtain ⟨fb, cs, -, hok, hnn, -⟩ := lin_bank_nonneg hb hv
    rw [lfcc_eq] at h; split_ifs at h
    simp only [hok, ok_bind] at h; exact featCore_finite hn hl hnn g_log h
  · obtain ⟨fb, cs, -, hok, hnn, -⟩ := gamma_bank_nonneg hb hv h3
    rw [ngcc_eq] at h; split_ifs at h
    simp only [hok, ok_bind] at h; exact featCore_finite hn hl hnn g_log h
  · obtain ⟨fb, cs, -, hok, hnn, -⟩ := gamma_bank_nonneg hb hv h3
    rw [gfcc_eq] at h; split_ifs at h
    simp only [hok, ok_bind] at h; exact featCore_finite hn hl hnn g_cube h
  · obtain ⟨fb, cs, -, hok, hnn, -⟩ := bark_bank_nonneg hb hv hB
    rw [bfcc_eq] at h; split_ifs at h
    simp only [hok, ok_bind] at h; exact featCore_finite hn hl hnn g_bark h

/-! The default arguments meet all hypotheses: every call succeeds from 400 samples (one 25 ms frame at 16 kHz) on. -/

theorem default_hop : (0:ℤ) < pyInt ((({} : Args).win.winHop) * ({} : Args).fs) := by
  have : (({} : Args).win.winHop) * ({} : Args).fs = 160 := by norm_num [Args.win]
  rw [this]; norm_num [pyInt]
theorem default_len : pyInt ((({} : Args).win.winLen) * ({} : Args).fs) = ((400 : ℕ) : ℤ) := by
  have : (({} : Args).win.winLen) * ({} : Args).fs = 400 := by norm_num [Args.win]
  rw [this]; norm_num [pyInt]
theorem default_band : ValidBand {} := ⟨8000, fun _ _ => 1, by
  have : (8000:ℝ) = ({} : Args).fs / 2 := by norm_num
  rw [this]; exact .none, le_refl _, by norm_num, by norm_num, .constant⟩

theorem default_tail : TailOk {} 24 := by
  refine ⟨by norm_num, by norm_num, by norm_num, fun h => ?_, fun h => ?_, fun l h => ?_⟩
  · norm_num
  · norm_num
  · simp at h

/-- C38, C41: with all arguments at their defaults `mfcc` succeeds on every signal of at least 400 samples, with
`⌊(len - 400)/160⌋ + 1` rows of 13 finite coefficients. -/
theorem C41_mfcc_defaults (sig : List ℝ) (hlen : 400 ≤ sig.length) :
    ∃ m, mfcc {} sig = .ok m ∧ HasShape m ((sig.length - 400) / 160 + 1) 13 ∧ AllFinite m := by
  obtain ⟨fb, cs, -, hok, hnn, hfl, hcol⟩ := mel_bank_nonneg (a := {}) rfl default_band ⟨_, _, .oshaghnessy⟩
  obtain ⟨m, hm⟩ := featCore_succeeds (a := {}) (coeff := ({} : Args).preEmphCoeff) (g := logG) (sig := sig) hcol
    (by norm_num) (by rw [hfl]; exact default_tail) rfl (by simp [WindowName, Args.win]) (by norm_num [Args.win])
    default_hop default_len hlen (by rintro rfl; simp at hlen)
  have hmm : mfcc {} sig = .ok m := by
    rw [mfcc_eq, if_neg (by norm_num), hok, ok_bind, hm]
  refine ⟨m, hmm, ?_, (C41_finite_own_bank {} rfl default_band rfl (fun x hx => by simp at hx) sig m).1
    ⟨_, _, .oshaghnessy⟩ hmm⟩
  obtain ⟨l, s, h1, h2, -, h3⟩ := C38_feature_shape mfcc (by simp [cepstralFeatures]) {} sig m default_hop hmm
  rw [default_len] at h1
  have hs : pyInt ((({} : Args).win.winHop) * ({} : Args).fs) = ((160 : ℕ) : ℤ) := by
    have : (({} : Args).win.winHop) * ({} : Args).fs = 160 := by norm_num [Args.win]
    rw [this]; norm_num [pyInt]
  rw [hs] at h2
  have h1 : l = 400 := by exact_mod_cast h1.symm
  have h2 : s = 160 := by exact_mod_cast h2.symm
  subst h1; subst h2
  exact h3

example : ∃ m, mfcc {} (List.replicate 16000 0) = .ok m ∧ HasShape m 98 13 ∧ AllFinite m := by
  have := C41_mfcc_defaults (List.replicate 16000 0) (by rw [List.length_replicate]; norm_num)
  rwa [List.length_replicate] at this

/-! ### C42 -/

private theorem pow_fin_of_pos_or {x g : ℝ} (hx : 0 ≤ x) (h : 0 ≤ g ∨ 0 < x) : ∃ y, XF.pow (fin x) g = fin y := by
  rcases hx.lt_or_eq with h1 | h1
  · exact ⟨_, XF.pow_pos' h1 g⟩
  · rcases h with h2 | h2
    · rcases h2.lt_or_eq with h3 | h3
      · exact ⟨_, XF.pow_nonneg' hx h3⟩
      · subst h3; exact ⟨1, by simp [XF.pow]⟩
    · rw [← h1] at h2; exact absurd h2 (lt_irrefl _)

/-- C42 (the part that holds for msrcc): with a non-negative bank the result is finite if `gamma ≥ 0`, or if every
value of the mel spectrogram is positive. Missing: silence / zero filter outputs with the default negative
`gamma`. -/
theorem C42_msrcc_finite_partial (a : Args) (fb : XMat) (hb : melBankOf a = .ok fb) (hfb : AllNonneg fb)
    (hn : a.normalize = none) (hl : LiftOk a.lifter) (sig : List ℝ) (m x : XMat) (ft : List (List ℝ))
    (hx : melSpectrogram a sig = .ok (x, ft)) (hpos : 0 ≤ a.gamma ∨ AllPos x)
    (h : msrcc a sig = .ok m) : AllFinite m := by
  rw [msrcc_eq] at h; split_ifs at h
  rw [hb, ok_bind] at h
  simp only [melSpectrogram, hb, ok_bind] at hx
  obtain ⟨W, hW, -, -, rfl, -⟩ := (spectrogram_ok_iff ..).mp hx
  obtain ⟨W', hW', -, -, -, rfl⟩ := (featCore_ok_iff' hn ..).mp h
  obtain rfl : W = W' := by rw [hW] at hW'; injection hW'
  intro r hr
  obtain ⟨w, hw, rfl⟩ := List.mem_map.mp hr
  refine FinRow.tail hl (fun v hv => ?_) _ _
  obtain ⟨u, hu, rfl⟩ := List.mem_map.mp hv
  obtain ⟨y, hy, rfl⟩ := specRow_nonneg hfb _ _ u hu
  refine pow_fin_of_pos_or hy (hpos.imp id fun hp => ?_)
  obtain ⟨z, hz, he⟩ := hp _ (List.mem_map.mpr ⟨w, hw, rfl⟩) _ hu
  injection he with he; rw [he]; exact hz

private theorem phaseDeg_nonneg (z : ℂ) : 0 ≤ phaseDeg z ∧ phaseDeg z < 360 := by
  unfold phaseDeg
  simp only
  have h1 := Complex.neg_pi_lt_arg z
  have h2 := Complex.arg_le_pi z
  have hpi := Real.pi_pos
  have h3 : -180 < Complex.arg z * (180 / Real.pi) := by
    rw [← mul_div_assoc, lt_div_iff₀ hpi]; nlinarith
  have h4 : Complex.arg z * (180 / Real.pi) ≤ 180 := by
    rw [← mul_div_assoc, div_le_iff₀ hpi]; nlinarith
  generalize Complex.arg z * (180 / Real.pi) = p at *
  split_ifs with h5 h6 h6 <;> constructor <;> nlinarith

theorem phRow_nonneg {fb : XMat} (h : AllNonneg fb) (nfft : ℕ) (w : List ℝ) : NonnegRow (phRow nfft fb w) := by
  intro v hv
  obtain ⟨f, hf, rfl⟩ := List.mem_map.mp hv
  have hfr : NonnegRow f := h f hf
  obtain ⟨f', rfl⟩ := (finRow_iff f).mp hfr.finRow
  refine ⟨_, dot_nonneg (fun x hx => ?_) ?_, dot_fin _ _⟩
  · obtain ⟨k, -, rfl⟩ := List.mem_map.mp hx
    exact (phaseDeg_nonneg _).1
  intro x hx
  obtain ⟨y, hy, he⟩ := hfr (fin x) (List.mem_map.mpr ⟨x, hx, rfl⟩)
  injection he with he; rw [he]; exact hy

/-- C42 (the part that holds for psrcc): with a non-negative bank and `gamma ≥ 0` the result is finite for every
signal. Missing: negative `gamma` (the default) with a filter whose phases are all zero. -/
theorem C42_psrcc_finite_partial (a : Args) (fb : XMat) (hb : melBankOf a = .ok fb) (hfb : AllNonneg fb)
    (hn : a.normalize = none) (hl : LiftOk a.lifter) (hg : 0 ≤ a.gamma) (sig : List ℝ) (m : XMat)
    (h : psrcc a sig = .ok m) : AllFinite m := by
  obtain ⟨-, fb', hb', W, -, -, -, -, hm⟩ := (psrcc_ok_iff ..).mp h
  obtain rfl : fb = fb' := by rw [hb] at hb'; injection hb'
  simp only [normStep, hn, Except.ok.injEq] at hm
  subst hm
  intro r hr
  obtain ⟨w, hw, rfl⟩ := List.mem_map.mp hr
  refine FinRow.tail hl (fun v hv => ?_) _ _
  obtain ⟨u, hu, rfl⟩ := List.mem_map.mp hv
  obtain ⟨t, ht, rfl⟩ := List.mem_map.mp hu
  obtain ⟨y, hy, rfl⟩ := phRow_nonneg hfb _ _ t ht
  obtain ⟨z, hz⟩ := pow_fin_of_pos_or hy (.inl hg)
  rw [hz]; exact ⟨z, rfl⟩

private theorem foldl_max2_pinf (l : List (XF ℝ)) (hl : ∀ v ∈ l, v.isNan = false) : l.foldl max2 pinf = pinf := by
  induction l with
  | nil => rfl
  | cons v l ih =>
    rw [List.foldl_cons]
    have hv := hl v (by simp)
    have : max2 pinf v = pinf := by cases v <;> simp_all [max2, isNan, ltb]
    rw [this]; exact ih fun u hu => hl u (by simp [hu])

private theorem foldl_max2_mem (l : List (XF ℝ)) (a : XF ℝ) (ha : a.isNan = false) (hl : ∀ v ∈ l, v.isNan = false)
    (h : pinf ∈ l) : l.foldl max2 a = pinf := by
  induction l generalizing a with
  | nil => cases h
  | cons v l ih =>
    rw [List.foldl_cons]
    have hv := hl v (by simp)
    have hl' : ∀ u ∈ l, u.isNan = false := fun u hu => hl u (by simp [hu])
    rcases List.mem_cons.mp h with h1 | h1
    · subst h1
      have : max2 a pinf = pinf := by cases a <;> simp_all [max2, isNan, ltb]
      rw [this]; exact foldl_max2_pinf l hl'
    · refine ih _ ?_ hl' h1
      unfold max2
      rw [ha, hv]
      split_ifs <;> simp_all

/-- C42: why psrcc's repair does not work — replacing infinities by the maximum of an array that contains them is
the identity (for arrays without NaN and `-inf`, which is all that can occur at that point). -/
theorem C42_psrcc_repair_is_identity (x : XMat) (h : ∀ r ∈ x, ∀ v ∈ r, v.isNan = false ∧ v ≠ ninf) :
    infToMax x = x := by
  unfold infToMax
  conv_rhs => rw [← List.map_id x]
  apply List.map_congr_left
  intro r hr
  simp only [id]
  conv_rhs => rw [← List.map_id r]
  apply List.map_congr_left
  intro v hv
  by_cases hi : v.isInf = true
  · have hv' : v = pinf := by
      have := (h r hr v hv).2
      cases v <;> simp_all [isInf]
    rw [if_pos hi, hv', id]
    have hmem : pinf ∈ x.flatten := List.mem_flatten.mpr ⟨r, hr, hv' ▸ hv⟩
    have hnn : ∀ u ∈ x.flatten, u.isNan = false := by
      intro u hu
      obtain ⟨s, hs, hus⟩ := List.mem_flatten.mp hu
      exact (h s hs u hus).1
    cases hfl : x.flatten with
    | nil => rw [hfl] at hmem; cases hmem
    | cons a l =>
      rw [hfl] at hmem hnn
      simp only [xmax]
      rcases List.mem_cons.mp hmem with h1 | h1
      · rw [← h1]; exact foldl_max2_pinf l fun u hu => hnn u (by simp [hu])
      · exact foldl_max2_mem l a (hnn a (by simp)) (fun u hu => hnn u (by simp [hu])) h1
  · rw [if_neg hi]; rfl

private theorem dct_pinf {N : ℕ} (hN : 0 < N) : (Np.dctRow 2 (List.replicate N (pinf : XF ℝ))).getD 0 0 = pinf := by
  unfold Np.dctRow
  rw [getD_map_range_lt _ _ (by simpa using hN), List.length_replicate]
  have hterm : ∀ n ∈ Finset.range N, XF.fin (Np.dctKernel 2 N 0 n) * (List.replicate N (pinf : XF ℝ)).getD n 0 = pinf := by
    intro n hn
    have hpos : 0 < Np.dctKernel 2 N 0 n := by
      have : (0:ℝ) < N := by exact_mod_cast hN
      simp [Np.dctKernel, this]
    rw [getD_replicate', if_pos (Finset.mem_range.mp hn)]
    simp [XF.mul_def, XF.mul, infMul, hpos, hpos.ne']
  rw [Finset.sum_congr rfl hterm]
  clear hterm
  induction N with
  | zero => omega
  | succ N ih =>
    rw [Finset.sum_range_succ]
    rcases Nat.eq_zero_or_pos N with h0 | h0
    · subst h0; rw [Finset.sum_range_zero]; rfl
    · rw [ih h0]; rfl

theorem preEmphasis_zero_sig (n : ℕ) (c : ℝ) : preEmphasis (List.replicate n 0) c = List.replicate n 0 := by
  have := C10_pre_emphasis_smul (List.replicate n (0:ℝ)) 0 c
  simpa [preEmphasis_length] using this

/-- Frames of a silent signal are silent. -/
theorem frontEnd_silence {a : Args} {coeff : ℝ} {n : ℕ} {W : List (List ℝ)}
    (h : frontEnd a coeff (List.replicate n 0) = .ok W) : ∀ w ∈ W, ∀ j, w.getD j 0 = 0 := by
  have h0 := frontEnd_smul_ok h 0
  rw [List.map_replicate, mul_zero] at h0
  rw [h] at h0
  injection h0 with h0
  intro w hw j
  rw [h0] at hw
  obtain ⟨w', -, rfl⟩ := List.mem_map.mp hw
  rw [getD_map_zero]; ring

theorem dft_silence {w : List ℝ} (h : ∀ j, w.getD j 0 = 0) (n k : ℕ) : Np.dft w n k = 0 := by
  unfold Np.dft Np.dftC
  apply Finset.sum_eq_zero
  intro j _
  simp only [h j]; simp

theorem dot_zeros {β : Type} (l : List β) {f : List (XF ℝ)} (hf : NonnegRow f) :
    Np.dot ((l.map fun _ => (0:ℝ)).map fin) f = fin 0 := by
  obtain ⟨f', rfl⟩ := (finRow_iff f).mp hf.finRow
  rw [dot_fin]
  congr 1
  unfold Np.dot
  apply List.sum_eq_zero
  intro x hx
  rw [List.mem_iff_getElem] at hx
  obtain ⟨i, hi, rfl⟩ := hx
  simp [List.getElem_zipWith]

theorem tail_pinf {a : Args} {N : ℕ} (hN : 1 ≤ N) (hd : a.dctType = 2) (hu : a.useEnergy = false)
    (hl : a.lifter = none) (hc : 1 ≤ a.numCeps) (mag : List ℝ) :
    ((tailRow a N mag (List.replicate N pinf)).getD 0 0).isFinite = false := by
  unfold tailRow
  rw [hl, hd, hu]
  simp only [Bool.false_eq_true, if_false]
  rw [getD_take_lt _ _ (by omega), dct_pinf (by omega)]
  rfl

/-- C42 (violated by msrcc): on a silent signal of any length, with a non-negative bank and any negative `gamma` (the
default is `-1/7`), the first coefficient of every frame is not finite. -/
theorem C42_msrcc_silence_infinite (a : Args) (fb : XMat) (hb : melBankOf a = .ok fb) (hfb : AllNonneg fb)
    (hd : a.dctType = 2) (hu : a.useEnergy = false) (hl : a.lifter = none) (hn : a.normalize = none)
    (hc : 1 ≤ a.numCeps) (hg : a.gamma < 0) (n : ℕ) (m : XMat) (h : msrcc a (List.replicate n 0) = .ok m) :
    m ≠ [] ∧ ∀ r ∈ m, (r.getD 0 0).isFinite = false := by
  rw [msrcc_eq] at h; split_ifs at h
  rw [hb, ok_bind] at h
  obtain ⟨W, hW, -, -, ht, rfl⟩ := (featCore_ok_iff' hn ..).mp h
  refine ⟨by simpa using frontEnd_ne_nil hW, fun r hr => ?_⟩
  obtain ⟨w, hw, rfl⟩ := List.mem_map.mp hr
  have hz := frontEnd_silence hW w hw
  have : (specRow a.nfft fb w).map (fun v => XF.pow v a.gamma) = List.replicate fb.length pinf := by
    rw [List.eq_replicate_iff]
    refine ⟨by simp, fun v hv => ?_⟩
    obtain ⟨u, hu, rfl⟩ := List.mem_map.mp hv
    obtain ⟨f, hf, rfl⟩ := List.mem_map.mp hu
    have hp : powRow a.nfft w = (List.range (a.nfft / 2 + 1)).map fun _ => (0:ℝ) := by
      unfold powRow Np.absRfft
      rw [List.map_map]
      apply List.map_congr_left
      intro k _
      simp [dft_silence hz]
    rw [hp, dot_zeros _ (hfb f hf), XF.pow_zero_neg hg]
  rw [featRow, this]
  exact tail_pinf ht.2.2.1 hd hu hl hc _

/-- C42 (violated by psrcc): the same for psrcc. -/
theorem C42_psrcc_silence_infinite (a : Args) (fb : XMat) (hb : melBankOf a = .ok fb) (hfb : AllNonneg fb)
    (hd : a.dctType = 2) (hu : a.useEnergy = false) (hl : a.lifter = none) (hn : a.normalize = none)
    (hc : 1 ≤ a.numCeps) (hg : a.gamma < 0) (n : ℕ) (m : XMat) (h : psrcc a (List.replicate n 0) = .ok m) :
    m ≠ [] ∧ ∀ r ∈ m, (r.getD 0 0).isFinite = false := by
  obtain ⟨-, fb', hb', W, hW, -, -, ht, hm⟩ := (psrcc_ok_iff ..).mp h
  obtain rfl : fb = fb' := by rw [hb] at hb'; injection hb'
  simp only [normStep, hn, Except.ok.injEq] at hm
  subst hm
  refine ⟨by simpa using frontEnd_ne_nil hW, fun r hr => ?_⟩
  have hrow : ∀ w ∈ W, phX a fb w = List.replicate fb.length pinf := by
    intro w hw
    have hz := frontEnd_silence hW w hw
    rw [List.eq_replicate_iff]
    refine ⟨by simp [phX, phRow], fun v hv => ?_⟩
    obtain ⟨u, hu, rfl⟩ := List.mem_map.mp hv
    obtain ⟨f, hf, rfl⟩ := List.mem_map.mp hu
    have hp : phases a.nfft w = (List.range (a.nfft / 2 + 1)).map fun _ => (0:ℝ) := by
      unfold phases
      apply List.map_congr_left
      intro k _
      simp [dft_silence hz, phaseDeg]
    rw [hp, dot_zeros _ (hfb f hf), XF.pow_zero_neg hg]; rfl
  have hfix : infToMax (W.map (phX a fb)) = W.map (phX a fb) := by
    apply C42_psrcc_repair_is_identity
    intro s hs v hv
    obtain ⟨w, hw, rfl⟩ := List.mem_map.mp hs
    rw [hrow w hw] at hv
    rw [List.eq_of_mem_replicate hv]
    exact ⟨rfl, by simp⟩
  obtain ⟨w, hw, rfl⟩ := List.mem_map.mp hr
  have hfix' : (phX a fb w).map (fixInf (phMax a fb W)) = phX a fb w := by
    have h1 : W.map (fun w => (phX a fb w).map (fixInf (phMax a fb W))) = W.map (phX a fb) := by
      conv_rhs => rw [← hfix]
      unfold infToMax; rw [List.map_map]; rfl
    exact List.map_inj_left.mp h1 w hw
  rw [hfix', hrow w hw]
  exact tail_pinf ht.2.2.1 hd hu hl hc _

/-- C42: the violation is reached with all arguments at their defaults, on 400 zero samples. -/
theorem C42_violated : ∃ m, msrcc {} (List.replicate 400 0) = .ok m ∧ ∃ r ∈ m, (r.getD 0 0).isFinite = false := by
  obtain ⟨fb, cs, -, hok, hnn, hfl, hcol⟩ := mel_bank_nonneg (a := {}) rfl default_band ⟨_, _, .oshaghnessy⟩
  obtain ⟨m, hm⟩ := featCore_succeeds (a := {}) (coeff := ({} : Args).preEmphCoeff)
    (g := fun v => XF.pow v ({} : Args).gamma) (sig := List.replicate 400 0) hcol
    (by norm_num) (by rw [hfl]; exact default_tail) rfl (by simp [WindowName, Args.win]) (by norm_num [Args.win])
    default_hop default_len (by rw [List.length_replicate]) (List.cons_ne_nil _ _)
  have hmm : msrcc {} (List.replicate 400 0) = .ok m := by
    rw [msrcc_eq, if_neg (by norm_num), hok, ok_bind, hm]
  obtain ⟨h1, h2⟩ := C42_msrcc_silence_infinite {} fb hok hnn rfl rfl rfl rfl (by norm_num) (by norm_num) 400 m hmm
  obtain ⟨r, hr⟩ := List.exists_mem_of_ne_nil m h1
  exact ⟨m, hmm, r, hr, h2 r hr⟩

end Props
end Spafe
