import Verif.Model.Features
import Verif.Lemmas.Mat
import Verif.Lemmas.Cepstral
import Verif.Lemmas.Preprocessing
import Verif.Lemmas.MelFbanks
import Verif.Lemmas.BarkFbanks
import Verif.Lemmas.GammatoneFbanks

/-! Helper lemmas for the feature pipeline: explicit row-wise form of every feature. -/

set_option linter.unusedSectionVars false

namespace Spafe
open Model XF

theorem bind_ok_iff {β γ : Type} (x : Py β) (f : β → Py γ) (r : γ) :
    (x >>= f) = .ok r ↔ ∃ v, x = .ok v ∧ f v = .ok r := by
  cases x with
  | error e => simp
  | ok v => simp

/-- The power spectrum of one windowed frame. -/
noncomputable def powRow (nfft : ℕ) (w : List ℝ) : List ℝ :=
  (Np.absRfft nfft w).map fun v => 1 / (nfft : ℝ) * (v * v)

/-- The filter outputs of one windowed frame. -/
noncomputable def specRow (nfft : ℕ) (fb : XMat) (w : List ℝ) : List (XF ℝ) :=
  fb.map fun f => Np.dot ((powRow nfft w).map fin) f

@[simp] theorem specRow_length (nfft : ℕ) (fb : XMat) (w : List ℝ) : (specRow nfft fb w).length = fb.length := by
  simp [specRow]

@[simp] theorem absRfft_length (nfft : ℕ) (w : List ℝ) : (Np.absRfft nfft w).length = nfft / 2 + 1 := by
  simp [Np.absRfft]

@[simp] theorem powRow_length (nfft : ℕ) (w : List ℝ) : (powRow nfft w).length = nfft / 2 + 1 := by
  simp [powRow]

theorem spectrogram_ok_iff (a : Args) (coeff : ℝ) (fb : XMat) (sig : List ℝ) (x : XMat) (ft : List (List ℝ)) :
    spectrogram a coeff fb sig = .ok (x, ft) ↔
      ∃ W, frontEnd a coeff sig = .ok W ∧ a.nfft ≠ 0 ∧ (∀ r ∈ fb, r.length = a.nfft / 2 + 1) ∧
        x = W.map (specRow a.nfft fb) ∧ ft = W.map (Np.absRfft a.nfft) := by
  simp only [spectrogram, bind_ok_iff]
  refine exists_congr fun W => and_congr_right fun _ => ?_
  unfold absFft dotFbanks
  constructor
  · rintro ⟨ft', h1, x', h2, h3⟩
    split_ifs at h1 with hn
    split_ifs at h2 with hc
    injection h1 with h1; injection h2 with h2; injection h3 with h3
    obtain ⟨rfl, rfl⟩ := Prod.mk.inj h3
    refine ⟨hn, hc, ?_, h1.symm⟩
    rw [← h2, ← h1]
    simp [Np.dotT, powerSpectrum, specRow, powRow]
  · rintro ⟨hn, hc, rfl, rfl⟩
    refine ⟨_, if_neg hn, _, if_pos hc, ?_⟩
    simp [Np.dotT, powerSpectrum, specRow, powRow]

/-- Liftering of one row. -/
noncomputable def liftRow (l : ℝ) (c : ℕ) (r : List (XF ℝ)) : List (XF ℝ) :=
  if l = 0 ∨ l > 10 then r
  else if l > 0 then dotDiag r (liftVecPos l c)
  else List.zipWith (· * ·) r (liftVecNeg l c)

theorem lifterCeps_ok_iff (m : XMat) (c : ℕ) (l : ℝ) (m' : XMat) :
    lifterCeps m c l = .ok m' ↔ (0 < l → l ≤ 10 → c ≠ 0) ∧ m' = m.map (liftRow l c) := by
  unfold lifterCeps liftRow
  by_cases h1 : l = 0 ∨ l > 10
  · simp only [if_pos h1, List.map_id']
    constructor
    · intro h; injection h with h
      refine ⟨fun h2 h3 => ?_, h.symm⟩
      rcases h1 with h1 | h1 <;> linarith
    · rintro ⟨-, rfl⟩; rfl
  · simp only [if_neg h1]
    push Not at h1
    by_cases h2 : l > 0
    · simp only [if_pos h2]
      by_cases h3 : c = 0
      · simp [h3, h2, h1.2]
      · simp only [if_neg h3]
        constructor
        · intro h; injection h with h; exact ⟨fun _ _ => h3, h.symm⟩
        · rintro ⟨-, rfl⟩; rfl
    · simp only [if_neg h2]
      constructor
      · intro h; injection h with h; exact ⟨fun h => absurd h h2, h.symm⟩
      · rintro ⟨-, rfl⟩; rfl

/-- DCT, truncation, energy and liftering of one row (`N` = number of filters). -/
noncomputable def tailRow (a : Args) (N : ℕ) (mag : List ℝ) (x : List (XF ℝ)) : List (XF ℝ) :=
  let r := (Np.dctRow a.dctType x).take a.numCeps
  let r := if a.useEnergy then r.set 0 (logEnergy a.nfft mag) else r
  match a.lifter with
  | none => r
  | some l => liftRow l (min a.numCeps N) r

/-- The arguments for which the cepstral tail does not raise before normalisation. -/
def TailOk (a : Args) (N : ℕ) : Prop :=
  1 ≤ a.dctType ∧ a.dctType ≤ 4 ∧ 1 ≤ N ∧ (a.dctType = 1 → 2 ≤ N) ∧
    (a.useEnergy = true → min a.numCeps N ≠ 0) ∧
    (∀ l, a.lifter = some l → 0 < l → l ≤ 10 → min a.numCeps N ≠ 0)

/-- The normalisation step. -/
noncomputable def normStep (a : Args) (N : ℕ) (m : XMat) : Py XMat :=
  match a.normalize with
  | none => .ok m
  | some s => if s = "" then .ok m else normalizeCeps m (min a.numCeps N) s

theorem dct_ok_iff (t c : ℕ) (m m' : XMat) :
    Np.dct t c m = .ok m' ↔ (1 ≤ t ∧ t ≤ 4 ∧ 1 ≤ c ∧ (t = 1 → 2 ≤ c)) ∧ m' = m.map (Np.dctRow t) := by
  unfold Np.dct
  split_ifs with h1 h2 h3
  · simp only [reduceCtorEq, false_iff]; rintro ⟨h, -⟩; omega
  · simp only [reduceCtorEq, false_iff]; rintro ⟨h, -⟩; omega
  · simp only [reduceCtorEq, false_iff]; rintro ⟨⟨_, _, _, h⟩, -⟩; have := h h3.1; omega
  · constructor
    · intro h; injection h with h; exact ⟨⟨by omega, by omega, by omega, fun h => by omega⟩, h.symm⟩
    · rintro ⟨-, rfl⟩; rfl

theorem setFirstCol_map {β : Type} (W : List β) (A : β → List (XF ℝ)) (e : β → XF ℝ) :
    setFirstCol (W.map A) (W.map e) = W.map fun w => (A w).set 0 (e w) := by
  unfold setFirstCol
  induction W with
  | nil => rfl
  | cons w W ih => simp [ih]

theorem cepstralTail_ok_iff {β : Type} (a : Args) (W : List β) (hW : W ≠ []) (mag : β → List ℝ) (R : β → List (XF ℝ))
    (N : ℕ) (hR : ∀ w ∈ W, (R w).length = N) (m : XMat) :
    cepstralTail a (W.map mag) (W.map R) = .ok m ↔
      TailOk a N ∧ normStep a N (W.map fun w => tailRow a N (mag w) (R w)) = .ok m := by
  have hN : Np.ncols (W.map R) = N := by
    cases W with
    | nil => exact absurd rfl hW
    | cons w W => simpa [Np.ncols] using hR w (by simp)
  simp only [cepstralTail, hN, bind_ok_iff, dct_ok_iff]
  constructor
  · rintro ⟨v, ⟨h1, rfl⟩, v', h2, v'', h3, h4⟩
    have e2 : (a.useEnergy = true → min a.numCeps N ≠ 0) ∧ v' = W.map fun w =>
        if a.useEnergy then ((Np.dctRow a.dctType (R w)).take a.numCeps).set 0 (logEnergy a.nfft (mag w))
        else (Np.dctRow a.dctType (R w)).take a.numCeps := by
      split_ifs at h2 ⊢ with h5 h6
      · injection h2 with h2
        refine ⟨fun _ => h6, ?_⟩
        rw [← h2, List.map_map, List.map_map, List.map_map, setFirstCol_map]
        rfl
      · injection h2 with h2
        refine ⟨fun h => absurd h h5, ?_⟩
        rw [← h2, List.map_map, List.map_map]; rfl
    obtain ⟨h5, rfl⟩ := e2
    have e3 : (∀ l, a.lifter = some l → 0 < l → l ≤ 10 → min a.numCeps N ≠ 0) ∧
        v'' = W.map fun w => tailRow a N (mag w) (R w) := by
      unfold tailRow
      cases hl : a.lifter with
      | none =>
        rw [hl] at h3; injection h3 with h3
        exact ⟨by simp, by rw [← h3]⟩
      | some l =>
        rw [hl] at h3
        simp only at h3
        by_cases hl0 : l = 0
        · rw [if_pos hl0] at h3; injection h3 with h3
          refine ⟨fun l' h' h0 => ?_, ?_⟩
          · injection h' with h'; subst h'; exact absurd hl0 h0.ne'
          · rw [← h3]; simp [liftRow, hl0]
        · rw [if_neg hl0, lifterCeps_ok_iff] at h3
          refine ⟨fun l' h' => ?_, ?_⟩
          · injection h' with h'; subst h'; exact h3.1
          · rw [h3.2, List.map_map]; rfl
    obtain ⟨h6, rfl⟩ := e3
    exact ⟨⟨h1.1, h1.2.1, h1.2.2.1, h1.2.2.2, h5, h6⟩, h4⟩
  · rintro ⟨⟨h1, h2, h3, h4, h5, h6⟩, h7⟩
    refine ⟨_, ⟨⟨h1, h2, h3, h4⟩, rfl⟩, W.map (fun w =>
        if a.useEnergy then ((Np.dctRow a.dctType (R w)).take a.numCeps).set 0 (logEnergy a.nfft (mag w))
        else (Np.dctRow a.dctType (R w)).take a.numCeps), ?_, W.map fun w => tailRow a N (mag w) (R w), ?_, h7⟩
    · split_ifs with h8 h9
      · exact absurd h9 (h5 h8)
      · rw [List.map_map, List.map_map, List.map_map, setFirstCol_map]; rfl
      · rw [List.map_map, List.map_map]; rfl
    · unfold tailRow
      cases hl : a.lifter with
      | none => rfl
      | some l =>
        simp only
        by_cases hl0 : l = 0
        · rw [if_pos hl0]; simp [liftRow, hl0]
        · rw [if_neg hl0, lifterCeps_ok_iff]
          exact ⟨h6 l hl, by rw [List.map_map]; rfl⟩

theorem framing_ne_nil {sig : List ℝ} {fs wl wh : ℝ} {fr : List (List ℝ)} {L : ℤ}
    (h1 : framing sig fs wl wh = .ok (fr, L)) : fr.length ≠ 0 := by
  unfold framing framingR at h1
  split_ifs at h1 with h4
  simp only [bind_ok_iff] at h1
  obtain ⟨f, -, h5⟩ := h1
  split_ifs at h5 with h6
  injection h5 with h5
  obtain ⟨rfl, -⟩ := Prod.mk.inj h5
  exact h6

theorem frontEnd_ne_nil {a : Args} {coeff : ℝ} {sig : List ℝ} {W : List (List ℝ)}
    (h : frontEnd a coeff sig = .ok W) : W ≠ [] := by
  simp only [frontEnd, bind_ok_iff] at h
  obtain ⟨_, -, ⟨fr, L⟩, h1, h2⟩ := h
  simp only [windowing, bind_ok_iff] at h2
  obtain ⟨w, -, h3⟩ := h2
  injection h3 with h3
  have := framing_ne_nil h1
  rw [← h3]
  intro h4
  rw [List.map_eq_nil_iff] at h4
  simp [h4] at this

/-- The common form of the features with a pointwise non-linearity `g`, given the bank. -/
noncomputable def featCore (a : Args) (coeff : ℝ) (fb : XMat) (g : XF ℝ → XF ℝ) (sig : List ℝ) : Py XMat := do
  let (x, ft) ← spectrogram a coeff fb sig
  cepstralTail a ft (x.map fun r => r.map g)

/-- One row of such a feature. -/
noncomputable def featRow (a : Args) (fb : XMat) (g : XF ℝ → XF ℝ) (w : List ℝ) : List (XF ℝ) :=
  tailRow a fb.length (Np.absRfft a.nfft w) ((specRow a.nfft fb w).map g)

theorem featCore_ok_iff (a : Args) (coeff : ℝ) (fb : XMat) (g : XF ℝ → XF ℝ) (sig : List ℝ) (m : XMat) :
    featCore a coeff fb g sig = .ok m ↔
      ∃ W, frontEnd a coeff sig = .ok W ∧ a.nfft ≠ 0 ∧ (∀ r ∈ fb, r.length = a.nfft / 2 + 1) ∧
        TailOk a fb.length ∧ normStep a fb.length (W.map (featRow a fb g)) = .ok m := by
  simp only [featCore, bind_ok_iff]
  constructor
  · rintro ⟨⟨x, ft⟩, h1, h2⟩
    obtain ⟨W, hW, hn, hc, rfl, rfl⟩ := (spectrogram_ok_iff ..).mp h1
    rw [List.map_map] at h2
    rw [cepstralTail_ok_iff a W (frontEnd_ne_nil hW) _ _ fb.length (by simp)] at h2
    exact ⟨W, hW, hn, hc, h2.1, h2.2⟩
  · rintro ⟨W, hW, hn, hc, h1, h2⟩
    refine ⟨(_, _), (spectrogram_ok_iff ..).mpr ⟨W, hW, hn, hc, rfl, rfl⟩, ?_⟩
    simp only
    rw [List.map_map, cepstralTail_ok_iff a W (frontEnd_ne_nil hW) _ _ fb.length (by simp)]
    exact ⟨h1, h2⟩

/-- Without normalisation. -/
theorem featCore_ok_iff' {a : Args} (hn : a.normalize = none) (coeff : ℝ) (fb : XMat) (g : XF ℝ → XF ℝ)
    (sig : List ℝ) (m : XMat) :
    featCore a coeff fb g sig = .ok m ↔
      ∃ W, frontEnd a coeff sig = .ok W ∧ a.nfft ≠ 0 ∧ (∀ r ∈ fb, r.length = a.nfft / 2 + 1) ∧
        TailOk a fb.length ∧ m = W.map (featRow a fb g) := by
  rw [featCore_ok_iff]
  simp only [normStep, hn, Except.ok.injEq, eq_comm]

/-- Log of the zero-handled value. -/
noncomputable def logG (v : XF ℝ) : XF ℝ := XF.log (xZeroHandling v)

theorem mfcc_eq (a : Args) (sig : List ℝ) : mfcc a sig =
    if a.nfilts < a.numCeps then .error (.parameterError ErrorMsgs.nfilts)
    else (melBankOf a >>= fun fb => featCore a a.preEmphCoeff fb logG sig) := by
  unfold mfcc melSpectrogram featCore
  split_ifs
  · rfl
  · cases melBankOf a <;> rfl

theorem imfcc_eq (a : Args) (sig : List ℝ) : imfcc a sig =
    if a.nfilts < a.numCeps then .error (.parameterError ErrorMsgs.nfilts)
    else (getFbanks a.fbanks (inverseMelFilterBanks a.nfilts a.nfft a.fs a.low a.high a.scale a.approach)
      >>= fun fb => featCore a a.preEmphCoeff fb logG sig) := by
  unfold imfcc
  split_ifs with h
  · rfl
  · congr 1
    funext fb
    rw [mfcc_eq, if_neg h]
    rfl

theorem lfcc_eq (a : Args) (sig : List ℝ) : lfcc a sig =
    if a.nfilts < a.numCeps then .error (.parameterError ErrorMsgs.nfilts)
    else (getFbanks a.fbanks (linearFilterBanks a.nfilts a.nfft a.fs a.low a.high a.scale)
      >>= fun fb => featCore a 0.97 fb logG sig) := by
  unfold lfcc linearSpectrogram featCore
  split_ifs
  · rfl
  · cases getFbanks a.fbanks (linearFilterBanks a.nfilts a.nfft a.fs a.low a.high a.scale) <;> rfl

theorem bfcc_eq (a : Args) (sig : List ℝ) : bfcc a sig =
    if a.nfilts < a.numCeps then .error (.parameterError ErrorMsgs.nfilts)
    else (getFbanks a.fbanks (barkFilterBanks a.nfilts a.nfft a.fs a.low a.high a.scale a.approach)
      >>= fun fb => featCore a 0.97 fb (fun v => logG (intensityPowerLaw v)) sig) := by
  unfold bfcc barkSpectrogram featCore
  split_ifs
  · rfl
  · cases getFbanks a.fbanks (barkFilterBanks a.nfilts a.nfft a.fs a.low a.high a.scale a.approach) with
    | error e => rfl
    | ok fb =>
      simp only [ok_bind]
      congr 1
      funext ⟨x, ft⟩
      simp [logFeatures, logG, List.map_map, Function.comp_def]

theorem gfcc_eq (a : Args) (sig : List ℝ) : gfcc a sig =
    if a.nfilts < a.numCeps then .error (.parameterError ErrorMsgs.nfilts)
    else (gammaBankOf a >>= fun fb => featCore a 0.97 fb (fun v => XF.pow v (1 / 3)) sig) := by
  unfold gfcc erbSpectrogram featCore
  split_ifs
  · rfl
  · cases gammaBankOf a <;> rfl

theorem ngcc_eq (a : Args) (sig : List ℝ) : ngcc a sig =
    if a.nfilts < a.numCeps then .error (.parameterError ErrorMsgs.nfilts)
    else (gammaBankOf a >>= fun fb => featCore a a.preEmphCoeff fb logG sig) := by
  unfold ngcc featCore
  split_ifs
  · rfl
  · cases gammaBankOf a <;> rfl

theorem msrcc_eq (a : Args) (sig : List ℝ) : msrcc a sig =
    if a.nfilts < a.numCeps then .error (.parameterError ErrorMsgs.nfilts)
    else (melBankOf a >>= fun fb => featCore a a.preEmphCoeff fb (fun v => XF.pow v a.gamma) sig) := by
  unfold msrcc melSpectrogram featCore
  split_ifs
  · rfl
  · cases melBankOf a <;> rfl

end Spafe
