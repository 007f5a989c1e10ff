import Verif.Model.NegCeps
import Verif.Props.Features3
import Verif.Props.Meaning
import Verif.Props.BarkFbanks
import Verif.Props.MelFbanks
import Verif.Props.GammatoneFbanks
import Verif.Lemmas.Pncc2

/-!
C153: a negative `num_ceps` is accepted by the cepstral functions and counts from the end, and it passes the check
`nfilts < num_ceps` whatever the bank.
-/

set_option linter.unusedSectionVars false

namespace Spafe
namespace Props

open Model XF Spec

theorem bind_congr_ok {α β : Type} {x : Py α} {f g : α → Py β} (h : ∀ v, x = .ok v → f v = g v) : x >>= f = x >>= g := by
  cases x with
  | error e => rfl
  | ok v => exact h v rfl

/-- The natural number that a (negative) `num_ceps` stands for when the bank has `n` rows. -/
def countedCeps (z : ℤ) (n : ℕ) : ℕ := if z < 0 then n - z.natAbs else z.natAbs

theorem tailZ_eq (a : Args) (z : ℤ) (ft : List (List ℝ)) (x : XMat) (n : ℕ) (hr : Np.Rect x n) (h0 : x ≠ []) :
    cepstralTailZ a z ft x = cepstralTail { a with numCeps := countedCeps z n } ft x := by
  have hc : Np.ncols x = n := by
    cases x with
    | nil => exact absurd rfl h0
    | cons r t => exact hr r (List.mem_cons_self ..)
  have h1 : slicedColumns z n = min (countedCeps z n) n := by
    unfold slicedColumns countedCeps; split_ifs <;> omega
  unfold cepstralTailZ cepstralTail
  apply bind_congr_ok
  intro m hm
  have hm2 : m.map (sliceTo z) = m.map (·.take (countedCeps z n)) := by
    apply List.map_congr_left
    intro r hrm
    have : r.length = n := by
      unfold Np.dct at hm
      split_ifs at hm
      injection hm with hm
      rw [← hm] at hrm
      obtain ⟨r', hr', rfl⟩ := List.mem_map.mp hrm
      rw [dctRow_length]; exact hr r' hr'
    unfold sliceTo countedCeps
    rw [this]
  simp only [hm2, hc, h1]
  rfl

theorem spectrogram_rect {a : Args} {c : ℝ} {fb : XMat} {sig : List ℝ} {p : XMat × List (List ℝ)}
    (h : spectrogram a c fb sig = .ok p) : Np.Rect p.1 fb.length ∧ p.1 ≠ [] := by
  obtain ⟨x, ft⟩ := p
  obtain ⟨W, hW, hn, hc, rfl, rfl⟩ := (spectrogram_ok_iff ..).mp h
  refine ⟨?_, ?_⟩
  · intro r hr
    obtain ⟨w, -, rfl⟩ := List.mem_map.mp hr
    simp
  · intro h
    exact frontEnd_ne_nil hW (List.map_eq_nil_iff.mp h)

theorem rect_map {x : XMat} {n : ℕ} (h : Np.Rect x n ∧ x ≠ []) (g : XF ℝ → XF ℝ) :
    Np.Rect (x.map fun r => r.map g) n ∧ x.map (fun r => r.map g) ≠ [] := by
  refine ⟨?_, fun h' => h.2 (List.map_eq_nil_iff.mp h')⟩
  intro r hr
  obtain ⟨r', hr', rfl⟩ := List.mem_map.mp hr
  rw [List.length_map]; exact h.1 r' hr'

theorem dot_rect {nfft : ℕ} {w : List (List ℝ)} {fb y : XMat} (hw : w ≠ []) (h : dotFbanks nfft w fb = .ok y) :
    Np.Rect y fb.length ∧ y ≠ [] := by
  unfold dotFbanks at h
  split_ifs at h
  injection h with h
  subst h
  refine ⟨?_, fun h' => hw ?_⟩
  · intro r hr
    unfold Np.dotT at hr
    obtain ⟨r', -, rfl⟩ := List.mem_map.mp hr
    simp
  · unfold Np.dotT at h'
    exact List.map_eq_nil_iff.mp (List.map_eq_nil_iff.mp h')

theorem infToMax_rect {x : XMat} {n : ℕ} (h : Np.Rect x n ∧ x ≠ []) : Np.Rect (infToMax x) n ∧ infToMax x ≠ [] :=
  rect_map h _

/-- The functions with an integer `num_ceps`, those with a natural one, and the bank each of them uses. -/
noncomputable def negPairs : List ((Args → ℤ → List ℝ → Py XMat) × Feature × (Args → Py XMat)) :=
  [(mfccZ, mfcc, melBankOf),
   (imfccZ, imfcc, fun a => getFbanks a.fbanks
      (inverseMelFilterBanks a.nfilts a.nfft a.fs a.low a.high a.scale a.approach)),
   (lfccZ, lfcc, fun a => getFbanks a.fbanks (linearFilterBanks a.nfilts a.nfft a.fs a.low a.high a.scale)),
   (bfccZ, bfcc, fun a => getFbanks a.fbanks (barkFilterBanks a.nfilts a.nfft a.fs a.low a.high a.scale a.approach)),
   (gfccZ, gfcc, gammaBankOf), (ngccZ, ngcc, gammaBankOf), (msrccZ, msrcc, melBankOf), (psrccZ, psrcc, melBankOf)]

/-- The common form of the functions with a pointwise non-linearity `g`, given the bank. -/
noncomputable def featCoreZ (a : Args) (z : ℤ) (coeff : ℝ) (fb : XMat) (g : XF ℝ → XF ℝ) (sig : List ℝ) : Py XMat := do
  let (x, ft) ← spectrogram a coeff fb sig
  cepstralTailZ a z ft (x.map fun r => r.map g)

theorem featCoreZ_eq {a : Args} {z : ℤ} (N : ℕ) {c : ℝ} {fb : XMat} {g : XF ℝ → XF ℝ} {sig : List ℝ} :
    featCoreZ a z c fb g sig =
      featCore { a with numCeps := countedCeps z fb.length, nfilts := N } c fb g sig := by
  unfold featCoreZ featCore
  refine bind_congr_ok (x := spectrogram a c fb sig) ?_
  rintro ⟨x, ft⟩ hp
  obtain ⟨h1, h2⟩ := rect_map (spectrogram_rect hp) g
  exact tailZ_eq a z ft _ _ h1 h2

/-- Passing from the integer to the natural argument, once the bank is known. -/
theorem pass_eq {a : Args} {z : ℤ} {n N : ℕ} {c : ℝ} {bank bank' : Py XMat} {g : XF ℝ → XF ℝ} {sig : List ℝ}
    (hz : z ≤ a.nfilts) (hn : ∀ fb, bank = .ok fb → fb.length = n) (hN : countedCeps z n ≤ N) (hb : bank' = bank) :
    (if (a.nfilts : ℤ) < z then (.error (.parameterError ErrorMsgs.nfilts) : Py XMat)
      else bank >>= fun fb => featCoreZ a z c fb g sig) =
    if N < countedCeps z n then .error (.parameterError ErrorMsgs.nfilts)
      else bank' >>= fun fb => featCore { a with numCeps := countedCeps z n, nfilts := N } c fb g sig := by
  rw [if_neg (not_lt.2 hz), if_neg (not_lt.2 hN), hb]
  apply bind_congr_ok
  intro fb hfb
  rw [featCoreZ_eq N, hn fb hfb]

/-- **C153** (what an integer `num_ceps` means). Let `f` be one of `mfcc`, `imfcc`, `lfcc`, `bfcc`, `gfcc`, `ngcc`, `msrcc`,
`psrcc`, called with `num_ceps = z`, any integer up to `nfilts`, and let `n` be the number of filters of its bank. The result (or
the exception) is that of the call with `num_ceps = e`, where `e` is `z` itself for `z ≥ 0` and `n - |z|` (at least 0) for
`z < 0`. The number `nfilts` of that call may be any `N ≥ e` that leads to the same bank. -/
theorem C153_integer_num_ceps (fZ : Args → ℤ → List ℝ → Py XMat) (f : Feature) (bank : Args → Py XMat)
    (hf : (fZ, f, bank) ∈ negPairs) (a : Args) (z : ℤ) (hz : z ≤ a.nfilts) (n N : ℕ)
    (hn : ∀ fb, bank a = .ok fb → fb.length = n) (hN : (if z < 0 then n - z.natAbs else z.natAbs) ≤ N)
    (hb : bank { a with numCeps := if z < 0 then n - z.natAbs else z.natAbs, nfilts := N } = bank a) (sig : List ℝ) :
    fZ a z sig = f { a with numCeps := if z < 0 then n - z.natAbs else z.natAbs, nfilts := N } sig := by
  change countedCeps z n ≤ N at hN
  change bank { a with numCeps := countedCeps z n, nfilts := N } = bank a at hb
  change fZ a z sig = f { a with numCeps := countedCeps z n, nfilts := N } sig
  simp only [negPairs, List.mem_cons, List.not_mem_nil, or_false, Prod.mk.injEq] at hf
  rcases hf with ⟨rfl, rfl, rfl⟩ | ⟨rfl, rfl, rfl⟩ | ⟨rfl, rfl, rfl⟩ | ⟨rfl, rfl, rfl⟩ | ⟨rfl, rfl, rfl⟩ |
    ⟨rfl, rfl, rfl⟩ | ⟨rfl, rfl, rfl⟩ | ⟨rfl, rfl, rfl⟩
  · rw [mfcc_eq]
    refine Eq.trans ?_ (pass_eq (g := logG) hz hn hN hb)
    unfold mfccZ melSpectrogram featCoreZ
    split_ifs
    · rfl
    · cases melBankOf a <;> rfl
  · rw [imfcc_eq]
    refine Eq.trans ?_ (pass_eq (g := logG) hz hn hN hb)
    unfold imfccZ
    rw [if_neg (not_lt.2 hz), if_neg (not_lt.2 hz)]
    apply bind_congr_ok
    intro fb _
    unfold mfccZ
    rw [if_neg (not_lt.2 hz)]
    rfl
  · rw [lfcc_eq]
    refine Eq.trans ?_ (pass_eq (g := logG) hz hn hN hb)
    beta_reduce
    unfold lfccZ linearSpectrogram featCoreZ
    split_ifs
    · rfl
    · cases getFbanks a.fbanks (linearFilterBanks a.nfilts a.nfft a.fs a.low a.high a.scale) <;> rfl
  · rw [bfcc_eq]
    refine Eq.trans ?_ (pass_eq (g := fun v => logG (intensityPowerLaw v)) hz hn hN hb)
    beta_reduce
    unfold bfccZ barkSpectrogram featCoreZ
    split_ifs
    · rfl
    · cases getFbanks a.fbanks (barkFilterBanks a.nfilts a.nfft a.fs a.low a.high a.scale a.approach) with
      | error e => rfl
      | ok fb =>
        simp only [ok_bind]
        congr 1
        funext ⟨x, ft⟩
        simp [logFeatures, logG, List.map_map, Function.comp_def]
  · rw [gfcc_eq]
    refine Eq.trans ?_ (pass_eq (g := fun v => XF.pow v (1 / 3)) hz hn hN hb)
    unfold gfccZ erbSpectrogram featCoreZ
    split_ifs
    · rfl
    · cases gammaBankOf a <;> rfl
  · rw [ngcc_eq]
    refine Eq.trans ?_ (pass_eq (g := logG) hz hn hN hb)
    unfold ngccZ featCoreZ
    split_ifs
    · rfl
    · cases gammaBankOf a <;> rfl
  · rw [msrcc_eq]
    refine Eq.trans ?_ (pass_eq (g := fun v => XF.pow v a.gamma) hz hn hN hb)
    unfold msrccZ melSpectrogram featCoreZ
    split_ifs
    · rfl
    · cases melBankOf a <;> rfl
  · unfold psrccZ psrcc
    rw [if_neg (not_lt.2 hz), if_neg (not_lt.2 hN), hb]
    apply bind_congr_ok
    intro fb hfb
    refine bind_congr_ok (x := frontEnd a a.preEmphCoeff sig) ?_
    intro W hW
    refine bind_congr_ok (x := absFft a.nfft W) ?_
    intro ft _
    refine bind_congr_ok (x := dotFbanks a.nfft _ fb) ?_
    intro y hy
    obtain ⟨h1, h2⟩ := infToMax_rect (rect_map (dot_rect (fun h => frontEnd_ne_nil hW (List.map_eq_nil_iff.mp h)) hy)
      fun v => nanToZero (XF.pow v a.gamma))
    rw [hn fb hfb] at h1
    exact tailZ_eq a z ft _ n h1 h2

/-- Every bank a function computes for itself has `nfilts` filters. -/
theorem own_bank_length {fZ : Args → ℤ → List ℝ → Py XMat} {f : Feature} {bank : Args → Py XMat}
    (hf : (fZ, f, bank) ∈ negPairs) {a : Args} (ha : a.fbanks = none) {fb : XMat} (h : bank a = .ok fb) :
    fb.length = a.nfilts := by
  have key : ∀ {β : Type} (c : Py (XMat × β)), (∀ b cs, c = .ok (b, cs) → b.length = a.nfilts) →
      getFbanks a.fbanks c = .ok fb → fb.length = a.nfilts := by
    intro β c hc h
    rw [ha] at h
    unfold getFbanks at h
    cases h1 : c with
    | error e => rw [h1] at h; cases h
    | ok p =>
      rw [h1] at h
      injection h with h
      subst h
      exact hc p.1 p.2 h1
  simp only [negPairs, List.mem_cons, List.not_mem_nil, or_false, Prod.mk.injEq] at hf
  rcases hf with ⟨rfl, rfl, rfl⟩ | ⟨rfl, rfl, rfl⟩ | ⟨rfl, rfl, rfl⟩ | ⟨rfl, rfl, rfl⟩ | ⟨rfl, rfl, rfl⟩ |
    ⟨rfl, rfl, rfl⟩ | ⟨rfl, rfl, rfl⟩ | ⟨rfl, rfl, rfl⟩
  · exact key _ (fun b cs h => (C25_mel_shape h).1) h
  · exact key _ (fun b cs h => (C25_inverse_mel_shape h).1) h
  · exact key _ (fun b cs h => (C25_linear_shape h).1) h
  · exact key _ (fun b cs h => (C25_bark_shape h).1) h
  · exact key _ (fun b cs h => (C25_gammatone_shape h).1) h
  · exact key _ (fun b cs h => (C25_gammatone_shape h).1) h
  · exact key _ (fun b cs h => (C25_mel_shape h).1) h
  · exact key _ (fun b cs h => (C25_mel_shape h).1) h

/-- The bank does not depend on `num_ceps`. -/
theorem bank_numCeps {fZ : Args → ℤ → List ℝ → Py XMat} {f : Feature} {bank : Args → Py XMat}
    (hf : (fZ, f, bank) ∈ negPairs) (a : Args) (e : ℕ) : bank { a with numCeps := e } = bank a := by
  simp only [negPairs, List.mem_cons, List.not_mem_nil, or_false, Prod.mk.injEq] at hf
  rcases hf with ⟨-, -, rfl⟩ | ⟨-, -, rfl⟩ | ⟨-, -, rfl⟩ | ⟨-, -, rfl⟩ | ⟨-, -, rfl⟩ |
    ⟨-, -, rfl⟩ | ⟨-, -, rfl⟩ | ⟨-, -, rfl⟩ <;> rfl

/-- A given bank is used whatever `nfilts`. -/
theorem bank_given {fZ : Args → ℤ → List ℝ → Py XMat} {f : Feature} {bank : Args → Py XMat}
    (hf : (fZ, f, bank) ∈ negPairs) {a : Args} {fb : XMat} (ha : a.fbanks = some fb) : bank a = .ok fb := by
  simp only [negPairs, List.mem_cons, List.not_mem_nil, or_false, Prod.mk.injEq] at hf
  rcases hf with ⟨-, -, rfl⟩ | ⟨-, -, rfl⟩ | ⟨-, -, rfl⟩ | ⟨-, -, rfl⟩ | ⟨-, -, rfl⟩ |
    ⟨-, -, rfl⟩ | ⟨-, -, rfl⟩ | ⟨-, -, rfl⟩ <;>
  simp only [melBankOf, gammaBankOf, getFbanks, ha]

/-- **C153** (own bank). With the bank computed by the function itself, `num_ceps = -k` (`k ≥ 1`) means
`num_ceps = nfilts - k` (0 if `k` is larger). -/
theorem C153_negative_own_bank (fZ : Args → ℤ → List ℝ → Py XMat) (f : Feature) (bank : Args → Py XMat)
    (hf : (fZ, f, bank) ∈ negPairs) (a : Args) (ha : a.fbanks = none) (k : ℕ) (hk : 1 ≤ k) (sig : List ℝ) :
    fZ a (-(k : ℤ)) sig = f { a with numCeps := a.nfilts - k } sig := by
  have h1 : (if (-(k : ℤ)) < 0 then a.nfilts - (-(k : ℤ)).natAbs else (-(k : ℤ)).natAbs) = a.nfilts - k := by
    rw [if_pos (by omega)]; omega
  have := C153_integer_num_ceps fZ f bank hf a (-(k : ℤ)) (by omega) a.nfilts a.nfilts
    (fun fb h => own_bank_length hf ha h) (by rw [h1]; omega) (bank_numCeps hf a _) sig
  rw [this, h1]

/-- **C153** (given bank). With a bank of `n` filters given by the caller, `num_ceps = -k` means `n - k`, and the check
`nfilts < num_ceps` does not apply: the call behaves like one with a large `nfilts`, even where the same number of
coefficients asked for directly is refused. -/
theorem C153_negative_given_bank (fZ : Args → ℤ → List ℝ → Py XMat) (f : Feature) (bank : Args → Py XMat)
    (hf : (fZ, f, bank) ∈ negPairs) (a : Args) (fb : XMat) (ha : a.fbanks = some fb) (k : ℕ) (hk : 1 ≤ k)
    (sig : List ℝ) :
    fZ a (-(k : ℤ)) sig = f { a with numCeps := fb.length - k, nfilts := fb.length } sig ∧
    (a.nfilts < fb.length - k →
      f { a with numCeps := fb.length - k } sig = .error (.parameterError ErrorMsgs.nfilts)) := by
  have h1 : (if (-(k : ℤ)) < 0 then fb.length - (-(k : ℤ)).natAbs else (-(k : ℤ)).natAbs) = fb.length - k := by
    rw [if_pos (by omega)]; omega
  constructor
  · have := C153_integer_num_ceps fZ f bank hf a (-(k : ℤ)) (by omega) fb.length fb.length
      (fun fb' h => by rw [bank_given hf ha] at h; injection h with h; rw [h]) (by rw [h1]; omega)
      (by rw [bank_given hf ha]; exact bank_given hf ha) sig
    rw [this, h1]
  · intro hlt
    simp only [negPairs, List.mem_cons, List.not_mem_nil, or_false, Prod.mk.injEq] at hf
    rcases hf with ⟨-, rfl, -⟩ | ⟨-, rfl, -⟩ | ⟨-, rfl, -⟩ | ⟨-, rfl, -⟩ | ⟨-, rfl, -⟩ |
      ⟨-, rfl, -⟩ | ⟨-, rfl, -⟩ | ⟨-, rfl, -⟩
    · unfold mfcc; exact if_pos hlt
    · unfold imfcc; exact if_pos hlt
    · unfold lfcc; exact if_pos hlt
    · unfold bfcc; exact if_pos hlt
    · unfold gfcc; exact if_pos hlt
    · unfold ngcc; exact if_pos hlt
    · unfold msrcc; exact if_pos hlt
    · unfold psrcc; exact if_pos hlt

/-- **C153** for `pncc`: the bank given or computed has `nfilts` filters. -/
theorem C153_negative_pncc (a : Args) (power : ℝ) (h : ∀ fb, a.fbanks = some fb → fb.length = a.nfilts) (k : ℕ)
    (hk : 1 ≤ k) (sig : List ℝ) : pnccZ a power (-(k : ℤ)) sig = pncc { a with numCeps := a.nfilts - k } power sig := by
  have hlen : ∀ fb, gammaBankOf a = .ok fb → fb.length = a.nfilts := by
    intro fb hfb
    cases ha : a.fbanks with
    | some fb' =>
      have : gammaBankOf a = .ok fb' := by simp only [gammaBankOf, getFbanks, ha]
      rw [this] at hfb
      injection hfb with hfb
      rw [← hfb]; exact h fb' ha
    | none => exact own_bank_length (bank := gammaBankOf) (fZ := gfccZ) (f := gfcc) (by simp [negPairs]) ha hfb
  unfold pnccZ pncc
  have h0 : ¬ ((a.nfilts : ℤ) < -(k : ℤ)) := by omega
  have h1 : ¬ (a.nfilts < a.nfilts - k) := by omega
  rw [if_neg h0, if_neg h1]
  refine bind_congr_ok (x := gammaBankOf a) ?_
  intro fb hfb
  refine bind_congr_ok (x := pnccPower a power fb sig) ?_
  intro P hP
  refine bind_congr_ok (x := pnccNonlin a.nfilts P) ?_
  intro V hV
  obtain ⟨W, hW, -, -, rfl⟩ := (pnccPower_ok_iff ..).mp hP
  have hr : Np.Rect (W.map (pnRow a.nfft power fb)) fb.length := by
    intro r hr
    obtain ⟨w, -, rfl⟩ := List.mem_map.mp hr
    simp [pnRow]
  have hw := frontEnd_ne_nil hW
  obtain ⟨h2, h3⟩ := nonlin_shape hr (by simpa using hw) hV
  rw [hlen fb hfb] at h3
  have h4 : V ≠ [] := by
    intro h4
    rw [h4] at h2; simp at h2; exact hw (List.length_eq_zero_iff.mp h2.symm)
  have h5 : countedCeps (-(k : ℤ)) a.nfilts = a.nfilts - k := by
    unfold countedCeps; rw [if_pos (by omega)]; omega
  have := tailZ_eq { a with useEnergy := false } (-(k : ℤ)) [] V a.nfilts h3 h4
  rw [h5] at this
  exact this

/-- Not vacuous: `gfcc(..., num_ceps=-1)` with a given bank of two filters returns rows of one coefficient, the first. -/
example : ∃ m, gfccZ demo2 (-1) [5, 1, 4] = .ok m ∧ HasShape m 2 1 ∧ gfcc { demo2 with numCeps := 1 } [5, 1, 4] = .ok m := by
  obtain ⟨m, h1, h2, -⟩ := C101_meaning demo2 gfcc 0.97 (fun e => e ^ (1 / 3 : ℝ)) (by simp [compressions]) _ _ 2 1
    demo2_setup rfl rfl rfl rfl
  have h3 := C51_num_ceps_truncates gfcc (by simp [rowwiseFeatures]) demo2 rfl rfl 1 2 (by norm_num) (by norm_num)
    [5, 1, 4] m h1
  have h4 := (C153_negative_given_bank gfccZ gfcc gammaBankOf (by simp [negPairs]) demo2 _ demo2_setup.bank 1 le_rfl
    [5, 1, 4]).1
  refine ⟨_, h4.trans h3, ?_, h3⟩
  refine ⟨by rw [List.length_map]; exact h2.1, ?_⟩
  intro r hr
  obtain ⟨r', hr', rfl⟩ := List.mem_map.mp hr
  rw [List.length_take, h2.2 r' hr']
  rfl

/-- Not vacuous: with `nfilts = 1` and a given bank of three filters, `num_ceps = 2` is refused, `num_ceps = -1` is not. -/
example : mfcc { demo2 with numCeps := 2, nfilts := 1, fbanks := some (finMat [[1, 2], [3, 1], [1, 1]]) } [5, 1, 4] =
      .error (.parameterError ErrorMsgs.nfilts) ∧
    mfccZ { demo2 with nfilts := 1, fbanks := some (finMat [[1, 2], [3, 1], [1, 1]]) } (-1) [5, 1, 4] =
      mfcc { demo2 with numCeps := 2, nfilts := 3, fbanks := some (finMat [[1, 2], [3, 1], [1, 1]]) } [5, 1, 4] := by
  have h := C153_negative_given_bank mfccZ mfcc melBankOf (by simp [negPairs])
    { demo2 with nfilts := 1, fbanks := some (finMat [[1, 2], [3, 1], [1, 1]]) } _ rfl 1 le_rfl [5, 1, 4]
  exact ⟨h.2 (by simp [finMat]), h.1⟩

end Props
end Spafe
