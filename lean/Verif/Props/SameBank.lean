import Verif.Props.Features

/-! C172: what distinguishes the features once the caller supplies the filter bank. -/

set_option linter.unusedSectionVars false

namespace Spafe
namespace Props
open Model XF Spec

/-- **C172**: with a bank supplied by the caller `mfcc`, `imfcc` and `ngcc` are the same function, results and exceptions. -/
theorem C172_log_features (a : Args) (fb : XMat) (hfb : a.fbanks = some fb) (sig : List ℝ) :
    imfcc a sig = mfcc a sig ∧ ngcc a sig = mfcc a sig := by
  have e : { a with fbanks := some fb } = a := by cases a; simp_all
  constructor
  · unfold imfcc
    by_cases h : a.nfilts < a.numCeps
    · rw [if_pos h, mfcc, if_pos h]
    · rw [if_neg h, hfb]
      simp only [getFbanks, ok_bind]
      rw [e]
  · unfold ngcc mfcc melSpectrogram melBankOf gammaBankOf
    simp only [hfb, getFbanks, ok_bind]

/-- **C172**: `lfcc` is that function too if there is no pre-emphasis or its coefficient is the default 0.97. -/
theorem C172_lfcc (a : Args) (fb : XMat) (hfb : a.fbanks = some fb) (hc : a.preEmph = false ∨ a.preEmphCoeff = 0.97) (sig : List ℝ) :
    lfcc a sig = mfcc a sig := by
  unfold lfcc mfcc linearSpectrogram melSpectrogram melBankOf
  simp only [hfb, getFbanks, ok_bind]
  have e : spectrogram a 0.97 fb sig = spectrogram a a.preEmphCoeff fb sig := by
    rcases hc with h | h
    · unfold spectrogram frontEnd
      simp only [h, Bool.false_eq_true, if_false]
    · rw [h]
  rw [e]

/-- **C172**: `gfcc` is `msrcc` with the exponent 1/3. -/
theorem C172_root_features (a : Args) (fb : XMat) (hfb : a.fbanks = some fb) (hc : a.preEmph = false ∨ a.preEmphCoeff = 0.97)
    (hg : a.gamma = 1 / 3) (sig : List ℝ) : gfcc a sig = msrcc a sig := by
  unfold gfcc msrcc erbSpectrogram melSpectrogram melBankOf gammaBankOf
  simp only [hfb, getFbanks, ok_bind, hg]
  have e : spectrogram a 0.97 fb sig = spectrogram a a.preEmphCoeff fb sig := by
    rcases hc with h | h
    · unfold spectrogram frontEnd
      simp only [h, Bool.false_eq_true, if_false]
    · rw [h]
  rw [e]

/-- `a` and `b` differ in the parameters of the filter bank only. -/
structure SameButBank (a b : Args) : Prop where
  fs : a.fs = b.fs
  numCeps : a.numCeps = b.numCeps
  preEmph : a.preEmph = b.preEmph
  preEmphCoeff : a.preEmphCoeff = b.preEmphCoeff
  window : a.window = b.window
  nfft : a.nfft = b.nfft
  gamma : a.gamma = b.gamma
  dctType : a.dctType = b.dctType
  useEnergy : a.useEnergy = b.useEnergy
  lifter : a.lifter = b.lifter
  normalize : a.normalize = b.normalize
  fbanks : a.fbanks = b.fbanks

/-- **C172**: with a bank supplied by the caller `low_freq`, `high_freq`, `scale` and `conversion_approach` have no effect, not even an exception,
and `nfilts` has none beyond the comparison with `num_ceps`. -/
theorem C172_bank_parameters_ignored (f : Args → List ℝ → Py XMat) (hf : f ∈ [mfcc, imfcc, lfcc, bfcc, gfcc, ngcc, msrcc, psrcc])
    (a b : Args) (fb : XMat) (hfb : a.fbanks = some fb) (h : SameButBank a b)
    (hn : a.nfilts < a.numCeps ↔ b.nfilts < b.numCeps) (sig : List ℝ) : f a sig = f b sig := by
  obtain ⟨h1, h2, h3, h4, h5, h6, h7, h8, h9, h10, h11, h12⟩ := h
  obtain ⟨fs, nc, pe, pc, w, nf, nfft, lo, hi, sc, g, dt, ue, li, no, bk, ap⟩ := a
  obtain ⟨fs', nc', pe', pc', w', nf', nfft', lo', hi', sc', g', dt', ue', li', no', bk', ap'⟩ := b
  dsimp only at h1 h2 h3 h4 h5 h6 h7 h8 h9 h10 h11 h12 hfb hn
  subst h1 h2 h3 h4 h5 h6 h7 h8 h9 h10 h11 h12 hfb
  have hM : mfcc ⟨fs, nc, pe, pc, w, nf, nfft, lo, hi, sc, g, dt, ue, li, no, some fb, ap⟩ sig =
      mfcc ⟨fs, nc, pe, pc, w, nf', nfft, lo', hi', sc', g, dt, ue, li, no, some fb, ap'⟩ sig := by
    by_cases hc : nf < nc
    · simp only [mfcc, hc, hn.mp hc, if_true]
    · have hc' : ¬ nf' < nc := fun h => hc (hn.mpr h)
      simp only [mfcc, hc, hc', if_false]
      rfl
  simp only [List.mem_cons, List.not_mem_nil, or_false] at hf
  rcases hf with rfl | rfl | rfl | rfl | rfl | rfl | rfl | rfl
  · exact hM
  · rw [(C172_log_features _ fb rfl sig).1, (C172_log_features _ fb rfl sig).1, hM]
  all_goals
    by_cases hc : nf < nc
    · simp only [lfcc, bfcc, gfcc, ngcc, msrcc, psrcc, hc, hn.mp hc, if_true]
    · have hc' : ¬ nf' < nc := fun h => hc (hn.mpr h)
      simp only [lfcc, bfcc, gfcc, ngcc, msrcc, psrcc, hc, hc', if_false]
      rfl

/-- **C172**: `ngcc` is `mfcc` on the gammatone bank, `msrcc` is `gfcc` on the mel bank, `lfcc` is `mfcc` on the linear bank (default pre-emphasis),
whenever the own bank can be built. -/
theorem C172_exchange (a : Args) (sig : List ℝ) :
    (∀ fb, gammaBankOf a = .ok fb → ngcc a sig = mfcc { a with fbanks := some fb } sig) ∧
    (∀ fb, linearFilterBanks a.nfilts a.nfft a.fs a.low a.high a.scale = .ok fb → a.fbanks = none → a.preEmphCoeff = 0.97 →
      lfcc a sig = mfcc { a with fbanks := some fb.1 } sig) ∧
    (∀ fb, melBankOf a = .ok fb → a.preEmphCoeff = 0.97 → a.gamma = 1 / 3 → msrcc a sig = gfcc { a with fbanks := some fb } sig) := by
  refine ⟨fun fb h => ?_, fun fb h hb hc => ?_, fun fb h hc hg => ?_⟩
  · unfold ngcc mfcc melSpectrogram melBankOf
    simp only [h, getFbanks, ok_bind]
    rfl
  · unfold lfcc mfcc melSpectrogram melBankOf linearSpectrogram
    simp only [h, hb, getFbanks, ok_bind, hc]
    rfl
  · unfold msrcc gfcc melSpectrogram erbSpectrogram gammaBankOf
    simp only [h, getFbanks, ok_bind, hc, hg]
    rfl

/-- The same signal and bank: the three names give one result, whatever `scale` says. -/
example (sig : List ℝ) (fb : XMat) :
    imfcc { fbanks := some fb } sig = mfcc { fbanks := some fb, scale := "no such scale", low := -5 } sig := by
  rw [(C172_log_features _ fb rfl sig).1]
  exact C172_bank_parameters_ignored mfcc (by simp) _ _ fb rfl ⟨rfl, rfl, rfl, rfl, rfl, rfl, rfl, rfl, rfl, rfl, rfl, rfl⟩ (by norm_num) sig

end Props
end Spafe
