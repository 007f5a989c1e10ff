import Verif.Props.Cqt
import Verif.Props.Plp
import Verif.Props.Lpc
import Verif.Props.Pncc2
import Verif.Props.Yin
import Verif.Props.Dominant

/-! C110: exchanging the wires of the microphone. -/

set_option linter.unusedSectionVars false

namespace Spafe
namespace Props
open Model XF

/-- The signal with the opposite sign. -/
def inverted (sig : List ℝ) : List ℝ := sig.map fun v => -v

theorem inverted_eq (sig : List ℝ) : inverted sig = sig.map ((-1 : ℝ) * ·) := by simp [inverted]

theorem absRfft_inverted (n : ℕ) (w : List ℝ) : Np.absRfft n (w.map ((-1 : ℝ) * ·)) = Np.absRfft n w := by
  unfold Np.absRfft
  apply List.map_congr_left
  intro k _
  have h : Np.dft (w.map ((-1 : ℝ) * ·)) n k = -Np.dft w n k := by
    unfold Np.dft Np.dftC
    rw [← Finset.sum_neg_distrib]
    apply Finset.sum_congr rfl
    intro j _
    beta_reduce
    rw [getD_map_zero]
    push_cast
    ring
  rw [h, norm_neg]

theorem absFft_inverted (n : ℕ) (W : List (List ℝ)) : absFft n (W.map (List.map ((-1 : ℝ) * ·))) = absFft n W := by
  unfold absFft
  rw [List.map_map]
  split_ifs
  · rfl
  · congr 1
    exact List.map_congr_left fun w _ => absRfft_inverted n w

theorem spectrogram_inverted (a : Args) (coeff : ℝ) (fb : XMat) (sig : List ℝ) :
    spectrogram a coeff fb (inverted sig) = spectrogram a coeff fb sig := by
  rw [inverted_eq]
  unfold spectrogram
  rw [frontEnd_smul]
  cases frontEnd a coeff sig with
  | error e => rfl
  | ok W => simp only [Except.map, ok_bind, absFft_inverted]

/-- C110: all features based on powers are unchanged, errors included, with every option. -/
theorem C110_polarity (f : Feature) (hf : f ∈ [mfcc, imfcc, lfcc, bfcc, gfcc, ngcc, msrcc, plp, rplp]) (a : Args)
    (sig : List ℝ) : f a (inverted sig) = f a sig := by
  have hm : ∀ a, mfcc a (inverted sig) = mfcc a sig := fun a => by
    simp only [mfcc, melSpectrogram, spectrogram_inverted]
  simp only [List.mem_cons, List.not_mem_nil, or_false] at hf
  rcases hf with rfl | rfl | rfl | rfl | rfl | rfl | rfl | rfl | rfl
  · exact hm a
  · simp only [imfcc, hm]
  · simp only [lfcc, linearSpectrogram, spectrogram_inverted]
  · simp only [bfcc, barkSpectrogram, spectrogram_inverted]
  · simp only [gfcc, erbSpectrogram, spectrogram_inverted]
  · simp only [ngcc, spectrogram_inverted]
  · simp only [msrcc, melSpectrogram, spectrogram_inverted]
  · simp only [plp, rastaplp, spectrogram_inverted]
  · simp only [rplp, rastaplp, spectrogram_inverted]

/-- C110 for the spectrograms. -/
theorem C110_spectrograms (a : Args) (sig : List ℝ) :
    melSpectrogram a (inverted sig) = melSpectrogram a sig ∧ linearSpectrogram a (inverted sig) = linearSpectrogram a sig ∧
    barkSpectrogram a (inverted sig) = barkSpectrogram a sig ∧ erbSpectrogram a (inverted sig) = erbSpectrogram a sig := by
  simp only [melSpectrogram, linearSpectrogram, barkSpectrogram, erbSpectrogram, spectrogram_inverted, and_self]

/-- C110 for `pncc`. -/
theorem C110_pncc (a : Args) (power : ℝ) (sig : List ℝ) : pncc a power (inverted sig) = pncc a power sig := by
  have h : ∀ fb, pnccPower a power fb (inverted sig) = pnccPower a power fb sig := fun fb => by
    rw [inverted_eq]
    unfold pnccPower
    rw [frontEnd_smul]
    cases frontEnd a a.preEmphCoeff sig with
    | error e => rfl
    | ok W => simp only [Except.map, ok_bind, absFft_inverted]
  simp only [pncc, h]

theorem correlateFull_inverted (x : List ℝ) : correlateFull (x.map ((-1 : ℝ) * ·)) = correlateFull x := by
  unfold correlateFull
  rw [List.length_map]
  apply List.map_congr_left
  intro i _
  apply Finset.sum_congr rfl
  intro n _
  rw [getD_map_zero, getD_map_zero]
  split_ifs <;> ring

theorem lpcHelper_inverted (x : List ℝ) (n : ℕ) : lpcHelper (x.map ((-1 : ℝ) * ·)) n = lpcHelper x n := by
  by_cases hx : x = []
  · subst hx; rfl
  · unfold lpcHelper lpcR
    rw [if_neg hx, if_neg (by simpa using hx)]
    simp only [correlateFull_inverted, List.length_map]

/-- C110 for `lpc` and `lpcc`. -/
theorem C110_lpc (a : LpcArgs) (sig : List ℝ) :
    lpc a (inverted sig) = lpc a sig ∧ lpcc a (inverted sig) = lpcc a sig := by
  rw [inverted_eq]
  unfold lpc lpcc
  rw [lpcFrames_smul]
  cases lpcFrames a sig with
  | error e => exact ⟨rfl, rfl⟩
  | ok F => simp only [Except.map, ok_bind, List.mapM_map, Function.comp_def, lpcHelper_inverted, and_self]

/-- C110 for `cqcc`; the constant-Q transform itself changes its sign. -/
theorem C110_cqcc (a : CqtArgs) (sig : List ℝ) :
    cqtSpectrogram a (inverted sig) = (cqtSpectrogram a sig).map (List.map (List.map fun (z : ℂ) => -z)) ∧
    cqcc a (inverted sig) = cqcc a sig := by
  have h : cqtSpectrogram a (inverted sig) = (cqtSpectrogram a sig).map (List.map (List.map fun (z : ℂ) => -z)) := by
    rw [inverted_eq, cqtSpectrogram_smul]
    simp
  refine ⟨h, ?_⟩
  simp only [cqcc_eq]
  rw [h]
  cases cqtSpectrogram a sig with
  | error e => rfl
  | ok q =>
    have h1 : (q.map (List.map fun (z : ℂ) => -z)).map (fun r => r.map cqtLogPower) = q.map fun r => r.map cqtLogPower := by
      simp [List.map_map, Function.comp_def, cqtLogPower]
    simp only [Except.map, ok_bind, h1, List.map_eq_nil_iff]

/-- C110 for the frequency estimates (any linear filter in front of the dominant frequencies). -/
theorem C110_frequencies (sig : List ℝ) (fs winLen winHop low high thr : ℝ) (filt : List ℝ → Py (List ℝ))
    (hf : filt (inverted sig) = (filt sig).map inverted) (nfft : ℕ) (win : SlidingWindow) (op : Bool) :
    computeYin (inverted sig) fs winLen winHop low high thr = computeYin sig fs winLen winHop low high thr ∧
    getDominant filt (inverted sig) fs nfft win op = getDominant filt sig fs nfft win op := by
  rw [inverted_eq] at hf ⊢
  refine ⟨C82_gain _ _ _ _ _ _ _ _ (by norm_num), C99_gain filt sig fs nfft win op _ (by norm_num) ?_⟩
  rw [hf]
  congr 1
  funext x
  exact inverted_eq x

/-- Without the optional filter. -/
example (sig : List ℝ) (fs : ℝ) : getDominant .ok (inverted sig) fs 512 {} false = getDominant .ok sig fs 512 {} false :=
  (C110_frequencies sig fs 1 1 1 1 1 .ok rfl 512 {} false).2

/-- The claim is false for `psrcc`, which looks at the phase: see `C45_negative_gain_matters`. -/
example : phaseDeg (Np.dft [(1 : ℝ)] 1 0) ≠ phaseDeg (Np.dft (inverted [1]) 1 0) := by
  obtain ⟨h1, h2⟩ := C45_negative_gain_matters
  rw [h1, show inverted [1] = [-1] from rfl, h2]
  norm_num

end Props
end Spafe
