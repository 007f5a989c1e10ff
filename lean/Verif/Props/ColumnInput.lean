import Verif.Model.Column
import Verif.Props.MultiChannel
import Verif.Props.ZeroPadding
import Verif.Props.Lpc

/-! C166: the documented input shape `(N, 1)` (`mfcc.py:199` and the other docstrings) against a flat array of the same samples. -/

set_option linter.unusedSectionVars false

namespace Spafe
namespace Spec

/-- The samples as an array of shape `(N, 1)`. -/
def column (sig : List ℝ) : List (List ℝ) := sig.map fun v => [v]

end Spec

namespace Props
open Model XF Spec

theorem column_emphasis (sig : List ℝ) (c : ℝ) : preEmphasis2 (column sig) c = column sig := by
  unfold preEmphasis2 column
  rw [List.map_map]
  refine List.map_congr_left fun v _ => ?_
  simp [preEmphasis, Np.firFilter, List.range_succ]

theorem column_framing (sig : List ℝ) (fs wl wh : ℝ) :
    framing2 id (Array2.ofRows (column sig) 1) fs wl wh = framing sig fs wl wh :=
  C109_one_column_partial id sig fs wl wh

/-- The front end on a column is the front end without pre-emphasis. -/
theorem frontEnd_column (a : Args) (c : ℝ) (sig : List ℝ) (h : a.preEmph = true → sig ≠ []) :
    frontEndCol a c (column sig) = frontEnd { a with preEmph := false } c sig := by
  unfold frontEndCol frontEnd
  have h1 : (if a.preEmph then preEmphasisColPy (column sig) c else .ok (column sig) : Py (List (List ℝ))) =
      .ok (column sig) := by
    cases hp : a.preEmph
    · rfl
    · have : column sig ≠ [] := by simpa [column] using h hp
      simp only [if_true, preEmphasisColPy, if_neg this, column_emphasis]
  rw [h1]
  simp only [ok_bind, Bool.false_eq_true, if_false, column_framing]
  rfl

theorem spectrogram_column (a : Args) (c : ℝ) (fb : XMat) (sig : List ℝ) (h : a.preEmph = true → sig ≠ []) :
    spectrogramCol a c fb (column sig) = spectrogram { a with preEmph := false } c fb sig := by
  unfold spectrogramCol spectrogram
  rw [frontEnd_column a c sig h]

theorem lpcFrames_column (a : LpcArgs) (sig : List ℝ) (h : a.preEmph = true → sig ≠ []) :
    lpcFramesCol a (column sig) = lpcFrames { a with preEmph := false } sig := by
  unfold lpcFramesCol lpcFrames
  have h1 : (if a.preEmph then preEmphasisColPy (column sig) 0.97 else .ok (column sig) : Py (List (List ℝ))) =
      .ok (column sig) := by
    cases hp : a.preEmph
    · rfl
    · have : column sig ≠ [] := by simpa [column] using h hp
      simp only [if_true, preEmphasisColPy, if_neg this, column_emphasis]
  rw [h1]
  simp only [ok_bind, Bool.false_eq_true, if_false, column_framing]
  rfl

/-- The feature functions with the arguments of `mfcc`, each with its column version. -/
noncomputable def columnPairs : List ((Args → List (List ℝ) → Py XMat) × (Args → List ℝ → Py XMat)) :=
  [(mfccCol, mfcc), (imfccCol, imfcc), (lfccCol, lfcc), (bfccCol, bfcc), (gfccCol, gfcc), (ngccCol, ngcc), (msrccCol, msrcc),
    (psrccCol, psrcc), (rastaplpCol false, plp), (rastaplpCol true, rplp)]

theorem mfcc_column (a : Args) (sig : List ℝ) (h : a.preEmph = true → sig ≠ []) :
    mfccCol a (column sig) = mfcc { a with preEmph := false } sig := by
  unfold mfccCol mfcc melSpectrogramCol melSpectrogram
  simp only [spectrogram_column a _ _ sig h]
  rfl

/-- **C166**: on the documented shape `(N, 1)` every feature function gives the result for the flat signal with `pre_emph` switched off. -/
theorem C166_features (fC : Args → List (List ℝ) → Py XMat) (f : Args → List ℝ → Py XMat) (hf : (fC, f) ∈ columnPairs)
    (a : Args) (sig : List ℝ) (h : a.preEmph = true → sig ≠ []) :
    fC a (column sig) = f { a with preEmph := false } sig := by
  simp only [columnPairs, List.mem_cons, Prod.mk.injEq, List.not_mem_nil, or_false] at hf
  rcases hf with ⟨rfl, rfl⟩ | ⟨rfl, rfl⟩ | ⟨rfl, rfl⟩ | ⟨rfl, rfl⟩ | ⟨rfl, rfl⟩ | ⟨rfl, rfl⟩ | ⟨rfl, rfl⟩ | ⟨rfl, rfl⟩ | ⟨rfl, rfl⟩ | ⟨rfl, rfl⟩
  · exact mfcc_column a sig h
  · unfold imfccCol imfcc
    have : ∀ fb : XMat, mfccCol { a with fbanks := some fb } (column sig) =
        mfcc { { a with fbanks := some fb } with preEmph := false } sig := fun fb => mfcc_column _ sig h
    simp only [this]
  · unfold lfccCol lfcc linearSpectrogramCol linearSpectrogram
    simp only [spectrogram_column a _ _ sig h]
    rfl
  · unfold bfccCol bfcc barkSpectrogramCol barkSpectrogram
    simp only [spectrogram_column a _ _ sig h]
    rfl
  · unfold gfccCol gfcc erbSpectrogramCol erbSpectrogram
    simp only [spectrogram_column a _ _ sig h]
    rfl
  · unfold ngccCol ngcc
    simp only [spectrogram_column a _ _ sig h]
    rfl
  · unfold msrccCol msrcc melSpectrogramCol melSpectrogram
    simp only [spectrogram_column a _ _ sig h]
    rfl
  · unfold psrccCol psrcc
    simp only [frontEnd_column a _ sig h]
    rfl
  · unfold plp rastaplpCol rastaplp
    simp only [spectrogram_column a _ _ sig h]
    rfl
  · unfold rplp rastaplpCol rastaplp
    simp only [spectrogram_column a _ _ sig h]
    rfl

/-- **C166** (pncc). -/
theorem C166_pncc (a : Args) (power : ℝ) (sig : List ℝ) (h : a.preEmph = true → sig ≠ []) :
    pnccCol a power (column sig) = pncc { a with preEmph := false } power sig := by
  unfold pnccCol pncc pnccPower
  simp only [frontEnd_column a _ sig h, bind_assoc]
  rfl

/-- **C166** (lpc, lpcc). -/
theorem C166_lpc (a : LpcArgs) (sig : List ℝ) (h : a.preEmph = true → sig ≠ []) :
    lpcCol a (column sig) = lpc { a with preEmph := false } sig ∧ lpccCol a (column sig) = lpcc { a with preEmph := false } sig := by
  constructor
  · unfold lpcCol lpc
    rw [lpcFrames_column a sig h]
  · unfold lpccCol lpcc
    rw [lpcFrames_column a sig h]
    rfl

/-- **C166** (partial): without pre-emphasis the documented shape gives the features of the flat signal. Missing: `pre_emph = True`, which is
false, see `C166_differs`. -/
theorem C166_same_partial (fC : Args → List (List ℝ) → Py XMat) (f : Args → List ℝ → Py XMat) (hf : (fC, f) ∈ columnPairs)
    (a : Args) (ha : a.preEmph = false) (sig : List ℝ) : fC a (column sig) = f a sig := by
  rw [C166_features fC f hf a sig (by simp [ha])]
  congr
  cases a
  simp_all

/-- **C166** (partial, `lpc` and `lpcc`). -/
theorem C166_lpc_same_partial (a : LpcArgs) (ha : a.preEmph = false) (sig : List ℝ) :
    lpcCol a (column sig) = lpc a sig ∧ lpccCol a (column sig) = lpcc a sig := by
  have h := C166_lpc a sig (by simp [ha])
  have e : ({ a with preEmph := false } : LpcArgs) = a := by
    cases a
    simp_all
  rwa [e] at h

/-- The arguments `cropDemo 2` with `pre_emph`. -/
noncomputable def columnDemo (b : Bool) : Args := { cropDemo 2 with preEmph := b }

theorem columnDemo_setup (b : Bool) : Setup (columnDemo b) [[1, 1]] [1, 1] 2 2 where
  bank := rfl
  cols := by simp [columnDemo, cropDemo]
  nonneg := by simp
  rows := by simp
  ceps := (cropDemo_setup 2 (by norm_num) 1 1).ceps
  nfft := (cropDemo_setup 2 (by norm_num) 1 1).nfft
  window := (cropDemo_setup 2 (by norm_num) 1 1).window
  hopLe := (cropDemo_setup 2 (by norm_num) 1 1).hopLe
  len := (cropDemo_setup 2 (by norm_num) 1 1).len
  hop := (cropDemo_setup 2 (by norm_num) 1 1).hop
  pos := by norm_num
  long := by simp
  samples := by simp

theorem columnDemo_weight (b : Bool) : ∀ j < 2, windowWeight (columnDemo b).win.winType 2 j = 0.08 := by
  intro j hj
  obtain rfl | rfl : j = 0 ∨ j = 1 := by omega
  · simp [windowWeight, columnDemo, cropDemo, Args.win]
    norm_num
  · have e : (2 : ℝ) - 1 = 1 := by norm_num
    simp [windowWeight, columnDemo, cropDemo, Args.win, e]
    norm_num

theorem columnDemo_bins (b : Bool) (k : ℕ) (hk : k < 2) :
    frameBin (windowWeight (columnDemo b).win.winType 2) (emphasised b 0.97 [1, 1]) 2 2 2 0 k =
      (((0.08 + (if k = 0 then 1 else -1) * (0.08 * (if b then 0.03 else 1)) : ℝ)) : ℂ) := by
  unfold frameBin
  rw [show min 2 2 = 2 from rfl, Finset.sum_range_succ, Finset.sum_range_one, columnDemo_weight b 0 (by norm_num),
    columnDemo_weight b 1 (by norm_num)]
  obtain rfl | rfl : k = 0 ∨ k = 1 := by omega
  · cases b <;> simp [emphasised] <;> norm_num
  · have e : Complex.exp (-(2 * Real.pi * Complex.I / 2)) = -1 := by
      rw [show -(2 * (Real.pi : ℂ) * Complex.I / 2) = -(Real.pi * Complex.I) by ring, Complex.exp_neg, Complex.exp_pi_mul_I]
      norm_num
    cases b <;> simp [emphasised, e] <;> norm_num [e]

theorem columnDemo_energy (b : Bool) :
    bandEnergy [[1, 1]] (windowWeight (columnDemo b).win.winType 2) (emphasised b 0.97 [1, 1]) 2 2 2 0 0 =
      if b then 0.00640576 else 0.0128 := by
  unfold bandEnergy framePower
  rw [show 2 / 2 + 1 = 2 from rfl, Finset.sum_range_succ, Finset.sum_range_one, columnDemo_bins b 0 (by norm_num),
    columnDemo_bins b 1 (by norm_num)]
  simp only [Complex.norm_real, Real.norm_eq_abs, sq_abs]
  cases b <;> norm_num

/-- **C166** (negation, `mfcc`): two ones with pre-emphasis, one frame, one filter. The documented shape gives the logarithm of the energy 0.0128 of the
plain signal, a flat array that of the pre-emphasised signal, 0.00640576. -/
theorem C166_differs : ∃ v w, mfccCol (columnDemo true) (column [1, 1]) = .ok [[fin v]] ∧ mfcc (columnDemo true) [1, 1] = .ok [[fin w]] ∧
    v = Real.log 0.0128 ∧ w = Real.log 0.00640576 ∧ w < v := by
  have key : ∀ b, mfcc (columnDemo b) [1, 1] = .ok [[fin (Real.log (if b then 0.00640576 else 0.0128))]] := by
    intro b
    obtain ⟨m, hm, ⟨h1, h2⟩, h3⟩ := C101_meaning (columnDemo b) mfcc 0.97 logFloor (by simp [compressions, columnDemo, cropDemo]) [[1, 1]] [1, 1] 2 2
      (columnDemo_setup b) rfl rfl rfl rfl
    have h4 := h3 0 0 (by simp) (by simp [columnDemo, cropDemo])
    rw [show (columnDemo b).preEmph = b from rfl, show (columnDemo b).nfft = 2 from rfl] at h4
    have hs : √2 * (1 / √2) = (1 : ℝ) := by field_simp
    simp only [dctII, List.length_singleton, Finset.sum_range_one, columnDemo_energy, Nat.cast_one, div_one, if_true, hs] at h4
    have h1' : m.length = 1 := by simpa using h1
    obtain ⟨r, rfl⟩ := List.length_eq_one_iff.mp h1'
    have h2' : r.length = 1 := by simpa [columnDemo, cropDemo] using h2 r (by simp)
    obtain ⟨v, rfl⟩ := List.length_eq_one_iff.mp h2'
    rw [hm]
    have h5 : v = fin (Real.log (if b then 0.00640576 else 0.0128)) := by
      have hc : Real.cos (Real.pi * ((0 : ℕ) : ℝ) * (2 * ((0 : ℕ) : ℝ) + 1) / (2 * 1)) = 1 := by simp
      rw [hc] at h4
      have hl : logFloor (if b then 0.00640576 else 0.0128) = Real.log (if b then 0.00640576 else 0.0128) := by
        unfold logFloor
        rw [if_neg (by cases b <;> norm_num)]
      rw [hl] at h4
      simpa using h4
    rw [h5]
  refine ⟨_, _, ?_, key true, rfl, rfl, ?_⟩
  · rw [C166_features mfccCol mfcc (by simp [columnPairs]) (columnDemo true) [1, 1] (by simp)]
    exact key false
  · simp only [if_true]
    exact Real.log_lt_log (by norm_num) (by norm_num)

/-- **C166** (negation, `lpc`): three ones with pre-emphasis. The documented shape gives [1, -2/3], a flat array [1, -0.0309/1.0018]. -/
theorem C166_lpc_differs : ∃ e e', lpcCol { lpcDemo with preEmph := true } (column [1, 1, 1]) = .ok ([[1, -2 / 3]], [e]) ∧
    lpc { lpcDemo with preEmph := true } [1, 1, 1] = .ok ([[1, -0.0309 / 1.0018]], [e']) := by
  obtain ⟨e, he⟩ := ones_helper
  obtain ⟨e', he'⟩ := emph_helper
  have h1 : lpcFrames { lpcDemo with preEmph := true } [1, 1, 1] = .ok [[1, 0.03, 0.03]] := lpcDemo_frames 0.97 true
  have h2 : lpcFrames { lpcDemo with preEmph := false } [1, 1, 1] = .ok [[1, 1, 1]] := lpcDemo_frames 0.97 false
  refine ⟨e, e', ?_, ?_⟩
  · rw [(C166_lpc { lpcDemo with preEmph := true } [1, 1, 1] (by simp)).1]
    show lpc { lpcDemo with preEmph := false } [1, 1, 1] = _
    simp only [lpc, h2, ok_bind]
    show (List.mapM (fun f => lpcHelper f 1) [[1, 1, 1]] >>= _) = _
    rw [List.mapM_cons, he]; rfl
  · simp only [lpc, h1, ok_bind]
    show (List.mapM (fun f => lpcHelper f 1) [[1, 0.03, 0.03]] >>= _) = _
    rw [List.mapM_cons, he']; rfl

/-- A case of `C166_same_partial` in which the features are defined. -/
example : ∃ m, mfccCol (columnDemo false) (column [1, 1]) = .ok m := by
  rw [C166_same_partial mfccCol mfcc (by simp [columnPairs]) _ rfl]
  obtain ⟨m, hm, -⟩ := C101_meaning (columnDemo false) mfcc 0.97 logFloor (by simp [compressions, columnDemo, cropDemo]) [[1, 1]] [1, 1] 2 2
    (columnDemo_setup false) rfl rfl rfl rfl
  exact ⟨m, hm⟩

end Props
end Spafe
