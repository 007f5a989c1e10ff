import Verif.Lemmas.Cqt
import Verif.Props.Features
import Verif.Props.Plp
import Verif.Spec.Features

/-!
Properties C67–C71, C91–C93 and the `cqcc` part of C47: `spafe/utils/spectral.py` and `spafe/features/cqcc.py`.
-/

set_option linter.unusedSectionVars false

namespace Spafe
namespace Props
open XF Spec Model

/-! ### C67, C68, C69 -/

theorem mem_admissible {f0 : ℝ} {O B : ℕ} {low high fs q : ℝ} {nfft : ℕ} {f : ℝ} :
    f ∈ admissible f0 O B low high fs q nfft ↔ ∃ i : ℕ, i < O * B ∧ f = f0 * 2 ^ ((i : ℝ) / B) ∧ low ≤ f ∧ f ≤ high ∧
      ⌈q / (2 ^ (1 / (B : ℝ)) - 1) * fs / f⌉ ≤ (nfft : ℤ) := by
  unfold admissible inBand grid
  rw [List.mem_filter, List.mem_filter, List.mem_map, decide_eq_true_eq, decide_eq_true_eq]
  constructor
  · rintro ⟨⟨⟨i, hi, rfl⟩, h1, h2⟩, h3⟩
    exact ⟨i, List.mem_range.mp hi, rfl, h1, h2, h3⟩
  · rintro ⟨i, hi, rfl, h1, h2, h3⟩
    exact ⟨⟨⟨i, List.mem_range.mpr hi, rfl⟩, h1, h2⟩, h3⟩

/-- C67: when at least one frequency `f0·2^(i/B)` of the band has a window of at most `nfft` samples, the selected
frequencies are exactly the frequencies of the grid within `[low, high]` with such a window, in strictly increasing
order, and the list of window lengths is theirs, position by position. -/
theorem C67_selection {fs low : ℝ} {high : Option ℝ} {nfft O B : ℕ} {f0 q : ℝ} (hfs : 0 < fs) (hq : 0 < q) (hB : B ≠ 0)
    (hf0 : 0 < f0)
    (hne : ∃ i : ℕ, i < O * B ∧ low ≤ f0 * 2 ^ ((i : ℝ) / B) ∧ f0 * 2 ^ ((i : ℝ) / B) ≤ effHigh high fs ∧
      ⌈q / (2 ^ (1 / (B : ℝ)) - 1) * fs / (f0 * 2 ^ ((i : ℝ) / B))⌉ ≤ (nfft : ℤ)) :
    ∃ freqs wins, cqtSelect fs low high nfft O B f0 q = .ok (freqs, wins) ∧ freqs.Pairwise (· < ·) ∧
      (∀ f, f ∈ freqs ↔ ∃ i : ℕ, i < O * B ∧ f = f0 * 2 ^ ((i : ℝ) / B) ∧ low ≤ f ∧ f ≤ effHigh high fs ∧
        ⌈q / (2 ^ (1 / (B : ℝ)) - 1) * fs / f⌉ ≤ (nfft : ℤ)) ∧
      wins = freqs.map fun f => ⌈q / (2 ^ (1 / (B : ℝ)) - 1) * fs / f⌉ := by
  obtain ⟨i, hi, h1, h2, h3⟩ := hne
  have hne : admissible f0 O B low (effHigh high fs) fs q nfft ≠ [] :=
    List.ne_nil_of_mem (mem_admissible.mpr ⟨i, hi, rfl, h1, h2, h3⟩)
  refine ⟨_, _, by rw [cqtSelect_eq hfs.le hq.le hB hf0, if_neg hne]; rfl, ?_, fun f => mem_admissible, rfl⟩
  exact ((grid_sorted hf0 O B).sublist (List.filter_sublist)).sublist List.filter_sublist

/-- C68 (and the observable form of C67): the transform has one row per admissible frequency and one column per frame. -/
theorem C68_shape (frames : List (List ℝ)) {fs low : ℝ} {high : Option ℝ} {nfft O B : ℕ} {t : String} {thr f0 q : ℝ}
    (hfs : 0 < fs) (hq : 0 < q) (hB : B ≠ 0) (hf0 : 0 < f0) (m : List (List ℂ))
    (h : computeCqt frames fs low high nfft O B t thr f0 q = .ok m) :
    HasShape m (admissible f0 O B low (effHigh high fs) fs q nfft).length frames.length := by
  by_cases hne : admissible f0 O B low (effHigh high fs) fs q nfft = []
  · unfold computeCqt at h
    rw [cqtSelect_eq hfs.le hq.le hB hf0, ok_bind, if_pos hne, hne] at h
    simp only [List.map_nil] at h
    cases hin : inBand f0 O B low (effHigh high fs) with
    | nil =>
      rw [hin] at h
      simp only [List.length_nil, List.range_zero, List.mapM_nil, pure_eq_ok, ok_bind, List.map_nil] at h
      split_ifs at h
      injection h with h
      subst h
      exact ⟨by rw [hne]; rfl, by simp⟩
    | cons f l =>
      exfalso
      rw [hin, List.length_cons, List.range_succ_eq_map, mapM_error _ .indexError] at h
      · cases h
      · rfl
  · rw [computeCqt_eq frames hfs hq hB hf0 hne, bind_ok_iff] at h
    obtain ⟨ker, h1, h2⟩ := h
    injection h2 with h2
    subst h2
    refine ⟨by rw [List.length_map, mapM_length _ _ _ h1], fun r hr => ?_⟩
    obtain ⟨row, -, rfl⟩ := List.mem_map.mp hr
    rw [List.length_map]

/-- C68: each selected frequency has a positive window length `N ≤ nfft`, and the window written at
`int((nfft - N)/2)` lies inside `[0, nfft)`: the slice assignment has exactly `N` cells. -/
theorem C68_in_bounds {fs low : ℝ} {high : Option ℝ} {nfft O B : ℕ} {f0 q : ℝ} (hfs : 0 < fs) (hq : 0 < q) (hB : B ≠ 0)
    (hf0 : 0 < f0) (freqs : List ℝ) (wins : List ℤ) (h : cqtSelect fs low high nfft O B f0 q = .ok (freqs, wins)) :
    ∀ N ∈ wins, 0 < N ∧ 0 ≤ ((nfft : ℤ) - N).tdiv 2 ∧ ((nfft : ℤ) - N).tdiv 2 + N ≤ nfft ∧
      ∀ fk w, ∀ j : ℕ, ((j : ℤ) < ((nfft : ℤ) - N).tdiv 2 ∨ ((nfft : ℤ) - N).tdiv 2 + N ≤ j) → cqtAtom nfft fs fk N w j = 0 := by
  rw [cqtSelect_eq hfs.le hq.le hB hf0] at h
  injection h with h
  obtain ⟨-, rfl⟩ := Prod.mk.inj h
  intro N hN
  obtain ⟨f, hf, rfl⟩ := List.mem_map.mp hN
  have h1 := List.mem_filter.mp hf
  have h2 := winLen_pos hfs hq hB (grid_pos hf0 O B f (List.mem_of_mem_filter h1.1))
  have h3 := of_decide_eq_true h1.2
  generalize winLen fs q B f = N at h2 h3
  have h4 : ((nfft : ℤ) - N).tdiv 2 = ((nfft : ℤ) - N) / 2 := Int.tdiv_eq_ediv_of_nonneg (by omega)
  refine ⟨h2, by omega, by omega, fun fk w j hj => ?_⟩
  simp only [cqtAtom]
  rw [if_neg (by omega)]

/-- C69 is violated: whenever the band contains a frequency but no window of at most `nfft` samples, the call raises
`IndexError` instead of returning an empty transform: `cqt_freqs[-0:]` keeps every frequency. -/
theorem C69_raises (frames : List (List ℝ)) {fs low : ℝ} {high : Option ℝ} {nfft O B : ℕ} {t : String} {thr f0 q : ℝ}
    (hfs : 0 < fs) (hq : 0 < q) (hB : B ≠ 0) (hf0 : 0 < f0)
    (hin : ∃ i : ℕ, i < O * B ∧ low ≤ f0 * 2 ^ ((i : ℝ) / B) ∧ f0 * 2 ^ ((i : ℝ) / B) ≤ effHigh high fs)
    (hno : ∀ i : ℕ, i < O * B → low ≤ f0 * 2 ^ ((i : ℝ) / B) → f0 * 2 ^ ((i : ℝ) / B) ≤ effHigh high fs →
      (nfft : ℤ) < ⌈q / (2 ^ (1 / (B : ℝ)) - 1) * fs / (f0 * 2 ^ ((i : ℝ) / B))⌉) :
    computeCqt frames fs low high nfft O B t thr f0 q = .error .indexError := by
  have hne : admissible f0 O B low (effHigh high fs) fs q nfft = [] := by
    rw [List.eq_nil_iff_forall_not_mem]
    intro f hf
    obtain ⟨i, hi, rfl, h1, h2, h3⟩ := mem_admissible.mp hf
    exact absurd h3 (not_le.mpr (hno i hi h1 h2))
  have hne2 : inBand f0 O B low (effHigh high fs) ≠ [] := by
    obtain ⟨i, hi, h1, h2⟩ := hin
    apply List.ne_nil_of_mem (a := f0 * 2 ^ ((i : ℝ) / B))
    unfold inBand grid
    rw [List.mem_filter, List.mem_map, decide_eq_true_eq]
    exact ⟨⟨i, List.mem_range.mpr hi, rfl⟩, h1, h2⟩
  unfold computeCqt
  rw [cqtSelect_eq hfs.le hq.le hB hf0, ok_bind, if_pos hne, hne]
  simp only [List.map_nil]
  cases hb : inBand f0 O B low (effHigh high fs) with
  | nil => exact absurd hb hne2
  | cons f l =>
    rw [List.length_cons, List.range_succ_eq_map, mapM_error _ .indexError]
    · rfl
    · rfl

/-- C69, the part that holds: a band without any grid frequency gives the empty transform. What is missing for the full
C69: bands with frequencies but no admissible window, where `C69_raises` applies. -/
theorem C69_empty_band_partial (frames : List (List ℝ)) {fs low : ℝ} {high : Option ℝ} {nfft O B : ℕ} {t : String}
    {thr f0 q : ℝ} (hfs : 0 < fs) (hq : 0 < q) (hB : B ≠ 0) (hf0 : 0 < f0) (hn : nfft ≠ 0)
    (hno : ∀ i : ℕ, i < O * B → ¬ (low ≤ f0 * 2 ^ ((i : ℝ) / B) ∧ f0 * 2 ^ ((i : ℝ) / B) ≤ effHigh high fs)) :
    computeCqt frames fs low high nfft O B t thr f0 q = .ok [] := by
  have hb : inBand f0 O B low (effHigh high fs) = [] := by
    rw [List.eq_nil_iff_forall_not_mem]
    intro f hf
    unfold inBand grid at hf
    rw [List.mem_filter, List.mem_map, decide_eq_true_eq] at hf
    obtain ⟨⟨i, hi, rfl⟩, h1, h2⟩ := hf
    exact hno i (List.mem_range.mp hi) ⟨h1, h2⟩
  have hne : admissible f0 O B low (effHigh high fs) fs q nfft = [] := by
    unfold admissible; rw [hb]; rfl
  unfold computeCqt
  rw [cqtSelect_eq hfs.le hq.le hB hf0, ok_bind, if_pos hne, hne, hb]
  simp [hn]

theorem one_add_lt_rpow {B : ℕ} (hB : B ≠ 0) {x : ℝ} (hx : 0 ≤ x) (h : (1 + x) ^ B ≤ 2) : 1 + x ≤ 2 ^ (1 / (B : ℝ)) := by
  have := Real.rpow_le_rpow (by positivity) h (show 0 ≤ 1 / (B : ℝ) by positivity)
  rwa [← Real.rpow_natCast, ← Real.rpow_mul (by positivity), mul_one_div_cancel (by exact_mod_cast hB), Real.rpow_one] at this

theorem rpow_lt_one_add {B : ℕ} (hB : B ≠ 0) {x : ℝ} (hx : 0 ≤ x) (h : 2 < (1 + x) ^ B) : 2 ^ (1 / (B : ℝ)) < 1 + x := by
  have hB' : (0 : ℝ) < B := by exact_mod_cast Nat.pos_of_ne_zero hB
  have := Real.rpow_lt_rpow (by norm_num) h (show 0 < 1 / (B : ℝ) by positivity)
  rwa [← Real.rpow_natCast (1 + x), ← Real.rpow_mul (by positivity), mul_one_div_cancel hB'.ne', Real.rpow_one] at this

/-- C69, concrete: with the default arguments of `compute_constant_qtransform` except `nfft = 32` every call raises. -/
theorem C69_violated : ∀ frames : List (List ℝ),
    computeCqt frames 16000 0 none 32 7 12 "hamming" 0.0054 120 1 = .error .indexError := by
  intro frames
  apply C69_raises frames (by norm_num) (by norm_num) (by norm_num) (by norm_num)
  · exact ⟨0, by norm_num, by norm_num, by norm_num [effHigh]⟩
  · intro i hi h1 h2
    rw [Int.lt_ceil]
    have hg := two_rpow_gt_one (B := 12) (by norm_num)
    have hl := rpow_lt_one_add (B := 12) (x := 1 / 16) (by norm_num) (by norm_num) (by norm_num)
    have hf : effHigh none 16000 = (8000 : ℝ) := by norm_num [effHigh]
    rw [hf] at h2
    have hp : (0 : ℝ) < 120 * 2 ^ ((i : ℝ) / (12 : ℕ)) := by positivity
    set g : ℝ := 2 ^ (1 / ((12 : ℕ) : ℝ))
    rw [lt_div_iff₀ hp]
    have hQ : (16 : ℝ) < 1 / (g - 1) := by
      rw [lt_div_iff₀ (by linarith)]; linarith
    push_cast at *
    nlinarith

/-! ### C70 -/

/-- The frequencies and the kernel do not depend on the frames. -/
theorem computeCqt_form (fs low : ℝ) (high : Option ℝ) (nfft O B : ℕ) (t : String) (thr f0 q : ℝ) :
    (∃ e, ∀ frames, computeCqt frames fs low high nfft O B t thr f0 q = .error e) ∨
    ∃ ker : List (List ℂ), ∀ frames, computeCqt frames fs low high nfft O B t thr f0 q =
      .ok (ker.map fun row => frames.map (cqtEntry nfft row)) := by
  unfold computeCqt
  cases cqtSelect fs low high nfft O B f0 q with
  | error e => exact .inl ⟨e, fun _ => rfl⟩
  | ok p =>
    obtain ⟨freqs, wins⟩ := p
    simp only [ok_bind]
    cases (List.range freqs.length).mapM fun (k : ℕ) => (do
        let Nk ← pyIdx wins k
        let fk ← pyIdx freqs k
        cqtKernelRow nfft fs fk Nk t thr : Py (List ℂ)) with
    | error e => exact .inl ⟨e, fun _ => rfl⟩
    | ok ker =>
      by_cases hn : nfft = 0
      · exact .inl ⟨.outOfModel, fun _ => by rw [ok_bind, if_pos hn]⟩
      · exact .inr ⟨ker, fun _ => by rw [ok_bind, if_neg hn]⟩

/-- C70: for all parameters and all lists of frames of equal sizes, the transform of the linear combination
`a·xs + b·ys` is the linear combination of the transforms. -/
theorem C70_linear (fs low : ℝ) (high : Option ℝ) (nfft O B : ℕ) (t : String) (thr f0 q : ℝ) (xs ys : List (List ℝ))
    (hlen : List.Forall₂ (fun x y => x.length = y.length) xs ys) (a b : ℝ) (mx my : List (List ℂ))
    (hx : computeCqt xs fs low high nfft O B t thr f0 q = .ok mx)
    (hy : computeCqt ys fs low high nfft O B t thr f0 q = .ok my) :
    computeCqt (List.zipWith (List.zipWith fun u v => a * u + b * v) xs ys) fs low high nfft O B t thr f0 q =
      .ok (List.zipWith (List.zipWith fun (u v : ℂ) => a * u + b * v) mx my) := by
  rcases computeCqt_form fs low high nfft O B t thr f0 q with ⟨e, h⟩ | ⟨ker, h⟩
  · rw [h] at hx; cases hx
  · rw [h] at hx hy ⊢
    injection hx with hx
    injection hy with hy
    subst hx; subst hy
    rw [List.zipWith_map, List.zipWith_self]
    congr 1
    apply List.map_congr_left
    intro row _
    rw [List.zipWith_map]
    induction hlen with
    | nil => rfl
    | cons hab _ ih =>
      rename_i x y xs ys _
      rw [List.zipWith_cons_cons, List.map_cons, List.zipWith_cons_cons, ih]
      congr 1
      have e : List.zipWith (fun u v => a * u + b * v) x y = List.zipWith (· + ·) (x.map (a * ·)) (y.map (b * ·)) := by
        rw [List.zipWith_map]
      rw [e, cqtEntry_add _ _ _ _ (by simpa using hab), cqtEntry_smul, cqtEntry_smul]

/-! ### C91 -/

/-- C91: what the transform computes. For a known window, the entry for the `k`-th admissible frequency `f` (window
length `N`) and a frame `x` differs from `(1/N) Σ_{m<N} x[(nfft-N)/2 + m]·w[m]·e^{-2πi f m/fs}` by at most the spectral
threshold times `Σ_{n<nfft} |x[n]|`. -/
theorem C91_meaning (frames : List (List ℝ)) {fs low : ℝ} {high : Option ℝ} {nfft O B : ℕ} {t : String} {thr f0 q : ℝ}
    (hfs : 0 < fs) (hq : 0 < q) (hB : B ≠ 0) (hf0 : 0 < f0) (ht : WindowName t) (hthr : 0 ≤ thr)
    (hne : admissible f0 O B low (effHigh high fs) fs q nfft ≠ []) :
    ∃ m, computeCqt frames fs low high nfft O B t thr f0 q = .ok m ∧
      ∀ k i, k < (admissible f0 O B low (effHigh high fs) fs q nfft).length → i < frames.length → ∃ (N : ℕ) (w : List ℝ),
        (N : ℤ) = ⌈q / (2 ^ (1 / (B : ℝ)) - 1) * fs / (admissible f0 O B low (effHigh high fs) fs q nfft).getD k 0⌉ ∧
        windowVec t N = .ok w ∧
        ‖(m.getD k []).getD i 0 - cqCoeff nfft fs ((admissible f0 O B low (effHigh high fs) fs q nfft).getD k 0) N
          (fun j => w.getD j 0) (fun j => (frames.getD i []).getD j 0)‖ ≤
          thr * ∑ j ∈ Finset.range nfft, |(frames.getD i []).getD j 0| := by
  choose w hw _ using fun n => (C14_window_vector t n).1 ht
  refine ⟨_, computeCqt_ok frames hfs hq hB hf0 hne w hw, fun k i hk hi => ?_⟩
  rw [getD_map_lt _ _ 0 _ hk, getD_map_lt _ frames [] _ hi]
  have hf := getD_mem 0 hk
  set f := (admissible f0 O B low (effHigh high fs) fs q nfft).getD k 0
  have h1 := (List.mem_filter.mp hf)
  have h2 := winLen_pos hfs hq hB (grid_pos hf0 O B f (List.mem_of_mem_filter h1.1))
  have h3 := of_decide_eq_true h1.2
  obtain ⟨N, hN⟩ := Int.eq_ofNat_of_zero_le h2.le
  refine ⟨N, w N, hN.symm, hw N, ?_⟩
  rw [hN] at h2 h3 ⊢
  rw [Int.toNat_natCast, ← cqtAtom_sum nfft fs f N (by omega)]
  exact cqtEntry_near (by omega) hthr _ _

/-- C91: with a negative threshold nothing is dropped and the transform is exact. -/
theorem C91_exact (frames : List (List ℝ)) {fs low : ℝ} {high : Option ℝ} {nfft O B : ℕ} {t : String} {thr f0 q : ℝ}
    (hfs : 0 < fs) (hq : 0 < q) (hB : B ≠ 0) (hf0 : 0 < f0) (ht : WindowName t) (hthr : thr < 0)
    (hne : admissible f0 O B low (effHigh high fs) fs q nfft ≠ []) :
    ∃ m, computeCqt frames fs low high nfft O B t thr f0 q = .ok m ∧
      ∀ k i, k < (admissible f0 O B low (effHigh high fs) fs q nfft).length → i < frames.length → ∃ (N : ℕ) (w : List ℝ),
        (N : ℤ) = ⌈q / (2 ^ (1 / (B : ℝ)) - 1) * fs / (admissible f0 O B low (effHigh high fs) fs q nfft).getD k 0⌉ ∧
        windowVec t N = .ok w ∧
        (m.getD k []).getD i 0 = cqCoeff nfft fs ((admissible f0 O B low (effHigh high fs) fs q nfft).getD k 0) N
          (fun j => w.getD j 0) (fun j => (frames.getD i []).getD j 0) := by
  choose w hw _ using fun n => (C14_window_vector t n).1 ht
  refine ⟨_, computeCqt_ok frames hfs hq hB hf0 hne w hw, fun k i hk hi => ?_⟩
  rw [getD_map_lt _ _ 0 _ hk, getD_map_lt _ frames [] _ hi]
  have hf := getD_mem 0 hk
  set f := (admissible f0 O B low (effHigh high fs) fs q nfft).getD k 0
  have h1 := (List.mem_filter.mp hf)
  have h2 := winLen_pos hfs hq hB (grid_pos hf0 O B f (List.mem_of_mem_filter h1.1))
  have h3 := of_decide_eq_true h1.2
  obtain ⟨N, hN⟩ := Int.eq_ofNat_of_zero_le h2.le
  refine ⟨N, w N, hN.symm, hw N, ?_⟩
  rw [hN] at h2 h3 ⊢
  rw [Int.toNat_natCast, ← cqtAtom_sum nfft fs f N (by omega)]
  exact cqtEntry_exact (by omega) hthr _ _

/-- The default arguments of `cqcc` meet the hypotheses: 1920 Hz has a window of at most 512 samples. -/
theorem default_admissible : admissible 120 7 24 0 (effHigh none 16000) 16000 1 512 ≠ [] := by
  apply List.ne_nil_of_mem (a := 120 * 2 ^ (((96 : ℕ) : ℝ) / (24 : ℕ)))
  have h16 : (2 : ℝ) ^ (((96 : ℕ) : ℝ) / (24 : ℕ)) = 16 := by
    rw [show ((96 : ℕ) : ℝ) / (24 : ℕ) = ((4 : ℕ) : ℝ) by norm_num, Real.rpow_natCast]; norm_num
  refine mem_admissible.mpr ⟨96, by norm_num, rfl, by positivity, by rw [h16]; norm_num [effHigh], ?_⟩
  rw [h16, Int.ceil_le]
  have hl := one_add_lt_rpow (B := 24) (x := 1 / 60) (by norm_num) (by norm_num) (by norm_num)
  set g : ℝ := 2 ^ (1 / ((24 : ℕ) : ℝ))
  have hQ : 1 / (g - 1) ≤ 60 := by
    rw [div_le_iff₀ (by linarith)]; linarith
  push_cast
  rw [div_le_iff₀ (by norm_num)]
  linarith

/-- A concrete case of C67, C68, C91: the default arguments of `cqcc`. -/
example (frames : List (List ℝ)) : ∃ m, computeCqt frames 16000 0 none 512 7 24 "hamming" 0.005 120 1 = .ok m ∧
    0 < m.length ∧ ∀ r ∈ m, r.length = frames.length := by
  obtain ⟨m, hm, -⟩ := C91_meaning frames (fs := 16000) (low := 0) (high := none) (nfft := 512) (O := 7) (B := 24)
    (t := "hamming") (thr := 0.005) (f0 := 120) (q := 1) (by norm_num) (by norm_num) (by norm_num) (by norm_num)
    (by simp [WindowName]) (by norm_num) default_admissible
  have hs := C68_shape frames (by norm_num) (by norm_num) (by norm_num) (by norm_num) m hm
  exact ⟨m, hm, by rw [hs.1]; exact List.length_pos_iff.mpr default_admissible, hs.2⟩

/-! ### `cqt_spectrogram` and `cqcc` -/

/-- The rows that `cqcc` hands to the DCT. -/
noncomputable def cqccRow (num : ℕ) (q : List (List ℂ)) (t : ℕ) : List (XF ℝ) :=
  q.map fun r => fin ((resample num (r.map cqtLogPower)).getD t 0)

/-- The number of rows after resampling. -/
noncomputable def cqccNum (ratio : ℝ) (n : ℕ) : ℤ := pyInt ((n : ℝ) * ratio)

theorem cqtSpectrogram_ok {a : CqtArgs} {sig : List ℝ} {q : List (List ℂ)} (h : cqtSpectrogram a sig = .ok q) :
    ¬ effHigh a.high a.fs > a.fs / 2 ∧ ∃ W, frontEnd a.toArgs a.preEmphCoeff sig = .ok W ∧
      computeCqt W a.fs a.low (some (effHigh a.high a.fs)) a.nfft a.octaves a.bins a.win.winType a.thr a.f0 a.qRate = .ok q ∧
      ∀ r ∈ q, r.length = W.length := by
  unfold cqtSpectrogram at h
  split_ifs at h with hh
  rw [bind_ok_iff] at h
  obtain ⟨W, hW, h⟩ := h
  refine ⟨hh, W, hW, h, ?_⟩
  rcases computeCqt_form a.fs a.low (some (effHigh a.high a.fs)) a.nfft a.octaves a.bins a.win.winType a.thr a.f0 a.qRate with
    ⟨e, h'⟩ | ⟨ker, h'⟩
  · rw [h'] at h; cases h
  · rw [h'] at h
    injection h with h
    subst h
    intro r hr
    obtain ⟨row, -, rfl⟩ := List.mem_map.mp hr
    rw [List.length_map]

theorem cqcc_ok_iff (a : CqtArgs) (sig : List ℝ) (m : XMat) :
    cqcc a sig = .ok m ↔ ∃ q, cqtSpectrogram a sig = .ok q ∧ q ≠ [] ∧
      0 < cqccNum a.ratio (Np.ncols q) ∧ TailOk { a.toArgs with useEnergy := false } q.length ∧
      normStep { a.toArgs with useEnergy := false } q.length
        ((List.range (cqccNum a.ratio (Np.ncols q)).toNat).map fun t =>
          tailRow { a.toArgs with useEnergy := false } q.length [] (cqccRow (cqccNum a.ratio (Np.ncols q)).toNat q t)) = .ok m := by
  simp only [cqcc_eq]
  rw [bind_ok_iff]
  have hcols : ∀ q : List (List ℂ), Np.ncols (q.map fun r => r.map cqtLogPower) = Np.ncols q := by
    intro q
    cases q with
    | nil => rfl
    | cons r q => simp [Np.ncols]
  have htail : ∀ (q : List (List ℂ)) (n : ℕ), n ≠ 0 →
      (cepstralTail { a.toArgs with useEnergy := false } [] ((List.range n).map fun (t : ℕ) =>
        ((q.map fun r => r.map cqtLogPower).map (resample n)).map fun c => fin (c.getD t 0)) = .ok m ↔
      TailOk { a.toArgs with useEnergy := false } q.length ∧
      normStep { a.toArgs with useEnergy := false } q.length
        ((List.range n).map fun t =>
          tailRow { a.toArgs with useEnergy := false } q.length [] (cqccRow n q t)) = .ok m) := by
    intro q n hn
    have hne : List.range n ≠ [] := by simpa using hn
    rw [← cepstralTail_ok_iff { a.toArgs with useEnergy := false } (List.range n) hne (fun _ => []) (cqccRow n q) q.length
      (by simp [cqccRow])]
    have : ((List.range n).map fun (t : ℕ) =>
        ((q.map fun r => r.map cqtLogPower).map (resample n)).map fun c => fin (c.getD t 0)) =
        (List.range n).map (cqccRow n q) := by
      apply List.map_congr_left
      intro t _
      rw [List.map_map, List.map_map]
      rfl
    rw [this]
    rfl
  constructor
  · rintro ⟨q, hq, h⟩
    simp only [hcols] at h
    split_ifs at h with h1
    push Not at h1
    have h2 : 0 < cqccNum a.ratio (Np.ncols q) := h1.2
    exact ⟨q, hq, h1.1, h2, (htail q _ (by omega)).mp h⟩
  · rintro ⟨q, hq, h1, h2, h3⟩
    refine ⟨q, hq, ?_⟩
    simp only [hcols]
    rw [if_neg (by push Not; exact ⟨h1, h2⟩)]
    exact (htail q _ (by have h2 : 0 < pyInt (↑(Np.ncols q) * a.ratio) := h2; omega)).mpr h3

/-- C71: a successful `cqcc` has `int(number of frames · resampling_ratio)` rows, with `⌊(len - L)/S⌋ + 1` frames, and
`min(num_ceps, number of admissible frequencies)` columns, whatever the liftering and normalisation options. -/
theorem C71_shape (a : CqtArgs) (sig : List ℝ) (m : XMat) (hfs : 0 < a.fs) (hq : 0 < a.qRate) (hB : a.bins ≠ 0)
    (hf0 : 0 < a.f0) (hS : 0 < pyInt (a.win.winHop * a.fs)) (h : cqcc a sig = .ok m) :
    ∃ l s : ℕ, pyInt (a.win.winLen * a.fs) = l ∧ pyInt (a.win.winHop * a.fs) = s ∧ l ≤ sig.length ∧
      (m.length : ℤ) = pyInt ((((sig.length - l) / s + 1 : ℕ) : ℝ) * a.ratio) ∧
      ∀ r ∈ m, r.length = min a.numCeps
        (admissible a.f0 a.octaves a.bins a.low (effHigh a.high a.fs) a.fs a.qRate a.nfft).length := by
  obtain ⟨q, hcq, hne, hnum, ht, hn⟩ := (cqcc_ok_iff a sig m).mp h
  obtain ⟨-, W, hW, hc, hrows⟩ := cqtSpectrogram_ok hcq
  obtain ⟨l, s, h1, h2, h3, h4⟩ := frontEnd_length hS hW
  have hshape := C68_shape W hfs hq hB hf0 q hc
  rw [effHigh_idem] at hshape
  have hcols : Np.ncols q = W.length := by
    cases q with
    | nil => exact absurd rfl hne
    | cons r q => simpa [Np.ncols] using hrows r (by simp)
  have := normStep_shape (fun r hr => by
    obtain ⟨t, -, rfl⟩ := List.mem_map.mp hr
    exact tailRow_length ht _ _ (by simp [cqccRow])) hn
  refine ⟨l, s, h1, h2, h3, ?_, fun r hr => by rw [this.2 r hr, hshape.1]⟩
  rw [this.1, List.length_map, List.length_range, hcols, h4]
  rw [hcols, h4] at hnum
  exact Int.toNat_of_nonneg hnum.le

/-- C71: `cqcc` and `cqt_spectrogram` reject exactly `high_freq > fs/2` with the documented message. -/
theorem C71_validation (a : CqtArgs) (sig : List ℝ) :
    (cqtSpectrogram a sig = .error (.parameterError "maximum frequency cannot be greater than half sampling frequency.") ↔
      a.fs / 2 < effHigh a.high a.fs) ∧
    (cqcc a sig = .error (.parameterError "maximum frequency cannot be greater than half sampling frequency.") ↔
      a.fs / 2 < effHigh a.high a.fs) := by
  have hidx : ∀ {β : Type} (l : List β) (i : ℕ), NoParam (pyIdx l i) := by
    intro β l i m h
    by_cases hi : i < l.length
    · have : Inhabited β := ⟨l[i]⟩
      rw [pyIdx_nat l default hi] at h; cases h
    · rw [pyIdx_nat_error l (by omega)] at h; cases h
  have hwin : ∀ name M, NoParam (windowVec name M) := by
    intro name M
    unfold windowVec
    split_ifs
    · exact NoParam.ok _
    · exact NoParam.ok _
    · exact NoParam.ok _
    · exact NoParam.ok _
    · exact NoParam.ok _
    · exact NoParam.err _ (by simp)
  have hcqt : ∀ W, NoParam (computeCqt W a.fs a.low (some (effHigh a.high a.fs)) a.nfft a.octaves a.bins a.win.winType
      a.thr a.f0 a.qRate) := by
    intro W
    unfold computeCqt
    refine NoParam.bind ?_ fun p => NoParam.bind (NoParam.mapM _ (fun k => (hidx _ _).bind fun _ => (hidx _ _).bind fun _ => ?_) _) fun _ => ?_
    · unfold cqtSelect
      simp only
      split_ifs
      · exact NoParam.err _ (by simp)
      · exact NoParam.err _ (by simp)
      · exact NoParam.ok _
    · unfold cqtKernelRow
      refine (hwin _ _).bind fun _ => ?_
      split_ifs
      · exact NoParam.err _ (by simp)
      · exact NoParam.ok _
    · split_ifs
      · exact NoParam.err _ (by simp)
      · exact NoParam.ok _
  have hsp : ∀ h : ¬ a.fs / 2 < effHigh a.high a.fs, cqtSpectrogram a sig ≠
      .error (.parameterError "maximum frequency cannot be greater than half sampling frequency.") := by
    intro hh h
    unfold cqtSpectrogram at h
    rw [if_neg hh] at h
    cases hf : frontEnd a.toArgs a.preEmphCoeff sig with
    | ok W => rw [hf, ok_bind] at h; exact hcqt W _ h
    | error e =>
      rw [hf, error_bind] at h
      injection h with h
      subst h
      rw [frontEnd_eq] at hf
      split_ifs at hf
      · cases hf
      generalize emph a.toArgs a.preEmphCoeff sig = y at hf
      cases hfr : framing y a.fs a.win.winLen a.win.winHop with
      | error e =>
        rw [hfr, error_bind] at hf
        injection hf with hf
        subst hf
        exact absurd ((C12_framing_param_iff id _ _ _ _ _).mp hfr).2 (by decide)
      | ok p =>
        rw [hfr, ok_bind] at hf
        exact ((hwin _ _).bind fun _ => NoParam.ok _) _ hf
  constructor
  · constructor
    · intro h
      by_contra hh
      exact hsp hh h
    · intro h
      unfold cqtSpectrogram
      rw [if_pos h]; rfl
  · constructor
    · intro h
      by_contra hh
      rw [cqcc_eq] at h
      cases hs : cqtSpectrogram a sig with
      | error e =>
        rw [hs, error_bind] at h
        injection h with h
        exact hsp hh (by rw [hs, h])
      | ok q =>
        rw [hs, ok_bind] at h
        simp only at h
        split_ifs at h
        · cases h
        · exact noParam_tail _ _ _ _ h
    · intro h
      rw [cqcc_eq]; unfold cqtSpectrogram
      rw [if_pos h]; rfl

/-- C47 for `cqcc` and `cqt_spectrogram`: the coefficient given by the caller is the one used. -/
theorem C47_cqcc_pre_emph_coeff (a : CqtArgs) (c : ℝ) (sig : List ℝ) (hne : sig ≠ []) :
    cqtSpectrogram { a with preEmph := true, preEmphCoeff := c } sig =
      cqtSpectrogram { a with preEmph := false } (preEmphasis sig c) ∧
    cqcc { a with preEmph := true, preEmphCoeff := c } sig = cqcc { a with preEmph := false } (preEmphasis sig c) := by
  obtain ⟨x, s, rfl⟩ := List.exists_cons_of_ne_nil hne
  exact ⟨rfl, rfl⟩

/-! ### C92 -/

theorem cqtSpectrogram_smul (a : CqtArgs) (c : ℝ) (sig : List ℝ) :
    cqtSpectrogram a (sig.map (c * ·)) = (cqtSpectrogram a sig).map (List.map (List.map fun (z : ℂ) => c * z)) := by
  unfold cqtSpectrogram
  split_ifs
  · rfl
  · rw [frontEnd_smul]
    cases frontEnd a.toArgs a.preEmphCoeff sig with
    | error e => rfl
    | ok W =>
      simp only [Except.map, ok_bind]
      rcases computeCqt_form a.fs a.low (some (effHigh a.high a.fs)) a.nfft a.octaves a.bins a.win.winType a.thr a.f0 a.qRate with
        ⟨e, h'⟩ | ⟨ker, h'⟩
      · rw [h', h']
      · rw [h', h']
        simp only [List.map_map]
        congr 1
        apply List.map_congr_left
        intro row _
        simp only [Function.comp_apply, List.map_map]
        apply List.map_congr_left
        intro w _
        exact cqtEntry_smul _ _ _ _

/-- C92: multiplying the signal by `c ≠ 0` multiplies the constant-Q spectrogram by `c`. Where no entry of it vanishes,
it adds `√(number of frequencies) · 2 ln|c|` to the first coefficient of every row of `cqcc` and changes no other
coefficient, for every resampling ratio. (Default `dct_type`; no liftering or normalisation.) -/
theorem C92_gain (a : CqtArgs) (hd : a.dctType = 2) (hl : a.lifter = none) (hn : a.normalize = none) (sig : List ℝ)
    (q : List (List ℂ)) (hq : cqtSpectrogram a sig = .ok q) (hnz : ∀ r ∈ q, ∀ z ∈ r, z ≠ 0) (c : ℝ) (hc : c ≠ 0) (m : XMat)
    (h : cqcc a sig = .ok m) :
    cqtSpectrogram a (sig.map (c * ·)) = .ok (q.map fun r => r.map fun (z : ℂ) => c * z) ∧
    ∃ m', cqcc a (sig.map (c * ·)) = .ok m' ∧ m'.length = m.length ∧
      ∀ i k, i < m.length → k < min a.numCeps q.length →
        ∃ y, (m.getD i []).getD k 0 = fin y ∧
          (m'.getD i []).getD k 0 = fin (if k = 0 then y + √q.length * (2 * Real.log |c|) else y) := by
  have hq' : cqtSpectrogram a (sig.map (c * ·)) = .ok (q.map fun r => r.map fun (z : ℂ) => c * z) := by
    rw [cqtSpectrogram_smul, hq]; rfl
  refine ⟨hq', ?_⟩
  obtain ⟨q0, hcq, hne, hnum, ht, hns⟩ := (cqcc_ok_iff a sig m).mp h
  obtain rfl : q = q0 := by rw [hq] at hcq; injection hcq
  obtain ⟨-, W, hW, -, hrows⟩ := cqtSpectrogram_ok hq
  have hWne := frontEnd_ne_nil hW
  have hcols : Np.ncols (q.map fun r => r.map fun (z : ℂ) => c * z) = Np.ncols q := by
    cases q with
    | nil => rfl
    | cons r q => simp [Np.ncols]
  have hns2 : ∀ (N : ℕ) (x : XMat), normStep { a.toArgs with useEnergy := false } N x = .ok x := by
    intro N x
    unfold normStep
    simp only [hn]
  rw [hns2] at hns
  injection hns with hns
  have h2 := (cqcc_ok_iff a (sig.map (c * ·)) _).mpr ⟨_, hq', by simpa using hne, by rw [hcols]; exact hnum,
    by rw [List.length_map]; exact ht, hns2 _ _⟩
  refine ⟨_, h2, by rw [← hns, hcols]; simp, ?_⟩
  intro i k hi hk
  rw [← hns] at hi ⊢
  rw [List.length_map, List.length_range] at hi
  rw [hcols, List.length_map]
  set n := (cqccNum a.ratio (Np.ncols q)).toNat
  rw [getD_map_range_lt _ _ hi, getD_map_range_lt _ _ hi]
  have e0 : ∀ r' : List ℝ, r'.length = q.length → ∀ q' : List (List ℂ), cqccRow n q' i = r'.map fin →
      (tailRow { a.toArgs with useEnergy := false } q.length [] (cqccRow n q' i)).getD k 0 =
        fin (dct2 q.length (fun j => r'.getD j 0) k) := by
    intro r' hl' q' hq'
    unfold tailRow
    simp only [hl, hd, Bool.false_eq_true, if_false]
    rw [hq', dctRow_fin, getD_take_lt _ _ (by omega), getD_map_lt _ _ 0 _ (by simp; omega),
      getD_map_range_lt _ _ (by omega), hl']
    rfl
  refine ⟨_, e0 (q.map fun r => (resample n (r.map cqtLogPower)).getD i 0) (by simp) q (by
    unfold cqccRow; rw [List.map_map]; rfl), ?_⟩
  rw [e0 (q.map fun r => (resample n (r.map cqtLogPower)).getD i 0 + Real.log (c ^ 2)) (by simp)]
  · congr 1
    have hsplit : dct2 q.length (fun j => (q.map fun r => (resample n (r.map cqtLogPower)).getD i 0 + Real.log (c ^ 2)).getD j 0) k =
        dct2 q.length (fun j => (q.map fun r => (resample n (r.map cqtLogPower)).getD i 0).getD j 0) k +
          dct2 q.length (fun _ => Real.log (c ^ 2)) k := by
      unfold dct2
      rw [← Finset.sum_add_distrib]
      apply Finset.sum_congr rfl
      intro j hj
      have hj := Finset.mem_range.mp hj
      beta_reduce
      rw [getD_map_lt _ q [] _ hj, getD_map_lt _ q [] _ hj, mul_add]
    rw [hsplit, dct2_const (by omega), Real.log_pow, ← Real.log_abs]
    split_ifs <;> push_cast <;> ring
  · unfold cqccRow
    rw [List.map_map, List.map_map]
    apply List.map_congr_left
    intro r hr
    simp only [Function.comp_apply]
    congr 1
    have hlog : (r.map fun (z : ℂ) => c * z).map cqtLogPower = (r.map cqtLogPower).map (· + Real.log (c ^ 2)) := by
      rw [List.map_map, List.map_map]
      apply List.map_congr_left
      intro z hz
      have hz0 := norm_pos_iff.mpr (hnz r hr z hz)
      simp only [Function.comp_apply, cqtLogPower]
      rw [norm_mul, Complex.norm_real, Real.norm_eq_abs, mul_pow, sq_abs,
        if_neg (by positivity), if_neg (by positivity), Real.log_mul (by positivity) (by positivity), add_comm]
    rw [hlog, resample_add_const n (by omega) _ (by
      intro h0
      have := congrArg List.length h0
      rw [List.length_map, hrows r hr] at this
      exact hWne (List.length_eq_zero_iff.mp this)), getD_map_lt _ _ 0 _ (by rw [resample_length]; exact hi)]

/-- C92: with `resampling_ratio = 1` resampling changes nothing: row `i` is computed from frame `i` alone, as the
orthonormal DCT of the log powers of its constant-Q coefficients. -/
theorem C92_no_resampling (a : CqtArgs) (hr : a.ratio = 1) (hd : a.dctType = 2) (hl : a.lifter = none)
    (hn : a.normalize = none) (sig : List ℝ) (q : List (List ℂ)) (hq : cqtSpectrogram a sig = .ok q) (m : XMat)
    (h : cqcc a sig = .ok m) : (∀ r ∈ q, r.length = m.length) ∧ ∀ i k, i < m.length → k < min a.numCeps q.length →
      (m.getD i []).getD k 0 = fin (∑ j ∈ Finset.range q.length,
        (√((if k = 0 then 1 else 2) / q.length) * Real.cos (Real.pi * k * (2 * j + 1) / (2 * q.length))) *
          Real.log (if ‖(q.getD j []).getD i 0‖ ^ 2 = 0 then 1 / 2 ^ 52 else ‖(q.getD j []).getD i 0‖ ^ 2)) := by
  obtain ⟨q0, hcq, hne, hnum, ht, hns⟩ := (cqcc_ok_iff a sig m).mp h
  obtain rfl : q = q0 := by rw [hq] at hcq; injection hcq
  obtain ⟨-, W, hW, -, hrows⟩ := cqtSpectrogram_ok hq
  have hcols : Np.ncols q = W.length := by
    cases q with
    | nil => exact absurd rfl hne
    | cons r q => simpa [Np.ncols] using hrows r (by simp)
  have hN : cqccNum a.ratio (Np.ncols q) = (W.length : ℤ) := by
    unfold cqccNum
    rw [hr, mul_one, hcols]
    simp [pyInt]
  rw [hN, Int.toNat_natCast] at hns
  have hns2 : ∀ (N : ℕ) (x : XMat), normStep { a.toArgs with useEnergy := false } N x = .ok x := by
    intro N x
    unfold normStep
    simp only [hn]
  rw [hns2] at hns
  injection hns with hns
  have hlen : m.length = W.length := by rw [← hns]; simp
  refine ⟨fun r hr => by rw [hrows r hr, hlen], fun i k hi hk => ?_⟩
  rw [hlen] at hi
  rw [← hns, getD_map_range_lt _ _ hi]
  have hrow : cqccRow W.length q i = (q.map fun r => cqtLogPower (r.getD i 0)).map fin := by
    unfold cqccRow
    rw [List.map_map]
    apply List.map_congr_left
    intro r hr
    have e : (r.map cqtLogPower).length = W.length := by rw [List.length_map, hrows r hr]
    rw [← e, resample_self, getD_map_lt _ r 0 _ (by rw [hrows r hr]; exact hi)]
    rfl
  unfold tailRow
  simp only [hl, hd, Bool.false_eq_true, if_false]
  rw [hrow, dctRow_fin, getD_take_lt _ _ (by omega), getD_map_lt _ _ 0 _ (by simp; omega),
    getD_map_range_lt _ _ (by simp; omega)]
  congr 1
  rw [List.length_map]
  apply Finset.sum_congr rfl
  intro j hj
  have hj := Finset.mem_range.mp hj
  rw [getD_map_lt _ q [] _ hj]
  have hq0 : (0 : ℝ) < q.length := by exact_mod_cast (show 0 < q.length by omega)
  congr 1
  simp only [Np.dctKernel]
  congr 1
  have h4 : ∀ x : ℝ, 0 ≤ x → 2 * √x = √(4 * x) := by
    intro x hx
    rw [show (4 : ℝ) * x = 2 ^ 2 * x by norm_num, Real.sqrt_mul (by norm_num), Real.sqrt_sq (by norm_num)]
  split_ifs
  · rw [h4 _ (by positivity)]; congr 1; field_simp
  · rw [h4 _ (by positivity)]; congr 1; field_simp; norm_num

/-! ### C93 -/

/-- C93: for valid arguments and every signal with at least one frame (zero samples included) `cqcc` succeeds and every
coefficient is finite. -/
theorem C93_defined (a : CqtArgs) (hfs : 0 < a.fs) (hq : 0 < a.qRate) (hB : a.bins ≠ 0) (hf0 : 0 < a.f0)
    (hhigh : effHigh a.high a.fs ≤ a.fs / 2)
    (hne : admissible a.f0 a.octaves a.bins a.low (effHigh a.high a.fs) a.fs a.qRate a.nfft ≠ [])
    (hw : WindowName a.win.winType) (hle : a.win.winHop ≤ a.win.winLen) (hS : 0 < pyInt (a.win.winHop * a.fs)) {l : ℕ}
    (hL : pyInt (a.win.winLen * a.fs) = l) (hd : a.dctType = 2) (hlift : a.lifter = none) (hn : a.normalize = none)
    (sig : List ℝ) (hlen : l ≤ sig.length)
    (hr : 1 ≤ (((sig.length - l) / (pyInt (a.win.winHop * a.fs)).toNat + 1 : ℕ) : ℝ) * a.ratio) :
    ∃ m, cqcc a sig = .ok m ∧ AllFinite m := by
  obtain ⟨w, hw1, hw2, -⟩ := (C14_window_vector a.win.winType l).1 hw
  have hne' : sig ≠ [] := by
    rintro rfl
    have := pyInt_mono (mul_le_mul_of_nonneg_right hle hfs.le)
    simp at hlen
    omega
  have hfe := (frontEnd_ok_iff a.toArgs a.preEmphCoeff sig _ hS).mpr ⟨fun e => hne' e.2, hle, l, (pyInt (a.win.winHop * a.fs)).toNat, w, hL,
    by omega, by omega, hlen, hw1, hw2, rfl⟩
  choose w' hw' _ using fun n => (C14_window_vector a.win.winType n).1 hw
  generalize List.map _ _ = W0 at hfe
  have hcq := computeCqt_ok W0 (low := a.low) (high := some (effHigh a.high a.fs)) (O := a.octaves) (nfft := a.nfft)
    (thr := a.thr) hfs hq hB hf0 (by rw [effHigh_idem]; exact hne) w' hw'
  have hsp := show cqtSpectrogram a sig = .ok _ by
    unfold cqtSpectrogram
    rw [if_neg (not_lt.mpr hhigh), hfe, ok_bind]
    exact hcq
  have hns2 : ∀ (N : ℕ) (x : XMat), normStep { a.toArgs with useEnergy := false } N x = .ok x := by
    intro N x
    unfold normStep
    simp only [hn]
  rw [effHigh_idem] at hsp
  generalize hqq : List.map _ (admissible a.f0 a.octaves a.bins a.low (effHigh a.high a.fs) a.fs a.qRate a.nfft) = q at hsp
  have hqne : q ≠ [] := by rw [← hqq]; simpa using hne
  obtain ⟨-, W, hW, -, hrows⟩ := cqtSpectrogram_ok hsp
  have hcols : Np.ncols q = W.length := by
    cases q with
    | nil => exact absurd rfl hqne
    | cons r q => simpa [Np.ncols] using hrows r (by simp)
  obtain ⟨l', s, h1, h2, h3, h4⟩ := frontEnd_length hS hW
  have hl' : l' = l := by rw [hL] at h1; exact_mod_cast h1.symm
  have hs' : (pyInt (a.win.winHop * a.fs)).toNat = s := by rw [h2]; rfl
  rw [hs'] at hr
  subst hl'
  have hnum : 0 < cqccNum a.ratio (Np.ncols q) := by
    unfold cqccNum
    rw [hcols, h4]
    unfold pyInt
    rw [if_pos (by linarith)]
    exact Int.floor_pos.mpr hr
  have ht : TailOk { a.toArgs with useEnergy := false } q.length := by
    refine ⟨by rw [hd]; norm_num, by rw [hd]; norm_num, List.length_pos_iff.mpr hqne, fun h => ?_, fun h => (by cases h), fun x hx => ?_⟩
    · rw [hd] at h; omega
    · rw [hlift] at hx; cases hx
  refine ⟨_, (cqcc_ok_iff a sig _).mpr ⟨q, hsp, hqne, hnum, ht, hns2 _ _⟩, ?_⟩
  intro r hr
  obtain ⟨t, -, rfl⟩ := List.mem_map.mp hr
  refine FinRow.tail (a := { a.toArgs with useEnergy := false }) (fun x hx => ?_) (fun v hv => ?_) _ _
  · rw [hlift] at hx; cases hx
  · obtain ⟨c, -, rfl⟩ := List.mem_map.mp hv
    exact ⟨_, rfl⟩

/-- A concrete case: with the default arguments `cqcc` is defined and finite on every signal of at least 400 samples. -/
example (sig : List ℝ) (hlen : 400 ≤ sig.length) : ∃ m, cqcc {} sig = .ok m ∧ AllFinite m := by
  refine C93_defined {} (by norm_num) (by norm_num) (by norm_num) (by norm_num) (by norm_num [effHigh]) ?_
    (by simp [WindowName, Args.win]) (by norm_num [Args.win]) default_hop default_len rfl rfl rfl sig hlen ?_
  · exact default_admissible
  · rw [mul_one]
    exact_mod_cast Nat.le_add_left 1 _

/-- C69 at the level of the feature: with `nfft = 64` and the other arguments at their defaults `cqcc` raises
`IndexError` on every signal of at least 400 samples. -/
theorem C69_cqcc_violated (sig : List ℝ) (hlen : 400 ≤ sig.length) : cqcc { nfft := 64 } sig = .error .indexError := by
  obtain ⟨w, hw1, hw2, -⟩ := (C14_window_vector "hamming" 400).1 (by simp [WindowName])
  have hfe := (frontEnd_ok_iff ({ nfft := 64 } : CqtArgs).toArgs ({ nfft := 64 } : CqtArgs).preEmphCoeff sig _ default_hop).mpr
    ⟨fun e => by simp [e.2] at hlen, by norm_num [Args.win], 400, 160, w, default_len, by
      have : (({} : Args).win.winHop) * ({} : Args).fs = 160 := by norm_num [Args.win]
      change pyInt ((({} : Args).win.winHop) * ({} : Args).fs) = _
      rw [this]; norm_num [pyInt], by norm_num, hlen, hw1, hw2, rfl⟩
  rw [cqcc_eq]; unfold cqtSpectrogram
  rw [if_neg (by norm_num [effHigh]), hfe, ok_bind]
  rw [C69_raises _ (by norm_num) (by norm_num) (by norm_num) (by norm_num)]
  · rfl
  · exact ⟨0, by norm_num, by norm_num, by norm_num [effHigh]⟩
  · intro i hi h1 h2
    rw [Int.lt_ceil]
    have hg := two_rpow_gt_one (B := 24) (by norm_num)
    have hl := rpow_lt_one_add (B := 24) (x := 1 / 32) (by norm_num) (by norm_num) (by norm_num)
    have hf : effHigh (some (effHigh ({ nfft := 64 } : CqtArgs).high ({ nfft := 64 } : CqtArgs).fs))
        ({ nfft := 64 } : CqtArgs).fs = (8000 : ℝ) := by norm_num [effHigh]
    rw [hf] at h2
    have hp : (0 : ℝ) < 120 * 2 ^ ((i : ℝ) / (24 : ℕ)) := by positivity
    change _ < 1 / ((2 : ℝ) ^ (1 / ((24 : ℕ) : ℝ)) - 1) * 16000 / (120 * 2 ^ ((i : ℝ) / (24 : ℕ)))
    change 120 * 2 ^ ((i : ℝ) / (24 : ℕ)) ≤ (8000 : ℝ) at h2
    set g : ℝ := 2 ^ (1 / ((24 : ℕ) : ℝ))
    rw [lt_div_iff₀ hp]
    have hQ : (32 : ℝ) < 1 / (g - 1) := by
      rw [lt_div_iff₀ (by linarith)]; linarith
    push_cast at *
    nlinarith

/-- A tiny configuration: frames of one sample, the single frequency `fs/2` with a window of one sample. -/
noncomputable def tinyCqt : CqtArgs :=
  { fs := 2, numCeps := 1, preEmph := false, nfft := 1, window := some { winLen := 0.5, winHop := 0.5 }, octaves := 1,
    bins := 1, f0 := 1, qRate := 0.5 }

/-- For this configuration the transform is the signal itself. -/
theorem tinyCqt_spec (sig : List ℝ) (hne : sig ≠ []) : cqtSpectrogram tinyCqt sig = .ok [sig.map fun (x : ℝ) => (x : ℂ)] := by
  have hS : pyInt (tinyCqt.win.winHop * tinyCqt.fs) = ((1 : ℕ) : ℤ) := by
    have : tinyCqt.win.winHop * tinyCqt.fs = 1 := by norm_num [Args.win, tinyCqt]
    rw [this]; norm_num [pyInt]
  have hl : 0 < sig.length := List.length_pos_iff.mpr hne
  have hw1 : windowVec "hamming" 1 = .ok [1] := by simp [windowVec, Np.hammingAt]
  have hfe : frontEnd tinyCqt.toArgs tinyCqt.preEmphCoeff sig = .ok (sig.map fun x => [x]) := by
    refine (frontEnd_ok_iff tinyCqt.toArgs tinyCqt.preEmphCoeff sig _ (by rw [hS]; norm_num)).mpr
      ⟨fun e => hne e.2, le_refl _, 1, 1, [1], hS, hS, by norm_num, hl, hw1, rfl, ?_⟩
    apply List.ext_getElem (by simp; omega)
    intro i h1 h2
    rw [List.length_map] at h1
    rw [List.getElem_map, List.getElem_map, List.getElem_range]
    have : emph tinyCqt.toArgs tinyCqt.preEmphCoeff sig = sig := by simp [emph, tinyCqt]
    rw [this, mul_one, List.take_one_drop_eq_of_lt_length h1]
    simp
  have hadm : admissible 1 1 1 0 1 2 0.5 1 = [1] := by
    unfold admissible inBand grid winLen qFactor
    norm_num
  unfold cqtSpectrogram
  rw [if_neg (by norm_num [effHigh, tinyCqt]), hfe, ok_bind]
  have he : effHigh (some (effHigh tinyCqt.high tinyCqt.fs)) tinyCqt.fs = 1 := by norm_num [effHigh, tinyCqt]
  have hadm' : admissible tinyCqt.f0 tinyCqt.octaves tinyCqt.bins tinyCqt.low
      (effHigh (some (effHigh tinyCqt.high tinyCqt.fs)) tinyCqt.fs) tinyCqt.fs tinyCqt.qRate tinyCqt.nfft = [1] := by
    rw [he]; exact hadm
  rw [computeCqt_eq _ (show (0 : ℝ) < tinyCqt.fs by norm_num [tinyCqt]) (show (0 : ℝ) < tinyCqt.qRate by norm_num [tinyCqt])
    (show tinyCqt.bins ≠ 0 by norm_num [tinyCqt]) (show (0 : ℝ) < tinyCqt.f0 by norm_num [tinyCqt]) (by rw [hadm']; simp), hadm']
  have hwl : winLen tinyCqt.fs tinyCqt.qRate tinyCqt.bins 1 = ((1 : ℕ) : ℤ) := by
    norm_num [winLen, qFactor, tinyCqt]
  rw [mapM_ok _ (fun f => kernelRow 1 tinyCqt.thr (cqtAtom 1 tinyCqt.fs f 1 [1])) _ (by
    intro f hf
    rw [List.mem_singleton] at hf
    subst hf
    rw [hwl]
    exact cqtKernelRow_ok (by norm_num [tinyCqt]) hw1), ok_bind]
  simp only [List.map_cons, List.map_nil, List.map_map]
  congr 2
  apply List.map_congr_left
  intro x _
  have ha : cqtAtom 1 tinyCqt.fs 1 1 [1] 0 = 1 := by simp [cqtAtom]
  have hd : Np.dftC (cqtAtom 1 tinyCqt.fs 1 1 [1]) 1 0 = 1 := by simp [Np.dftC, ha]
  simp only [Function.comp_apply]
  change cqtEntry 1 _ [x] = _
  unfold cqtEntry
  rw [Finset.sum_range_one, kernelRow_getD _ _ _ (by norm_num), hd, if_neg (by norm_num [tinyCqt])]
  simp [Np.dft, Np.dftC]

/-- A concrete case of C92: every signal without a zero sample. -/
example (sig : List ℝ) (hne : sig ≠ []) (h0 : ∀ x ∈ sig, x ≠ 0) (c : ℝ) (hc : c ≠ 0) :
    ∃ m m', cqcc tinyCqt sig = .ok m ∧ cqcc tinyCqt (sig.map (c * ·)) = .ok m' ∧
      ∀ i, i < m.length → ∃ y, (m.getD i []).getD 0 0 = fin y ∧ (m'.getD i []).getD 0 0 = fin (y + 2 * Real.log |c|) := by
  have hsp := tinyCqt_spec sig hne
  have hS : pyInt (tinyCqt.win.winHop * tinyCqt.fs) = ((1 : ℕ) : ℤ) := by
    have : tinyCqt.win.winHop * tinyCqt.fs = 1 := by norm_num [Args.win, tinyCqt]
    rw [this]; norm_num [pyInt]
  have hadm : admissible 1 1 1 0 1 2 0.5 1 = [1] := by
    unfold admissible inBand grid winLen qFactor
    norm_num
  obtain ⟨m, hm, -⟩ := C93_defined tinyCqt (by norm_num [tinyCqt]) (by norm_num [tinyCqt]) (by norm_num [tinyCqt])
    (by norm_num [tinyCqt]) (by norm_num [tinyCqt, effHigh]) (by
      have he : effHigh tinyCqt.high tinyCqt.fs = 1 := by norm_num [effHigh, tinyCqt]
      rw [he]
      change admissible 1 1 1 0 1 2 0.5 1 ≠ []
      rw [hadm]; simp)
    (by simp [WindowName, Args.win, tinyCqt]) (le_refl _) (by rw [hS]; norm_num) (l := 1) hS rfl rfl rfl sig
    (List.length_pos_iff.mpr hne) (by
      have : tinyCqt.ratio = 1 := rfl
      rw [this, mul_one]
      exact_mod_cast Nat.le_add_left 1 _)
  obtain ⟨-, m', hm', -, h⟩ := C92_gain tinyCqt rfl rfl rfl sig _ hsp (by
    intro r hr z hz
    rw [List.mem_singleton] at hr
    subst hr
    obtain ⟨x, hx, rfl⟩ := List.mem_map.mp hz
    exact_mod_cast h0 x hx) c hc m hm
  refine ⟨m, m', hm, hm', fun i hi => ?_⟩
  obtain ⟨y, h1, h2⟩ := h i 0 hi (by simp [tinyCqt])
  refine ⟨y, h1, ?_⟩
  rw [h2]
  simp

end Props
end Spafe
