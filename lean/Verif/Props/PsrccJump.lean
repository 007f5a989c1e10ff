import Verif.Props.Meaning
import Mathlib.Analysis.SpecialFunctions.Complex.Arg
import Mathlib.Analysis.SpecialFunctions.Trigonometric.Arctan
import Mathlib.Analysis.SpecialFunctions.Pow.Continuity
import Mathlib.Topology.MetricSpace.Pseudo.Pi

/-!
C159: small changes of the samples and the phase features `psrcc` (`spafe/features/psrcc.py:29-206`). The documented pipeline unwraps
the phases; the code reduces them to [0, 360), which makes the features jump where a phase passes through 0.
-/

set_option linter.unusedSectionVars false

namespace Spafe
namespace Props

open Model XF Spec Real

/-! ### The phase of one bin -/

theorem phase_eq {z : ℂ} (h : -z ∈ Complex.slitPlane) : phaseDegrees z = 180 + Complex.arg (-z) * 180 / π := by
  have hpi := Real.pi_pos
  rw [Complex.mem_slitPlane_iff, Complex.neg_re, Complex.neg_im] at h
  unfold phaseDegrees
  by_cases him : z.im < 0
  · rw [if_pos (Complex.arg_neg_iff.2 him), Complex.arg_neg_eq_arg_add_pi_iff.2 (Or.inl him)]
    field_simp
    ring
  · have h1 : ¬ Complex.arg z < 0 := by rw [Complex.arg_neg_iff]; exact him
    have h2 : 0 < z.im ∨ z.im = 0 ∧ z.re < 0 := by
      rcases lt_or_eq_of_le (not_lt.1 him) with h3 | h3
      · exact Or.inl h3
      · rcases h with h | h
        · exact Or.inr ⟨h3.symm, by linarith⟩
        · exact absurd (by rw [← h3, neg_zero]) h
    rw [if_neg h1, Complex.arg_neg_eq_arg_sub_pi_iff.2 h2]
    field_simp
    ring

theorem phase_continuousAt {z : ℂ} (h : -z ∈ Complex.slitPlane) : ContinuousAt phaseDegrees z := by
  have h1 : phaseDegrees =ᶠ[nhds z] fun z => 180 + Complex.arg (-z) * 180 / π := by
    have ho : IsOpen {z : ℂ | -z ∈ Complex.slitPlane} := Complex.isOpen_slitPlane.preimage continuous_neg
    filter_upwards [ho.mem_nhds h] with w hw
    exact phase_eq hw
  refine ContinuousAt.congr ?_ h1.symm
  have h2 : ContinuousAt (fun z : ℂ => Complex.arg (-z)) z :=
    ContinuousAt.comp (f := fun z : ℂ => -z) (Complex.continuousAt_arg h) continuous_neg.continuousAt
  exact continuousAt_const.add ((h2.mul continuousAt_const).div_const _)

theorem phase_real {z : ℂ} (h : z.im = 0) : phaseDegrees z = if z.re < 0 then 180 else 0 := by
  have e : z = (z.re : ℂ) := by apply Complex.ext <;> simp [h]
  have hpi := Real.pi_pos
  unfold phaseDegrees
  by_cases hr : z.re < 0
  · have : Complex.arg z = π := by rw [e]; exact Complex.arg_ofReal_of_neg hr
    rw [this, if_neg (by linarith), if_pos hr]
    field_simp
  · have : Complex.arg z = 0 := by rw [e]; exact Complex.arg_ofReal_of_nonneg (not_lt.1 hr)
    rw [this, if_neg (by norm_num), if_neg hr]
    simp

/-- The first and (for even `nfft`) the last bin are real. -/
theorem frameBin_real (w y : ℕ → ℝ) (l s nfft i k : ℕ) (hn : nfft ≠ 0) (hk : k = 0 ∨ 2 * k = nfft) :
    (frameBin w y l s nfft i k).im = 0 := by
  unfold frameBin
  rw [Complex.im_sum]
  refine Finset.sum_eq_zero fun j _ => ?_
  have he : ∃ r : ℝ, Complex.exp (-(2 * π * Complex.I * (j * k) / nfft)) = (r : ℂ) := by
    rcases hk with rfl | hk
    · exact ⟨1, by simp⟩
    · refine ⟨(-1) ^ j, ?_⟩
      have hc : (nfft : ℂ) ≠ 0 := by exact_mod_cast hn
      have e2 : -(2 * π * Complex.I * (j * k) / nfft) = (j : ℂ) * -(π * Complex.I) := by
        have : (nfft : ℂ) = 2 * k := by rw [← hk]; push_cast; ring
        rw [this] at hc ⊢
        have hk0 : (k : ℂ) ≠ 0 := fun h0 => hc (by rw [h0, mul_zero])
        field_simp
      rw [e2, Complex.exp_nat_mul, Complex.exp_neg, Complex.exp_pi_mul_I]
      push_cast
      norm_num
  obtain ⟨r, hr⟩ := he
  rw [hr, ← Complex.ofReal_mul, Complex.ofReal_im]

/-! ### Signals as vectors -/

theorem ofFn_getD {L : ℕ} (v : Fin L → ℝ) (t : ℕ) : (List.ofFn v).getD t 0 = if h : t < L then v ⟨t, h⟩ else 0 := by
  by_cases h : t < L
  · rw [dif_pos h, List.getD_eq_getElem _ _ (by rw [List.length_ofFn]; exact h), List.getElem_ofFn]
  · rw [dif_neg h, List.getD_eq_default _ _ (by rw [List.length_ofFn]; omega)]

theorem getD_continuous {L : ℕ} (t : ℕ) : Continuous fun v : Fin L → ℝ => (List.ofFn v).getD t 0 := by
  by_cases h : t < L
  · simp only [ofFn_getD, dif_pos h]; exact continuous_apply _
  · simp only [ofFn_getD, dif_neg h]; exact continuous_const

theorem emphasised_continuous {L : ℕ} (on : Bool) (c : ℝ) (t : ℕ) :
    Continuous fun v : Fin L → ℝ => emphasised on c (List.ofFn v) t := by
  unfold emphasised
  by_cases ho : on = true
  · simp only [if_pos ho]
    by_cases ht : t = 0
    · simp only [if_pos ht]; exact (getD_continuous t).sub continuous_const
    · simp only [if_neg ht]; exact (getD_continuous t).sub (continuous_const.mul (getD_continuous (t - 1)))
  · simp only [if_neg ho]; exact getD_continuous t

theorem frameBin_continuous {L : ℕ} (on : Bool) (c : ℝ) (w : ℕ → ℝ) (l s nfft i k : ℕ) :
    Continuous fun v : Fin L → ℝ => frameBin w (emphasised on c (List.ofFn v)) l s nfft i k := by
  unfold frameBin
  refine continuous_finset_sum _ fun j _ => Continuous.mul ?_ continuous_const
  exact Complex.continuous_ofReal.comp (continuous_const.mul (emphasised_continuous on c _))

/-- A bin whose phase is not about to jump: away from the non-negative real axis, or one of the two real bins and not zero. -/
def SafeBin (nfft k : ℕ) (z : ℂ) : Prop := -z ∈ Complex.slitPlane ∨ ((k = 0 ∨ 2 * k = nfft) ∧ z ≠ 0)

theorem phase_bin_continuousAt {L : ℕ} (on : Bool) (c : ℝ) (w : ℕ → ℝ) (l s nfft i k : ℕ) (hn : nfft ≠ 0) (v : Fin L → ℝ)
    (h : SafeBin nfft k (frameBin w (emphasised on c (List.ofFn v)) l s nfft i k)) :
    ContinuousAt (fun v : Fin L → ℝ => phaseDegrees (frameBin w (emphasised on c (List.ofFn v)) l s nfft i k)) v := by
  have hc := (frameBin_continuous (L := L) on c w l s nfft i k).continuousAt (x := v)
  rcases h with h | ⟨hk, h0⟩
  · exact ContinuousAt.comp (g := phaseDegrees) (phase_continuousAt h) hc
  · have hre : (frameBin w (emphasised on c (List.ofFn v)) l s nfft i k).re ≠ 0 := by
      intro hr
      exact h0 (Complex.ext hr (frameBin_real _ _ _ _ _ _ _ hn hk))
    have hcr := (Complex.continuous_re.continuousAt).comp hc
    have he : (fun v : Fin L → ℝ => phaseDegrees (frameBin w (emphasised on c (List.ofFn v)) l s nfft i k)) =ᶠ[nhds v]
        fun _ => phaseDegrees (frameBin w (emphasised on c (List.ofFn v)) l s nfft i k) := by
      rcases lt_or_gt_of_ne hre with hr | hr
      · filter_upwards [hcr.eventually (gt_mem_nhds hr)] with u hu
        simp only [Function.comp_apply] at hu
        rw [phase_real (frameBin_real _ _ _ _ _ _ _ hn hk), phase_real (frameBin_real _ _ _ _ _ _ _ hn hk), if_pos hr, if_pos hu]
      · filter_upwards [hcr.eventually (lt_mem_nhds hr)] with u hu
        simp only [Function.comp_apply] at hu
        rw [phase_real (frameBin_real _ _ _ _ _ _ _ hn hk), phase_real (frameBin_real _ _ _ _ _ _ _ hn hk),
          if_neg (not_lt.2 (le_of_lt hr)), if_neg (not_lt.2 (le_of_lt hu))]
    exact continuousAt_const.congr he.symm

theorem Setup.resized {a : Args} {fb : List (List ℝ)} {sig sig' : List ℝ} {l s : ℕ} (h : Setup a fb sig l s)
    (hl : sig'.length = sig.length) : Setup a fb sig' l s where
  bank := h.bank
  cols := h.cols
  nonneg := h.nonneg
  rows := h.rows
  ceps := h.ceps
  nfft := h.nfft
  window := h.window
  hopLe := h.hopLe
  len := h.len
  hop := h.hop
  pos := h.pos
  long := by rw [hl]; exact h.long
  samples := fun hp h0 => h.samples hp (List.length_eq_zero_iff.1 (by rw [← hl, h0]; rfl))

/-- **C159**: where no bin is about to jump and all phase sums are positive, `psrcc` is continuous: for every tolerance `ε` there is
a `δ` such that changing each sample by less than `δ` changes each coefficient by less than `ε`. The full claim has no condition on the
bins. -/
theorem C159_continuous_partial (a : Args) (fb : List (List ℝ)) (sig : List ℝ) (l s : ℕ) (h : Setup a fb sig l s)
    (hd : a.dctType = 2) (hu : a.useEnergy = false) (hl : a.lifter = none) (hn : a.normalize = none)
    (hpos : ∀ i n, i < (sig.length - l) / s + 1 → n < fb.length →
      0 < bandPhase fb (windowWeight a.win.winType l) (emphasised a.preEmph a.preEmphCoeff sig) l s a.nfft i n)
    (hsafe : ∀ i k, i < (sig.length - l) / s + 1 → k < a.nfft / 2 + 1 →
      SafeBin a.nfft k (frameBin (windowWeight a.win.winType l) (emphasised a.preEmph a.preEmphCoeff sig) l s a.nfft i k))
    (ε : ℝ) (hε : 0 < ε) :
    ∃ m, psrcc a sig = .ok m ∧ ∃ δ > 0, ∀ sig' : List ℝ, sig'.length = sig.length →
      (∀ t < sig.length, |sig'.getD t 0 - sig.getD t 0| < δ) →
      ∃ m', psrcc a sig' = .ok m' ∧ ∀ i k, i < (sig.length - l) / s + 1 → k < min a.numCeps fb.length →
        ∃ x x', (m.getD i []).getD k nan = fin x ∧ (m'.getD i []).getD k nan = fin x' ∧ |x' - x| < ε := by
  obtain ⟨m, hm, -, hv⟩ := C101_psrcc_meaning a fb sig l s h hd hu hl hn (Or.inr hpos)
  refine ⟨m, hm, ?_⟩
  obtain ⟨L, v, rfl⟩ : ∃ L, ∃ v : Fin L → ℝ, sig = List.ofFn v := ⟨_, _, List.ofFn_getElem.symm⟩
  rw [List.length_ofFn] at *
  obtain ⟨W, hW⟩ : ∃ W, W = windowWeight a.win.winType l := ⟨_, rfl⟩
  rw [← hW] at hpos hsafe hv
  obtain ⟨B, hB⟩ : ∃ B : ℕ → ℕ → (Fin L → ℝ) → ℝ, B = fun i n u =>
    bandPhase fb W (emphasised a.preEmph a.preEmphCoeff (List.ofFn u)) l s a.nfft i n := ⟨_, rfl⟩
  have hBc : ∀ i n, i < (L - l) / s + 1 → ContinuousAt (B i n) v := by
    intro i n hi
    rw [hB]
    unfold bandPhase
    refine tendsto_finset_sum _ fun k hk => ?_
    exact (phase_bin_continuousAt _ _ _ _ _ _ _ _ h.nfft v (hsafe i k hi (Finset.mem_range.1 hk))).mul continuousAt_const
  obtain ⟨F, hF⟩ : ∃ F : ℕ → ℕ → (Fin L → ℝ) → ℝ, F = fun i k u => dctII fb.length (fun n => B i n u ^ a.gamma) k := ⟨_, rfl⟩
  have hFc : ∀ i k, i < (L - l) / s + 1 → ContinuousAt (F i k) v := by
    intro i k hi
    rw [hF]
    unfold dctII
    refine continuousAt_const.mul (tendsto_finset_sum _ fun n hn => ?_)
    refine ContinuousAt.mul ((hBc i n hi).rpow_const (Or.inl ?_)) continuousAt_const
    have := hpos i n hi (Finset.mem_range.1 hn)
    rw [hB]
    exact this.ne'
  have ev1 : ∀ᶠ u in nhds v, ∀ i ∈ Finset.range ((L - l) / s + 1), ∀ n ∈ Finset.range fb.length, 0 < B i n u := by
    rw [Filter.eventually_all_finset]
    intro i hi
    rw [Filter.eventually_all_finset]
    intro n hn
    have := hpos i n (Finset.mem_range.1 hi) (Finset.mem_range.1 hn)
    exact (hBc i n (Finset.mem_range.1 hi)).eventually (lt_mem_nhds (by rw [hB]; exact this))
  have ev2 : ∀ᶠ u in nhds v, ∀ i ∈ Finset.range ((L - l) / s + 1), ∀ k ∈ Finset.range (min a.numCeps fb.length),
      dist (F i k u) (F i k v) < ε := by
    rw [Filter.eventually_all_finset]
    intro i hi
    rw [Filter.eventually_all_finset]
    intro k hk
    exact Metric.tendsto_nhds.1 (hFc i k (Finset.mem_range.1 hi)) ε hε
  obtain ⟨δ, hδ, hball⟩ := Metric.eventually_nhds_iff.1 (ev1.and ev2)
  refine ⟨δ, hδ, fun sig' hlen hclose => ?_⟩
  obtain ⟨u, rfl⟩ : ∃ u : Fin L → ℝ, sig' = List.ofFn u :=
    ⟨fun t => sig'.getD t 0, by
      apply ext_getD 0 (by rw [List.length_ofFn, hlen])
      intro t ht
      rw [ofFn_getD, dif_pos (by omega)]⟩
  have hdist : dist u v < δ := by
    rw [dist_pi_lt_iff hδ]
    intro t
    have := hclose t t.2
    rw [ofFn_getD, ofFn_getD, dif_pos t.2, dif_pos t.2] at this
    rw [Real.dist_eq]
    exact this
  obtain ⟨b1, b2⟩ := hball hdist
  have h' : Setup a fb (List.ofFn u) l s := h.resized (by rw [List.length_ofFn, List.length_ofFn])
  obtain ⟨m', hm', -, hv'⟩ := C101_psrcc_meaning a fb (List.ofFn u) l s h' hd hu hl hn (Or.inr (by
    intro i n hi hn
    rw [List.length_ofFn] at hi
    have := b1 i (Finset.mem_range.2 hi) n (Finset.mem_range.2 hn)
    rw [hB, hW] at this
    exact this))
  rw [List.length_ofFn, ← hW] at hv'
  refine ⟨m', hm', fun i k hi hk => ⟨F i k v, F i k u, ?_, ?_, ?_⟩⟩
  · rw [hv i k hi hk, hF, hB]
  · rw [hv' i k hi hk, hF, hB]
  · have := b2 i (Finset.mem_range.2 hi) k (Finset.mem_range.2 hk)
    rw [Real.dist_eq] at this
    exact this

/-! ### The jump -/

/-- One frame of two samples, four FFT points, one filter that passes bin 1 only; everything else as by default. -/
noncomputable def jumpDemo : Args :=
  { fs := 1, numCeps := 1, nfilts := 1, nfft := 4, preEmph := false, gamma := -1 / 7, window := some ⟨2, 2, "hamming"⟩,
    fbanks := some (finMat [[0, 1, 0]]) }

theorem jumpDemo_setup (x y : ℝ) : Setup jumpDemo [[0, 1, 0]] [x, y] 2 2 where
  bank := rfl
  cols := by simp [jumpDemo]
  nonneg := by simp
  rows := by simp
  ceps := by simp [jumpDemo]
  nfft := by simp [jumpDemo]
  window := by simp [jumpDemo, Args.win, WindowName]
  hopLe := by simp [jumpDemo, Args.win]
  len := by
    have : (jumpDemo.win.winLen * jumpDemo.fs) = ((2 : ℕ) : ℝ) := by simp [jumpDemo, Args.win]
    rw [this]; simp [pyInt]
  hop := by
    have : (jumpDemo.win.winHop * jumpDemo.fs) = ((2 : ℕ) : ℝ) := by simp [jumpDemo, Args.win]
    rw [this]; simp [pyInt]
  pos := by norm_num
  long := by simp
  samples := by simp

theorem jumpDemo_bin (x y : ℝ) : frameBin (windowWeight jumpDemo.win.winType 2) (emphasised jumpDemo.preEmph jumpDemo.preEmphCoeff [x, y])
    2 2 4 0 1 = ((0.08 : ℝ) : ℂ) * ((x : ℂ) - y * Complex.I) := by
  have hw : ∀ j < 2, windowWeight jumpDemo.win.winType 2 j = 0.08 := by
    intro j hj
    obtain rfl | rfl : j = 0 ∨ j = 1 := by omega
    · simp [windowWeight, jumpDemo, Args.win]
      norm_num
    · have e : (2 : ℝ) - 1 = 1 := by norm_num
      simp [windowWeight, jumpDemo, Args.win, e]
      norm_num
  have he : Complex.exp (-(2 * π * Complex.I * ((1 : ℕ) * (1 : ℕ)) / (4 : ℕ))) = -Complex.I := by
    rw [show -(2 * (π : ℂ) * Complex.I * ((1 : ℕ) * (1 : ℕ)) / (4 : ℕ)) = -(π / 2 * Complex.I) by push_cast; ring, Complex.exp_neg,
      Complex.exp_pi_div_two_mul_I, Complex.inv_I]
  unfold frameBin
  rw [show min 2 4 = 2 from rfl, Finset.sum_range_succ, Finset.sum_range_one, hw 0 (by norm_num), hw 1 (by norm_num), he]
  simp [emphasised, jumpDemo]
  ring

theorem jumpDemo_value (x y θ : ℝ) (hθ : phaseDegrees (((0.08 : ℝ) : ℂ) * ((x : ℂ) - y * Complex.I)) = θ) (h0 : 0 < θ) :
    ∃ m, psrcc jumpDemo [x, y] = .ok m ∧ (m.getD 0 []).getD 0 nan = fin (θ ^ (-1 / 7 : ℝ)) := by
  have hb : bandPhase [[0, 1, 0]] (windowWeight jumpDemo.win.winType 2)
      (emphasised jumpDemo.preEmph jumpDemo.preEmphCoeff [x, y]) 2 2 jumpDemo.nfft 0 0 = θ := by
    show bandPhase _ _ _ 2 2 4 0 0 = θ
    unfold bandPhase
    rw [show 4 / 2 + 1 = 3 from rfl, Finset.sum_range_succ, Finset.sum_range_succ, Finset.sum_range_one, jumpDemo_bin, hθ]
    simp
  obtain ⟨m, h1, -, h3⟩ := C101_psrcc_meaning jumpDemo _ _ 2 2 (jumpDemo_setup x y) rfl rfl rfl rfl (Or.inr (by
    intro i n hi hn
    have hi : i = 0 := by simpa using hi
    have hn : n = 0 := by simpa using hn
    subst hi hn
    rw [hb]; exact h0))
  refine ⟨m, h1, ?_⟩
  rw [h3 0 0 (by simp) (by simp [jumpDemo])]
  congr 1
  unfold dctII
  rw [show ([[0, 1, 0]] : List (List ℝ)).length = 1 from rfl, Finset.sum_range_one]
  beta_reduce
  rw [hb]
  have h2 : √(2 : ℝ) ≠ 0 := by positivity
  simp [jumpDemo]

theorem arg_arctan {z : ℂ} (h : 0 < z.re) : Complex.arg z = Real.arctan (z.im / z.re) := by
  have := abs_lt.1 (Complex.abs_arg_lt_pi_div_two_iff.2 (Or.inl h))
  rw [← Complex.tan_arg, Real.arctan_tan this.1 this.2]

theorem arg_fourth (y : ℝ) (hy : 0 < y) (hy1 : y ≤ 1) : ∃ θ, 0 < θ ∧ θ ≤ 45 ∧
    phaseDegrees (((0.08 : ℝ) : ℂ) * (((1 : ℝ) : ℂ) - (-y : ℝ) * Complex.I)) = θ ∧
    phaseDegrees (((0.08 : ℝ) : ℂ) * (((1 : ℝ) : ℂ) - y * Complex.I)) = 360 - θ := by
  have hpi := Real.pi_pos
  have hat : 0 < Real.arctan y := Real.arctan_pos.2 hy
  have hat1 : Real.arctan y ≤ π / 4 := by
    rw [← Real.arctan_one]; exact Real.arctan_strictMono.monotone hy1
  have hpos : (0 : ℝ) < 0.08 := by norm_num
  have e1 : Complex.arg (((0.08 : ℝ) : ℂ) * (((1 : ℝ) : ℂ) - (-y : ℝ) * Complex.I)) = Real.arctan y := by
    rw [Complex.arg_real_mul _ hpos, arg_arctan (by simp)]
    · simp
  have e2 : Complex.arg (((0.08 : ℝ) : ℂ) * (((1 : ℝ) : ℂ) - y * Complex.I)) = -Real.arctan y := by
    rw [Complex.arg_real_mul _ hpos, arg_arctan (by simp)]
    · simp [Real.arctan_neg]
  refine ⟨Real.arctan y * 180 / π, by positivity, ?_, ?_, ?_⟩
  · rw [div_le_iff₀ hpi]; linarith
  · unfold phaseDegrees
    rw [e1, if_neg (by linarith)]
  · unfold phaseDegrees
    rw [e2, if_pos (by linarith)]
    ring

/-- **C159**, violated: with the default exponent there are, for every `δ > 0`, two signals that differ by less than `δ` in one sample
and whose `psrcc` differ by more than 0.1 - because the phase of a bin is just above 0 in one and just below 360 in the other. -/
theorem C159_jump (δ : ℝ) (hδ : 0 < δ) : ∃ x y m m' p q, |x - y| < δ ∧ psrcc jumpDemo [1, x] = .ok m ∧ psrcc jumpDemo [1, y] = .ok m' ∧
    (m.getD 0 []).getD 0 nan = fin p ∧ (m'.getD 0 []).getD 0 nan = fin q ∧ p + 0.1 < q := by
  obtain ⟨y, hy⟩ : ∃ y, y = min 1 (δ / 4) := ⟨_, rfl⟩
  have hy0 : 0 < y := by rw [hy]; exact lt_min one_pos (by linarith)
  have hy1 : y ≤ 1 := by rw [hy]; exact min_le_left _ _
  have hy2 : y ≤ δ / 4 := by rw [hy]; exact min_le_right _ _
  obtain ⟨θ, h0, h1, h2, h3⟩ := arg_fourth y hy0 hy1
  obtain ⟨m, a1, a2⟩ := jumpDemo_value 1 y (360 - θ) h3 (by linarith)
  obtain ⟨m', b1, b2⟩ := jumpDemo_value 1 (-y) θ h2 h0
  refine ⟨y, -y, m, m', _, _, ?_, a1, b1, a2, b2, ?_⟩
  · rw [abs_lt]; constructor <;> linarith
  · have hexp : (-1 / 7 : ℝ) ≤ 0 := by norm_num
    have c1 : (360 - θ) ^ (-1 / 7 : ℝ) ≤ (315 : ℝ) ^ (-1 / 7 : ℝ) := Real.rpow_le_rpow_of_nonpos (by norm_num) (by linarith) hexp
    have c2 : (45 : ℝ) ^ (-1 / 7 : ℝ) ≤ θ ^ (-1 / 7 : ℝ) := Real.rpow_le_rpow_of_nonpos h0 h1 hexp
    have p7 : ∀ b : ℝ, 0 < b → (b ^ (-7 : ℝ)) ^ (-1 / 7 : ℝ) = b := by
      intro b hb
      rw [← Real.rpow_mul hb.le]; norm_num
    have c3 : (315 : ℝ) ^ (-1 / 7 : ℝ) ≤ 0.45 := by
      rw [← p7 0.45 (by norm_num)]
      refine Real.rpow_le_rpow_of_nonpos (by positivity) ?_ hexp
      rw [Real.rpow_neg (by norm_num), show (7 : ℝ) = ((7 : ℕ) : ℝ) by norm_num, Real.rpow_natCast]
      norm_num
    have c4 : (0.57 : ℝ) ≤ (45 : ℝ) ^ (-1 / 7 : ℝ) := by
      rw [← p7 0.57 (by norm_num)]
      refine Real.rpow_le_rpow_of_nonpos (by norm_num) ?_ hexp
      rw [Real.rpow_neg (by norm_num), show (7 : ℝ) = ((7 : ℕ) : ℝ) by norm_num, Real.rpow_natCast]
      norm_num
    norm_num at c3 c4 ⊢
    linarith

/-! The hypotheses of `C159_continuous_partial` hold for the signal [1, -1/2], whose bin 1 has phase `arctan (1/2)`. -/

theorem jumpDemo_outer (x y : ℝ) (k : ℕ) (σ : ℝ) (hσ : (k = 0 ∧ σ = 1) ∨ (k = 2 ∧ σ = -1)) :
    frameBin (windowWeight jumpDemo.win.winType 2) (emphasised jumpDemo.preEmph jumpDemo.preEmphCoeff [x, y])
    2 2 4 0 k = ((0.08 * (x + σ * y) : ℝ) : ℂ) := by
  have hw : ∀ j < 2, windowWeight jumpDemo.win.winType 2 j = 0.08 := by
    intro j hj
    obtain rfl | rfl : j = 0 ∨ j = 1 := by omega
    · simp [windowWeight, jumpDemo, Args.win]
      norm_num
    · have e : (2 : ℝ) - 1 = 1 := by norm_num
      simp [windowWeight, jumpDemo, Args.win, e]
      norm_num
  have he : Complex.exp (-(2 * π * Complex.I * ((1 : ℕ) * k) / (4 : ℕ))) = (σ : ℂ) := by
    rcases hσ with ⟨rfl, rfl⟩ | ⟨rfl, rfl⟩
    · simp
    · rw [show -(2 * (π : ℂ) * Complex.I * ((1 : ℕ) * (2 : ℕ)) / (4 : ℕ)) = -(π * Complex.I) by push_cast; ring, Complex.exp_neg,
        Complex.exp_pi_mul_I]
      norm_num
  unfold frameBin
  rw [show min 2 4 = 2 from rfl, Finset.sum_range_succ, Finset.sum_range_one, hw 0 (by norm_num), hw 1 (by norm_num), he]
  simp [emphasised, jumpDemo]
  ring

example : ∃ m, psrcc jumpDemo [1, -(1 / 2)] = .ok m ∧ ∃ δ > 0, ∀ sig' : List ℝ, sig'.length = 2 →
    (∀ t < 2, |sig'.getD t 0 - [1, -(1 / 2)].getD t (0 : ℝ)| < δ) →
    ∃ m', psrcc jumpDemo sig' = .ok m' ∧ ∀ i k, i < 1 → k < 1 →
      ∃ x x', (m.getD i []).getD k nan = fin x ∧ (m'.getD i []).getD k nan = fin x' ∧ |x' - x| < 0.001 := by
  obtain ⟨θ, h0, -, h2, -⟩ := arg_fourth (1 / 2) (by norm_num) (by norm_num)
  have := C159_continuous_partial jumpDemo _ _ 2 2 (jumpDemo_setup 1 (-(1 / 2))) rfl rfl rfl rfl (by
    intro i n hi hn
    have hi : i = 0 := by simpa using hi
    have hn : n = 0 := by simpa using hn
    subst hi hn
    show 0 < bandPhase _ _ _ 2 2 4 0 0
    unfold bandPhase
    rw [show 4 / 2 + 1 = 3 from rfl, Finset.sum_range_succ, Finset.sum_range_succ, Finset.sum_range_one, jumpDemo_bin, h2]
    simpa using h0) (by
    intro i k hi hk
    have hi : i = 0 := by simpa using hi
    have hk : k < 3 := hk
    subst hi
    show SafeBin 4 k (frameBin _ _ 2 2 4 0 k)
    obtain rfl | rfl | rfl : k = 0 ∨ k = 1 ∨ k = 2 := by omega
    · right
      rw [jumpDemo_outer _ _ 0 1 (Or.inl ⟨rfl, rfl⟩)]
      exact ⟨Or.inl rfl, by rw [Ne, Complex.ofReal_eq_zero]; norm_num⟩
    · left
      rw [jumpDemo_bin, Complex.mem_slitPlane_iff]
      right
      simp
      norm_num
    · right
      rw [jumpDemo_outer _ _ 2 (-1) (Or.inr ⟨rfl, rfl⟩)]
      exact ⟨Or.inr rfl, by rw [Ne, Complex.ofReal_eq_zero]; norm_num⟩) 0.001 (by norm_num)
  have e1 : jumpDemo.numCeps = 1 := rfl
  simpa [e1] using this

end Props
end Spafe
