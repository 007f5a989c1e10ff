import Verif.Model.RoundingPhase
import Verif.Props.RoundingCqt
import Verif.Props.RoundingRoot
import Verif.Props.PsrccJump
import Mathlib.Analysis.Calculus.MeanValue
import Mathlib.Analysis.SpecialFunctions.Complex.LogDeriv

/-! C202: the phase features `psrcc` in floating point. -/

set_option linter.unusedSectionVars false

namespace Spafe
namespace Props
open Model XF Spec

variable {u α ω δ : ℝ} {fl : ℝ → ℝ} {fft : (ℕ → ℝ) → ℕ → ℂ} {ang : ℂ → ℝ} {wv : ℕ → ℝ}

/-! ### One bin -/

/-- A disc that does not meet the non-negative real axis: the phase changes by at most `ε / (‖z‖ - ε)` (in radians). -/
theorem phase_close {z z' : ℂ} {ε : ℝ} (h : ∀ r : ℝ, 0 ≤ r → ε < ‖z - r‖) (hz : ‖z' - z‖ ≤ ε) :
    |phaseDegrees z' - phaseDegrees z| ≤ 180 / Real.pi * (ε / (‖z‖ - ε)) := by
  have hpi := Real.pi_pos
  have h0 : ε < ‖z‖ := by simpa using h 0 le_rfl
  have hslit : ∀ w ∈ Metric.closedBall (-z) ε, w ∈ Complex.slitPlane := by
    intro w hw
    rw [Metric.mem_closedBall, dist_eq_norm] at hw
    by_contra hc
    rw [Complex.mem_slitPlane_iff, not_or, not_lt, not_not] at hc
    have e : w = ((w.re : ℝ) : ℂ) := by apply Complex.ext <;> simp [hc.2]
    have := h (-w.re) (by linarith [hc.1])
    have e2 : ‖z - ((-w.re : ℝ) : ℂ)‖ = ‖w - -z‖ := by
      rw [Complex.ofReal_neg, ← e]
      congr 1
      ring
    rw [e2] at this
    linarith
  have hm : -z ∈ Metric.closedBall (-z) ε := by
    rw [Metric.mem_closedBall, dist_self]
    exact (norm_nonneg _).trans hz
  have hm' : -z' ∈ Metric.closedBall (-z) ε := by
    rw [Metric.mem_closedBall, dist_eq_norm, show -z' - -z = -(z' - z) by ring, norm_neg]
    exact hz
  have hb := (convex_closedBall (-z) ε).norm_image_sub_le_of_norm_deriv_le (f := Complex.log) (C := 1 / (‖z‖ - ε))
    (fun w hw => (Complex.hasDerivAt_log (hslit w hw)).differentiableAt) (fun w hw => by
      rw [(Complex.hasDerivAt_log (hslit w hw)).deriv, norm_inv, ← one_div]
      rw [Metric.mem_closedBall, dist_eq_norm] at hw
      have h1 := norm_sub_norm_le (-z) w
      rw [norm_neg, norm_sub_rev] at h1
      exact one_div_le_one_div_of_le (by linarith) (by linarith)) hm hm'
  have h2 : |Complex.arg (-z') - Complex.arg (-z)| ≤ 1 / (‖z‖ - ε) * ε := by
    have e := Complex.abs_im_le_norm (Complex.log (-z') - Complex.log (-z))
    rw [Complex.sub_im, Complex.log_im, Complex.log_im] at e
    refine e.trans (hb.trans ?_)
    rw [show -z' - -z = -(z' - z) by ring, norm_neg]
    exact mul_le_mul_of_nonneg_left hz (one_div_nonneg.mpr (by linarith))
  rw [phase_eq (hslit _ hm), phase_eq (hslit _ hm')]
  rw [show 180 + Complex.arg (-z') * 180 / Real.pi - (180 + Complex.arg (-z) * 180 / Real.pi) =
    180 / Real.pi * (Complex.arg (-z') - Complex.arg (-z)) by ring, abs_mul, abs_of_pos (by positivity)]
  refine mul_le_mul_of_nonneg_left (h2.trans (le_of_eq ?_)) (by positivity)
  ring

/-- A real bin that keeps its sign keeps its phase. -/
theorem phase_real_close {z z' : ℂ} {ε : ℝ} (him : z.im = 0) (him' : z'.im = 0) (h : ε < ‖z‖) (hz : ‖z' - z‖ ≤ ε) :
    phaseDegrees z' = phaseDegrees z := by
  have e : ‖z‖ = |z.re| := by
    rw [show z = ((z.re : ℝ) : ℂ) by apply Complex.ext <;> simp [him], Complex.norm_real, Real.norm_eq_abs, Complex.ofReal_re]
  have e2 := (Complex.abs_re_le_norm (z' - z)).trans hz
  rw [Complex.sub_re] at e2
  rw [e] at h
  obtain ⟨e3, e4⟩ := abs_le.mp e2
  rw [phase_real him, phase_real him']
  by_cases hr : z.re < 0
  · rw [abs_of_neg hr] at h
    rw [if_pos hr, if_pos (by linarith)]
  · rw [abs_of_nonneg (not_lt.mp hr)] at h
    rw [if_neg hr, if_neg (by linarith)]

theorem phase_range (z : ℂ) : 0 ≤ phaseDegrees z ∧ phaseDegrees z ≤ 360 := by
  have hpi := Real.pi_pos
  have h1 := Complex.neg_pi_lt_arg z
  have h2 := Complex.arg_le_pi z
  have e : ∀ t : ℝ, t * 180 / Real.pi = t / Real.pi * 180 := fun t => by ring
  have b1 : -1 ≤ Complex.arg z / Real.pi := by rw [le_div_iff₀ hpi]; linarith
  have b2 : Complex.arg z / Real.pi ≤ 1 := by rw [div_le_iff₀ hpi]; linarith
  unfold phaseDegrees
  rw [e]
  split_ifs with hn
  · have b3 : Complex.arg z / Real.pi ≤ 0 := div_nonpos_of_nonpos_of_nonneg hn.le hpi.le
    constructor <;> linarith
  · have b3 : 0 ≤ Complex.arg z / Real.pi := div_nonneg (not_lt.mp hn) hpi.le
    constructor <;> linarith

/-- Computing the phase of a given number and mapping it to [0, 360). -/
theorem angle_close (h : Rounding u fl) (hα0 : 0 ≤ α) (hα1 : α < 1)
    (ha : ∀ z, |ang z - Complex.arg z * 180 / Real.pi| ≤ α * |Complex.arg z * 180 / Real.pi|) (z : ℂ) :
    |fl (360 + ang z) * (if ang z < 0 then 1 else 0) + ang z * (if 0 < ang z then 1 else 0) - phaseDegrees z| ≤ 360 * u + 180 * α := by
  have hpi := Real.pi_pos
  have hu := h.nonneg
  have h1 := Complex.neg_pi_lt_arg z
  have h2 := Complex.arg_le_pi z
  have hz := ha z
  obtain ⟨p, hp⟩ : ∃ p, p = Complex.arg z * 180 / Real.pi := ⟨_, rfl⟩
  have hpd : phaseDegrees z = if p < 0 then p + 360 else p := by
    unfold phaseDegrees
    have : p < 0 ↔ Complex.arg z < 0 := by
      rw [hp, div_neg_iff]
      constructor
      · rintro (⟨-, h4⟩ | ⟨h3, -⟩)
        · linarith
        · linarith
      · intro h3
        exact Or.inr ⟨by linarith, hpi⟩
    rw [← hp]
    simp only [this]
  have hp1 : -180 ≤ p := by rw [hp, le_div_iff₀ hpi]; nlinarith
  have hp2 : p ≤ 180 := by rw [hp, div_le_iff₀ hpi]; nlinarith
  rw [← hp] at hz
  rw [hpd]
  clear hpd hp
  generalize ang z = q at *
  rcases lt_trichotomy p 0 with hn | hn | hn
  · rw [abs_of_neg hn] at hz
    obtain ⟨e1, e2⟩ := abs_le.mp hz
    have hq : q < 0 := by nlinarith
    rw [if_pos hq, if_neg (by linarith), if_pos hn, mul_one, mul_zero, add_zero]
    have hf := h.err (360 + q)
    have hb : |360 + q| ≤ 360 := by
      rw [abs_le]
      constructor <;> nlinarith
    have h3 : |fl (360 + q) - (360 + q)| ≤ 360 * u := hf.trans (by nlinarith)
    have h4 : |q - p| ≤ 180 * α := hz.trans (by nlinarith)
    rw [show fl (360 + q) - (p + 360) = (fl (360 + q) - (360 + q)) + (q - p) by ring]
    exact (abs_add_le _ _).trans (by linarith)
  · subst hn
    have : q = 0 := by simpa using hz
    subst this
    simp
    positivity
  · rw [abs_of_pos hn] at hz
    obtain ⟨e1, e2⟩ := abs_le.mp hz
    have hq : 0 < q := by nlinarith
    rw [if_neg (by linarith), if_pos hq, if_neg (by linarith), mul_zero, mul_one, zero_add]
    exact hz.trans (by nlinarith)

/-! ### A frame -/

/-- A bin whose phase cannot jump when it moves by `ε`: it stays away from the non-negative real axis; the two real bins only have to keep their
sign. -/
def FarBin (ε : ℝ) (nfft k : ℕ) (z : ℂ) : Prop := if k = 0 ∨ 2 * k = nfft then ε < ‖z‖ else ∀ r : ℝ, 0 ≤ r → ε < ‖z - r‖

/-- How much the phase of such a bin can change, in degrees. -/
noncomputable def phaseShift (ε : ℝ) (nfft k : ℕ) (z : ℂ) : ℝ := if k = 0 ∨ 2 * k = nfft then 0 else 180 / Real.pi * (ε / (‖z‖ - ε))

/-- The error of every bin of the computed spectrum. -/
theorem bin_close (ar : PhaseArithmetic u α ω δ fl fft ang wv name l nfft) (hname : WindowName name) (hn : nfft ≠ 0) {on : Bool} {c : ℝ} {x : List ℝ}
    {s i : ℕ} (hlen : i * s + l ≤ x.length) {y : ℕ → ℝ} (hy : FlEmphasised fl on c x y) {k : ℕ} (hk : k < nfft / 2 + 1) :
    ‖fft (fun j => fl (y (i * s + j) * wv j)) k - frameBin (windowWeight name l) (emphasised on c x) l s nfft i k‖ ≤
      √nfft * (spectrumError u ω δ * frameAmplitude on c x l s i) := by
  have hle : nfft / 2 + 1 ≤ nfft := by omega
  obtain ⟨full, hfull⟩ : ∃ full : (ℕ → ℝ) → ℕ → ℂ, full = fun z k =>
    if k < nfft / 2 + 1 then fft z k else frameBin (fun _ => 1) z l 0 nfft 0 k := ⟨_, rfl⟩
  have hacc : AccurateFullFft δ full l nfft := by
    intro z
    refine le_trans (le_of_eq ?_) (ar.fft_err z)
    symm
    rw [hfull]
    have hs : Finset.range (nfft / 2 + 1) ⊆ Finset.range nfft := Finset.range_subset_range.mpr hle
    rw [← Finset.sum_subset hs]
    · refine Finset.sum_congr rfl fun k hk => ?_
      beta_reduce
      rw [if_pos (Finset.mem_range.mp hk)]
    · intro k _ hk
      beta_reduce
      rw [if_neg (fun h => hk (Finset.mem_range.mpr h)), sub_self, norm_zero]
      norm_num
  have h1 := (spectrum_close (w := windowWeight name l) (wv := wv) (s := s) (i := i) ar.round ar.δ0
    (fun j hj => ⟨(windowWeight_range hname hj).1, (windowWeight_range hname hj).2, ar.window_err j hj⟩) ar.ω0 hacc hlen hy).1
  refine le_trans ?_ h1
  unfold nrm
  refine Real.le_sqrt_of_sq_le (le_trans (le_of_eq ?_) (Finset.single_le_sum (f := fun (k : ℕ) =>
    ‖full (fun j => fl (y (i * s + j) * wv j)) k - frameBin (windowWeight name l) (emphasised on c x) l s nfft i k‖ ^ 2)
    (fun k _ => sq_nonneg _) (Finset.mem_range.mpr (lt_of_lt_of_le hk hle))))
  rw [hfull]
  beta_reduce
  rw [if_pos hk]

/-- The error of a phase sum: of every angle, of its map to [0, 360), of the dot product, and what the error `ε` of the spectrum does to the phases. -/
noncomputable def bandError (u α ε : ℝ) (W : ℕ → ℝ) (X : ℕ → ℂ) (nfft : ℕ) : ℝ :=
  ∑ k ∈ Finset.range (nfft / 2 + 1), W k * (360 * u + 180 * α + phaseShift ε nfft k (X k) +
    ((1 + u) ^ (nfft / 2 + 1) - 1) * (360 + (360 * u + 180 * α)))

/-- **C202**, the phase sums: if no bin that the filter hears can reach the non-negative real axis, every floating-point run has a phase sum within `bandError` of
the exact one. -/
theorem C202_band (ar : PhaseArithmetic u α ω δ fl fft ang wv name l nfft) (hname : WindowName name) (hn : nfft ≠ 0) {fb : List (List ℝ)}
    (hfb : ∀ r ∈ fb, ∀ v ∈ r, 0 ≤ v) {on : Bool} {c : ℝ} {x : List ℝ} {s i : ℕ} (hlen : i * s + l ≤ x.length)
    (F : FlPhase fl fb wv fft ang on c x l s nfft i) {n : ℕ} (hnf : n < fb.length)
    (hfar : ∀ k < nfft / 2 + 1, (fb.getD n []).getD k 0 ≠ 0 → FarBin (√nfft * (spectrumError u ω δ * frameAmplitude on c x l s i)) nfft k
      (frameBin (windowWeight name l) (emphasised on c x) l s nfft i k)) :
    |F.band n - bandPhase fb (windowWeight name l) (emphasised on c x) l s nfft i n| ≤
      bandError u α (√nfft * (spectrumError u ω δ * frameAmplitude on c x l s i)) (fun k => (fb.getD n []).getD k 0)
        (frameBin (windowWeight name l) (emphasised on c x) l s nfft i) nfft := by
  have hu := ar.round.nonneg
  have hα := ar.α0
  obtain ⟨ε, hε⟩ : ∃ ε, ε = √nfft * (spectrumError u ω δ * frameAmplitude on c x l s i) := ⟨_, rfl⟩
  rw [← hε] at hfar ⊢
  obtain ⟨X, hX⟩ : ∃ X, X = frameBin (windowWeight name l) (emphasised on c x) l s nfft i := ⟨_, rfl⟩
  obtain ⟨X', hX'⟩ : ∃ X', X' = fft (fun j => fl (F.y (i * s + j) * wv j)) := ⟨_, rfl⟩
  obtain ⟨W, hW⟩ : ∃ W : ℕ → ℝ, W = fun k => (fb.getD n []).getD k 0 := ⟨_, rfl⟩
  have hW0 : ∀ k, 0 ≤ W k := fun k => by rw [hW]; exact weight_nonneg hfb n k
  have hφ : ∀ k < nfft / 2 + 1, |F.phase k - phaseDegrees (X' k)| ≤ 360 * u + 180 * α := by
    intro k hk
    rw [F.phase_eq k hk, hX']
    exact angle_close ar.round ar.α0 ar.α1 ar.ang_err _
  have hc : ∀ k < nfft / 2 + 1, W k ≠ 0 → |phaseDegrees (X' k) - phaseDegrees (X k)| ≤ phaseShift ε nfft k (X k) := by
    intro k hk hne
    have hb := bin_close ar hname hn hlen F.emph hk
    have hf := hfar k hk (by rw [hW] at hne; exact hne)
    rw [← hX] at hb hf
    rw [← hX', ← hε] at hb
    unfold FarBin at hf
    unfold phaseShift
    split_ifs at hf ⊢ with hr
    · rw [phase_real_close (by rw [hX]; exact frameBin_real _ _ _ _ _ _ _ hn hr) (by rw [hX']; exact ar.fft_real _ _ hr) hf hb, sub_self, abs_zero]
    · exact phase_close hf hb
  have hd := C120_dot (a := F.phase) ar.round le_rfl (fun k _ => Near.refl _) (F.band_dot n hnf)
  have hG : 0 ≤ (1 + u) ^ (nfft / 2 + 1) - 1 := sub_nonneg.mpr (one_le_pow₀ (by linarith))
  rw [mul_one] at hd
  have e : bandPhase fb (windowWeight name l) (emphasised on c x) l s nfft i n = ∑ k ∈ Finset.range (nfft / 2 + 1), phaseDegrees (X k) * W k := by
    rw [hX, hW]
    rfl
  have hd2 : |F.band n - ∑ k ∈ Finset.range (nfft / 2 + 1), F.phase k * W k| ≤
      ((1 + u) ^ (nfft / 2 + 1) - 1) * ∑ k ∈ Finset.range (nfft / 2 + 1), |F.phase k * W k| := by
    rw [hW]
    exact hd
  have h1 : |∑ k ∈ Finset.range (nfft / 2 + 1), F.phase k * W k - ∑ k ∈ Finset.range (nfft / 2 + 1), phaseDegrees (X k) * W k| ≤
      ∑ k ∈ Finset.range (nfft / 2 + 1), W k * (360 * u + 180 * α + phaseShift ε nfft k (X k)) := by
    rw [← Finset.sum_sub_distrib]
    refine (Finset.abs_sum_le_sum_abs _ _).trans (Finset.sum_le_sum fun k hk => ?_)
    rw [← sub_mul, abs_mul, abs_of_nonneg (hW0 k), mul_comm]
    by_cases hne : W k = 0
    · rw [hne, zero_mul, zero_mul]
    · refine mul_le_mul_of_nonneg_left ?_ (hW0 k)
      exact (abs_sub_le _ (phaseDegrees (X' k)) _).trans
        (add_le_add (hφ k (Finset.mem_range.mp hk)) (hc k (Finset.mem_range.mp hk) hne))
  have h2 : ∑ k ∈ Finset.range (nfft / 2 + 1), |F.phase k * W k| ≤ ∑ k ∈ Finset.range (nfft / 2 + 1), W k * (360 + (360 * u + 180 * α)) := by
    refine Finset.sum_le_sum fun k hk => ?_
    rw [abs_mul, abs_of_nonneg (hW0 k), mul_comm]
    refine mul_le_mul_of_nonneg_left ?_ (hW0 k)
    have e1 := hφ k (Finset.mem_range.mp hk)
    obtain ⟨e2, e3⟩ := phase_range (X' k)
    obtain ⟨e4, e5⟩ := abs_le.mp e1
    rw [abs_le]
    constructor <;> linarith
  rw [e]
  refine (abs_sub_le _ (∑ k ∈ Finset.range (nfft / 2 + 1), F.phase k * W k) _).trans
    ((add_le_add (hd2.trans (mul_le_mul_of_nonneg_left h2 hG)) h1).trans (le_of_eq ?_))
  unfold bandError
  rw [Finset.mul_sum, ← Finset.sum_add_distrib]
  refine Finset.sum_congr rfl fun k _ => ?_
  rw [hX, hW]
  ring

/-- **C202**, end to end: if, in every frame, no bin heard by the bank can reach the non-negative real axis and every phase sum is positive and resolved (its error is at most a fraction
`η < 1` of it), the row of cepstra is accurate relative to the compressed phase sums, for any exponent. -/
theorem C202_psrcc (a : Args) (fb : List (List ℝ)) (x : List ℝ) (l s : ℕ) (h : Setup a fb x l s)
    (hd : a.dctType = 2) (hu : a.useEnergy = false) (hli : a.lifter = none) (hn : a.normalize = none)
    (ar : PhaseArithmetic u α ω δ fl fft ang wv a.win.winType l a.nfft) (η : ℝ) (h0 : 0 ≤ η) (h1 : η < 1)
    (hfar : ∀ i < (x.length - l) / s + 1, ∀ n < fb.length, ∀ k < a.nfft / 2 + 1, (fb.getD n []).getD k 0 ≠ 0 →
      FarBin (√a.nfft * (spectrumError u ω δ * frameAmplitude a.preEmph a.preEmphCoeff x l s i)) a.nfft k
        (frameBin (windowWeight a.win.winType l) (emphasised a.preEmph a.preEmphCoeff x) l s a.nfft i k))
    (hB : ∀ i < (x.length - l) / s + 1, ∀ n < fb.length,
      0 < bandPhase fb (windowWeight a.win.winType l) (emphasised a.preEmph a.preEmphCoeff x) l s a.nfft i n ∧
      bandError u α (√a.nfft * (spectrumError u ω δ * frameAmplitude a.preEmph a.preEmphCoeff x l s i)) (fun k => (fb.getD n []).getD k 0)
        (frameBin (windowWeight a.win.winType l) (emphasised a.preEmph a.preEmphCoeff x) l s a.nfft i) a.nfft ≤
        η * bandPhase fb (windowWeight a.win.winType l) (emphasised a.preEmph a.preEmphCoeff x) l s a.nfft i n) :
    ∃ m, psrcc a x = .ok m ∧ HasShape m ((x.length - l) / s + 1) (min a.numCeps fb.length) ∧
      ∀ i < (x.length - l) / s + 1, ∀ (F : FlPhase fl fb wv fft ang a.preEmph a.preEmphCoeff x l s a.nfft i)
        (rt c' : ℕ → ℝ) (lam tau : ℝ), 0 ≤ lam → (∀ n < fb.length, |rt n - F.band n ^ a.gamma| ≤ lam * F.band n ^ a.gamma) →
        √(∑ k ∈ Finset.range (min a.numCeps fb.length), (c' k - dctII fb.length rt k) ^ 2) ≤ tau →
        (∀ n < fb.length, 0 < F.band n) ∧ ∃ c : ℕ → ℝ, (∀ k < min a.numCeps fb.length, (m.getD i []).getD k nan = fin (c k)) ∧
          √(∑ k ∈ Finset.range (min a.numCeps fb.length), (c' k - c k) ^ 2) ≤
            tau + ((1 + lam) * (1 / (1 - η)) ^ (2 * |a.gamma|) - 1) * √(∑ n ∈ Finset.range fb.length,
              (bandPhase fb (windowWeight a.win.winType l) (emphasised a.preEmph a.preEmphCoeff x) l s a.nfft i n ^ a.gamma) ^ 2) := by
  obtain ⟨m, hm, s1, v1⟩ := C101_psrcc_meaning a fb x l s h hd hu hli hn (Or.inr fun i n hi hn' => (hB i hi n hn').1)
  refine ⟨m, hm, s1, fun i hi F rt c' lam tau hlam hrt hc' => ?_⟩
  obtain ⟨P, hP⟩ : ∃ P : ℕ → ℝ, P = fun n =>
    bandPhase fb (windowWeight a.win.winType l) (emphasised a.preEmph a.preEmphCoeff x) l s a.nfft i n := ⟨_, rfl⟩
  have hB1 : 1 ≤ (1 / (1 - η)) ^ (2 * |a.gamma|) := by
    apply Real.one_le_rpow _ (by positivity)
    rw [le_div_iff₀ (by linarith)]
    linarith
  obtain ⟨B, hBdef⟩ : ∃ B, B = (1 / (1 - η)) ^ (2 * |a.gamma|) := ⟨_, rfl⟩
  rw [← hBdef] at hB1 ⊢
  have hnear : ∀ n < fb.length, 0 < F.band n ∧ |F.band n ^ a.gamma - P n ^ a.gamma| ≤ (B - 1) * P n ^ a.gamma := by
    intro n hn'
    obtain ⟨e1, e2⟩ := hB i hi n hn'
    have e3 := (C202_band ar h.window h.nfft h.nonneg (frame_inside h.pos h.long hi) F hn' (hfar i hi n hn')).trans e2
    have e4 := sqrt_near (g := 1 + η) (r := F.band n) e1.le (by rw [add_sub_cancel_left]; exact e3)
    rw [add_sub_cancel_left] at e4
    rw [hBdef, hP]
    exact rpow_near (γ := a.gamma) h0 h1 e1 e4
  refine ⟨fun n hn' => (hnear n hn').1, _, fun k hk => v1 i k hi hk, ?_⟩
  have hρ : 0 ≤ (1 + lam) * B - 1 := by nlinarith
  have key := dct_error (B := fun n => ((1 + lam) * B - 1) * P n ^ a.gamma) (min_le_right a.numCeps fb.length)
    (y := fun n => P n ^ a.gamma) (fun n hn' => ?_) hc'
  · rw [hP] at key
    refine key.trans (le_of_eq ?_)
    congr 1
    simp only [mul_pow]
    rw [← Finset.mul_sum, Real.sqrt_mul (sq_nonneg _), Real.sqrt_sq hρ]
  · obtain ⟨-, e4⟩ := hnear n hn'
    have e5 : F.band n ^ a.gamma ≤ B * P n ^ a.gamma := by
      have := (abs_le.mp e4).2
      linarith
    have e6 := (abs_sub_le (rt n) (F.band n ^ a.gamma) (P n ^ a.gamma)).trans (add_le_add (hrt n hn') e4)
    refine e6.trans ?_
    have e7 := mul_le_mul_of_nonneg_left e5 hlam
    linarith

/-- **C202** in double precision, 512 points: apart from the effect of the spectrum, a phase sum is off by at most `1.2e-11` degrees for each unit of weight. -/
theorem C202_double : (360 * (1 / 2 ^ 53) + 180 * (1 / 10 ^ 15) + ((1 + 1 / 2 ^ 53) ^ (512 / 2 + 1) - 1) *
    (360 + (360 * (1 / 2 ^ 53) + 180 * (1 / 10 ^ 15))) : ℝ) ≤ 1.2 / 10 ^ 11 := by
  have h1 : ((1 : ℝ) + 1 / 2 ^ 53) ^ 129 ≤ 1 + 1.5 / 10 ^ 14 := by norm_num
  have h2 : ((1 : ℝ) + 1 / 2 ^ 53) ^ (512 / 2 + 1) ≤ (1 + 1.5 / 10 ^ 14) ^ 2 := by
    refine (pow_le_pow_right₀ (by norm_num) (show 512 / 2 + 1 ≤ 129 * 2 by norm_num)).trans ?_
    rw [pow_mul]
    exact pow_le_pow_left₀ (by positivity) h1 2
  have h3 : ((1 : ℝ) + 1.5 / 10 ^ 14) ^ 2 ≤ 1 + 3.1 / 10 ^ 14 := by norm_num
  generalize ((1 : ℝ) + 1 / 2 ^ 53) ^ (512 / 2 + 1) = G at *
  have h4 : G - 1 ≤ 3.1 / 10 ^ 14 := by linarith [h2.trans h3]
  refine (add_le_add_right (mul_le_mul_of_nonneg_right h4 (by norm_num)) _).trans ?_
  norm_num

/-! ### Near the axis -/

theorem seventh_root_gap {θ : ℝ} (h0 : 0 < θ) (h1 : θ ≤ 45) : (360 - θ) ^ (-1 / 7 : ℝ) + 0.1 < θ ^ (-1 / 7 : ℝ) := by
  have hexp : (-1 / 7 : ℝ) ≤ 0 := by norm_num
  have c1 : (360 - θ) ^ (-1 / 7 : ℝ) ≤ (315 : ℝ) ^ (-1 / 7 : ℝ) := Real.rpow_le_rpow_of_nonpos (by norm_num) (by linarith) hexp
  have c2 : (45 : ℝ) ^ (-1 / 7 : ℝ) ≤ θ ^ (-1 / 7 : ℝ) := Real.rpow_le_rpow_of_nonpos h0 h1 hexp
  have p7 : ∀ b : ℝ, 0 < b → (b ^ (-7 : ℝ)) ^ (-1 / 7 : ℝ) = b := by
    intro b hb
    rw [← Real.rpow_mul hb.le]; norm_num
  have c3 : (315 : ℝ) ^ (-1 / 7 : ℝ) ≤ 0.45 := by
    rw [← p7 0.45 (by norm_num)]
    refine Real.rpow_le_rpow_of_nonpos (by positivity) ?_ hexp
    rw [Real.rpow_neg (by norm_num), show (7 : ℝ) = ((7 : ℕ) : ℝ) by norm_num, Real.rpow_natCast]
    norm_num
  have c4 : (0.57 : ℝ) ≤ (45 : ℝ) ^ (-1 / 7 : ℝ) := by
    rw [← p7 0.57 (by norm_num)]
    refine Real.rpow_le_rpow_of_nonpos (by norm_num) ?_ hexp
    rw [Real.rpow_neg (by norm_num), show (7 : ℝ) = ((7 : ℕ) : ℝ) by norm_num, Real.rpow_natCast]
    norm_num
  norm_num at c3 c4 ⊢
  linarith

/-- An FFT with a small error in bin 1. -/
noncomputable def tiltedFft (δ : ℝ) (z : ℕ → ℝ) (k : ℕ) : ℂ :=
  frameBin (fun _ => 1) z 2 0 4 0 k - if k = 1 then ((δ * z 0 : ℝ) : ℂ) * Complex.I else 0

theorem tilted_arithmetic {δ : ℝ} (hδ : 0 ≤ δ) : PhaseArithmetic 0 0 0 δ id (tiltedFft δ) (fun z => Complex.arg z * 180 / Real.pi)
    (windowWeight "hamming" 2) "hamming" 2 4 where
  round := ⟨le_rfl, fun t => by simp⟩
  α0 := le_rfl
  α1 := one_pos
  ω0 := le_rfl
  δ0 := hδ
  ang_err := fun z => by simp
  window_err := fun j _ => by simp
  fft_err := by
    intro z
    rw [show 4 / 2 + 1 = 3 from rfl, Finset.sum_range_succ, Finset.sum_range_succ, Finset.sum_range_one, Finset.sum_range_succ, Finset.sum_range_one]
    have e : ∀ k, tiltedFft δ z k - frameBin (fun _ => 1) z 2 0 4 0 k = -(if k = 1 then ((δ * z 0 : ℝ) : ℂ) * Complex.I else 0) := by
      intro k
      unfold tiltedFft
      ring
    rw [e, e, e, if_neg (by norm_num), if_pos rfl, if_neg (by norm_num), neg_zero, norm_zero, norm_neg, norm_mul, Complex.norm_I, mul_one,
      Complex.norm_real, Real.norm_eq_abs, sq_abs]
    push_cast
    nlinarith [mul_nonneg (sq_nonneg δ) (sq_nonneg (z 0)), mul_nonneg (sq_nonneg δ) (sq_nonneg (z 1))]
  fft_real := by
    intro z k hk
    unfold tiltedFft
    rw [Complex.sub_im, frameBin_real _ _ _ _ _ _ _ (by norm_num) hk, if_neg (by omega), Complex.zero_im, sub_zero]

/-- **C202**, the condition on the bins cannot be dropped: however accurate the FFT is, there is a signal for which an error in its bounds takes a phase
from just above 0 to just below 360 degrees. With the default exponent and everything else exact, the compressed phase sum is then more than 0.1 below the exact coefficient. -/
theorem C202_jump (δ : ℝ) (hδ : 0 < δ) (hδ1 : δ ≤ 1) : ∃ y m p, ∃ F : FlPhase id [[0, 1, 0]] (windowWeight "hamming" 2) (tiltedFft δ)
    (fun z => Complex.arg z * 180 / Real.pi) jumpDemo.preEmph jumpDemo.preEmphCoeff [1, y] 2 2 4 0,
    psrcc jumpDemo [1, y] = .ok m ∧ (m.getD 0 []).getD 0 nan = fin p ∧ F.band 0 ^ jumpDemo.gamma + 0.1 < p := by
  obtain ⟨θ, h0, h1, h2, h3⟩ := arg_fourth (δ / 2) (by linarith) (by linarith)
  obtain ⟨m, b1, b2⟩ := jumpDemo_value 1 (-(δ / 2)) θ h2 h0
  have hbin : tiltedFft δ (fun j => id (([1, -(δ / 2)] : List ℝ).getD (0 * 2 + j) 0 * windowWeight "hamming" 2 j)) 1 =
      ((0.08 : ℝ) : ℂ) * (((1 : ℝ) : ℂ) - ((δ / 2 : ℝ) : ℂ) * Complex.I) := by
    have e := jumpDemo_bin 1 (-(δ / 2))
    rw [frameBin_one] at e
    have e2 : frameBin (fun _ => 1) (fun j => id (([1, -(δ / 2)] : List ℝ).getD (0 * 2 + j) 0 * windowWeight "hamming" 2 j)) 2 0 4 0 1 =
        ((0.08 : ℝ) : ℂ) * (((1 : ℝ) : ℂ) - ((-(δ / 2) : ℝ) : ℂ) * Complex.I) := by
      rw [← e]
      congr 1
      funext j
      rw [mul_comm]
      rfl
    have hw : windowWeight "hamming" 2 0 = 0.08 := by
      simp [windowWeight]
      norm_num
    unfold tiltedFft
    rw [e2, if_pos rfl]
    simp only [id, List.getD_cons_zero, Nat.zero_mul, Nat.add_zero, hw]
    push_cast
    ring
  obtain ⟨z, hz⟩ : ∃ z : ℕ → ℂ, z = tiltedFft δ (fun j => id (([1, -(δ / 2)] : List ℝ).getD (0 * 2 + j) 0 * windowWeight "hamming" 2 j)) :=
    ⟨_, rfl⟩
  obtain ⟨ph, hph⟩ : ∃ ph : ℕ → ℝ, ph = fun k => id (360 + Complex.arg (z k) * 180 / Real.pi) * (if Complex.arg (z k) * 180 / Real.pi < 0 then 1 else 0) +
      Complex.arg (z k) * 180 / Real.pi * (if 0 < Complex.arg (z k) * 180 / Real.pi then 1 else 0) := ⟨_, rfl⟩
  have hph1 : ph 1 = 360 - θ := by
    have h := angle_close (u := 0) (α := 0) (fl := id) ⟨le_rfl, fun t => by simp⟩ le_rfl one_pos
      (ang := fun z => Complex.arg z * 180 / Real.pi) (fun z => by simp) (z 1)
    rw [mul_zero, mul_zero, add_zero] at h
    have h' := abs_nonpos_iff.mp h
    rw [hph]
    rw [hz, hbin, h3, ← hbin, ← hz] at h'
    exact sub_eq_zero.mp h'
  refine ⟨-(δ / 2), m, _, ⟨fun t => ([1, -(δ / 2)] : List ℝ).getD t 0, fun t ht => ?_, ph, fun k _ => ?_, fun _ => 360 - θ, fun n hn => ?_⟩, b1, b2, ?_⟩
  · rw [show jumpDemo.preEmph = false from rfl, if_neg (by simp)]
  · rw [hph, hz]
  · have hn : n = 0 := by simpa using hn
    subst hn
    refine ⟨fun k => ph k * (([[0, 1, 0]] : List (List ℝ)).getD 0 []).getD k 0, fun k _ => Or.inl rfl, ?_⟩
    have e : (List.range (4 / 2 + 1)).map (fun k => ph k * (([[0, 1, 0]] : List (List ℝ)).getD 0 []).getD k 0) = [0] ++ ([360 - θ] ++ [0]) := by
      rw [show 4 / 2 + 1 = 3 from rfl]
      simp [List.range_succ, hph1]
    rw [e]
    have := FlSum.add (fl := id) (FlSum.one 0) (FlSum.add (fl := id) (FlSum.one (360 - θ)) (FlSum.one 0))
    simpa using this
  · exact seventh_root_gap h0 h1

theorem phase_arithmetic_demo (name : String) (l nfft : ℕ) (hn : nfft ≠ 0) : PhaseArithmetic 0.001 0.001 0.01 0 (fun t => 1.001 * t)
    (fun z k => frameBin (fun _ => 1) z l 0 nfft 0 k) (fun z => 1.001 * (Complex.arg z * 180 / Real.pi)) (fun j => windowWeight name l j + 0.01) name l nfft where
  round := rounding_demo
  α0 := by norm_num
  α1 := by norm_num
  ω0 := by norm_num
  δ0 := le_rfl
  ang_err := fun z => by
    rw [show 1.001 * (Complex.arg z * 180 / Real.pi) - Complex.arg z * 180 / Real.pi = 0.001 * (Complex.arg z * 180 / Real.pi) by ring, abs_mul]
    norm_num
  window_err := fun j _ => by norm_num
  fft_err := fun z => by simp
  fft_real := fun z k hk => frameBin_real _ _ _ _ _ _ _ hn hk

/-- The hypotheses of C202 hold for the frame [-1, 0] (four FFT points, one filter on bin 1, whose phase is 180 degrees) and an arithmetic with three digits: all its
runs give a positive phase sum and a coefficient near the exact one. -/
example : ∃ m c, psrcc jumpDemo [-1, 0] = .ok m ∧ (m.getD 0 []).getD 0 nan = fin c ∧
    ∀ F : FlPhase (fun t => 1.001 * t) [[0, 1, 0]] (fun j => windowWeight jumpDemo.win.winType 2 j + 0.01)
        (fun z k => frameBin (fun _ => 1) z 2 0 jumpDemo.nfft 0 k) (fun z => 1.001 * (Complex.arg z * 180 / Real.pi)) jumpDemo.preEmph jumpDemo.preEmphCoeff
        [-1, 0] 2 2 jumpDemo.nfft 0,
      0 < F.band 0 ∧ √((F.band 0 ^ jumpDemo.gamma - c) ^ 2) ≤ ((1 / (1 - 0.2)) ^ (2 * |jumpDemo.gamma|) - 1) * √((180 ^ jumpDemo.gamma) ^ 2) := by
  have hpi := Real.pi_pos
  have hnfft : jumpDemo.nfft = 4 := rfl
  have hX : frameBin (windowWeight jumpDemo.win.winType 2) (emphasised jumpDemo.preEmph jumpDemo.preEmphCoeff [-1, 0]) 2 2 4 0 1 = ((-0.08 : ℝ) : ℂ) := by
    rw [jumpDemo_bin]
    push_cast
    ring
  have hA : frameAmplitude jumpDemo.preEmph jumpDemo.preEmphCoeff [-1, 0] 2 2 0 = 1 := by
    unfold frameAmplitude amplitude
    rw [show jumpDemo.preEmph = false from rfl]
    simp [Finset.sum_range_succ]
  have h4 : √((4 : ℕ) : ℝ) = 2 := by
    rw [show ((4 : ℕ) : ℝ) = 2 ^ 2 by norm_num, Real.sqrt_sq (by norm_num)]
  have hph : phaseDegrees ((-0.08 : ℝ) : ℂ) = 180 := by
    rw [phase_real (Complex.ofReal_im _), if_pos (by rw [Complex.ofReal_re]; norm_num)]
  have hband : bandPhase [[0, 1, 0]] (windowWeight jumpDemo.win.winType 2) (emphasised jumpDemo.preEmph jumpDemo.preEmphCoeff [-1, 0]) 2 2
      jumpDemo.nfft 0 0 = 180 := by
    rw [hnfft]
    unfold bandPhase
    rw [show 4 / 2 + 1 = 3 from rfl, Finset.sum_range_succ, Finset.sum_range_succ, Finset.sum_range_one, hX, hph]
    simp
  have hε : √((4 : ℕ) : ℝ) * (spectrumError 0.001 0.01 0 * 1) ≤ 0.027 := by
    rw [h4]
    unfold spectrumError
    norm_num
  have hnorm : ‖((-0.08 : ℝ) : ℂ)‖ = 0.08 := by
    rw [Complex.norm_real, Real.norm_eq_abs]
    norm_num
  have hfirst : (([-1, 0] : List ℝ).length - 2) / 2 + 1 = 1 := rfl
  obtain ⟨m, hm, -, hv⟩ := C202_psrcc jumpDemo [[0, 1, 0]] [-1, 0] 2 2 (jumpDemo_setup _ _) rfl rfl rfl rfl
    (phase_arithmetic_demo jumpDemo.win.winType 2 jumpDemo.nfft (by norm_num [jumpDemo])) 0.2 (by norm_num) (by norm_num)
    (by
      intro i hi n hn k hk hne
      obtain rfl : i = 0 := by omega
      obtain rfl : n = 0 := by simpa using hn
      rw [hnfft] at hk ⊢
      obtain rfl | rfl | rfl : k = 0 ∨ k = 1 ∨ k = 2 := by omega
      · simp at hne
      · unfold FarBin
        rw [if_neg (by norm_num), hX, hA]
        intro r hr
        rw [← Complex.ofReal_sub, Complex.norm_real, Real.norm_eq_abs, abs_of_neg (by linarith)]
        linarith
      · simp at hne)
    (by
      intro i hi n hn
      obtain rfl : i = 0 := by omega
      obtain rfl : n = 0 := by simpa using hn
      rw [hband]
      refine ⟨by norm_num, ?_⟩
      rw [hnfft, hA]
      unfold bandError phaseShift
      rw [show 4 / 2 + 1 = 3 from rfl, Finset.sum_range_succ, Finset.sum_range_succ, Finset.sum_range_one, hX, hnorm]
      generalize √((4 : ℕ) : ℝ) * (spectrumError 0.001 0.01 0 * 1) = ε at hε
      have h1 : ε / (0.08 - ε) ≤ 0.51 := by
        rw [div_le_iff₀ (by linarith)]
        linarith
      have h2 : 180 / Real.pi * (ε / (0.08 - ε)) ≤ 60 * 0.51 := by
        have h3 : 180 / Real.pi ≤ 60 := by
          rw [div_le_iff₀ hpi]
          linarith [Real.pi_gt_three]
        exact (mul_le_mul_of_nonneg_left h1 (by positivity)).trans (mul_le_mul_of_nonneg_right h3 (by norm_num))
      simp
      norm_num at h2 ⊢
      linarith)
  have hexact : ∃ c, (m.getD 0 []).getD 0 nan = fin c := by
    obtain ⟨m', hm', -, hv'⟩ := C101_psrcc_meaning jumpDemo [[0, 1, 0]] [-1, 0] 2 2 (jumpDemo_setup _ _) rfl rfl rfl rfl (Or.inr (by
      intro i n hi hn
      obtain rfl : i = 0 := by omega
      obtain rfl : n = 0 := by simpa using hn
      rw [hband]
      norm_num))
    obtain rfl := Except.ok.inj (hm.symm.trans hm')
    exact ⟨_, hv' 0 0 (by norm_num) (by simp [jumpDemo])⟩
  obtain ⟨c, hc⟩ := hexact
  refine ⟨m, c, hm, hc, fun F => ?_⟩
  have hdct : ∀ y : ℕ → ℝ, dctII ([[0, 1, 0]] : List (List ℝ)).length y 0 = y 0 := by
    intro y
    unfold dctII
    rw [show ([[0, 1, 0]] : List (List ℝ)).length = 1 from rfl, Finset.sum_range_one]
    have h2 : √(2 : ℝ) ≠ 0 := by positivity
    simp [h2]
  have hmin : min jumpDemo.numCeps ([[0, 1, 0]] : List (List ℝ)).length = 1 := by simp [jumpDemo]
  obtain ⟨hpos, c₂, hc₂, hb⟩ := hv 0 (by norm_num) F (fun n => F.band n ^ jumpDemo.gamma) (fun k => F.band k ^ jumpDemo.gamma) 0 0 le_rfl
    (fun n _ => by simp) (by
      rw [hmin, Finset.sum_range_one, hdct]
      simp)
  have e := hc₂ 0 (by rw [hmin]; norm_num)
  rw [hc] at e
  obtain rfl : c = c₂ 0 := by simpa using e
  refine ⟨hpos 0 (by simp), ?_⟩
  rw [hmin, Finset.sum_range_one, zero_add, add_zero, one_mul, show ([[0, 1, 0]] : List (List ℝ)).length = 1 from rfl, Finset.sum_range_one, hband] at hb
  exact hb

end Props
end Spafe
