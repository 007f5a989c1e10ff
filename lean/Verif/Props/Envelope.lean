import Verif.Lemmas.EnvelopeMean
import Verif.Props.LpcStable
import Verif.Props.LpMeaning
import Mathlib.Analysis.Complex.Harmonic.MeanValue
import Mathlib.Analysis.InnerProductSpace.Harmonic.Constructions

/-! C146: the all-pole spectrum of the coefficients returned by `lpc` is the spectral envelope of the frame. -/

set_option linter.unusedSectionVars false

namespace Spafe
namespace Props
open Model XF Spec Real

/-- The logarithm of the squared response of a filter with all zeros in the unit disc has mean zero. -/
theorem meanOver_log_response {a : ℕ → ℝ} {p : ℕ} (h0 : a 0 = 1)
    (hr : ∀ z : ℂ, ∑ k ∈ Finset.range (p + 1), (a k : ℂ) * z ^ (p - k) = 0 → ‖z‖ < 1) :
    meanOver (fun θ => log ‖lpResponse a p θ‖) = 0 := by
  have hh : InnerProductSpace.HarmonicOnNhd (fun z => log ‖delayPoly a p z‖) (Metric.closedBall 0 |1|) := by
    intro z hz
    refine AnalyticAt.harmonicAt_log_norm ?_ (delayPoly_ne_zero h0 hr (by simpa using hz))
    exact (differentiable_delayPoly a p).analyticAt z
  have h := InnerProductSpace.HarmonicOnNhd.circleAverage_eq hh
  rw [circleAverage_def] at h
  beta_reduce at h
  rw [delayPoly_zero h0, norm_one, log_one, smul_eq_mul] at h
  rw [meanOver, div_eq_inv_mul, ← h]
  congr 2
  funext θ
  rw [arResponse_eq, Complex.norm_conj]

/-- The mean logarithm of an all-pole spectrum is the logarithm of its gain. -/
theorem meanOver_log_envelope {a : ℕ → ℝ} {p : ℕ} (h0 : a 0 = 1)
    (hr : ∀ z : ℂ, ∑ k ∈ Finset.range (p + 1), (a k : ℂ) * z ^ (p - k) = 0 → ‖z‖ < 1) {E : ℝ} (hE : 0 < E) :
    meanOver (fun θ => log (allPole a p E θ)) = log E := by
  have hne := response_ne_zero h0 hr
  have hcr := continuous_response a p
  have e : ∀ θ, log (allPole a p E θ) = ∑ i : Bool, if i then log E else (-2) * log ‖lpResponse a p θ‖ := by
    intro θ
    have h1 := norm_ne_zero_iff.mpr (hne θ)
    rw [Fintype.sum_bool, allPole, log_div hE.ne' (pow_ne_zero _ h1), log_pow]
    simp only [if_true, Bool.false_eq_true, if_false]
    push_cast
    ring
  have hlc : Continuous fun θ => log ‖lpResponse a p θ‖ :=
    Continuous.log (by fun_prop) fun θ => norm_ne_zero_iff.mpr (hne θ)
  rw [meanOver_congr e, meanOver_sum Finset.univ, Fintype.sum_bool]
  · simp only [if_true, Bool.false_eq_true, if_false]
    rw [meanOver_const, meanOver_const_mul, meanOver_log_response h0 hr]
    ring
  · intro i _
    cases i
    · simp only [Bool.false_eq_true, if_false]; fun_prop
    · simp only [if_true]; fun_prop

/-- The facts about a frame that `lpcHelper` establishes. -/
theorem helper_facts {frame : List ℝ} {order : ℕ} {a : List ℝ} {e : ℝ} (h : lpcHelper frame order = .ok (a, e)) :
    a.getD 0 0 = 1 ∧
    (∀ z : ℂ, ∑ k ∈ Finset.range (order + 1), (a.getD k 0 : ℂ) * z ^ (order - k) = 0 → ‖z‖ < 1) ∧
    0 < predError frame order (fun k => a.getD k 0) :=
  ⟨(C59_normal_equations frame order a e h).2.1, C128_stable frame order a e h, predError_pos (helper_cases h).2 _ _⟩

/-- C146, Wiener-Khinchin: the autocorrelations of a frame are the cosine coefficients of its power spectrum. -/
theorem C146_autocorrelation (frame : List ℝ) (m : ℕ) :
    meanOver (fun θ => fourierPower frame θ * cos (m * θ)) = autoCorr frame m := by
  have := meanOver_fourierPower frame m
  simpa using this

/-- C146: the all-pole spectrum `E / |1 + a_1 e^{-iθ} + ... + a_p e^{-ipθ}|²`, with `E` the minimal prediction error, is
defined at all frequencies and has the same autocorrelations as the frame at the lags `0, ..., p`. -/
theorem C146_match (frame : List ℝ) (order : ℕ) (a : List ℝ) (e : ℝ) (h : lpcHelper frame order = .ok (a, e)) (E : ℝ)
    (hE : E = predError frame order (fun k => a.getD k 0)) :
    (∀ θ, 0 < allPole (fun k => a.getD k 0) order E θ) ∧
    ∀ m ≤ order, meanOver (fun θ => allPole (fun k => a.getD k 0) order E θ * cos (m * θ)) =
      meanOver (fun θ => fourierPower frame θ * cos (m * θ)) := by
  obtain ⟨h0, hr, hpos⟩ := helper_facts h
  rw [← hE] at hpos
  obtain ⟨-, -, hn⟩ := C59_normal_equations frame order a e h
  constructor
  · intro θ
    have := norm_pos_iff.mpr (response_ne_zero (a := fun k => a.getD k 0) h0 hr θ)
    unfold allPole
    positivity
  obtain ⟨c, hc⟩ : ∃ c : ℕ → ℝ, c = fun k => a.getD k 0 := ⟨_, rfl⟩
  rw [← hc]
  have hc0 : c 0 = 1 := by rw [hc]; exact h0
  have hcr : ∀ z : ℂ, ∑ k ∈ Finset.range (order + 1), (c k : ℂ) * z ^ (order - k) = 0 → ‖z‖ < 1 := by rw [hc]; exact hr
  have key := yule_walker_unique (x := fun m =>
    E * meanOver (fun θ => (1 / ‖lpResponse c order θ‖ ^ 2) * cos (m * θ)) - autoCorr frame m) hc0 hcr ?_
  · intro m hm
    rw [C146_autocorrelation, ← sub_eq_zero, ← key m hm, ← meanOver_const_mul]
    refine congrArg (· - autoCorr frame m) (meanOver_congr fun θ => ?_)
    unfold allPole
    ring
  · intro k hk
    have h1 := allPole_yule_walker hc0 hcr k
    have e1 : ∀ j : ℕ, meanOver (fun θ => (1 / ‖lpResponse c order θ‖ ^ 2) * cos ((((k : ℤ) - (j : ℤ)).natAbs : ℝ) * θ)) =
        meanOver (fun θ => (1 / ‖lpResponse c order θ‖ ^ 2) * cos (((k : ℤ) - (j : ℤ) : ℤ) * θ)) := by
      intro j
      refine meanOver_congr fun θ => ?_
      congr 1
      rcases Int.natAbs_eq ((k : ℤ) - (j : ℤ)) with h2 | h2
      · conv_rhs => rw [h2]
        rw [Int.cast_natCast]
      · conv_rhs => rw [h2]
        rw [Int.cast_neg, Int.cast_natCast, neg_mul, cos_neg]
    have h2 : ∑ j ∈ Finset.range (order + 1), c j * autoCorr frame ((k : ℤ) - (j : ℤ)).natAbs =
        E * (if k = 0 then 1 else 0) := by
      rw [sum_range_Icc, hc0, one_mul]
      split_ifs with hk0
      · subst hk0
        rw [hE, C63_minimal_error_formula frame order a e h, mul_one, hc]
        simp
      · rw [mul_zero, show ((k : ℤ) - ((0 : ℕ) : ℤ)).natAbs = k by omega, hc]
        rw [hn k (by omega) hk]
        ring
    have e2 : ∑ j ∈ Finset.range (order + 1), c j *
        (E * meanOver (fun θ => (1 / ‖lpResponse c order θ‖ ^ 2) * cos ((((k : ℤ) - (j : ℤ)).natAbs : ℝ) * θ)) -
          autoCorr frame ((k : ℤ) - (j : ℤ)).natAbs) =
        E * ∑ j ∈ Finset.range (order + 1), c j *
            meanOver (fun θ => (1 / ‖lpResponse c order θ‖ ^ 2) * cos (((k : ℤ) - (j : ℤ) : ℤ) * θ)) -
          ∑ j ∈ Finset.range (order + 1), c j * autoCorr frame ((k : ℤ) - (j : ℤ)).natAbs := by
      rw [Finset.mul_sum, ← Finset.sum_sub_distrib]
      refine Finset.sum_congr rfl fun j _ => ?_
      rw [e1 j]
      ring
    rw [e2, h1, h2, sub_self]

/-- C146: on average the power spectrum and the all-pole spectrum agree (the mean of their ratio is one), and the
logarithm of the all-pole spectrum has the mean `log E`. -/
theorem C146_ratio (frame : List ℝ) (order : ℕ) (a : List ℝ) (e : ℝ) (h : lpcHelper frame order = .ok (a, e)) (E : ℝ)
    (hE : E = predError frame order (fun k => a.getD k 0)) :
    meanOver (fun θ => fourierPower frame θ / allPole (fun k => a.getD k 0) order E θ) = 1 ∧
    meanOver (fun θ => log (allPole (fun k => a.getD k 0) order E θ)) = log E := by
  obtain ⟨h0, hr, hpos⟩ := helper_facts h
  rw [← hE] at hpos
  refine ⟨?_, meanOver_log_envelope (a := fun k => a.getD k 0) h0 hr hpos⟩
  have e1 : ∀ θ, fourierPower frame θ / allPole (fun k => a.getD k 0) order E θ =
      (1 / E) * (fourierPower frame θ * ‖lpResponse (fun k => a.getD k 0) order θ‖ ^ 2) := by
    intro θ
    unfold allPole
    field_simp
  rw [meanOver_congr e1, meanOver_const_mul, ← predError_spectrum frame order (fun k => a.getD k 0) h0, ← hE]
  field_simp

/-- C146: among all all-pole spectra `S = G / |B|²` of the order (gain `G > 0`, `B = 1 + b_1 z⁻¹ + ...` with its zeros in the
unit disc), the returned coefficients with `G = E` minimise the mean of `P / S + log S`, where `P` is the power spectrum
(Itakura-Saito distance, or maximum likelihood), and every other choice is worse. -/
theorem C146_optimal (frame : List ℝ) (order : ℕ) (a : List ℝ) (e : ℝ) (h : lpcHelper frame order = .ok (a, e)) (E : ℝ)
    (hE : E = predError frame order (fun k => a.getD k 0)) (b : ℕ → ℝ) (G : ℝ) (hG : 0 < G) (hb0 : b 0 = 1)
    (hb : ∀ z : ℂ, ∑ k ∈ Finset.range (order + 1), (b k : ℂ) * z ^ (order - k) = 0 → ‖z‖ < 1)
    (hne : G ≠ E ∨ ∃ k, 1 ≤ k ∧ k ≤ order ∧ b k ≠ a.getD k 0) :
    meanOver (fun θ => fourierPower frame θ / allPole (fun k => a.getD k 0) order E θ +
        log (allPole (fun k => a.getD k 0) order E θ)) <
      meanOver (fun θ => fourierPower frame θ / allPole b order G θ + log (allPole b order G θ)) := by
  obtain ⟨h0, hr, hpos⟩ := helper_facts h
  rw [← hE] at hpos
  have val : ∀ (c : ℕ → ℝ) (F : ℝ), 0 < F → c 0 = 1 →
      (∀ z : ℂ, ∑ k ∈ Finset.range (order + 1), (c k : ℂ) * z ^ (order - k) = 0 → ‖z‖ < 1) →
      meanOver (fun θ => fourierPower frame θ / allPole c order F θ + log (allPole c order F θ)) =
        predError frame order c / F + log F := by
    intro c F hF hc0 hc
    have hne' := response_ne_zero hc0 hc
    have hcp := continuous_fourierPower frame
    have hcr := continuous_response c order
    have hn2 : ∀ θ, ‖lpResponse c order θ‖ ^ 2 ≠ 0 := fun θ => pow_ne_zero _ (norm_ne_zero_iff.mpr (hne' θ))
    have hce : Continuous (allPole c order F) := by
      unfold allPole
      exact continuous_const.div (by fun_prop) hn2
    have hep : ∀ θ, allPole c order F θ ≠ 0 := fun θ => div_ne_zero hF.ne' (hn2 θ)
    have e1 : ∀ θ, fourierPower frame θ / allPole c order F θ + log (allPole c order F θ) =
        ∑ i : Bool, if i then (1 / F) * (fourierPower frame θ * ‖lpResponse c order θ‖ ^ 2) else log (allPole c order F θ) := by
      intro θ
      rw [Fintype.sum_bool]
      simp only [if_true, Bool.false_eq_true, if_false]
      congr 1
      unfold allPole
      field_simp
    rw [meanOver_congr e1, meanOver_sum Finset.univ, Fintype.sum_bool]
    · simp only [if_true, Bool.false_eq_true, if_false]
      rw [meanOver_const_mul, ← predError_spectrum frame order c hc0, meanOver_log_envelope hc0 hc hF]
      ring
    · intro i _
      cases i
      · simp only [Bool.false_eq_true, if_false]; exact hce.log hep
      · simp only [if_true]; fun_prop
  rw [val (fun k => a.getD k 0) E hpos h0 hr, val b G hG hb0 hb, ← hE, div_self hpos.ne']
  obtain ⟨hle, hlt⟩ := C60_minimal_error frame order a e h b
  rw [← hE] at hle hlt
  -- `1 + log E ≤ E / G + log G`
  have hlog : log (E / G) = log E - log G := log_div hpos.ne' hG.ne'
  by_cases hcase : ∃ k, 1 ≤ k ∧ k ≤ order ∧ b k ≠ a.getD k 0
  · have h1 := hlt hcase
    have h2 := log_le_sub_one_of_pos (div_pos hpos hG)
    have h3 : E / G < predError frame order b / G := div_lt_div_of_pos_right h1 hG
    linarith
  · have hGE : G ≠ E := hne.resolve_right hcase
    have h1 : E / G ≠ 1 := fun hc => hGE (by rw [div_eq_one_iff_eq hG.ne'] at hc; exact hc.symm)
    have h2 := log_lt_sub_one_of_pos (div_pos hpos hG) h1
    have h3 : E / G ≤ predError frame order b / G := div_le_div_of_nonneg_right hle hG.le
    linarith

/-- C146 for `lpc`: the row of every frame is the all-pole envelope of that frame of the (pre-emphasised) signal. -/
theorem C146_lpc (a : LpcArgs) (sig : List ℝ) (l s : ℕ) (hl : pyInt (a.win.winLen * a.fs) = l)
    (hs : pyInt (a.win.winHop * a.fs) = s) (hs0 : 0 < s) (A : List (List ℝ)) (Es : List ℝ) (h : lpc a sig = .ok (A, Es)) :
    ∀ i < (sig.length - l) / s + 1, ∀ x : List ℝ,
      x = ((List.range l).map fun (j : ℕ) => emphasised a.preEmph 0.97 sig (i * s + j)) →
      ∀ E, E = predError x (a.order - 1) (fun k => (A.getD i []).getD k 0) →
        0 < E ∧ (∀ m ≤ a.order - 1,
          meanOver (fun θ => allPole (fun k => (A.getD i []).getD k 0) (a.order - 1) E θ * cos (m * θ)) =
            meanOver (fun θ => fourierPower x θ * cos (m * θ))) ∧
        meanOver (fun θ => fourierPower x θ / allPole (fun k => (A.getD i []).getD k 0) (a.order - 1) E θ) = 1 ∧
        meanOver (fun θ => log (allPole (fun k => (A.getD i []).getD k 0) (a.order - 1) E θ)) = log E := by
  simp only [lpc, bind_ok_iff] at h
  obtain ⟨F, hF, rows, hrows, h⟩ := h
  injection h with h
  injection h with h1 h2
  subst h1
  obtain ⟨-, hFe⟩ := lpcFrames_meaning hl hs hs0 hF
  have hm := (mapM_ok_iff _ _ _).mp hrows
  have hlen := hm.length_eq
  intro i hi x hx E hE
  have hFl : F.length = (sig.length - l) / s + 1 := by rw [hFe]; simp
  have hi1 : i < F.length := by omega
  have hi2 : i < rows.length := by omega
  have hrow := hm.get hi1 hi2
  have hfx : F[i] = x := by
    rw [hx]
    simp [hFe]
  have hA : (rows.map Prod.fst).getD i [] = rows[i].1 := by
    rw [List.getD_eq_getElem _ _ (by simpa using hi2), List.getElem_map]
  have hh : lpcHelper x (a.order - 1) = .ok (rows[i].1, rows[i].2) := by
    rw [← hfx]; exact hrow
  rw [hA] at hE ⊢
  refine ⟨?_, (C146_match x _ _ _ hh E hE).2, C146_ratio x _ _ _ hh E hE⟩
  rw [hE]
  exact (helper_facts hh).2.2

/-- Three ones, order 1: the coefficients are `[1, -2/3]`, the error `5/3`, and `(5/3) / |1 - (2/3) e^{-iθ}|²` has the mean 3 and
the first cosine coefficient 2, as the frame's power spectrum has. -/
example : meanOver (fun θ => (5 / 3) / ‖lpResponse (fun k => [1, -2 / 3].getD k 0) 1 θ‖ ^ 2 * cos ((0 : ℕ) * θ)) = 3 ∧
    meanOver (fun θ => (5 / 3) / ‖lpResponse (fun k => [1, -2 / 3].getD k 0) 1 θ‖ ^ 2 * cos ((1 : ℕ) * θ)) = 2 := by
  obtain ⟨e, he⟩ := ones_helper
  have hE : (5 / 3 : ℝ) = predError [1, 1, 1] 1 (fun k => [1, -2 / 3].getD k 0) := by
    rw [C63_minimal_error_formula _ _ _ e he]
    norm_num [autoCorr_eq, Finset.sum_range_succ]
  obtain ⟨-, h⟩ := C146_match _ _ _ e he _ hE
  have h0 := h 0 (by norm_num)
  have h1 := h 1 (by norm_num)
  rw [C146_autocorrelation] at h0 h1
  refine ⟨h0.trans ?_, h1.trans ?_⟩ <;> norm_num [autoCorr_eq, Finset.sum_range_succ]

end Props
end Spafe
