import Verif.Props.PlpBlind
import Verif.Props.Envelope
import Verif.Spec.PlpModel

/-! C151: the all-pole model that `plp` fits, and the one it should fit. -/

set_option linter.unusedSectionVars false

namespace Spafe
namespace Props
open Model XF Spec Real

/-- A predictor of a frame that is not silent has the properties of C128 and C146. -/
theorem predictor_envelope {x : List ℝ} (hx : NotSilent x) {q : ℕ} (hq : q ≠ 0) {a : ℕ → ℝ} (ha : IsPredictor x q a) :
    ∃ E, E = predError x q a ∧ 0 < E ∧
    (∀ z : ℂ, ∑ k ∈ Finset.range (q + 1), (a k : ℂ) * z ^ (q - k) = 0 → ‖z‖ < 1) ∧
    (∀ m ≤ q, meanOver (fun θ => allPole a q E θ * cos (m * θ)) = meanOver (fun θ => fourierPower x θ * cos (m * θ))) ∧
    meanOver (fun θ => fourierPower x θ / allPole a q E θ) = 1 := by
  obtain ⟨phi, h, -⟩ := lpcHelper_ok hx hq
  set co := 1 :: List.ofFn phi
  have h1 := (lp_row h).1
  have hu := C107_predictor_unique x hx q _ _ ha h1
  have hr : lpResponse a q = lpResponse (fun k => co.getD k 0) q := by
    funext θ
    exact Finset.sum_congr rfl fun k hk => by rw [hu k (by simp at hk; omega)]
  have hE : predError x q a = predError x q fun k => co.getD k 0 := by
    unfold predError predErrorAt
    refine Finset.sum_congr rfl fun n _ => ?_
    congr 2
    exact Finset.sum_congr rfl fun k hk => by rw [hu k (by simp at hk; omega)]
  have hA : ∀ E, allPole a q E = allPole (fun k => co.getD k 0) q E := fun E => by
    funext θ
    unfold allPole
    rw [hr]
  obtain ⟨-, h3, h4⟩ := helper_facts h
  refine ⟨_, rfl, hE ▸ h4, fun z hz => h3 z ?_, fun m hm => ?_, ?_⟩
  · rw [← hz]
    exact Finset.sum_congr rfl fun k hk => by rw [hu k (by simp at hk; omega)]
  · rw [hA]
    exact (C146_match x q co _ h _ hE).2 m hm
  · rw [hA]
    exact (C146_ratio x q co _ h _ hE).1

/-- C151, the part that holds: the coefficients of every row of `plp` come from a stable all-pole model. It is the
envelope not of the loudness values of the bands but of the power spectrum of the `nfft` magnitudes `x` of their inverse
transform, the last transform being taken of a frame and not of an autocorrelation. Missing: that the model is the one of
`IsPlpPredictor`, which is false, see `C151_not_published`. -/
theorem C151_model_partial (a : Args) (fb : List (List ℝ)) (sig : List ℝ) (l s : ℕ) (h : Setup a fb sig l s)
    (ho : 2 ≤ a.numCeps) (hl : a.lifter = none) (hn : a.normalize = none) (E : ℕ → ℕ → ℝ)
    (hE : E = bandEnergy fb (windowWeight a.win.winType l) (emphasised a.preEmph a.preEmphCoeff sig) l s a.nfft)
    (hpos : ∀ i < (sig.length - l) / s + 1, ∃ n < min a.nfft fb.length, E i n ≠ 0) :
    ∃ m, plp a sig = .ok m ∧ HasShape m ((sig.length - l) / s + 1) a.numCeps ∧
      ∀ i < (sig.length - l) / s + 1, ∀ x : List ℝ,
        x = (List.range a.nfft).map (inverseDft a.nfft fb.length fun n => intensity (E i n)) →
        ∃ p G, 0 < G ∧ (∀ k < a.numCeps, (m.getD i []).getD k nan =
            fin (lpCoefficient p (lpResidual x (a.numCeps - 1) p) k)) ∧
          p 0 = 1 ∧ (∀ z : ℂ, ∑ k ∈ Finset.range a.numCeps, (p k : ℂ) * z ^ (a.numCeps - 1 - k) = 0 → ‖z‖ < 1) ∧
          (∀ j < a.numCeps, meanOver (fun θ => allPole p (a.numCeps - 1) G θ * cos (j * θ)) =
            meanOver (fun θ => fourierPower x θ * cos (j * θ))) ∧
          meanOver (fun θ => fourierPower x θ / allPole p (a.numCeps - 1) G θ) = 1 := by
  obtain ⟨m, h1, h2, h3⟩ := C107_plp_meaning a fb sig l s h ho hl hn E hE hpos
  refine ⟨m, h1, h2, fun i hi x hx => ?_⟩
  obtain ⟨p, hp, hv⟩ := h3 i hi x hx
  have hns : NotSilent x := by
    rw [hx, ← ifftAbs_eq, ifftAbs_notSilent fun j => ?_]
    swap
    · by_cases hj : j < fb.length
      · rw [getD_map_range_lt _ _ hj]; exact intensity_nonneg' _
      · rw [List.getD_eq_default _ _ (by simpa using hj)]
    obtain ⟨n, hn, hne⟩ := hpos i hi
    refine ⟨n, by omega, ?_⟩
    rw [getD_map_range_lt _ _ (by omega)]
    exact (intensity_pos' hne).ne'
  obtain ⟨G, -, hG, h4, h5, h6⟩ := predictor_envelope hns (by omega) hp
  rw [show a.numCeps - 1 + 1 = a.numCeps by omega] at h4
  exact ⟨p, G, hG, hv, hp.one, h4, fun j hj => h5 j (by omega), h6⟩

/-- C151 is violated: for two bands with energies 2 and 4 the published method has a positive coefficient above 0.3
(more energy at the high end), `plp` a negative one below -0.3. -/
theorem C151_not_published : ∃ m a, plp levelDemo [2] = .ok m ∧ (m.getD 0 []).getD 1 nan = fin a ∧ a ≤ -0.3 ∧
    ∀ L : ℕ → ℝ, (∀ n < 2, L n = intensity (bandEnergy [[1, 0], [0, 2]] (windowWeight levelDemo.win.winType 1)
      (emphasised levelDemo.preEmph levelDemo.preEmphCoeff [2]) 1 1 levelDemo.nfft 0 n)) →
    ∀ p, IsPlpPredictor 2 L 1 p → 0.3 ≤ p 1 := by
  obtain ⟨m, m', a, b, h1, -, h2, -, h3, -⟩ := C149_level
  refine ⟨m, a, h1, h2, h3, fun L hL p hp => ?_⟩
  have hA : L 0 = intensity 2 := by
    rw [hL 0 (by norm_num), levelDemo_energy 2 _ 0 (by norm_num)]
    norm_num
  have hB : L 1 = intensity 4 := by
    rw [hL 1 (by norm_num), levelDemo_energy 2 _ 1 (by norm_num)]
    norm_num
  have hn := hp.normal 1 le_rfl le_rfl
  simp [spectrumAutoCorr] at hn
  have pA : 0 < L 0 := hA ▸ intensity_pos' (by norm_num)
  have pB : 0 < L 1 := hB ▸ intensity_pos' (by norm_num)
  have d : 2 * L 0 ≤ L 1 := by
    refine le_of_pow_le_pow_left₀ three_ne_zero pB.le ?_
    rw [mul_pow, hA, hB, intensity_cube, intensity_cube]
    norm_num [loudRatio]
  have : 0 < L 0 + L 1 := by positivity
  by_contra hc
  push Not at hc
  have := mul_lt_mul_of_pos_right hc this
  linarith

/-- The hypotheses of `C151_model_partial` are met by every sample that is not zero, in frames of one sample. -/
example (x : ℝ) (hx : x ≠ 0) : ∃ m, plp levelDemo [x] = .ok m ∧ HasShape m 1 2 := by
  obtain ⟨m, h1, h2, -⟩ := C151_model_partial levelDemo _ _ 1 1 (levelDemo_setup x) le_rfl rfl rfl _ rfl (by
    intro i hi
    have : i = 0 := by simpa using hi
    subst this
    refine ⟨0, by simp [levelDemo], ?_⟩
    rw [levelDemo_energy x _ 0 (by norm_num)]
    simpa using hx)
  exact ⟨m, h1, by simpa [levelDemo] using h2⟩

/-- Two equal loudness values have a predictor in the published sense: white, coefficient zero. -/
example : IsPlpPredictor 2 (fun _ => 1) 1 (fun k => if k = 0 then 1 else 0) :=
  ⟨rfl, fun i h1 h2 => by
    have : i = 1 := by omega
    subst this
    simp [spectrumAutoCorr]⟩

end Props
end Spafe
