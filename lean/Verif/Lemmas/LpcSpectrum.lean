import Verif.Lemmas.EnvelopeMean
import Mathlib.Topology.Algebra.Order.Field
import Mathlib.Analysis.Normed.Module.FiniteDimension

/-! The quadratic form of the autocorrelation matrix. -/

set_option linter.unusedSectionVars false

namespace Spafe
open Model XF Spec Real Props

/-- The quadratic form is the energy of the filtered signal. -/
theorem quad_eq (x : List ℝ) (p : ℕ) (y : ℕ → ℝ) :
    ∑ i ∈ Finset.Icc 1 p, ∑ k ∈ Finset.Icc 1 p, y i * y k * autoCorr x ((i : ℤ) - (k : ℤ)).natAbs =
      ∑ n ∈ Finset.range (x.length + p), (∑ k ∈ Finset.Icc 1 p, y k * sh x k n) ^ 2 := by
  have e : ∀ n ∈ Finset.range (x.length + p), (∑ k ∈ Finset.Icc 1 p, y k * sh x k n) ^ 2 =
      ∑ i ∈ Finset.Icc 1 p, y i * ((∑ k ∈ Finset.Icc 1 p, y k * sh x k n) * sh x i n) := by
    intro n _
    rw [sq, Finset.sum_mul]
    refine Finset.sum_congr rfl fun i _ => by ring
  symm
  rw [Finset.sum_congr rfl e, Finset.sum_comm]
  refine Finset.sum_congr rfl fun i hi => ?_
  rw [← Finset.mul_sum, sum_resid_mul y (Finset.mem_Icc.mp hi).2, Finset.mul_sum]
  exact Finset.sum_congr rfl fun k _ => by ring

/-- The quadratic form is positive unless the vector is zero. -/
theorem quad_pos {x : List ℝ} (hx : NotSilent x) {p : ℕ} {y : ℕ → ℝ} (hy : ∃ k, 1 ≤ k ∧ k ≤ p ∧ y k ≠ 0) :
    0 < ∑ i ∈ Finset.Icc 1 p, ∑ k ∈ Finset.Icc 1 p, y i * y k * autoCorr x ((i : ℤ) - (k : ℤ)).natAbs := by
  have h0 : 0 ≤ ∑ i ∈ Finset.Icc 1 p, ∑ k ∈ Finset.Icc 1 p, y i * y k * autoCorr x ((i : ℤ) - (k : ℤ)).natAbs := by
    rw [quad_eq]
    exact Finset.sum_nonneg fun n _ => sq_nonneg _
  refine lt_of_le_of_ne h0 fun hz => ?_
  obtain ⟨k, h1, h2, h3⟩ := hy
  apply h3
  rw [quad_eq] at hz
  have hn := (Finset.sum_eq_zero_iff_of_nonneg fun n _ => sq_nonneg _).mp hz.symm
  refine resid_zero hx (p := p) (v := y) (fun i _ hi => ?_) k h1 h2
  rw [← sum_resid_mul y hi]
  refine Finset.sum_eq_zero fun n hn' => ?_
  rw [pow_eq_zero_iff (two_ne_zero) |>.mp (hn n hn'), zero_mul]

/-- The quadratic form as a mean over the spectrum. -/
theorem quad_spectrum (x : List ℝ) (p : ℕ) (y : ℕ → ℝ) :
    ∑ i ∈ Finset.Icc 1 p, ∑ k ∈ Finset.Icc 1 p, y i * y k * autoCorr x ((i : ℤ) - (k : ℤ)).natAbs =
      meanOver fun θ => fourierPower x θ *
        ‖∑ k ∈ Finset.Icc 1 p, (y k : ℂ) * Complex.exp (-(k * θ * Complex.I))‖ ^ 2 := by
  have e : ∀ θ, fourierPower x θ * ‖∑ k ∈ Finset.Icc 1 p, (y k : ℂ) * Complex.exp (-(k * θ * Complex.I))‖ ^ 2 =
      ∑ i ∈ Finset.Icc 1 p, ∑ j ∈ Finset.Icc 1 p,
        (y i * y j) * (fourierPower x θ * cos (((i : ℤ) - (j : ℤ) : ℤ) * θ)) := by
    intro θ
    rw [normSq_trig, Finset.mul_sum]
    refine Finset.sum_congr rfl fun i _ => ?_
    rw [Finset.mul_sum]
    exact Finset.sum_congr rfl fun j _ => by ring
  have hc := continuous_fourierPower x
  rw [meanOver_congr e, meanOver_sum _ (fun i _ => by fun_prop)]
  refine Finset.sum_congr rfl fun i _ => ?_
  rw [meanOver_sum _ (fun i _ => by fun_prop)]
  refine Finset.sum_congr rfl fun j _ => ?_
  rw [meanOver_const_mul, meanOver_fourierPower]

theorem meanOver_mono {f g : ℝ → ℝ} (hf : Continuous f) (hg : Continuous g) (h : ∀ θ, f θ ≤ g θ) :
    meanOver f ≤ meanOver g := by
  unfold meanOver
  apply div_le_div_of_nonneg_right _ (by positivity)
  exact intervalIntegral.integral_mono_on (by positivity) (hf.intervalIntegrable _ _) (hg.intervalIntegrable _ _)
    fun θ _ => h θ

theorem sum_sq_mean (p : ℕ) (y : ℕ → ℝ) : ∑ k ∈ Finset.Icc 1 p, y k ^ 2 =
    meanOver fun θ => ‖∑ k ∈ Finset.Icc 1 p, (y k : ℂ) * Complex.exp (-(k * θ * Complex.I))‖ ^ 2 := by
  have h := quad_spectrum [1] p y
  have e : ∀ θ : ℝ, fourierPower [1] θ = 1 := by
    intro θ
    rw [fourierPower_eq]
    simp
  simp only [e, one_mul] at h
  rw [← h]
  refine Finset.sum_congr rfl fun i hi => ?_
  rw [Finset.sum_eq_single i]
  · rw [autoCorr_eq]; simp [sq]
  · intro k _ hk
    have : autoCorr [1] ((i : ℤ) - (k : ℤ)).natAbs = 0 := by
      rw [autoCorr_eq]
      have : 1 ≤ ((i : ℤ) - (k : ℤ)).natAbs := by omega
      obtain ⟨m, hm⟩ : ∃ m, ((i : ℤ) - (k : ℤ)).natAbs = m + 1 := ⟨_, (Nat.succ_pred_eq_of_pos this).symm⟩
      rw [hm]; simp
    rw [this, mul_zero]
  · exact fun hc => absurd hi hc

/-- A lower bound of the power spectrum is a lower bound of the quadratic form. -/
theorem quad_ge_spectrum {x : List ℝ} {m : ℝ} (hm : ∀ θ, m ≤ fourierPower x θ) (p : ℕ) (y : ℕ → ℝ) :
    m * ∑ k ∈ Finset.Icc 1 p, y k ^ 2 ≤
      ∑ i ∈ Finset.Icc 1 p, ∑ k ∈ Finset.Icc 1 p, y i * y k * autoCorr x ((i : ℤ) - (k : ℤ)).natAbs := by
  rw [quad_spectrum, sum_sq_mean, ← meanOver_const_mul]
  have hc := continuous_fourierPower x
  apply meanOver_mono (by fun_prop) (by fun_prop)
  intro θ
  exact mul_le_mul_of_nonneg_right (hm θ) (by positivity)

/-- The quadratic form of a frame that is not silent has a positive lower bound on the unit sphere. -/
theorem quad_ge_exists {x : List ℝ} (hx : NotSilent x) {p : ℕ} (hp : 1 ≤ p) :
    ∃ m : ℝ, 0 < m ∧ ∀ y : ℕ → ℝ, m * ∑ k ∈ Finset.Icc 1 p, y k ^ 2 ≤
      ∑ i ∈ Finset.Icc 1 p, ∑ k ∈ Finset.Icc 1 p, y i * y k * autoCorr x ((i : ℤ) - (k : ℤ)).natAbs := by
  haveI : Nonempty (Fin p) := ⟨⟨0, hp⟩⟩
  let Q : (Fin p → ℝ) → ℝ := fun v => ∑ i : Fin p, ∑ k : Fin p, v i * v k *
    autoCorr x (((i : ℕ) : ℤ) - ((k : ℕ) : ℤ)).natAbs
  have hQ : ∀ y : ℕ → ℝ, ∑ i ∈ Finset.Icc 1 p, ∑ k ∈ Finset.Icc 1 p,
      y i * y k * autoCorr x ((i : ℤ) - (k : ℤ)).natAbs = Q fun i => y (i + 1) := by
    intro y
    rw [sum_Icc_one]
    refine Finset.sum_congr rfl fun i _ => ?_
    rw [sum_Icc_one]
    refine Finset.sum_congr rfl fun k _ => ?_
    congr 2
    push_cast
    ring_nf
  have hpos : ∀ v : Fin p → ℝ, v ≠ 0 → 0 < Q v := by
    intro v hv
    have h := hQ (ofFin v)
    have e : (fun i : Fin p => ofFin v (i + 1)) = v := funext fun i => ofFin_succ v i
    rw [e] at h
    rw [← h]
    apply quad_pos hx
    obtain ⟨i, hi⟩ := Function.ne_iff.mp hv
    exact ⟨i + 1, by omega, i.2, by rw [ofFin_succ]; exact hi⟩
  have hcont : Continuous Q := by fun_prop
  obtain ⟨v0, hv0, hmin⟩ := (isCompact_sphere (0 : Fin p → ℝ) 1).exists_isMinOn
    (NormedSpace.sphere_nonempty.mpr zero_le_one) hcont.continuousOn
  have hn0 : ‖v0‖ = 1 := by simpa using hv0
  have hm0 : 0 < Q v0 := hpos v0 fun h => by rw [h, norm_zero] at hn0; exact zero_ne_one hn0
  have hpr : (0 : ℝ) < p := by exact_mod_cast hp
  refine ⟨Q v0 / p, by positivity, fun y => ?_⟩
  rw [hQ, sum_Icc_one]
  show Q v0 / p * ∑ i : Fin p, (fun i : Fin p => y (i + 1)) i ^ 2 ≤ Q fun i : Fin p => y (i + 1)
  generalize (fun i : Fin p => y (i + 1)) = v
  by_cases hv : v = 0
  · rw [hv]; simp [Q]
  have hn : 0 < ‖v‖ := norm_pos_iff.mpr hv
  have hscale : Q v = ‖v‖ ^ 2 * Q (‖v‖⁻¹ • v) := by
    simp only [Q, Finset.mul_sum, Pi.smul_apply, smul_eq_mul]
    refine Finset.sum_congr rfl fun i _ => Finset.sum_congr rfl fun k _ => ?_
    field_simp
  have hge : Q v0 ≤ Q (‖v‖⁻¹ • v) := by
    apply hmin
    rw [mem_sphere_zero_iff_norm, norm_smul, norm_inv, norm_norm, inv_mul_cancel₀ hn.ne']
  have hsum : ∑ i : Fin p, v i ^ 2 ≤ p * ‖v‖ ^ 2 := by
    have := Finset.sum_le_card_nsmul (Finset.univ : Finset (Fin p)) (fun i => v i ^ 2) (‖v‖ ^ 2) (fun i _ => by
      rw [← sq_abs, ← Real.norm_eq_abs]
      exact pow_le_pow_left₀ (norm_nonneg _) (norm_le_pi_norm v i) 2)
    simpa using this
  calc Q v0 / p * ∑ i : Fin p, v i ^ 2 ≤ Q v0 / p * (p * ‖v‖ ^ 2) := mul_le_mul_of_nonneg_left hsum (by positivity)
    _ = ‖v‖ ^ 2 * Q v0 := by field_simp
    _ ≤ Q v := by rw [hscale]; exact mul_le_mul_of_nonneg_left hge (by positivity)

end Spafe
