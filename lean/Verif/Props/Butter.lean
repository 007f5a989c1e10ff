import Verif.Lemmas.Butter
import Verif.Spec.Butter
import Verif.Props.Dominant
import Verif.Props.Errors3

/-! C126, C127: the Butterworth option of `get_dominant_frequencies`. -/

set_option linter.unusedSectionVars false

namespace Spafe
namespace Props
open Model Spec Complex PowerSeries

section Filter
variable {w1 w2 : ℝ} (h1 : 0 < w1) (h12 : w1 < w2) (h2 : w2 < 1)
include h1 h12 h2

/-- The zeros of the filter. -/
noncomputable def digitalZeros : List ℂ := ((List.replicate 6 (0 : ℂ)).map fun z => (4 + z) / (4 - z)) ++ List.replicate 6 (-1)

/-- The gain of the filter. -/
noncomputable def digitalGain (w1 w2 : ℝ) : ℝ :=
  (warp w2 - warp w1) ^ 6 * (((List.replicate 6 (0 : ℂ)).map fun z => 4 - z).prod / gainDen w1 w2).re

theorem butterBand_eq : butterBand w1 w2 = .ok ((npPoly digitalZeros).map fun v => digitalGain w1 w2 * v.re,
    (npPoly (digitalPoles w1 w2)).map re) := by
  rw [butterBand, if_neg (by push Not; exact ⟨h1, by linarith, by linarith, h2⟩), if_neg (by linarith)]
  rfl

omit h1 h12 h2 in
theorem zeros_eq : digitalZeros = List.replicate 6 1 ++ List.replicate 6 (-1) := by
  simp [digitalZeros]

omit h1 h12 h2 in
theorem zeros_prod {M : Type} [CommRing M] (f : ℂ →+* M) (Y : M) :
    (digitalZeros.map fun z => 1 - f z * Y).prod = (1 - Y) ^ 6 * (1 + Y) ^ 6 := by
  rw [zeros_eq, List.map_append, List.prod_append, List.map_replicate, List.map_replicate, List.prod_replicate,
    List.prod_replicate, map_one, map_neg, map_one]
  ring

omit h1 h12 h2 in
theorem zeros_conj : PowerSeries.map (starRingEnd ℂ) (ser (npPoly digitalZeros)) = ser (npPoly digitalZeros) := by
  rw [ser_npPoly, zeros_prod C X]
  simp only [map_mul, map_pow, map_sub, map_add, map_one, map_X]

/-- The impulse response, as a series. -/
theorem impulse : ∃ h : PowerSeries ℝ, (∀ x : List ℝ, ∃ y, butterBand w1 w2 >>= (fun p => .ok (lfilter p.1 p.2 x)) = .ok y ∧
      Convolves (fun n => coeff n h) x y) ∧ L1 (PowerSeries.map ofRealHom h) ∧
    ∀ w : ℂ, ‖w‖ ≤ 1 → ev (PowerSeries.map ofRealHom h) w * ((digitalPoles w1 w2).map fun z => 1 - z * w).prod =
      digitalGain w1 w2 * ((1 - w) ^ 6 * (1 + w) ^ 6) := by
  obtain ⟨a, ha⟩ : ∃ a, a = (npPoly (digitalPoles w1 w2)).map re := ⟨_, rfl⟩
  obtain ⟨b, hb⟩ : ∃ b, b = (npPoly digitalZeros).map fun v => digitalGain w1 w2 * v.re := ⟨_, rfl⟩
  have hA : PowerSeries.map ofRealHom (ser a) = ((digitalPoles w1 w2).map fun z => 1 - C z * X).prod := by
    have := ser_re _ (den_conj h1 h12 h2) 1
    simp only [one_mul, ofReal_one, map_one] at this
    rw [ha, ← ser_npPoly]
    exact this
  have hB : PowerSeries.map ofRealHom (ser b) = C (digitalGain w1 w2 : ℂ) * (digitalZeros.map fun z => 1 - C z * X).prod := by
    rw [hb, ser_re _ zeros_conj, ser_npPoly]
  have ha0 : a.getD 0 0 = 1 := by
    have := congrArg (coeff 0) hA
    rw [coeff_map, coeff_ser, coeff_zero_eq_constantCoeff_apply, map_list_prod, List.map_map] at this
    rw [List.prod_eq_one] at this
    · exact ofReal_injective (by simpa using this)
    · intro x hx
      obtain ⟨z, -, rfl⟩ := List.mem_map.mp hx
      simp
  have hc : constantCoeff (ser a) ≠ 0 := by
    rw [← coeff_zero_eq_constantCoeff_apply, coeff_ser, ha0]; exact one_ne_zero
  have hh : ser a * (ser b * (ser a)⁻¹) = ser b := by
    rw [mul_left_comm, PowerSeries.mul_inv_cancel _ hc, mul_one]
  obtain ⟨h, hdef⟩ : ∃ h, h = ser b * (ser a)⁻¹ := ⟨_, rfl⟩
  rw [← hdef] at hh
  have hm : PowerSeries.map ofRealHom (ser a) * PowerSeries.map ofRealHom h = PowerSeries.map ofRealHom (ser b) := by
    rw [← map_mul, hh]
  have hLz : L1 (digitalZeros.map fun z => 1 - C z * X).prod := L1_prod _ fun φ hφ => by
    obtain ⟨z, -, rfl⟩ := List.mem_map.mp hφ
    exact L1_lin z
  have hLA : ∀ φ ∈ (digitalPoles w1 w2).map fun z => (1 - C z * X : PowerSeries ℂ), L1 φ := fun φ hφ => by
    obtain ⟨z, -, rfl⟩ := List.mem_map.mp hφ
    exact L1_lin z
  have hLC : ∀ k : ℂ, L1 (C k) ∧ ∀ w, ev (C k) w = k := by
    intro k
    refine ⟨summable_of_ne_finset_zero (s := {0}) fun n hn => ?_, fun w => ?_⟩
    · simp only [Finset.mem_singleton] at hn
      rw [coeff_C, if_neg hn, norm_zero]
    · rw [ev, tsum_eq_single 0]
      · simp
      · intro n hn; rw [coeff_C, if_neg hn, zero_mul]
  have hL : L1 (PowerSeries.map ofRealHom h) := by
    have e : PowerSeries.map ofRealHom h = PowerSeries.map ofRealHom (ser b) * ((digitalPoles w1 w2).map geo).prod := by
      rw [← hm, hA, mul_right_comm, geo_prod, one_mul]
    rw [e, hB]
    refine L1_mul (L1_mul (hLC _).1 hLz) (L1_prod _ fun φ hφ => ?_)
    obtain ⟨z, hz, rfl⟩ := List.mem_map.mp hφ
    exact L1_geo (digital_disc h1 h12 h2 hz)
  refine ⟨h, fun x => ⟨lfilter b a x, ?_, lfilter_length b a x, fun n hn => lfilter_conv b a x ha0 h hh hn⟩, hL, fun w hw => ?_⟩
  · rw [butterBand_eq h1 h12 h2, ← ha, ← hb]; rfl
  · have hev := congrArg (fun φ => ev φ w) hm
    rw [hA, hB] at hev
    rw [ev_mul (L1_prod _ hLA) hL hw, ev_mul (hLC _).1 hLz hw, (hLC _).2, ev_prod _ hLA hw, ev_prod _ (fun φ hφ => by
      obtain ⟨z, -, rfl⟩ := List.mem_map.mp hφ
      exact L1_lin z) hw, List.map_map, List.map_map] at hev
    have e1 : (digitalPoles w1 w2).map ((fun φ => ev φ w) ∘ fun z => 1 - C z * X) = (digitalPoles w1 w2).map fun z => 1 - z * w :=
      List.map_congr_left fun z _ => ev_lin z w
    have e2 : digitalZeros.map ((fun φ => ev φ w) ∘ fun z => 1 - C z * X) = digitalZeros.map fun z => 1 - (RingHom.id ℂ) z * w :=
      List.map_congr_left fun z _ => ev_lin z w
    rw [e1, e2, zeros_prod (RingHom.id ℂ) w] at hev
    rw [mul_comm, hev]

theorem gain_sq : digitalGain w1 w2 ^ 2 * normSq (gainDen w1 w2) = (warp w2 - warp w1) ^ 12 * 4 ^ 12 := by
  have hr := conj_eq_iff_real.mp (gainDen_real w1 w2)
  obtain ⟨d, hd⟩ := hr
  have hd0 : d ≠ 0 := by
    rintro rfl
    exact gainDen_ne h1 h12 h2 (by rw [hd]; simp)
  have e : ((List.replicate 6 (0 : ℂ)).map fun z => 4 - z).prod = ((4 ^ 6 : ℝ) : ℂ) := by
    rw [List.map_replicate, List.prod_replicate]; push_cast; ring
  rw [digitalGain, hd, e, ← ofReal_div, ofReal_re, normSq_ofReal]
  field_simp

/-- The power gain, with the sine and cosine of half the angle. -/
theorem power_gain (α : ℝ) (G : ℂ) (hG : G * ((digitalPoles w1 w2).map fun z => 1 - z * cexp (-(2 * α : ℝ) * I)).prod =
      digitalGain w1 w2 * ((1 - cexp (-(2 * α : ℝ) * I)) ^ 6 * (1 + cexp (-(2 * α : ℝ) * I)) ^ 6)) :
    ‖G‖ ^ 2 * ((Real.tan (Real.pi * w1 / 2) * Real.tan (Real.pi * w2 / 2) * Real.cos α ^ 2 - Real.sin α ^ 2) ^ 12 +
      ((Real.tan (Real.pi * w2 / 2) - Real.tan (Real.pi * w1 / 2)) * (Real.sin α * Real.cos α)) ^ 12) =
      ((Real.tan (Real.pi * w2 / 2) - Real.tan (Real.pi * w1 / 2)) * (Real.sin α * Real.cos α)) ^ 12 := by
  obtain ⟨q, hq⟩ : ∃ q, q = cexp (-(α : ℝ) * I) := ⟨_, rfl⟩
  have hq2 : cexp (-(2 * α : ℝ) * I) = q ^ 2 := by
    rw [hq, ← Complex.exp_nat_mul]; congr 1; push_cast; ring
  have hqe : q = (Real.cos α : ℂ) - Real.sin α * I := by
    have : q = cexp ((-α : ℝ) * I) := by rw [hq]; push_cast; rfl
    rw [this, exp_mul_I, ← ofReal_cos, ← ofReal_sin, Real.cos_neg, Real.sin_neg]
    push_cast; ring
  have hcsR := Real.sin_sq_add_cos_sq α
  generalize Real.sin α = S at *
  generalize Real.cos α = K at *
  have hcs : (S : ℂ) ^ 2 + (K : ℂ) ^ 2 = 1 := by exact_mod_cast hcsR
  have hI : I ^ 2 = -1 := I_sq
  have m1 : 1 - q ^ 2 = 2 * I * S * q := by
    rw [hqe]; linear_combination -hcs + (S : ℂ) ^ 2 * hI
  have p1 : 1 + q ^ 2 = 2 * K * q := by
    rw [hqe]; linear_combination -hcs + (S : ℂ) ^ 2 * hI
  have hqn : normSq q = 1 := by
    rw [hqe, normSq_apply]
    simp
    nlinarith
  obtain ⟨f1, f2, f3⟩ := warp_facts h1 h12 h2
  have f3' : (Real.sqrt (warp w1 * warp w2) : ℂ) ^ 2 =
      16 * ((Real.tan (Real.pi * w1 / 2) : ℂ) * Real.tan (Real.pi * w2 / 2)) := by exact_mod_cast f3
  have f4 : ((warp w2 - warp w1 : ℝ) : ℂ) = 4 * ((Real.tan (Real.pi * w2 / 2) : ℂ) - Real.tan (Real.pi * w1 / 2)) := by
    simp only [warp]; push_cast; ring
  have f4' : warp w2 - warp w1 = 4 * (Real.tan (Real.pi * w2 / 2) - Real.tan (Real.pi * w1 / 2)) := by
    simp only [warp]; ring
  have hD := den_mul h1 h12 h2 ℂ (RingHom.id ℂ) (q ^ 2)
  have hg := gain_sq h1 h12 h2
  rw [hq2] at hG
  rw [m1, p1] at hG hD
  generalize Real.tan (Real.pi * w1 / 2) = t1 at *
  generalize Real.tan (Real.pi * w2 / 2) = t2 at *
  obtain ⟨x, hx⟩ : ∃ x, x = t1 * t2 * K ^ 2 - S ^ 2 := ⟨_, rfl⟩
  obtain ⟨β, hβ⟩ : ∃ β, β = (t2 - t1) * (S * K) := ⟨_, rfl⟩
  have hD2 : normSq (gainDen w1 w2) * normSq ((digitalPoles w1 w2).map fun z => 1 - z * q ^ 2).prod =
      64 ^ 12 * (x ^ 12 + β ^ 12) := by
    have := congrArg normSq hD
    rw [map_mul] at this
    simp only [RingHom.id_apply] at this
    rw [this, map_list_prod, List.map_map]
    have e : buttPoles.map (normSq ∘ fun p => 16 * (2 * I * S * q) ^ 2 +
        (Real.sqrt (warp w1 * warp w2) : ℂ) ^ 2 * (2 * K * q) ^ 2 -
        4 * ((warp w2 - warp w1 : ℝ) : ℂ) * p * ((2 * I * S * q) * (2 * K * q))) =
        buttPoles.map fun p => 64 ^ 2 * ‖(x : ℂ) - I * β * p‖ ^ 2 := by
      refine List.map_congr_left fun p _ => ?_
      have e2 : 16 * (2 * I * S * q) ^ 2 +
          (Real.sqrt (warp w1 * warp w2) : ℂ) ^ 2 * (2 * K * q) ^ 2 -
          4 * ((warp w2 - warp w1 : ℝ) : ℂ) * p * ((2 * I * S * q) * (2 * K * q)) =
          ((64 : ℝ) : ℂ) * q ^ 2 * ((x : ℂ) - I * β * p) := by
        rw [f3', f4, hx, hβ]
        push_cast
        linear_combination 64 * (S : ℂ) ^ 2 * q ^ 2 * hI
      simp only [Function.comp]
      rw [e2, map_mul, map_mul, map_pow, hqn, normSq_ofReal, normSq_eq_norm_sq]
      ring
    rw [e]
    have e3 : (buttPoles.map fun p => 64 ^ 2 * ‖(x : ℂ) - I * β * p‖ ^ 2).prod =
        (buttPoles.map fun _ => (64 : ℝ) ^ 2).prod * (buttPoles.map fun p => ‖(x : ℂ) - I * β * p‖ ^ 2).prod :=
      List.prod_map_mul
    rw [e3, butterworth_identity]
    congr 1
    rw [List.map_const', List.prod_replicate]
    norm_num [buttPoles]
  have hG2 := congrArg normSq hG
  rw [map_mul, map_mul, map_mul, map_pow, map_pow, map_mul, map_mul, map_mul, map_mul, map_mul, hqn, normSq_ofReal, normSq_ofReal,
    normSq_ofReal, normSq_I, show normSq (2 : ℂ) = 4 by norm_num [normSq_apply]] at hG2
  rw [← hx, ← hβ, ← normSq_eq_norm_sq]
  have hfin : normSq G * (64 ^ 12 * (x ^ 12 + β ^ 12)) = 64 ^ 12 * β ^ 12 := by
    rw [← hD2]
    calc _ = normSq (gainDen w1 w2) * (normSq G * normSq ((digitalPoles w1 w2).map fun z => 1 - z * q ^ 2).prod) := by ring
      _ = (digitalGain w1 w2 ^ 2 * normSq (gainDen w1 w2)) * (4 ^ 12 * (S * K) ^ 12) := by rw [hG2]; ring
      _ = _ := by rw [hg, f4', hβ]; ring
  have h64 : (64 : ℝ) ^ 12 ≠ 0 := by positivity
  have : (64 : ℝ) ^ 12 * (normSq G * (x ^ 12 + β ^ 12)) = 64 ^ 12 * β ^ 12 := by rw [← hfin]; ring
  exact mul_left_cancel₀ h64 this

end Filter

theorem response_eq (h : PowerSeries ℝ) (fs f : ℝ) : response (fun n => coeff n h) fs f =
    ev (PowerSeries.map ofRealHom h) (cexp (-(2 * (Real.pi * f / fs) : ℝ) * I)) := by
  rw [response, ev]
  refine tsum_congr fun n => ?_
  rw [coeff_map, ← Complex.exp_nat_mul]
  congr 2
  push_cast; ring

/-- C126: with `0 < lower_cutoff < upper_cutoff < fs / 2` the option filters every signal with one and the same impulse
response. It is absolutely summable (the filter is stable), the power gain at every frequency between 0 and `fs / 2` is that
of a Butterworth band-pass filter of order 6, and a constant and the alternating signal are removed. -/
theorem C126_band_pass {fs f1 f2 : ℝ} (hfs : 0 < fs) (h1 : 0 < f1) (h12 : f1 < f2) (h2 : f2 < fs / 2) :
    ∃ h : ℕ → ℝ, (Summable fun n => |h n|) ∧
      (∀ sig, ∃ y, butterSig fs f1 f2 sig = .ok y ∧ Convolves h sig y) ∧
      (∀ f, 0 < f → f < fs / 2 → ‖response h fs f‖ ^ 2 = bandGain fs f1 f2 f) ∧
      response h fs 0 = 0 ∧ response h fs (fs / 2) = 0 := by
  have g1 : 0 < f1 * 2 / fs := by positivity
  have g12 : f1 * 2 / fs < f2 * 2 / fs := by gcongr
  have g2 : f2 * 2 / fs < 1 := by rw [div_lt_one hfs]; linarith
  obtain ⟨h, hy, hL, hev⟩ := impulse g1 g12 g2
  obtain ⟨ht1, ht12⟩ := tan_pos_lt g1 g12 g2
  have et : ∀ f : ℝ, Real.pi * (f * 2 / fs) / 2 = Real.pi * f / fs := fun f => by ring
  have hw : ∀ α : ℝ, ‖cexp (-(2 * α : ℝ) * I)‖ ≤ 1 := fun α => by
    have : -((2 * α : ℝ) : ℂ) = ((-(2 * α) : ℝ) : ℂ) := by push_cast; ring
    rw [this, norm_exp_ofReal_mul_I]
  have hp := fun α => power_gain g1 g12 g2 α _ (hev _ (hw α))
  rw [et, et] at hp
  rw [et, et] at ht12
  rw [et] at ht1
  refine ⟨fun n => coeff n h, ?_, fun sig => ?_, fun f hf1 hf2 => ?_, ?_, ?_⟩
  · refine hL.congr fun n => ?_
    rw [coeff_map]
    exact norm_real _
  · obtain ⟨y, e, hc⟩ := hy sig
    exact ⟨y, by rw [butterSig, if_neg hfs.ne']; exact e, hc⟩
  · rw [response_eq]
    have hpα := hp (Real.pi * f / fs)
    have ha0 : 0 < Real.pi * f / fs := by positivity
    have ha1 : Real.pi * f / fs < Real.pi / 2 := by
      rw [div_lt_iff₀ hfs]
      nlinarith [Real.pi_pos]
    have hC : 0 < Real.cos (Real.pi * f / fs) := Real.cos_pos_of_mem_Ioo ⟨by linarith [Real.pi_pos], ha1⟩
    have hS : 0 < Real.sin (Real.pi * f / fs) := Real.sin_pos_of_pos_of_lt_pi ha0 (by linarith [Real.pi_pos])
    rw [bandGain, Real.tan_eq_sin_div_cos (Real.pi * f / fs)]
    generalize ‖ev (PowerSeries.map ofRealHom h) _‖ ^ 2 = G at *
    generalize Real.sin (Real.pi * f / fs) = S at *
    generalize Real.cos (Real.pi * f / fs) = K at *
    generalize Real.tan (Real.pi * f1 / fs) = t1 at *
    generalize Real.tan (Real.pi * f2 / fs) = t2 at *
    have ht : 0 < t2 - t1 := by linarith
    have e : ((S / K) ^ 2 - t1 * t2) / (S / K * (t2 - t1)) = -((t1 * t2 * K ^ 2 - S ^ 2) / ((t2 - t1) * (S * K))) := by
      field_simp
      ring
    rw [e, Even.neg_pow (by decide), div_pow]
    generalize t1 * t2 * K ^ 2 - S ^ 2 = x at *
    have hβ : 0 < (t2 - t1) * (S * K) := by positivity
    generalize (t2 - t1) * (S * K) = β at *
    have : x ^ 12 + β ^ 12 ≠ 0 := by positivity
    rw [eq_div_iff (by positivity)]
    have h3 : G * (x ^ 12 + β ^ 12) = β ^ 12 := hpα
    field_simp
    linarith
  · have := hp 0
    rw [response_eq, show Real.pi * 0 / fs = 0 by simp]
    simp only [Real.sin_zero, Real.cos_zero, zero_mul, mul_zero, ne_eq, OfNat.ofNat_ne_zero, not_false_eq_true, zero_pow,
      add_zero, one_pow, mul_one, sub_zero, mul_eq_zero, pow_eq_zero_iff, norm_eq_zero] at this
    simp only [mul_zero] 
    rcases this with h0 | h0
    · exact h0
    · exact absurd h0 (by rintro (h | h) <;> linarith)
  · have := hp (Real.pi / 2)
    rw [response_eq, show Real.pi * (fs / 2) / fs = Real.pi / 2 by field_simp]
    rw [Real.sin_pi_div_two, Real.cos_pi_div_two] at this
    norm_num at this
    norm_num
    exact this

/-- C126: what the formula says. The gain is at most 1, the gain at a cut-off frequency is 1/2 (-3 dB), and exactly the
frequencies from `f1` to `f2` have a gain of at least 1/2. -/
theorem C126_gain {fs f1 f2 : ℝ} (hfs : 0 < fs) (h1 : 0 < f1) (h12 : f1 < f2) (h2 : f2 < fs / 2) :
    bandGain fs f1 f2 f1 = 1 / 2 ∧ bandGain fs f1 f2 f2 = 1 / 2 ∧
    ∀ f, 0 < f → f < fs / 2 → 0 < bandGain fs f1 f2 f ∧ bandGain fs f1 f2 f ≤ 1 ∧
      (1 / 2 ≤ bandGain fs f1 f2 f ↔ f1 ≤ f ∧ f ≤ f2) := by
  have hpi := Real.pi_pos
  have ang : ∀ f, 0 < f → f < fs / 2 → 0 < Real.pi * f / fs ∧ Real.pi * f / fs < Real.pi / 2 := by
    intro f a b
    refine ⟨by positivity, ?_⟩
    rw [div_lt_iff₀ hfs]
    nlinarith
  have tpos : ∀ f, 0 < f → f < fs / 2 → 0 < Real.tan (Real.pi * f / fs) := fun f a b =>
    Real.tan_pos_of_pos_of_lt_pi_div_two (ang f a b).1 (ang f a b).2
  have tlt : ∀ f g, 0 < f → f < g → g < fs / 2 → Real.tan (Real.pi * f / fs) < Real.tan (Real.pi * g / fs) := by
    intro f g a b c
    refine Real.tan_lt_tan_of_nonneg_of_lt_pi_div_two (ang f a (by linarith)).1.le (ang g (by linarith) c).2 ?_
    gcongr
  have tle : ∀ f g, 0 < f → f < fs / 2 → 0 < g → g < fs / 2 →
      (Real.tan (Real.pi * f / fs) ≤ Real.tan (Real.pi * g / fs) ↔ f ≤ g) := by
    intro f g a b c d
    constructor
    · intro h
      by_contra hc
      exact absurd (tlt g f c (not_le.mp hc) b) (not_lt.mpr h)
    · intro h
      rcases h.lt_or_eq with h | rfl
      · exact (tlt f g a h d).le
      · exact le_rfl
  have key : ∀ f, 0 < f → f < fs / 2 → 0 < bandGain fs f1 f2 f ∧ bandGain fs f1 f2 f ≤ 1 ∧
      (1 / 2 ≤ bandGain fs f1 f2 f ↔ f1 ≤ f ∧ f ≤ f2) := by
    intro f a b
    have t0 := tpos f a b
    have t1 := tpos f1 h1 (by linarith)
    have t12 := tlt f1 f2 h1 h12 h2
    rw [← tle f1 f h1 (by linarith) a b, ← tle f f2 a b (by linarith) h2, bandGain]
    generalize Real.tan (Real.pi * f / fs) = t at *
    generalize Real.tan (Real.pi * f1 / fs) = u at *
    generalize Real.tan (Real.pi * f2 / fs) = v at *
    have hd : 0 < t * (v - u) := mul_pos t0 (by linarith)
    obtain ⟨o, ho⟩ : ∃ o, o = (t ^ 2 - u * v) / (t * (v - u)) := ⟨_, rfl⟩
    rw [← ho]
    have ho12 : 0 ≤ o ^ 12 := by positivity
    refine ⟨by positivity, by rw [div_le_one (by positivity)]; linarith, ?_⟩
    rw [div_le_div_iff_of_pos_left one_pos two_pos (by positivity)]
    have e1 : 1 + o ^ 12 ≤ 2 ↔ |o| ≤ 1 := by
      rw [← Even.pow_abs (by decide : Even 12) o]
      rw [show (1 + |o| ^ 12 ≤ 2) = (|o| ^ 12 ≤ 1) by rw [eq_iff_iff]; constructor <;> intro h <;> linarith]
      exact pow_le_one_iff_of_nonneg (abs_nonneg _) (by norm_num)
    rw [e1, ho, abs_div, abs_of_pos hd, div_le_one hd, abs_le]
    constructor
    · rintro ⟨p, q⟩
      constructor
      · have : 0 ≤ (t + v) * (t - u) := by nlinarith
        by_contra hc
        have := not_le.mp hc
        nlinarith
      · have : (t + u) * (t - v) ≤ 0 := by nlinarith
        by_contra hc
        have := not_le.mp hc
        nlinarith
    · rintro ⟨p, q⟩
      constructor <;> nlinarith
  refine ⟨?_, ?_, key⟩
  · have t1 := tpos f1 h1 (by linarith)
    have t12 := tlt f1 f2 h1 h12 h2
    rw [bandGain]
    generalize Real.tan (Real.pi * f1 / fs) = u at *
    generalize Real.tan (Real.pi * f2 / fs) = v at *
    have : (u ^ 2 - u * v) / (u * (v - u)) = -1 := by
      rw [div_eq_iff (mul_pos t1 (by linarith)).ne']; ring
    rw [this]; norm_num
  · have t2 := tpos f2 (by linarith) h2
    have t12 := tlt f1 f2 h1 h12 h2
    rw [bandGain]
    generalize Real.tan (Real.pi * f1 / fs) = u at *
    generalize Real.tan (Real.pi * f2 / fs) = v at *
    have : (v ^ 2 - u * v) / (v * (v - u)) = 1 := by
      rw [div_eq_iff (mul_pos t2 (by linarith)).ne']; ring
    rw [this]; norm_num

/-- The steady state of a stable filter. -/
theorem steady {h : ℕ → ℝ} (hs : Summable fun n => |h n|) {ε : ℝ} (hε : 0 < ε) : ∃ N, ∀ (fs f A φ : ℝ) (x y : List ℝ),
    Convolves h x y → (∀ n < x.length, x.getD n 0 = A * Real.cos (2 * Real.pi * f / fs * n + φ)) →
    ∀ n, N ≤ n → n < x.length →
      |y.getD n 0 - A * (‖response h fs f‖ * Real.cos (2 * Real.pi * f / fs * n + φ + (response h fs f).arg))| ≤ ε * |A| := by
  have htail := tendsto_sum_nat_add fun n => |h n|
  obtain ⟨N, hN⟩ := (Metric.tendsto_atTop.mp htail) ε hε
  refine ⟨N, fun fs f A φ x y hc hx n hNn hn => ?_⟩
  obtain ⟨θ, hθ⟩ : ∃ θ, θ = 2 * Real.pi * f / fs := ⟨_, rfl⟩
  obtain ⟨g, hg⟩ : ∃ g : ℕ → ℂ, g = fun k => (h k : ℂ) * cexp (-(θ * k : ℝ) * I) := ⟨_, rfl⟩
  have hgn : ∀ k, ‖g k‖ = |h k| := by
    intro k
    have e : -((θ * k : ℝ) : ℂ) = ((-(θ * k) : ℝ) : ℂ) := by push_cast; ring
    rw [hg]
    dsimp only
    rw [norm_mul, e, norm_exp_ofReal_mul_I, mul_one, norm_real, Real.norm_eq_abs]
  have hgs : Summable g := Summable.of_norm (by simpa only [hgn] using hs)
  have hR : response h fs f = ∑' k, g k := by
    rw [response, hg, hθ]
  have hsplit := hgs.sum_add_tsum_nat_add (n + 1)
  obtain ⟨c, hcdef⟩ : ∃ c : ℂ, c = A * cexp ((θ * n + φ : ℝ) * I) := ⟨_, rfl⟩
  have hcn : ‖c‖ = |A| := by
    rw [hcdef, norm_mul, norm_exp_ofReal_mul_I, mul_one, norm_real, Real.norm_eq_abs]
  have hy : y.getD n 0 = (c * ∑ k ∈ Finset.range (n + 1), g k).re := by
    rw [hc.2 n hn, Finset.mul_sum, re_sum]
    refine Finset.sum_congr rfl fun k hk => ?_
    have hkn : k ≤ n := by have := Finset.mem_range.mp hk; omega
    rw [hx (n - k) (by omega), hcdef, hg]
    have e : A * cexp ((θ * n + φ : ℝ) * I) * ((h k : ℂ) * cexp (-(θ * k : ℝ) * I)) =
        ((A * h k : ℝ) : ℂ) * cexp ((θ * (n - k : ℕ) + φ : ℝ) * I) := by
      have e2 : cexp ((θ * n + φ : ℝ) * I) * cexp (-(θ * k : ℝ) * I) = cexp ((θ * (n - k : ℕ) + φ : ℝ) * I) := by
        rw [← Complex.exp_add]
        congr 1
        push_cast [Nat.cast_sub hkn]
        ring
      rw [← e2]; push_cast; ring
    rw [e, re_ofReal_mul, exp_ofReal_mul_I_re, ← hθ]
    ring
  have hs2 : A * (‖response h fs f‖ * Real.cos (θ * n + φ + (response h fs f).arg)) = (c * response h fs f).re := by
    have e : c * response h fs f = ((A * ‖response h fs f‖ : ℝ) : ℂ) * cexp ((θ * n + φ + (response h fs f).arg : ℝ) * I) := by
      conv_lhs => rw [← norm_mul_exp_arg_mul_I (response h fs f)]
      have e2 : cexp ((θ * n + φ + (response h fs f).arg : ℝ) * I) =
          cexp ((θ * n + φ : ℝ) * I) * cexp ((response h fs f).arg * I) := by
        rw [← Complex.exp_add]
        congr 1
        push_cast
        ring
      rw [e2, hcdef]; push_cast; ring
    rw [e, re_ofReal_mul, exp_ofReal_mul_I_re]
    ring
  rw [← hθ, hs2, hy, ← sub_re, ← mul_sub, hR, ← hsplit, sub_add_cancel_left]
  refine le_trans (abs_re_le_norm _) ?_
  rw [norm_mul, norm_neg, hcn, mul_comm]
  refine mul_le_mul_of_nonneg_right ?_ (abs_nonneg _)
  have h3 := hN (n + 1) (by omega)
  rw [Real.dist_eq, sub_zero] at h3
  have hs3 : Summable fun k => ‖g (k + (n + 1))‖ := by
    have := (summable_nat_add_iff (f := fun k => |h k|) (n + 1)).mpr hs
    exact this.congr fun k => (hgn _).symm
  have h4 : ‖∑' k, g (k + (n + 1))‖ ≤ ∑' k, ‖g (k + (n + 1))‖ := norm_tsum_le_tsum_norm hs3
  have h5 : ∑' k, ‖g (k + (n + 1))‖ = ∑' k, |h (k + (n + 1))| := tsum_congr fun k => hgn _
  rw [h5] at h4
  exact h4.trans ((le_abs_self _).trans h3.le)

/-- C126: a tone of frequency `f`, amplitude `A` and any phase comes out, after a start-up time that does not depend on the
tone, as a tone of the same frequency and amplitude `A |H(f)|`, up to an error of `ε A`; `|H(f)|²` is the Butterworth gain. -/
theorem C126_tone {fs f1 f2 : ℝ} (hfs : 0 < fs) (h1 : 0 < f1) (h12 : f1 < f2) (h2 : f2 < fs / 2) :
    ∃ H : ℝ → ℂ, (∀ f, 0 < f → f < fs / 2 → ‖H f‖ ^ 2 = bandGain fs f1 f2 f) ∧ H 0 = 0 ∧ H (fs / 2) = 0 ∧
      ∀ ε > 0, ∃ N, ∀ (f A φ : ℝ) (x : List ℝ),
        (∀ n < x.length, x.getD n 0 = A * Real.cos (2 * Real.pi * f / fs * n + φ)) →
        ∃ y, butterSig fs f1 f2 x = .ok y ∧ y.length = x.length ∧ ∀ n, N ≤ n → n < x.length →
          |y.getD n 0 - A * (‖H f‖ * Real.cos (2 * Real.pi * f / fs * n + φ + (H f).arg))| ≤ ε * |A| := by
  obtain ⟨h, hs, hy, hg, h0, hn⟩ := C126_band_pass hfs h1 h12 h2
  refine ⟨response h fs, hg, h0, hn, fun ε hε => ?_⟩
  obtain ⟨N, hN⟩ := steady hs hε
  refine ⟨N, fun f A φ x hx => ?_⟩
  obtain ⟨y, e, hc⟩ := hy x
  exact ⟨y, e, hc.1, hN fs f A φ x y hc hx⟩

/-- C126: bounded signals stay bounded, with one constant for all signals of all lengths. -/
theorem C126_bounded {fs f1 f2 : ℝ} (hfs : 0 < fs) (h1 : 0 < f1) (h12 : f1 < f2) (h2 : f2 < fs / 2) :
    ∃ K, ∀ (x : List ℝ) (M : ℝ), (∀ v ∈ x, |v| ≤ M) →
      ∃ y, butterSig fs f1 f2 x = .ok y ∧ ∀ v ∈ y, |v| ≤ K * M := by
  obtain ⟨h, hs, hy, -⟩ := C126_band_pass hfs h1 h12 h2
  refine ⟨∑' n, |h n|, fun x M hM => ?_⟩
  obtain ⟨y, e, hc⟩ := hy x
  refine ⟨y, e, fun v hv => ?_⟩
  obtain ⟨n, hn, rfl⟩ := (mem_iff_getD (0 : ℝ) v).mp hv
  rw [hc.1] at hn
  have hM0 : 0 ≤ M := le_trans (abs_nonneg _) (hM _ (getD_mem 0 hn))
  rw [hc.2 n hn]
  refine le_trans (Finset.abs_sum_le_sum_abs _ _) ?_
  refine le_trans (Finset.sum_le_sum (g := fun k => |h k| * M) fun k hk => ?_) ?_
  · rw [abs_mul]
    exact mul_le_mul_of_nonneg_left (hM _ (getD_mem 0 (by omega))) (abs_nonneg _)
  · rw [← Finset.sum_mul]
    exact mul_le_mul_of_nonneg_right (hs.sum_le_tsum _ fun _ _ => abs_nonneg _) hM0

/-- C127: which exception `get_dominant_frequencies` raises with `butter_filter=True`. -/
theorem C127_exceptions (sig : List ℝ) (fs lower upper : ℝ) (nfft : ℕ) (win : SlidingWindow) (op : Bool) (hfs : 0 ≤ fs)
    (hh : 0 ≤ win.winHop) (hlu : lower < upper) :
    raised (getDominantFrequencies sig fs true lower upper nfft win op) =
      firstError ([(fs = 0, .zeroDivisionError), (lower ≤ 0 ∨ fs / 2 ≤ upper, .valueError)] ++
        frameChecks fs win sig.length ++ [(nfft = 0, .valueError)]) := by
  rw [getDominantFrequencies, if_pos rfl, getDominant, List.append_assoc, List.cons_append, List.cons_append, List.nil_append]
  by_cases h0 : fs = 0
  · rw [firstError, if_pos h0, butterSig, if_pos h0]; rfl
  have hfs' : 0 < fs := lt_of_le_of_ne hfs (Ne.symm h0)
  rw [firstError, if_neg h0, firstError]
  by_cases hc : lower ≤ 0 ∨ fs / 2 ≤ upper
  · rw [if_pos hc, butterSig, if_neg h0, butterBand, if_pos]
    · rfl
    · rcases hc with h | h
      · exact Or.inl (div_nonpos_of_nonpos_of_nonneg (by linarith) hfs)
      · exact Or.inr (Or.inr (Or.inr (by rw [le_div_iff₀ hfs']; linarith)))
  · rw [if_neg hc]
    push Not at hc
    obtain ⟨h, -, hy, -⟩ := C126_band_pass hfs' hc.1 hlu hc.2
    obtain ⟨y, e, hcv⟩ := hy sig
    have := C123_dominant y fs nfft win op hfs hh
    rw [hcv.1] at this
    rw [e, ok_bind, ← this]
    rfl

/-- C127: with the default cut-off frequencies the option fails for every signal sampled at 6000 Hz or less. -/
theorem C127_default_fails (sig : List ℝ) (fs : ℝ) (hfs : 0 < fs) (hf : fs ≤ 6000) :
    getDominantFrequencies sig fs true = .error .valueError := by
  have h := C127_exceptions sig fs 50 3000 512 {} true hfs.le (by norm_num) (by norm_num)
  rw [List.append_assoc, List.cons_append, List.cons_append, firstError, if_neg hfs.ne', firstError, if_pos (Or.inr (by linarith))] at h
  cases hg : getDominantFrequencies sig fs true with
  | ok r => rw [hg] at h; simp [raised] at h
  | error e => rw [hg] at h; simp only [raised, Option.some.injEq] at h; rw [h]

/-- C127: filtered or not, one frequency per frame and no dependence on the level. -/
theorem C127_count_gain (sig : List ℝ) {fs lower upper : ℝ} (nfft : ℕ) (win : SlidingWindow) (op : Bool) (hfs : 0 < fs)
    (h1 : 0 < lower) (h12 : lower < upper) (h2 : upper < fs / 2) (hS : 0 < pyInt (win.winHop * fs)) :
    (∀ c : ℝ, c ≠ 0 → getDominantFrequencies (sig.map (c * ·)) fs true lower upper nfft win op =
      getDominantFrequencies sig fs true lower upper nfft win op) ∧
    ∀ ds, getDominantFrequencies sig fs true lower upper nfft win false = .ok ds →
      ∃ l s : ℕ, pyInt (win.winLen * fs) = l ∧ pyInt (win.winHop * fs) = s ∧ l ≤ sig.length ∧
        ds.length = (sig.length - l) / s + 1 ∧
        getDominantFrequencies sig fs true lower upper nfft win true = .ok (ds.filter fun d => decide (0 ≤ d)) := by
  obtain ⟨h, -, hy, -⟩ := C126_band_pass hfs h1 h12 h2
  constructor
  · intro c hc
    simp only [getDominantFrequencies, if_true]
    refine C99_gain _ sig fs nfft win op c hc ?_
    obtain ⟨y, e, hcv⟩ := hy sig
    obtain ⟨y', e', hcv'⟩ := hy (sig.map (c * ·))
    rw [e, e']
    show Except.ok y' = Except.ok (y.map (c * ·))
    congr 1
    refine ext_getD 0 (by rw [hcv'.1, List.length_map, List.length_map, hcv.1]) fun n hn => ?_
    rw [hcv'.1] at hn
    have hn' : n < sig.length := by simpa using hn
    rw [hcv'.2 n hn, getD_map_lt _ _ 0 0 (by rw [hcv.1]; exact hn'), hcv.2 n hn', Finset.mul_sum]
    refine Finset.sum_congr rfl fun k _ => ?_
    rw [getD_map_lt _ _ 0 0 (by omega)]
    ring
  · intro ds hds
    obtain ⟨y, e, hcv⟩ := hy sig
    simp only [getDominantFrequencies, if_true] at hds ⊢
    have := (C85_count e hS).1 hds
    rwa [hcv.1] at this

theorem butterSig_smul (fs lower upper c : ℝ) (sig : List ℝ) :
    butterSig fs lower upper (sig.map (c * ·)) = (butterSig fs lower upper sig).map (List.map (c * ·)) := by
  unfold butterSig
  split_ifs
  · rfl
  · cases butterBand (lower * 2 / fs) (upper * 2 / fs) with
    | error e => rfl
    | ok p =>
      obtain ⟨b, a⟩ := p
      simp only [ok_bind, lfilter_smul]
      rfl

/-- C99 and C110 for the function as users call it: with or without the Butterworth filter, whatever its cut-off
frequencies, the outcome does not change when the signal is multiplied by a constant other than 0. -/
theorem C99_call (sig : List ℝ) (fs : ℝ) (bf : Bool) (lower upper : ℝ) (nfft : ℕ) (win : SlidingWindow) (op : Bool) (c : ℝ)
    (hc : c ≠ 0) : getDominantFrequencies (sig.map (c * ·)) fs bf lower upper nfft win op =
      getDominantFrequencies sig fs bf lower upper nfft win op := by
  unfold getDominantFrequencies
  refine C99_gain _ sig fs nfft win op c hc ?_
  cases bf
  · rfl
  · exact butterSig_smul fs lower upper c sig

theorem C110_call (sig : List ℝ) (fs : ℝ) (bf : Bool) (lower upper : ℝ) (nfft : ℕ) (win : SlidingWindow) (op : Bool) :
    getDominantFrequencies (sig.map fun x => -x) fs bf lower upper nfft win op =
      getDominantFrequencies sig fs bf lower upper nfft win op := by
  have e : (sig.map fun x => -x) = sig.map ((-1 : ℝ) * ·) := List.map_congr_left fun x _ => by ring
  rw [e]
  exact C99_call sig fs bf lower upper nfft win op _ (by norm_num)

/-- The default band at 16 kHz. -/
example : (0 : ℝ) < 16000 ∧ (0 : ℝ) < 50 ∧ (50 : ℝ) < 3000 ∧ (3000 : ℝ) < 16000 / 2 := by norm_num

/-- A band from `fs / 6` to `fs / 3`: the quarter of the sampling rate passes with gain 1. -/
example : bandGain 12 2 4 3 = 1 := by
  rw [bandGain]
  have e1 : Real.pi * 3 / 12 = Real.pi / 4 := by ring
  have e2 : Real.pi * 2 / 12 = Real.pi / 6 := by ring
  have e3 : Real.pi * 4 / 12 = Real.pi / 3 := by ring
  have h3 : Real.sqrt 3 ^ 2 = 3 := Real.sq_sqrt (by norm_num)
  rw [e1, e2, e3, Real.tan_pi_div_four, Real.tan_pi_div_six, Real.tan_pi_div_three]
  have : 1 / Real.sqrt 3 * Real.sqrt 3 = 1 := by field_simp
  rw [this]; norm_num

end Props
end Spafe
