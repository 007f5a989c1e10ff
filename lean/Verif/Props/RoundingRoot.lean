import Verif.Props.RoundingAll
import Mathlib.Analysis.MeanInequalitiesPow

/-! C174: the root features `gfcc` and `msrcc`, and `bfcc`, in floating point. -/

set_option linter.unusedSectionVars false

namespace Spafe
namespace Props
open Model XF Spec

variable {u v ω δ : ℝ} {fl : ℝ → ℝ} {fft : (ℕ → ℝ) → ℕ → ℂ} {abs : ℂ → ℝ} {wv : ℕ → ℝ}

theorem rpow_sub_le {x y p : ℝ} (hx : 0 ≤ x) (hxy : x ≤ y) (h0 : 0 ≤ p) (h1 : p ≤ 1) : y ^ p - x ^ p ≤ (y - x) ^ p := by
  have h := NNReal.rpow_add_le_add_rpow ⟨x, hx⟩ ⟨y - x, sub_nonneg.mpr hxy⟩ h0 h1
  have h' : (x + (y - x)) ^ p ≤ x ^ p + (y - x) ^ p := NNReal.coe_le_coe.mpr h
  rw [add_sub_cancel] at h'
  linarith

/-- A power with exponent at most one changes by at most the power of the change. -/
theorem abs_rpow_sub_le {x y p : ℝ} (hx : 0 ≤ x) (hy : 0 ≤ y) (h0 : 0 ≤ p) (h1 : p ≤ 1) : |y ^ p - x ^ p| ≤ |y - x| ^ p := by
  rcases le_total x y with h | h
  · rw [abs_of_nonneg (sub_nonneg.mpr (Real.rpow_le_rpow hx h h0)), abs_of_nonneg (sub_nonneg.mpr h)]
    exact rpow_sub_le hx h h0 h1
  · rw [abs_sub_comm, abs_sub_comm y x, abs_of_nonneg (sub_nonneg.mpr (Real.rpow_le_rpow hy h h0)), abs_of_nonneg (sub_nonneg.mpr h)]
    exact rpow_sub_le hy h h0 h1

/-- The power `γ` is the power `2γ` of the square root. -/
theorem rpow_eq_sqrt {E : ℝ} (hE : 0 ≤ E) (γ : ℝ) : E ^ γ = √E ^ (2 * γ) := by
  rw [Real.sqrt_eq_rpow, ← Real.rpow_mul hE]
  congr 1
  ring

/-- Relative closeness of the square roots gives relative closeness of any power. -/
theorem rpow_near {E E' η γ : ℝ} (h0 : 0 ≤ η) (h1 : η < 1) (hE : 0 < E) (hd : |√E' - √E| ≤ η * √E) :
    0 < E' ∧ |E' ^ γ - E ^ γ| ≤ ((1 / (1 - η)) ^ (2 * |γ|) - 1) * E ^ γ := by
  have hs : 0 < √E := Real.sqrt_pos.mpr hE
  have hη : 0 < 1 - η := by linarith
  obtain ⟨hl, hu⟩ := abs_le.mp hd
  have hl' : (1 - η) * √E ≤ √E' := by linarith
  have hs' : 0 < √E' := lt_of_lt_of_le (mul_pos hη hs) hl'
  have hE' : 0 < E' := Real.sqrt_pos.mp hs'
  refine ⟨hE', ?_⟩
  set q := √E' / √E with hq
  have hq0 : 0 < q := div_pos hs' hs
  have hq1 : 1 - η ≤ q := by rwa [hq, le_div_iff₀ hs]
  have hq2 : q ≤ 1 / (1 - η) := by
    have : q ≤ 1 + η := by rw [hq, div_le_iff₀ hs]; linarith
    refine this.trans ?_
    rw [le_div_iff₀ hη]
    nlinarith
  have e : E' ^ γ = q ^ (2 * γ) * E ^ γ := by
    rw [rpow_eq_sqrt hE'.le, rpow_eq_sqrt hE.le, ← Real.mul_rpow hq0.le hs.le, hq, div_mul_cancel₀ _ hs.ne']
  have hB : 0 < 1 / (1 - η) := by positivity
  have hlow : (1 / (1 - η)) ^ (-(2 * |γ|)) ≤ q ^ (2 * γ) ∧ q ^ (2 * γ) ≤ (1 / (1 - η)) ^ (2 * |γ|) := by
    have hq3 : (1 / (1 - η))⁻¹ ≤ q := by rwa [one_div, inv_inv]
    rcases le_total 0 γ with hg | hg
    · rw [abs_of_nonneg hg]
      constructor
      · rw [Real.rpow_neg hB.le, ← Real.inv_rpow hB.le]
        exact Real.rpow_le_rpow (inv_nonneg.mpr hB.le) hq3 (by linarith)
      · exact Real.rpow_le_rpow hq0.le hq2 (by linarith)
    · rw [abs_of_nonpos hg]
      have e2 : q ^ (2 * γ) = (q⁻¹) ^ (2 * -γ) := by
        rw [Real.inv_rpow hq0.le, ← Real.rpow_neg hq0.le]
        congr 1
        ring
      rw [e2]
      constructor
      · rw [Real.rpow_neg hB.le, ← Real.inv_rpow hB.le]
        exact Real.rpow_le_rpow (inv_nonneg.mpr hB.le) (inv_anti₀ hq0 hq2) (by linarith)
      · refine Real.rpow_le_rpow (inv_nonneg.mpr hq0.le) ?_ (by linarith)
        exact (inv_le_comm₀ hB hq0).mp hq3
  obtain ⟨h2, h3⟩ := hlow
  set B := (1 / (1 - η)) ^ (2 * |γ|) with hBdef
  have hB1 : 0 < B := Real.rpow_pos_of_pos hB _
  rw [Real.rpow_neg hB.le, ← hBdef] at h2
  have h4 : 1 - B⁻¹ ≤ B - 1 := by
    have : B * B⁻¹ = 1 := mul_inv_cancel₀ hB1.ne'
    have h5 : 0 < B⁻¹ := inv_pos.mpr hB1
    nlinarith [sq_nonneg (B - 1), mul_nonneg h5.le (sq_nonneg (B - 1))]
  have hEg : 0 ≤ E ^ γ := Real.rpow_nonneg hE.le γ
  rw [e, show q ^ (2 * γ) * E ^ γ - E ^ γ = (q ^ (2 * γ) - 1) * E ^ γ by ring, abs_mul, abs_of_nonneg hEg]
  refine mul_le_mul_of_nonneg_right (abs_le.mpr ⟨?_, ?_⟩) hEg <;> linarith

/-- An error in the compressed energies and one in the transform add up. -/
theorem dct_error {N p : ℕ} (hp : p ≤ N) {rt y c' B : ℕ → ℝ} {tau : ℝ} (hB : ∀ n < N, |rt n - y n| ≤ B n)
    (hc' : √(∑ k ∈ Finset.range p, (c' k - dctII N rt k) ^ 2) ≤ tau) :
    √(∑ k ∈ Finset.range p, (c' k - dctII N y k) ^ 2) ≤ tau + √(∑ n ∈ Finset.range N, B n ^ 2) := by
  have hsq : √(∑ k ∈ Finset.range p, (dctII N rt k - dctII N y k) ^ 2) ≤ √(∑ n ∈ Finset.range N, B n ^ 2) := by
    apply Real.sqrt_le_sqrt
    refine (dctII_contracts N p hp rt y).trans (Finset.sum_le_sum fun n hn => ?_)
    rw [← sq_abs]
    exact pow_le_pow_left₀ (abs_nonneg _) (hB n (Finset.mem_range.mp hn)) 2
  have hmin := sqrt_weighted_add (n := p) (W := fun _ => 1) (fun _ _ => zero_le_one)
    (fun k => ((c' k - dctII N rt k : ℝ) : ℂ)) (fun k => ((dctII N rt k - dctII N y k : ℝ) : ℂ))
  simp only [← Complex.ofReal_add, Complex.norm_real, Real.norm_eq_abs, sq_abs, one_mul, sub_add_sub_cancel] at hmin
  exact hmin.trans (add_le_add hc' hsq)

/-- Computed energies are not negative if the accumulated roundoff is below 100%. -/
theorem flEnergy_nonneg (hr : Rounding u fl) (hv : 0 ≤ v) {fb : List (List ℝ)} (hfb : ∀ r ∈ fb, ∀ a ∈ r, 0 ≤ a)
    (habs : ∀ z, |abs z - ‖z‖| ≤ v * ‖z‖) {on : Bool} {c : ℝ} {x : List ℝ} {l s nfft i : ℕ}
    (hg : (1 + u) ^ (nfft / 2 + 4) * (1 + v) ^ 2 ≤ 2) (F : FlFrame fl fb wv fft abs on c x l s nfft i) {n : ℕ} (hn : n < fb.length) :
    0 ≤ F.energy n := by
  have h := energy_near hr hv hfb habs F hn
  set T := ∑ k ∈ Finset.range (nfft / 2 + 1), (fb.getD n []).getD k 0 / nfft *
        ‖fft (fun j => fl (F.y (i * s + j) * wv j)) k‖ ^ 2 with hT
  have hT0 : 0 ≤ T := by
    refine Finset.sum_nonneg fun k _ => mul_nonneg (div_nonneg ?_ (Nat.cast_nonneg _)) (sq_nonneg _)
    rcases lt_or_ge k (fb.getD n []).length with hk | hk
    · exact hfb _ (getD_mem [] hn) _ (getD_mem 0 hk)
    · rw [List.getD_eq_default _ _ hk]
  have h1 := (abs_le.mp h).1
  nlinarith

/-- The root features, their pre-emphasis coefficient and their exponent. -/
noncomputable def rootFeatures (a : Args) : List (Feature × ℝ × ℝ) := [(gfcc, 0.97, 1 / 3), (msrcc, a.preEmphCoeff, a.gamma)]

theorem root_meaning {a : Args} {f : Feature} {coeff γ : ℝ} (hf : (f, coeff, γ) ∈ rootFeatures a) {fb : List (List ℝ)} {x : List ℝ}
    {l s : ℕ} (h : Setup a fb x l s) (hd : a.dctType = 2) (hu : a.useEnergy = false) (hli : a.lifter = none) (hn : a.normalize = none)
    (hpos : 0 ≤ γ ∨ ∀ i < (x.length - l) / s + 1, ∀ n < fb.length, 0 < energyOf a coeff fb x l s i n) :
    ∃ m, f a x = .ok m ∧ HasShape m ((x.length - l) / s + 1) (min a.numCeps fb.length) ∧
      ∀ i k, i < (x.length - l) / s + 1 → k < min a.numCeps fb.length → (m.getD i []).getD k nan =
        fin (dctII fb.length (fun n => energyOf a coeff fb x l s i n ^ γ) k) := by
  simp only [rootFeatures, List.mem_cons, Prod.mk.injEq, List.not_mem_nil, or_false] at hf
  rcases hf with ⟨rfl, rfl, rfl⟩ | ⟨rfl, rfl, rfl⟩
  · exact C101_meaning a gfcc 0.97 (fun e => e ^ (1 / 3 : ℝ)) (by simp [compressions]) fb x l s h hd hu hli hn
  · exact C101_msrcc_meaning a fb x l s h hd hu hli hn (hpos.imp id fun hp i n hi hn' => hp i hi n hn')

theorem bank_bound_nonneg {a : Args} {fb : List (List ℝ)} {x : List ℝ} {l s : ℕ} (h : Setup a fb x l s) {M : ℝ}
    (hM : ∀ r ∈ fb, ∀ v ∈ r, v ≤ M) : 0 ≤ M := by
  have h1 := getD_mem [] (show 0 < fb.length from h.rows)
  have h2 := h.cols _ h1
  have h3 := getD_mem 0 (show 0 < (fb.getD 0 []).length by omega)
  exact (h.nonneg _ h1 _ h3).trans (hM _ h1 _ h3)

/-- The distance of the square roots of computed and exact energy (C120). -/
theorem root_energy {a : Args} {coeff : ℝ} {fb : List (List ℝ)} {x : List ℝ} {l s : ℕ} (h : Setup a fb x l s) {M : ℝ}
    (hM : ∀ r ∈ fb, ∀ v ∈ r, v ≤ M) (ar : Arithmetic u v ω δ fl fft abs wv a.win.winType l a.nfft) {i : ℕ}
    (hi : i < (x.length - l) / s + 1) (F : FlFrame fl fb wv fft abs a.preEmph coeff x l s a.nfft i) {n : ℕ} (hn : n < fb.length) :
    |√(F.energy n) - √(energyOf a coeff fb x l s i n)| ≤
      rootError u v ω δ M (energyOf a coeff fb x l s i n) (frameAmplitude a.preEmph coeff x l s i) a.nfft :=
  C120_energy ar.round ar.v0 ar.δ0 (fun r hr v hv => ⟨h.nonneg r hr v hv, hM r hr v hv⟩) (bank_bound_nonneg h hM)
    (fun j hj => ⟨(windowWeight_range h.window hj).1, (windowWeight_range h.window hj).2, ar.window_err j hj⟩) ar.ω0
    ar.fft_err h.nfft ar.abs_err (frame_inside h.pos h.long hi) F hn

/-- **C174**: root features with an exponent between 0 and 1/2 (`gfcc`: 1/3) are accurate for every signal, without any condition on the energies:
every compressed energy is within the `2γ`-th power of the error of its square root. -/
theorem C174_absolute (a : Args) (f : Feature) (coeff γ : ℝ) (hf : (f, coeff, γ) ∈ rootFeatures a) (hγ0 : 0 < γ) (hγ1 : γ ≤ 1 / 2)
    (fb : List (List ℝ)) (x : List ℝ) (l s : ℕ) (h : Setup a fb x l s) (M : ℝ) (hM : ∀ r ∈ fb, ∀ v ∈ r, v ≤ M)
    (hd : a.dctType = 2) (hu : a.useEnergy = false) (hli : a.lifter = none) (hn : a.normalize = none)
    (ar : Arithmetic u v ω δ fl fft abs wv a.win.winType l a.nfft) (hg : (1 + u) ^ (a.nfft / 2 + 4) * (1 + v) ^ 2 ≤ 2) :
    ∃ m, f a x = .ok m ∧ HasShape m ((x.length - l) / s + 1) (min a.numCeps fb.length) ∧
      ∀ i < (x.length - l) / s + 1, ∀ (F : FlFrame fl fb wv fft abs a.preEmph coeff x l s a.nfft i)
        (rt c' : ℕ → ℝ) (lam tau : ℝ), (∀ n < fb.length, |rt n - F.energy n ^ γ| ≤ lam) →
        √(∑ k ∈ Finset.range (min a.numCeps fb.length), (c' k - dctII fb.length rt k) ^ 2) ≤ tau →
        ∃ c : ℕ → ℝ, (∀ k < min a.numCeps fb.length, (m.getD i []).getD k nan = fin (c k)) ∧
          √(∑ k ∈ Finset.range (min a.numCeps fb.length), (c' k - c k) ^ 2) ≤
            tau + √(∑ n ∈ Finset.range fb.length, (lam + rootError u v ω δ M (energyOf a coeff fb x l s i n)
              (frameAmplitude a.preEmph coeff x l s i) a.nfft ^ (2 * γ)) ^ 2) := by
  obtain ⟨m, hm, s1, v1⟩ := root_meaning hf h hd hu hli hn (Or.inl hγ0.le)
  refine ⟨m, hm, s1, fun i hi F rt c' lam tau hrt hc' => ⟨_, fun k hk => v1 i k hi hk, ?_⟩⟩
  refine dct_error (min_le_right _ _) (fun n hn' => ?_) hc'
  have e1 := root_energy h hM ar hi F hn'
  have e2 := flEnergy_nonneg ar.round ar.v0 h.nonneg ar.abs_err hg F hn'
  have e3 : 0 ≤ energyOf a coeff fb x l s i n := bandEnergy_nonneg h.nonneg ..
  have e4 : |F.energy n ^ γ - energyOf a coeff fb x l s i n ^ γ| ≤ rootError u v ω δ M (energyOf a coeff fb x l s i n)
      (frameAmplitude a.preEmph coeff x l s i) a.nfft ^ (2 * γ) := by
    rw [rpow_eq_sqrt e2, rpow_eq_sqrt e3]
    exact (abs_rpow_sub_le (Real.sqrt_nonneg _) (Real.sqrt_nonneg _) (by linarith) (by linarith)).trans
      (Real.rpow_le_rpow (abs_nonneg _) e1 (by linarith))
  exact (abs_sub_le _ (F.energy n ^ γ) _).trans (add_le_add (hrt n hn') e4)

/-- **C174**: with energies that the arithmetic resolves (square roots within a factor `1 ± η`), any exponent, also a negative one (`msrcc` with its default
-1/7): the row is accurate relative to the compressed energies. -/
theorem C174_relative (a : Args) (f : Feature) (coeff γ : ℝ) (hf : (f, coeff, γ) ∈ rootFeatures a)
    (fb : List (List ℝ)) (x : List ℝ) (l s : ℕ) (h : Setup a fb x l s) (M : ℝ) (hM : ∀ r ∈ fb, ∀ v ∈ r, v ≤ M)
    (hd : a.dctType = 2) (hu : a.useEnergy = false) (hli : a.lifter = none) (hn : a.normalize = none)
    (ar : Arithmetic u v ω δ fl fft abs wv a.win.winType l a.nfft) (η : ℝ) (h0 : 0 ≤ η) (h1 : η < 1)
    (hE : ∀ i < (x.length - l) / s + 1, ∀ n < fb.length, 0 < energyOf a coeff fb x l s i n ∧
      rootError u v ω δ M (energyOf a coeff fb x l s i n) (frameAmplitude a.preEmph coeff x l s i) a.nfft ≤
        η * √(energyOf a coeff fb x l s i n)) :
    ∃ m, f a x = .ok m ∧ HasShape m ((x.length - l) / s + 1) (min a.numCeps fb.length) ∧
      ∀ i < (x.length - l) / s + 1, ∀ (F : FlFrame fl fb wv fft abs a.preEmph coeff x l s a.nfft i)
        (rt c' : ℕ → ℝ) (lam tau : ℝ), 0 ≤ lam → (∀ n < fb.length, |rt n - F.energy n ^ γ| ≤ lam * F.energy n ^ γ) →
        √(∑ k ∈ Finset.range (min a.numCeps fb.length), (c' k - dctII fb.length rt k) ^ 2) ≤ tau →
        ∃ c : ℕ → ℝ, (∀ k < min a.numCeps fb.length, (m.getD i []).getD k nan = fin (c k)) ∧
          √(∑ k ∈ Finset.range (min a.numCeps fb.length), (c' k - c k) ^ 2) ≤
            tau + ((1 + lam) * (1 / (1 - η)) ^ (2 * |γ|) - 1) *
              √(∑ n ∈ Finset.range fb.length, (energyOf a coeff fb x l s i n ^ γ) ^ 2) := by
  obtain ⟨m, hm, s1, v1⟩ := root_meaning hf h hd hu hli hn (Or.inr fun i hi n hn' => (hE i hi n hn').1)
  refine ⟨m, hm, s1, fun i hi F rt c' lam tau hlam hrt hc' => ⟨_, fun k hk => v1 i k hi hk, ?_⟩⟩
  have hB1 : 1 ≤ (1 / (1 - η)) ^ (2 * |γ|) := by
    apply Real.one_le_rpow _ (by positivity)
    rw [le_div_iff₀ (by linarith)]
    linarith
  set B := (1 / (1 - η)) ^ (2 * |γ|) with hB
  have hρ : 0 ≤ (1 + lam) * B - 1 := by nlinarith
  have key := dct_error (B := fun n => ((1 + lam) * B - 1) * energyOf a coeff fb x l s i n ^ γ) (min_le_right a.numCeps fb.length)
    (y := fun n => energyOf a coeff fb x l s i n ^ γ) (fun n hn' => ?_) hc'
  · refine key.trans (le_of_eq ?_)
    congr 1
    simp only [mul_pow]
    rw [← Finset.mul_sum, Real.sqrt_mul (sq_nonneg _), Real.sqrt_sq hρ]
  · obtain ⟨e1, e2⟩ := hE i hi n hn'
    obtain ⟨e3, e4⟩ := rpow_near (γ := γ) h0 h1 e1 ((root_energy h hM ar hi F hn').trans e2)
    rw [← hB] at e4
    have e5 : F.energy n ^ γ ≤ B * energyOf a coeff fb x l s i n ^ γ := by
      have := (abs_le.mp e4).2
      linarith
    have e6 := (abs_sub_le (rt n) (F.energy n ^ γ) (energyOf a coeff fb x l s i n ^ γ)).trans (add_le_add (hrt n hn') e4)
    refine e6.trans ?_
    have e7 := mul_le_mul_of_nonneg_left e5 hlam
    linarith

/-- Filters with weights up to 1 cannot collect more than the energy of the frame. -/
theorem energyOf_le {a : Args} {coeff : ℝ} {fb : List (List ℝ)} {x : List ℝ} {l s : ℕ} (h : Setup a fb x l s)
    (hM : ∀ r ∈ fb, ∀ v ∈ r, v ≤ 1) {i n : ℕ} (hn : n < fb.length) :
    energyOf a coeff fb x l s i n ≤ frameAmplitude a.preEmph coeff x l s i ^ 2 := by
  have hc := weightedEnergy_close (W := fun _ => 0) (W' := fun k => (fb.getD n []).getD k 0) (τ := 1) (on := a.preEmph) (c := coeff)
    (x := x) (l := l) (s := s) (i := i) (fun j hj => windowWeight_range h.window hj) h.nfft zero_le_one (fun k hk => ?_)
  · have e : weightedEnergy (fun _ => 0) (windowWeight a.win.winType l) (emphasised a.preEmph coeff x) l s a.nfft i = 0 := by
      simp [weightedEnergy]
    rw [e, sub_zero, one_mul] at hc
    exact (le_abs_self _).trans hc
  · have h1 := getD_mem [] hn
    have h2 : k < (fb.getD n []).length := by rw [h.cols _ h1]; exact hk
    have h3 := getD_mem 0 h2
    rw [sub_zero, abs_of_nonneg (h.nonneg _ h1 _ h3)]
    exact hM _ h1 _ h3

/-- The bound of C120 for double precision and an FFT of 512 points, for any energy: relative to the amplitude of the frame. -/
theorem rootError_double {E A : ℝ} (hA : 0 ≤ A) (hEA : E ≤ A ^ 2) :
    rootError (1 / 2 ^ 53) (2 / 2 ^ 53) (1 / 10 ^ 15) (1 / 10 ^ 14) 1 E A 512 ≤ 1.21 / 10 ^ 13 * A := by
  have hs : √E ≤ A := Real.sqrt_le_iff.mpr ⟨hA, hEA⟩
  have hs0 := Real.sqrt_nonneg E
  unfold rootError
  rw [Real.sqrt_one, one_mul]
  have h1 : ((1 : ℝ) + 1 / 2 ^ 53) ^ (512 / 2 + 4) * (1 + 2 / 2 ^ 53) ^ 2 ≤ 1 + 1 / 10 ^ 13 := by
    have h130 : ((1 : ℝ) + 1 / 2 ^ 53) ^ 130 ≤ 1 + 2 / 10 ^ 14 := by norm_num
    have h260 : ((1 : ℝ) + 1 / 2 ^ 53) ^ (512 / 2 + 4) ≤ (1 + 2 / 10 ^ 14) ^ 2 := by
      rw [show 512 / 2 + 4 = 130 * 2 by norm_num, pow_mul]
      exact pow_le_pow_left₀ (by positivity) h130 2
    refine (mul_le_mul_of_nonneg_right h260 (by positivity)).trans (by norm_num)
  have h2 : (1 / 10 ^ 14 * ((1 + 1 / 10 ^ 15) * (1 + 1 / 2 ^ 53) ^ 3) +
      ((1 + 1 / 10 ^ 15) * (1 + 1 / 2 ^ 53) ^ 3 - 1) : ℝ) ≤ 2 / 10 ^ 14 := by norm_num
  have h0 : (0 : ℝ) ≤ 1 / 10 ^ 14 * ((1 + 1 / 10 ^ 15) * (1 + 1 / 2 ^ 53) ^ 3) +
      ((1 + 1 / 10 ^ 15) * (1 + 1 / 2 ^ 53) ^ 3 - 1) := by norm_num
  have hG : 1 ≤ ((1 : ℝ) + 1 / 2 ^ 53) ^ (512 / 2 + 4) * (1 + 2 / 2 ^ 53) ^ 2 :=
    one_le_mul_of_one_le_of_one_le (one_le_pow₀ (by norm_num)) (one_le_pow₀ (by norm_num))
  generalize ((1 : ℝ) + 1 / 2 ^ 53) ^ (512 / 2 + 4) * (1 + 2 / 2 ^ 53) ^ 2 = G at *
  generalize (1 / 10 ^ 14 * ((1 + 1 / 10 ^ 15) * (1 + 1 / 2 ^ 53) ^ 3) +
      ((1 + 1 / 10 ^ 15) * (1 + 1 / 2 ^ 53) ^ 3 - 1) : ℝ) = κ at *
  have h3 : κ * A ≤ 2 / 10 ^ 14 * A := mul_le_mul_of_nonneg_right h2 hA
  have h4 : G * (κ * A) ≤ (1 + 1 / 10 ^ 13) * (2 / 10 ^ 14 * A) := mul_le_mul h1 h3 (mul_nonneg h0 hA) (by norm_num)
  have h5 : (G - 1) * √E ≤ 1 / 10 ^ 13 * A := mul_le_mul (by linarith) hs hs0 (by norm_num)
  nlinarith

/-- **C174** in double precision: for every signal, `gfcc` with an FFT of 512 points and a bank with weights up to 1 has rows within `2.5e-9 √N A^(2/3)` of the exact
ones, `A` the root of the energy of the frame, besides the errors of the cube root and of the DCT. -/
theorem C174_gfcc_double (a : Args) (fb : List (List ℝ)) (x : List ℝ) (l s : ℕ) (h : Setup a fb x l s) (hM : ∀ r ∈ fb, ∀ v ∈ r, v ≤ 1)
    (hK : a.nfft = 512) (hd : a.dctType = 2) (hu : a.useEnergy = false) (hli : a.lifter = none) (hn : a.normalize = none)
    (ar : Arithmetic (1 / 2 ^ 53) (2 / 2 ^ 53) (1 / 10 ^ 15) (1 / 10 ^ 14) fl fft abs wv a.win.winType l a.nfft) :
    ∃ m, gfcc a x = .ok m ∧ HasShape m ((x.length - l) / s + 1) (min a.numCeps fb.length) ∧
      ∀ i < (x.length - l) / s + 1, ∀ (F : FlFrame fl fb wv fft abs a.preEmph 0.97 x l s a.nfft i)
        (rt c' : ℕ → ℝ) (lam tau : ℝ), (∀ n < fb.length, |rt n - F.energy n ^ (1 / 3 : ℝ)| ≤ lam) →
        √(∑ k ∈ Finset.range (min a.numCeps fb.length), (c' k - dctII fb.length rt k) ^ 2) ≤ tau →
        ∃ c : ℕ → ℝ, (∀ k < min a.numCeps fb.length, (m.getD i []).getD k nan = fin (c k)) ∧
          √(∑ k ∈ Finset.range (min a.numCeps fb.length), (c' k - c k) ^ 2) ≤
            tau + √fb.length * (lam + 2.5 / 10 ^ 9 * frameAmplitude a.preEmph 0.97 x l s i ^ (2 / 3 : ℝ)) := by
  obtain ⟨m, hm, s1, v1⟩ := C174_absolute a gfcc 0.97 (1 / 3) (by simp [rootFeatures]) (by norm_num) (by norm_num) fb x l s h 1 hM hd hu
    hli hn ar (by
      rw [hK]
      have h130 : ((1 : ℝ) + 1 / 2 ^ 53) ^ 130 ≤ 1 + 2 / 10 ^ 14 := by norm_num
      have h260 : ((1 : ℝ) + 1 / 2 ^ 53) ^ (512 / 2 + 4) ≤ (1 + 2 / 10 ^ 14) ^ 2 := by
        rw [show 512 / 2 + 4 = 130 * 2 by norm_num, pow_mul]
        exact pow_le_pow_left₀ (by positivity) h130 2
      exact (mul_le_mul_of_nonneg_right h260 (by positivity)).trans (by norm_num))
  refine ⟨m, hm, s1, fun i hi F rt c' lam tau hrt hc' => ?_⟩
  obtain ⟨c, hc, hb⟩ := v1 i hi F rt c' lam tau hrt hc'
  refine ⟨c, hc, hb.trans (add_le_add_right ?_ _)⟩
  set A := frameAmplitude a.preEmph 0.97 x l s i with hA
  have hA0 : 0 ≤ A := Real.sqrt_nonneg _
  have hlam : 0 ≤ lam := (abs_nonneg _).trans (hrt 0 h.rows)
  have hconst : ((1.21 / 10 ^ 13 : ℝ)) ^ (2 / 3 : ℝ) ≤ 2.5 / 10 ^ 9 := by
    rw [show (2 / 3 : ℝ) = (2 : ℕ) * (1 / 3) by norm_num, Real.rpow_mul (by norm_num), Real.rpow_natCast]
    calc ((1.21 / 10 ^ 13 : ℝ) ^ 2) ^ (1 / 3 : ℝ) ≤ ((2.5 / 10 ^ 9 : ℝ) ^ 3) ^ (1 / 3 : ℝ) :=
          Real.rpow_le_rpow (by norm_num) (by norm_num) (by norm_num)
      _ = 2.5 / 10 ^ 9 := by
          rw [← Real.rpow_natCast, ← Real.rpow_mul (by norm_num)]
          norm_num
  have hbase : ∀ n < fb.length, 0 ≤ rootError (1 / 2 ^ 53) (2 / 2 ^ 53) (1 / 10 ^ 15) (1 / 10 ^ 14) 1
      (energyOf a 0.97 fb x l s i n) A a.nfft := fun n hn' => (abs_nonneg _).trans (root_energy h hM ar hi F hn')
  have hterm : ∀ n ∈ Finset.range fb.length, (lam + rootError (1 / 2 ^ 53) (2 / 2 ^ 53) (1 / 10 ^ 15) (1 / 10 ^ 14) 1
      (energyOf a 0.97 fb x l s i n) A a.nfft ^ (2 * (1 / 3) : ℝ)) ^ 2 ≤ (lam + 2.5 / 10 ^ 9 * A ^ (2 / 3 : ℝ)) ^ 2 := by
    intro n hn'
    have hn' := Finset.mem_range.mp hn'
    have h1 := hbase n hn'
    have h2 : rootError (1 / 2 ^ 53) (2 / 2 ^ 53) (1 / 10 ^ 15) (1 / 10 ^ 14) 1 (energyOf a 0.97 fb x l s i n) A a.nfft ≤
        1.21 / 10 ^ 13 * A := by
      rw [hK]
      exact rootError_double hA0 (energyOf_le h hM hn')
    rw [show (2 * (1 / 3) : ℝ) = 2 / 3 by norm_num]
    have h3 := Real.rpow_le_rpow h1 h2 (show (0 : ℝ) ≤ 2 / 3 by norm_num)
    rw [Real.mul_rpow (by norm_num) hA0] at h3
    have h4 := mul_le_mul_of_nonneg_right hconst (Real.rpow_nonneg hA0 (2 / 3))
    have h5 := Real.rpow_nonneg h1 (2 / 3)
    exact pow_le_pow_left₀ (by linarith) (by linarith) 2
  have hB : 0 ≤ lam + 2.5 / 10 ^ 9 * A ^ (2 / 3 : ℝ) := add_nonneg hlam (mul_nonneg (by norm_num) (Real.rpow_nonneg hA0 _))
  rw [← Real.sqrt_sq hB, ← Real.sqrt_mul (Nat.cast_nonneg _)]
  apply Real.sqrt_le_sqrt
  refine (Finset.sum_le_sum hterm).trans (le_of_eq ?_)
  simp

/-- Adding a constant before taking the logarithm of a power makes it change less. -/
theorem log_add_step {x y c : ℝ} (hx : 0 < x) (hxy : x ≤ y) (hc : 0 ≤ c) (k : ℕ) :
    0 ≤ Real.log (y ^ k + c) - Real.log (x ^ k + c) ∧ Real.log (y ^ k + c) - Real.log (x ^ k + c) ≤ k * (Real.log y - Real.log x) := by
  have hy : 0 < y := lt_of_lt_of_le hx hxy
  have hp : x ^ k ≤ y ^ k := pow_le_pow_left₀ hx.le hxy k
  have hxk : 0 < x ^ k := pow_pos hx k
  have hyk : 0 < y ^ k := pow_pos hy k
  constructor
  · exact sub_nonneg.mpr (Real.log_le_log (by linarith) (by linarith))
  · rw [mul_sub, ← Real.log_pow, ← Real.log_pow, ← Real.log_div (by linarith) (by linarith), ← Real.log_div hyk.ne' hxk.ne']
    apply Real.log_le_log (div_pos (by linarith) (by linarith))
    rw [div_le_div_iff₀ (by linarith) hxk]
    nlinarith

theorem log_intensity {e : ℝ} (he : 0 < e) : Real.log (intensity e) = 1 / 3 * (Real.log (e ^ 2 + 56.8 * 10 ^ 6) + 4 * Real.log e -
    (Real.log (e ^ 2 + 6.3 * 10 ^ 6) + Real.log (e ^ 2 + 0.38 * 10 ^ 9) + Real.log (e ^ 6 + 9.58 * 10 ^ 26))) := by
  have h2 : 0 < e ^ 2 := pow_pos he 2
  have h4 : 0 < e ^ 4 := pow_pos he 4
  have h6 : 0 < e ^ 6 := pow_pos he 6
  have p1 : 0 < e ^ 2 + 56.8 * 10 ^ 6 := by positivity
  have p2 : 0 < e ^ 2 + 6.3 * 10 ^ 6 := by positivity
  have p3 : 0 < e ^ 2 + 0.38 * 10 ^ 9 := by positivity
  have p4 : 0 < e ^ 6 + 9.58 * 10 ^ 26 := by positivity
  rw [intensity, Real.log_rpow (div_pos (mul_pos p1 h4) (mul_pos (mul_pos p2 p3) p4)), Real.log_div (mul_pos p1 h4).ne'
    (mul_pos (mul_pos p2 p3) p4).ne', Real.log_mul p1.ne' h4.ne', Real.log_mul (mul_pos p2 p3).ne' p4.ne', Real.log_mul p2.ne' p3.ne',
    Real.log_pow]
  norm_num

theorem intensity_pos {e : ℝ} (he : 0 < e) : 0 < intensity e := by
  unfold intensity
  positivity

/-- The logarithm of the loudness law changes at most twice as much as the logarithm of the energy. -/
theorem log_intensity_lipschitz {x y : ℝ} (hx : 0 < x) (hy : 0 < y) :
    |Real.log (intensity y) - Real.log (intensity x)| ≤ 2 * |Real.log y - Real.log x| := by
  wlog hxy : x ≤ y generalizing x y
  · rw [abs_sub_comm, abs_sub_comm (Real.log y)]
    exact this hy hx (le_of_lt (not_le.mp hxy))
  rw [abs_of_nonneg (sub_nonneg.mpr (Real.log_le_log hx hxy)), log_intensity hx, log_intensity hy]
  obtain ⟨a1, a2⟩ := log_add_step hx hxy (show (0 : ℝ) ≤ 56.8 * 10 ^ 6 by norm_num) 2
  obtain ⟨b1, b2⟩ := log_add_step hx hxy (show (0 : ℝ) ≤ 6.3 * 10 ^ 6 by norm_num) 2
  obtain ⟨c1, c2⟩ := log_add_step hx hxy (show (0 : ℝ) ≤ 0.38 * 10 ^ 9 by norm_num) 2
  obtain ⟨d1, d2⟩ := log_add_step hx hxy (show (0 : ℝ) ≤ 9.58 * 10 ^ 26 by norm_num) 6
  push_cast at a2 b2 c2 d2
  rw [abs_le]
  constructor <;> linarith

/-- **C174** for `bfcc`, whose loudness law at most doubles the relative error of the energy. -/
theorem C174_bfcc (a : Args) (fb : List (List ℝ)) (x : List ℝ) (l s : ℕ) (h : Setup a fb x l s) (M : ℝ) (hM : ∀ r ∈ fb, ∀ v ∈ r, v ≤ M)
    (hd : a.dctType = 2) (hu : a.useEnergy = false) (hli : a.lifter = none) (hn : a.normalize = none)
    (ar : Arithmetic u v ω δ fl fft abs wv a.win.winType l a.nfft) (η : ℝ) (h0 : 0 ≤ η) (h1 : η < 1)
    (hE : ∀ i < (x.length - l) / s + 1, ∀ n < fb.length, 0 < energyOf a 0.97 fb x l s i n ∧
      rootError u v ω δ M (energyOf a 0.97 fb x l s i n) (frameAmplitude a.preEmph 0.97 x l s i) a.nfft ≤
        η * √(energyOf a 0.97 fb x l s i n)) :
    ∃ m, bfcc a x = .ok m ∧ HasShape m ((x.length - l) / s + 1) (min a.numCeps fb.length) ∧
      ∀ i < (x.length - l) / s + 1, ∀ (F : FlFrame fl fb wv fft abs a.preEmph 0.97 x l s a.nfft i)
        (lg c' : ℕ → ℝ) (lam tau : ℝ), (∀ n < fb.length, |lg n - logFloor (intensity (F.energy n))| ≤ lam) →
        √(∑ k ∈ Finset.range (min a.numCeps fb.length), (c' k - dctII fb.length lg k) ^ 2) ≤ tau →
        ∃ c : ℕ → ℝ, (∀ k < min a.numCeps fb.length, (m.getD i []).getD k nan = fin (c k)) ∧
          √(∑ k ∈ Finset.range (min a.numCeps fb.length), (c' k - c k) ^ 2) ≤
            tau + √fb.length * (lam + 4 * Real.log (1 / (1 - η))) := by
  obtain ⟨m, hm, s1, v1⟩ := C101_meaning a bfcc 0.97 (fun e => logFloor (intensity e)) (by simp [compressions]) fb x l s h hd hu hli hn
  refine ⟨m, hm, s1, fun i hi F lg c' lam tau hlg hc' => ⟨_, fun k hk => v1 i k hi hk, ?_⟩⟩
  have key := dct_error (B := fun _ => lam + 4 * Real.log (1 / (1 - η))) (min_le_right a.numCeps fb.length)
    (y := fun n => logFloor (intensity (energyOf a 0.97 fb x l s i n))) (fun n hn' => ?_) hc'
  · have hb : 0 ≤ lam + 4 * Real.log (1 / (1 - η)) := by
      refine add_nonneg ((abs_nonneg _).trans (hlg 0 h.rows)) (mul_nonneg (by norm_num) (Real.log_nonneg ?_))
      rw [le_div_iff₀ (by linarith)]
      linarith
    refine key.trans (le_of_eq ?_)
    rw [Finset.sum_const, Finset.card_range, nsmul_eq_mul, Real.sqrt_mul (Nat.cast_nonneg _), Real.sqrt_sq hb]
  · obtain ⟨e1, e2⟩ := hE i hi n hn'
    have e3 := (root_energy h hM ar hi F hn').trans e2
    have e4 := log_near h0 h1 e1 e3
    obtain ⟨e5, -⟩ := rpow_near (γ := 1) h0 h1 e1 e3
    have e6 := log_intensity_lipschitz e1 e5
    simp only [logFloor, e1.ne', e5.ne', if_false] at e4
    have e7 : |logFloor (intensity (F.energy n)) - logFloor (intensity (energyOf a 0.97 fb x l s i n))| ≤ 4 * Real.log (1 / (1 - η)) := by
      simp only [logFloor, (intensity_pos e1).ne', (intensity_pos e5).ne', if_false]
      linarith
    exact (abs_sub_le _ (logFloor (intensity (F.energy n))) _).trans (add_le_add (hlg n hn') e7)

/-- An inexact arithmetic and a small bank. -/
example : ∃ m, gfcc demo2 [5, 1, 4] = .ok m ∧ ∀ i < 2, ∃ c' c : ℕ → ℝ, (∀ k < 2, (m.getD i []).getD k nan = fin (c k)) ∧
    √(∑ k ∈ Finset.range 2, (c' k - c k) ^ 2) ≤ 0 + √(∑ n ∈ Finset.range 2, (0 + rootError 0.001 0.002 0.01 0 3
      (energyOf demo2 0.97 [[1, 2], [3, 1]] [5, 1, 4] 2 1 i n) (frameAmplitude true 0.97 [5, 1, 4] 2 1 i) 2 ^ (2 * (1 / 3) : ℝ)) ^ 2) := by
  obtain ⟨m, h1, -, h2⟩ := C174_absolute demo2 gfcc 0.97 (1 / 3) (by simp [rootFeatures]) (by norm_num) (by norm_num) _ _ 2 1 demo2_setup 3
    (by norm_num) rfl rfl rfl rfl (arithmetic_demo demo2.win.winType 2 demo2.nfft) (by norm_num [demo2])
  refine ⟨m, h1, fun i hi => ?_⟩
  obtain ⟨F⟩ := flFrame_exists (fun t => 1.001 * t) [[1, 2], [3, 1]] (fun j => windowWeight demo2.win.winType 2 j + 0.01)
    (fun z k => frameBin (fun _ => 1) z 2 0 demo2.nfft 0 k) (fun z => 1.002 * ‖z‖) demo2.preEmph 0.97 [5, 1, 4] 2 1
    demo2.nfft i
  obtain ⟨c, hc, hb⟩ := h2 i hi F (fun n => F.energy n ^ (1 / 3 : ℝ)) (fun k => dctII 2 (fun n => F.energy n ^ (1 / 3 : ℝ)) k) 0 0
    (fun n _ => by simp) (by simp)
  exact ⟨_, c, hc, hb⟩

end Props
end Spafe
