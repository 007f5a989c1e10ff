import Verif.Props.Stability
import Verif.Props.SpecMeaning
import Mathlib.Algebra.BigOperators.Pi

/-! C179: the energies of independent sources add, on average over their signs. -/

set_option linter.unusedSectionVars false

namespace Spafe
namespace Props
open Model XF Spec

/-! ### Sums over all signs -/

/-- The sign chosen by a Boolean. -/
def sgn (b : Bool) : ℝ := if b then 1 else -1

theorem sgn_mul_self (b : Bool) : sgn b * sgn b = 1 := by cases b <;> simp [sgn]

theorem sgn_not (b : Bool) : sgn (!b) = - sgn b := by cases b <;> simp [sgn]

theorem sum_sgn_mul {n : ℕ} {p q : Fin n} (h : p ≠ q) : ∑ ε : Fin n → Bool, sgn (ε p) * sgn (ε q) = 0 := by
  have hi : Function.Involutive fun ε : Fin n → Bool => Function.update ε p (!ε p) := by
    intro ε
    funext r
    by_cases hr : r = p
    · subst hr; simp
    · simp [Function.update_of_ne hr]
  have h1 := Equiv.sum_comp hi.toPerm fun ε : Fin n → Bool => sgn (ε p) * sgn (ε q)
  simp only [Function.Involutive.coe_toPerm, Function.update_self, Function.update_of_ne h.symm, sgn_not, neg_mul,
    Finset.sum_neg_distrib] at h1
  linarith

theorem sum_sgn_sq {n : ℕ} (p q : Fin n) :
    ∑ ε : Fin n → Bool, sgn (ε p) * sgn (ε q) = if p = q then 2 ^ n else 0 := by
  by_cases h : p = q
  · subst h
    simp [sgn_mul_self]
  · rw [if_neg h, sum_sgn_mul h]

/-- The sum over all signs of `(Σ ± r p)²` is `2^n Σ (r p)²`. -/
theorem sum_signs_sq {n : ℕ} (r : Fin n → ℝ) :
    ∑ ε : Fin n → Bool, (∑ p, sgn (ε p) * r p) ^ 2 = 2 ^ n * ∑ p, r p ^ 2 := by
  have h1 : ∀ ε : Fin n → Bool, (∑ p, sgn (ε p) * r p) ^ 2 = ∑ p, ∑ q, (r p * r q) * (sgn (ε p) * sgn (ε q)) := by
    intro ε
    rw [sq, Finset.sum_mul_sum]
    exact Finset.sum_congr rfl fun p _ => Finset.sum_congr rfl fun q _ => by ring
  simp only [h1]
  rw [Finset.sum_comm, Finset.mul_sum]
  refine Finset.sum_congr rfl fun p _ => ?_
  rw [Finset.sum_comm]
  have h2 : ∀ q, ∑ ε : Fin n → Bool, (r p * r q) * (sgn (ε p) * sgn (ε q)) = if p = q then r p ^ 2 * 2 ^ n else 0 := by
    intro q
    rw [← Finset.mul_sum, sum_sgn_sq]
    by_cases h : p = q
    · subst h; simp; ring
    · simp [h]
  simp only [h2]
  rw [Finset.sum_ite_eq]
  simp
  ring

theorem sum_signs_norm {n : ℕ} (z : Fin n → ℂ) :
    ∑ ε : Fin n → Bool, ‖∑ p, (sgn (ε p) : ℂ) * z p‖ ^ 2 = 2 ^ n * ∑ p, ‖z p‖ ^ 2 := by
  have h1 : ∀ w : ℂ, ‖w‖ ^ 2 = w.re ^ 2 + w.im ^ 2 := fun w => by
    rw [← Complex.normSq_eq_norm_sq, Complex.normSq_apply]; ring
  simp only [h1, Complex.re_sum, Complex.im_sum, Complex.re_ofReal_mul, Complex.im_ofReal_mul, Finset.sum_add_distrib]
  rw [sum_signs_sq, sum_signs_sq]
  ring

/-! ### Mixtures -/

/-- The mixture of `n` signals of `T` samples with the signs `ε`. -/
noncomputable def mixture (T : ℕ) {n : ℕ} (x : Fin n → List ℝ) (ε : Fin n → Bool) : List ℝ :=
  (List.range T).map fun (t : ℕ) => ∑ p, sgn (ε p) * (x p).getD t 0

theorem mixture_length (T : ℕ) {n : ℕ} (x : Fin n → List ℝ) (ε : Fin n → Bool) : (mixture T x ε).length = T := by
  simp [mixture]

theorem mixture_getD {T : ℕ} {n : ℕ} {x : Fin n → List ℝ} (hx : ∀ p, (x p).length = T) (ε : Fin n → Bool) (t : ℕ) :
    (mixture T x ε).getD t 0 = ∑ p, sgn (ε p) * (x p).getD t 0 := by
  by_cases h : t < T
  · unfold mixture; rw [getD_map_range_lt _ _ h]
  · rw [List.getD_eq_default _ _ (by rw [mixture_length]; omega)]
    symm
    apply Finset.sum_eq_zero
    intro p _
    rw [List.getD_eq_default _ _ (by rw [hx]; omega), mul_zero]

theorem emphasised_mixture {T : ℕ} {n : ℕ} {x : Fin n → List ℝ} (hx : ∀ p, (x p).length = T) (ε : Fin n → Bool)
    (on : Bool) (c : ℝ) (t : ℕ) :
    emphasised on c (mixture T x ε) t = ∑ p, sgn (ε p) * emphasised on c (x p) t := by
  unfold emphasised
  simp only [mixture_getD hx]
  cases on
  · simp
  · by_cases h : t = 0
    · simp [h]
    · simp only [if_true, if_neg h]
      rw [Finset.mul_sum, ← Finset.sum_sub_distrib]
      exact Finset.sum_congr rfl fun p _ => by ring

theorem frameBin_sum {n : ℕ} (w : ℕ → ℝ) (y : Fin n → ℕ → ℝ) (c : Fin n → ℝ) (l s nfft i k : ℕ) :
    frameBin w (fun t => ∑ p, c p * y p t) l s nfft i k = ∑ p, (c p : ℂ) * frameBin w (y p) l s nfft i k := by
  unfold frameBin
  simp only [Finset.mul_sum]
  rw [Finset.sum_comm]
  refine Finset.sum_congr rfl fun j _ => ?_
  push_cast
  rw [Finset.sum_mul]
  exact Finset.sum_congr rfl fun p _ => by ring

theorem energy_mixture (a : Args) (coeff : ℝ) (fb : List (List ℝ)) {T : ℕ} {n : ℕ} {x : Fin n → List ℝ}
    (hx : ∀ p, (x p).length = T) (l s i m : ℕ) :
    ∑ ε : Fin n → Bool, energyOf a coeff fb (mixture T x ε) l s i m = 2 ^ n * ∑ p, energyOf a coeff fb (x p) l s i m := by
  have h1 : ∀ ε : Fin n → Bool, ∀ k, frameBin (windowWeight a.win.winType l)
      (emphasised a.preEmph coeff (mixture T x ε)) l s a.nfft i k = ∑ p, (sgn (ε p) : ℂ) *
        frameBin (windowWeight a.win.winType l) (emphasised a.preEmph coeff (x p)) l s a.nfft i k := by
    intro ε k
    rw [← frameBin_sum]
    congr 1
    funext t
    exact emphasised_mixture hx ε _ _ t
  unfold energyOf bandEnergy framePower
  simp only [h1]
  rw [Finset.sum_comm]
  have h2 : ∀ k, ∑ ε : Fin n → Bool, ‖∑ p, (sgn (ε p) : ℂ) * frameBin (windowWeight a.win.winType l)
      (emphasised a.preEmph coeff (x p)) l s a.nfft i k‖ ^ 2 / (a.nfft : ℝ) * (fb.getD m []).getD k 0 =
      2 ^ n * ∑ p, ‖frameBin (windowWeight a.win.winType l) (emphasised a.preEmph coeff (x p)) l s a.nfft i k‖ ^ 2 /
        (a.nfft : ℝ) * (fb.getD m []).getD k 0 := by
    intro k
    rw [← Finset.sum_mul, ← Finset.sum_div, sum_signs_norm, ← Finset.sum_mul, ← Finset.sum_div]
    ring
  simp only [h2]
  rw [← Finset.mul_sum, Finset.sum_comm]

/-- The spectrogram functions with the pre-emphasis coefficient they use. -/
noncomputable def spectrograms (a : Args) : List ((Args → List ℝ → Py (XMat × List (List ℝ))) × ℝ) :=
  [(melSpectrogram, a.preEmphCoeff), (linearSpectrogram, 0.97), (barkSpectrogram, 0.97), (erbSpectrogram, 0.97)]

theorem spectrograms_eq {a : Args} {F : Args → List ℝ → Py (XMat × List (List ℝ))} {coeff : ℝ}
    (hF : (F, coeff) ∈ spectrograms a) {fb : XMat} (hb : a.fbanks = some fb) (sig : List ℝ) :
    F a sig = spectrogram a coeff fb sig := by
  simp only [spectrograms, List.mem_cons, Prod.mk.injEq, List.not_mem_nil, or_false] at hF
  rcases hF with ⟨rfl, rfl⟩ | ⟨rfl, rfl⟩ | ⟨rfl, rfl⟩ | ⟨rfl, rfl⟩
  · rw [melSpectrogram, melBankOf, hb]; rfl
  · rw [linearSpectrogram, hb]; rfl
  · rw [barkSpectrogram, hb]; rfl
  · rw [erbSpectrogram, gammaBankOf, hb]; rfl

/-- C179: for `n` signals of the same length, the average of the spectrogram of `±x₁ ± x₂ ... ± xₙ` over all choices of the
signs is the sum of the spectrograms of the signals (mel, linear, Bark and ERB spectrograms, any non-negative bank). -/
theorem C179_sources (a : Args) (F : Args → List ℝ → Py (XMat × List (List ℝ))) (coeff : ℝ)
    (hF : (F, coeff) ∈ spectrograms a) (fb : List (List ℝ)) (n : ℕ) (x : Fin n → List ℝ) (T l s : ℕ)
    (hT : ∀ p, (x p).length = T) (h : ∀ sig : List ℝ, sig.length = T → Setup a fb sig l s) :
    ∃ (S : (Fin n → Bool) → ℕ → ℕ → ℝ) (E : Fin n → ℕ → ℕ → ℝ),
      (∀ ε, ∃ out, F a (mixture T x ε) = .ok out ∧ IsMatrix out.1 ((T - l) / s + 1) fb.length (S ε)) ∧
      (∀ p, ∃ out, F a (x p) = .ok out ∧ IsMatrix out.1 ((T - l) / s + 1) fb.length (E p)) ∧
      ∀ i m, (∑ ε, S ε i m) / 2 ^ n = ∑ p, E p i m := by
  have hspec : ∀ sig : List ℝ, sig.length = T → ∃ out, F a sig = .ok out ∧
      IsMatrix out.1 ((T - l) / s + 1) fb.length (energyOf a coeff fb sig l s) := by
    intro sig hs
    have hS := h sig hs
    refine ⟨_, (spectrograms_eq hF hS.bank sig).trans (spectrogram_meaning hS coeff), ?_⟩
    rw [hs]
    refine ⟨by simp, ?_, ?_⟩
    · intro r hr
      obtain ⟨i, -, rfl⟩ := List.mem_map.mp hr
      simp
    · intro i j hi hj
      rw [getD_map_range_lt _ _ hi, getD_map_lt fin _ 0 _ (by simpa using hj), getD_map_range_lt _ _ hj]
  refine ⟨fun ε => energyOf a coeff fb (mixture T x ε) l s, fun p => energyOf a coeff fb (x p) l s,
    fun ε => hspec _ (mixture_length T x ε), fun p => hspec _ (hT p), fun i m => ?_⟩
  rw [energy_mixture a coeff fb hT]
  field_simp

/-! ### White noise -/

/-- A single click of height `σ` at sample `p`. -/
noncomputable def unitClick (T : ℕ) (σ : ℝ) (p : ℕ) : List ℝ := (List.range T).map fun (t : ℕ) => if t = p then σ else 0

/-- `T` samples `±σ`. -/
noncomputable def coinToss {T : ℕ} (σ : ℝ) (ε : Fin T → Bool) : List ℝ := (List.finRange T).map fun t => sgn (ε t) * σ

theorem unitClick_getD {T : ℕ} (σ : ℝ) {p : ℕ} (hp : p < T) (t : ℕ) : (unitClick T σ p).getD t 0 = if t = p then σ else 0 := by
  unfold unitClick
  by_cases h : t < T
  · rw [getD_map_range_lt _ _ h]
  · rw [List.getD_eq_default _ _ (by simp; omega), if_neg (by omega)]

theorem coinToss_eq {T : ℕ} (σ : ℝ) (ε : Fin T → Bool) : coinToss σ ε = mixture T (fun p : Fin T => unitClick T σ p) ε := by
  apply List.ext_getElem (by simp [coinToss, mixture])
  intro t h1 h2
  have ht : t < T := by simpa [coinToss] using h1
  simp only [coinToss, mixture, List.getElem_map, List.getElem_finRange, List.getElem_range]
  have : ∀ p : Fin T, sgn (ε p) * (unitClick T σ p).getD t 0 = if (⟨t, ht⟩ : Fin T) = p then sgn (ε p) * σ else 0 := by
    intro p
    rw [unitClick_getD σ p.2]
    by_cases h : t = p
    · have : (⟨t, ht⟩ : Fin T) = p := Fin.ext h
      rw [if_pos h, if_pos this]
    · have : ¬ (⟨t, ht⟩ : Fin T) = p := fun e => h (congrArg Fin.val e)
      rw [if_neg h, if_neg this, mul_zero]
  simp only [this]
  simp

theorem unitClick_power {T : ℕ} (σ : ℝ) (w : ℕ → ℝ) (c : ℝ) {l s i : ℕ} (nfft k : ℕ) (hi : i * s + l ≤ T) :
    ∑ p : Fin T, ‖frameBin w (emphasised false c (unitClick T σ p)) l s nfft i k‖ ^ 2 =
      σ ^ 2 * ∑ j ∈ Finset.range (min l nfft), w j ^ 2 := by
  have h1 : ∀ p : Fin T, frameBin w (emphasised false c (unitClick T σ p)) l s nfft i k =
      ∑ j ∈ Finset.range (min l nfft), if i * s + j = (p : ℕ) then ((w j * σ : ℝ) : ℂ) *
        Complex.exp (-(2 * Real.pi * Complex.I * (j * k) / nfft)) else 0 := by
    intro p
    unfold frameBin
    refine Finset.sum_congr rfl fun j _ => ?_
    have : emphasised false c (unitClick T σ p) (i * s + j) = if i * s + j = (p : ℕ) then σ else 0 := by
      simp only [emphasised, Bool.false_eq_true, if_false]
      exact unitClick_getD σ p.2 _
    rw [this]
    split_ifs with h <;> simp
  have h2 : ∀ p : Fin T, ‖frameBin w (emphasised false c (unitClick T σ p)) l s nfft i k‖ ^ 2 =
      ∑ j ∈ Finset.range (min l nfft), if i * s + j = (p : ℕ) then (w j * σ) ^ 2 else 0 := by
    intro p
    rw [h1]
    by_cases h : ∃ j ∈ Finset.range (min l nfft), i * s + j = (p : ℕ)
    · obtain ⟨j, hj, hp⟩ := h
      rw [Finset.sum_eq_single_of_mem j hj fun b _ hb => if_neg (by omega),
        Finset.sum_eq_single_of_mem j hj fun b _ hb => if_neg (by omega), if_pos hp, if_pos hp, norm_mul,
        Complex.norm_real, mul_pow, Real.norm_eq_abs, sq_abs]
      have : -(2 * (Real.pi : ℂ) * Complex.I * (j * k) / nfft) = ((-(2 * Real.pi * (j * k) / nfft) : ℝ) : ℂ) * Complex.I := by
        push_cast; ring
      rw [this, Complex.norm_exp_ofReal_mul_I]
      ring
    · push Not at h
      rw [Finset.sum_eq_zero fun j hj => if_neg (h j hj), Finset.sum_eq_zero fun j hj => if_neg (h j hj)]
      simp
  simp only [h2]
  rw [Finset.sum_comm, Finset.mul_sum]
  refine Finset.sum_congr rfl fun j hj => ?_
  have hj' : i * s + j < T := by
    have := Finset.mem_range.mp hj
    omega
  rw [Finset.sum_eq_single (⟨i * s + j, hj'⟩ : Fin T)]
  · simp; ring
  · intro p _ hp
    exact if_neg fun e => hp (Fin.ext e.symm)
  · simp

/-- C179: the noise floor. The average over all `2^T` signals of `T` samples `±σ` (white noise) of the energy in band `m` is the
same for every frame: `σ²` times the energy of the window times the sum of the weights of the band, over `nfft` (without
pre-emphasis). -/
theorem C179_white (a : Args) (F : Args → List ℝ → Py (XMat × List (List ℝ))) (coeff : ℝ)
    (hF : (F, coeff) ∈ spectrograms a) (hp : a.preEmph = false) (fb : List (List ℝ)) (T l s : ℕ) (σ : ℝ)
    (h : ∀ sig : List ℝ, sig.length = T → Setup a fb sig l s) :
    ∃ S : (Fin T → Bool) → ℕ → ℕ → ℝ,
      (∀ ε, ∃ out, F a (coinToss σ ε) = .ok out ∧ IsMatrix out.1 ((T - l) / s + 1) fb.length (S ε)) ∧
      ∀ i < (T - l) / s + 1, ∀ m < fb.length, (∑ ε, S ε i m) / 2 ^ T =
        σ ^ 2 * (∑ j ∈ Finset.range (min l a.nfft), windowWeight a.win.winType l j ^ 2) *
          (∑ k ∈ Finset.range (a.nfft / 2 + 1), (fb.getD m []).getD k 0) / a.nfft := by
  have hspec : ∀ sig : List ℝ, sig.length = T → ∃ out, F a sig = .ok out ∧
      IsMatrix out.1 ((T - l) / s + 1) fb.length (energyOf a coeff fb sig l s) := by
    intro sig hs
    have hS := h sig hs
    refine ⟨_, (spectrograms_eq hF hS.bank sig).trans (spectrogram_meaning hS coeff), ?_⟩
    rw [hs]
    refine ⟨by simp, ?_, ?_⟩
    · intro r hr
      obtain ⟨i, -, rfl⟩ := List.mem_map.mp hr
      simp
    · intro i j hi hj
      rw [getD_map_range_lt _ _ hi, getD_map_lt fin _ 0 _ (by simpa using hj), getD_map_range_lt _ _ hj]
  refine ⟨fun ε => energyOf a coeff fb (coinToss σ ε) l s, fun ε => hspec _ (by simp [coinToss]), fun i hi m hm => ?_⟩
  have hlen : ∀ p : Fin T, (unitClick T σ p).length = T := fun p => by simp [unitClick]
  have hS := h (List.replicate T 0) (by simp)
  have hT : i * s + l ≤ T := by
    have h1 : l ≤ T := by simpa using hS.long
    have h2 : i ≤ (T - l) / s := by omega
    have h3 := (Nat.le_div_iff_mul_le hS.pos).mp h2
    omega
  simp only [coinToss_eq]
  rw [energy_mixture a coeff fb hlen]
  have key : ∑ p : Fin T, energyOf a coeff fb (unitClick T σ p) l s i m = ∑ k ∈ Finset.range (a.nfft / 2 + 1),
      (σ ^ 2 * ∑ j ∈ Finset.range (min l a.nfft), windowWeight a.win.winType l j ^ 2) / a.nfft * (fb.getD m []).getD k 0 := by
    unfold energyOf bandEnergy framePower
    rw [Finset.sum_comm]
    refine Finset.sum_congr rfl fun k _ => ?_
    rw [← Finset.sum_mul, ← Finset.sum_div, hp, unitClick_power σ _ _ _ _ hT]
  rw [key, ← Finset.mul_sum]
  field_simp

theorem demo2_setup_any (sig : List ℝ) (h : sig.length = 3) : Setup demo2 [[1, 2], [3, 1]] sig 2 1 := by
  have S := demo2_setup
  exact ⟨S.bank, S.cols, S.nonneg, S.rows, S.ceps, S.nfft, S.window, S.hopLe, S.len, S.hop, S.pos, by omega,
    fun _ e => by simp [e] at h⟩

/-- Two sources: the parallelogram law for the energy of band 1 in frame 1. -/
example : ∃ (S : (Fin 2 → Bool) → ℕ → ℕ → ℝ) (E : Fin 2 → ℕ → ℕ → ℝ),
    (∀ ε, ∃ out, melSpectrogram demo2 (mixture 3 ![[5, 1, 4], [0, 1, -1]] ε) = .ok out ∧ IsMatrix out.1 2 2 (S ε)) ∧
    (S ![true, true] 1 1 + S ![true, false] 1 1 + S ![false, true] 1 1 + S ![false, false] 1 1) / 4 = E 0 1 1 + E 1 1 1 := by
  obtain ⟨S, E, h1, -, h3⟩ := C179_sources demo2 melSpectrogram demo2.preEmphCoeff (by simp [spectrograms]) [[1, 2], [3, 1]] 2
    ![[5, 1, 4], [0, 1, -1]] 3 2 1 (fun p => by fin_cases p <;> rfl) demo2_setup_any
  refine ⟨S, E, h1, ?_⟩
  have h4 := h3 1 1
  rw [Fin.sum_univ_two] at h4
  rw [← h4]
  have : ∑ ε : Fin 2 → Bool, S ε 1 1 =
      S ![true, true] 1 1 + S ![true, false] 1 1 + S ![false, true] 1 1 + S ![false, false] 1 1 := by
    rw [← (finTwoArrowEquiv Bool).symm.sum_comp, Fintype.sum_prod_type]
    simp [finTwoArrowEquiv]
    ring
  rw [this]
  norm_num

/-- White noise of three samples `±σ`, Hamming window of two samples: the noise floor of band 0 is `0.0192 σ²` in both
frames. -/
example (σ : ℝ) : ∃ S : (Fin 3 → Bool) → ℕ → ℕ → ℝ,
    (∀ ε, ∃ out, melSpectrogram { demo2 with preEmph := false } (coinToss σ ε) = .ok out ∧ IsMatrix out.1 2 2 (S ε)) ∧
    ∀ i < 2, (∑ ε, S ε i 0) / 8 = 0.0192 * σ ^ 2 := by
  obtain ⟨S, h1, h2⟩ := C179_white { demo2 with preEmph := false } melSpectrogram demo2.preEmphCoeff (by simp [spectrograms])
    rfl [[1, 2], [3, 1]] 3 2 1 σ (fun sig h => by
      have S := demo2_setup_any sig h
      exact ⟨S.bank, S.cols, S.nonneg, S.rows, S.ceps, S.nfft, S.window, S.hopLe, S.len, S.hop, S.pos, S.long, fun e => by cases e⟩)
  refine ⟨S, h1, fun i hi => ?_⟩
  have h3 := h2 i hi 0 (by simp)
  have e8 : (2 : ℝ) ^ 3 = 8 := by norm_num
  rw [e8] at h3
  rw [h3]
  simp [demo2, Args.win, windowWeight, Finset.sum_range_succ]
  norm_num
  ring

end Props
end Spafe
