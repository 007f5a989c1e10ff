import Verif.Model.RoundingPlp
import Verif.Props.RoundingRasta
import Verif.Props.RoundingRoot
import Verif.Props.RoundingLpc
import Verif.Props.PlpContinuous

/-! C198: `plp` and `rplp` in floating point, end to end. -/

set_option linter.unusedSectionVars false

namespace Spafe
namespace Props
open Model XF Spec

variable {u v ω δ : ℝ} {fl : ℝ → ℝ} {fft : (ℕ → ℝ) → ℕ → ℂ} {abs : ℂ → ℝ} {wv : ℕ → ℝ}

/-! ### Linear prediction from inexact autocorrelations -/

theorem solve_close {x : List ℝ} {p : ℕ} (hp : 1 ≤ p) {a b : ℕ → ℝ} (ha : IsPredictor x p a) {m G ρ : ℝ} (hm : 0 < m)
    (hB : BoundedBelow x p m) (hG0 : 0 ≤ G) (hs : 2 * p * G ≤ m) {r : ℕ → ℝ} (hr : ∀ k ≤ p, |r k - autoCorr x k| ≤ G)
    (hb : ∀ i, 1 ≤ i → i ≤ p → |∑ k ∈ Finset.Icc 1 p, b k * r ((i : ℤ) - (k : ℤ)).natAbs + r i| ≤ ρ) :
    ∑ k ∈ Finset.Icc 1 p, (b k - a k) ^ 2 ≤ p * (2 * (ρ + G * (1 + ∑ k ∈ Finset.Icc 1 p, |a k|)) / m) ^ 2 := by
  obtain ⟨co, e0, hco, hcoa⟩ := predictor_helper hp (hB.notSilent hp hm) ha
  have hD : ∀ i, 1 ≤ i → i ≤ p →
      |∑ k ∈ Finset.Icc 1 p, b k * autoCorr x ((i : ℤ) - (k : ℤ)).natAbs + autoCorr x i| ≤
        ρ + G * (1 + ∑ k ∈ Finset.Icc 1 p, |b k|) := by
    intro i h1 h2
    have h3 := hb i h1 h2
    have e : ∑ k ∈ Finset.Icc 1 p, b k * autoCorr x ((i : ℤ) - (k : ℤ)).natAbs + autoCorr x i =
        (∑ k ∈ Finset.Icc 1 p, b k * r ((i : ℤ) - (k : ℤ)).natAbs + r i) -
        ((∑ k ∈ Finset.Icc 1 p, b k * (r ((i : ℤ) - (k : ℤ)).natAbs - autoCorr x ((i : ℤ) - (k : ℤ)).natAbs)) +
          (r i - autoCorr x i)) := by
      simp only [mul_sub, Finset.sum_sub_distrib]
      ring
    have h4 : |∑ k ∈ Finset.Icc 1 p, b k * (r ((i : ℤ) - (k : ℤ)).natAbs - autoCorr x ((i : ℤ) - (k : ℤ)).natAbs)| ≤
        G * ∑ k ∈ Finset.Icc 1 p, |b k| := by
      refine (Finset.abs_sum_le_sum_abs _ _).trans ?_
      rw [Finset.mul_sum]
      refine Finset.sum_le_sum fun k hk => ?_
      obtain ⟨k1, k2⟩ := Finset.mem_Icc.mp hk
      rw [abs_mul, mul_comm]
      exact mul_le_mul_of_nonneg_right (hr _ (by omega)) (abs_nonneg _)
    have h5 := hr i h2
    have h6 := abs_add_le (∑ k ∈ Finset.Icc 1 p, b k * (r ((i : ℤ) - (k : ℤ)).natAbs - autoCorr x ((i : ℤ) - (k : ℤ)).natAbs))
      (r i - autoCorr x i)
    have h7 := abs_sub (∑ k ∈ Finset.Icc 1 p, b k * r ((i : ℤ) - (k : ℤ)).natAbs + r i)
      ((∑ k ∈ Finset.Icc 1 p, b k * (r ((i : ℤ) - (k : ℤ)).natAbs - autoCorr x ((i : ℤ) - (k : ℤ)).natAbs)) + (r i - autoCorr x i))
    rw [e]
    linarith
  have h1 := (residual_bounds hco hm hB b hD).1
  rw [Finset.sum_congr rfl fun k hk => by rw [hcoa k (Finset.mem_Icc.mp hk).2]] at h1
  have hD0 := (abs_nonneg _).trans (hD 1 le_rfl hp)
  obtain ⟨D, hDd⟩ : ∃ D, D = ρ + G * (1 + ∑ k ∈ Finset.Icc 1 p, |b k|) := ⟨_, rfl⟩
  rw [← hDd] at h1 hD0
  refine h1.trans (mul_le_mul_of_nonneg_left (pow_le_pow_left₀ (by positivity) ?_ 2) (by positivity))
  apply div_le_div_of_nonneg_right _ hm.le
  have hpr : (1 : ℝ) ≤ p := by exact_mod_cast hp
  have hs' : ∑ k ∈ Finset.Icc 1 p, |b k| ≤ ∑ k ∈ Finset.Icc 1 p, |a k| + p * (D / m) := by
    have e1 : ∑ k ∈ Finset.Icc 1 p, |b k| ≤ ∑ k ∈ Finset.Icc 1 p, |a k| + ∑ k ∈ Finset.Icc 1 p, |b k - a k| := by
      rw [← Finset.sum_add_distrib]
      refine Finset.sum_le_sum fun k _ => ?_
      have := abs_add_le (a k) (b k - a k)
      rwa [add_sub_cancel] at this
    have e2 : (∑ k ∈ Finset.Icc 1 p, |b k - a k|) ^ 2 ≤ (p * (D / m)) ^ 2 := by
      have := sq_sum_le_card_mul_sum_sq (s := Finset.Icc 1 p) (f := fun k => |b k - a k|)
      simp only [sq_abs, Nat.card_Icc, Nat.add_sub_cancel] at this
      refine this.trans ?_
      have := mul_le_mul_of_nonneg_left h1 (show (0 : ℝ) ≤ p by positivity)
      refine this.trans (le_of_eq (by ring))
    have e3 := abs_le_of_sq_le_sq' e2 (by positivity)
    linarith [e3.2]
  have hDm : G * (p * (D / m)) ≤ D / 2 := by
    have : G * (p * (D / m)) = (2 * p * G) * (D / m) / 2 := by ring
    rw [this]
    have h3 : (2 * p * G) * (D / m) ≤ m * (D / m) := mul_le_mul_of_nonneg_right hs (by positivity)
    rw [mul_div_cancel₀ _ hm.ne'] at h3
    linarith
  have := mul_le_mul_of_nonneg_left hs' hG0
  nlinarith

/-! ### From loudness to the predictor -/

/-- Error of the computed autocorrelations, for samples off by `ε` in the Euclidean norm. -/
noncomputable def corrError (u ε r : ℝ) (n : ℕ) : ℝ := corrChange ε r + ((1 + u) ^ n - 1) * (r + corrChange ε r)

/-- Error of the computed coefficients: `ρ` is the residual of the solver, `m` the lower bound of the quadratic form, `S` the sum of the
magnitudes of the exact coefficients. -/
noncomputable def predictorError (p : ℕ) (ρ G S m : ℝ) : ℝ := √p * (2 * (ρ + G * (1 + S)) / m)

theorem flAutoCorr_close (h : Rounding u fl) {x y : List ℝ} (hl : y.length = x.length) {ε : ℝ} (hε : 0 ≤ ε)
    (hd : ∑ n ∈ Finset.range x.length, (y.getD n 0 - x.getD n 0) ^ 2 ≤ ε ^ 2) {k : ℕ} {r : ℝ} (hr : FlAutoCorr fl y k r) :
    |r - autoCorr x k| ≤ corrError u ε (autoCorr x 0) x.length := by
  have hu := h.nonneg
  have hc := autoCorr_sub_le hl hε hd
  have hg : 0 ≤ (1 + u) ^ x.length - 1 := by linarith [one_le_pow₀ (n := x.length) (show 1 ≤ 1 + u by linarith)]
  have h1 := C175_autocorrelation h y k r hr
  rw [hl] at h1
  have h2 := hc k
  have h3 := abs_sub_le r (autoCorr y k) (autoCorr x k)
  have h4 := (abs_le.mp (hc 0)).2
  have h5 := mul_le_mul_of_nonneg_left (by linarith : autoCorr y 0 ≤ autoCorr x 0 + corrChange ε (autoCorr x 0)) hg
  unfold corrError
  linarith

theorem corrError_nonneg (hu : 0 ≤ u) {ε r : ℝ} (hε : 0 ≤ ε) (hr : 0 ≤ r) (n : ℕ) : 0 ≤ corrError u ε r n := by
  have hg : 0 ≤ (1 + u) ^ n - 1 := by linarith [one_le_pow₀ (n := n) (show 1 ≤ 1 + u by linarith)]
  unfold corrError corrChange
  positivity

theorem flLpc_close (h : Rounding u fl) {x y : List ℝ} (hl : y.length = x.length) {p : ℕ} (hp : 1 ≤ p) {a b : ℕ → ℝ}
    (ha : IsPredictor x p a) {m ε ρ : ℝ} (hm : 0 < m) (hB : BoundedBelow x p m) (hε : 0 ≤ ε)
    (hd : ∑ n ∈ Finset.range x.length, (y.getD n 0 - x.getD n 0) ^ 2 ≤ ε ^ 2)
    (hs : 2 * p * corrError u ε (autoCorr x 0) x.length ≤ m) (hb : FlLpc fl y p ρ b) (k : ℕ) (hk : k ≤ p) :
    |b k - a k| ≤ predictorError p ρ (corrError u ε (autoCorr x 0) x.length) (∑ k ∈ Finset.Icc 1 p, |a k|) m := by
  have hu := h.nonneg
  obtain ⟨r, hr, hres⟩ := hb.solves
  have hG0 := corrError_nonneg hu hε (le_trans (Finset.sum_nonneg fun _ _ => abs_nonneg _) (autoCorr_abs_le x 0)) x.length
  have hclose := fun k hk => flAutoCorr_close h hl hε hd (hr k hk)
  have key := solve_close hp ha hm hB hG0 hs hclose hres
  obtain ⟨W, hW⟩ : ∃ W, W = 2 * (ρ + corrError u ε (autoCorr x 0) x.length * (1 + ∑ k ∈ Finset.Icc 1 p, |a k|)) / m := ⟨_, rfl⟩
  have hρ : 0 ≤ ρ := (abs_nonneg _).trans (hres 1 le_rfl hp)
  have hW0 : 0 ≤ W := by
    have : 0 ≤ ∑ k ∈ Finset.Icc 1 p, |a k| := Finset.sum_nonneg fun _ _ => abs_nonneg _
    rw [hW]; positivity
  unfold predictorError
  rw [← hW] at key ⊢
  rcases Nat.eq_zero_or_pos k with rfl | h0
  · rw [hb.one, ha.one, sub_self, abs_zero]; positivity
  · have h1 : (b k - a k) ^ 2 ≤ p * W ^ 2 :=
      (Finset.single_le_sum (f := fun k => (b k - a k) ^ 2) (fun _ _ => sq_nonneg _) (Finset.mem_Icc.mpr ⟨h0, hk⟩)).trans key
    refine abs_le_of_sq_le_sq (h1.trans (le_of_eq ?_)) (by positivity)
    rw [mul_pow, Real.sq_sqrt (Nat.cast_nonneg _)]

theorem inverseDft_zero {n N : ℕ} {L : ℕ → ℝ} (h0 : ∀ j, 0 ≤ L j) : inverseDft n N L 0 = (∑ j ∈ Finset.range (min n N), L j) / n := by
  unfold inverseDft
  have e : ∑ j ∈ Finset.range (min n N), (L j : ℂ) * Complex.exp (2 * Real.pi * Complex.I * (j * (0 : ℕ)) / n) =
      ((∑ j ∈ Finset.range (min n N), L j : ℝ) : ℂ) := by
    push_cast
    refine Finset.sum_congr rfl fun j _ => ?_
    simp
  rw [e, Complex.norm_real, Real.norm_eq_abs, abs_of_nonneg (Finset.sum_nonneg fun j _ => h0 j)]

theorem inverseDft_close {n N : ℕ} {L L' : ℕ → ℝ} (h0 : ∀ j, 0 ≤ L j) {lam : ℝ} (h : ∀ j < N, |L' j - L j| ≤ lam * L j) (t : ℕ) :
    |inverseDft n N L' t - inverseDft n N L t| ≤ lam * inverseDft n N L 0 := by
  rw [inverseDft_zero h0]
  unfold inverseDft
  rw [← sub_div, abs_div, abs_of_nonneg (Nat.cast_nonneg n : (0 : ℝ) ≤ n), ← mul_div_assoc]
  refine div_le_div_of_nonneg_right ?_ (Nat.cast_nonneg n)
  refine (abs_norm_sub_norm_le _ _).trans ?_
  rw [← Finset.sum_sub_distrib, Finset.mul_sum]
  refine (norm_sum_le _ _).trans (Finset.sum_le_sum fun j hj => ?_)
  rw [← sub_mul, norm_mul]
  have e : (2 * Real.pi * Complex.I * (j * t) / n : ℂ) = ((2 * Real.pi * (j * t) / n : ℝ) : ℂ) * Complex.I := by
    push_cast; ring
  rw [e, Complex.norm_exp_ofReal_mul_I, mul_one, ← Complex.ofReal_sub, Complex.norm_real, Real.norm_eq_abs]
  exact h j (lt_of_lt_of_le (Finset.mem_range.mp hj) (min_le_right _ _))

/-- Loudness of energies known up to the factor `exp q`, compressed with the relative accuracy `lam`. -/
theorem loudness_close {E w L lam q : ℝ} (hE : 0 < E) (hw : 0 < w) (hq : |Real.log w - Real.log E| ≤ q) (hlam : 0 ≤ lam)
    (hL : |L - intensity w| ≤ lam * intensity w) : |L - intensity E| ≤ ((1 + lam) * Real.exp (2 * q) - 1) * intensity E := by
  have h1 := log_intensity_lipschitz hE hw
  have p1 := intensity_pos hE
  have p2 := intensity_pos hw
  have h2 : |Real.log (intensity w) - Real.log (intensity E)| ≤ 2 * q := by linarith
  have h3 := abs_le.mp h2
  have hq0 : 0 ≤ 2 * q := (abs_nonneg _).trans h2
  have g1 := Real.one_le_exp hq0
  have a1 : intensity w ≤ Real.exp (2 * q) * intensity E := by
    calc intensity w = Real.exp (Real.log (intensity w)) := (Real.exp_log p2).symm
      _ ≤ Real.exp (2 * q + Real.log (intensity E)) := Real.exp_le_exp.mpr (by linarith [h3.1, h3.2])
      _ = Real.exp (2 * q) * intensity E := by rw [Real.exp_add, Real.exp_log p1]
  have a2 : intensity E ≤ Real.exp (2 * q) * intensity w := by
    calc intensity E = Real.exp (Real.log (intensity E)) := (Real.exp_log p1).symm
      _ ≤ Real.exp (2 * q + Real.log (intensity w)) := Real.exp_le_exp.mpr (by linarith [h3.1, h3.2])
      _ = Real.exp (2 * q) * intensity w := by rw [Real.exp_add, Real.exp_log p2]
  generalize Real.exp (2 * q) = g at *
  have h5 := abs_le.mp hL
  have b1 : (2 - g) * intensity E ≤ intensity w := by
    rcases le_or_gt g 2 with hh | hh
    · have c1 : (2 - g) * g ≤ 1 := by nlinarith [sq_nonneg (g - 1)]
      calc (2 - g) * intensity E ≤ (2 - g) * (g * intensity w) := mul_le_mul_of_nonneg_left a2 (by linarith)
        _ = (2 - g) * g * intensity w := by ring
        _ ≤ 1 * intensity w := mul_le_mul_of_nonneg_right c1 p2.le
        _ = _ := one_mul _
    · nlinarith
  have b2 := mul_le_mul_of_nonneg_left a1 hlam
  rw [abs_le]
  constructor <;> nlinarith

/-- Error of coefficient `k` of `plp` and `rplp`: the loudness values have the relative error `lam`, the vector of `n` samples (the inverse
DFT of the exact loudness) is `x`. -/
noncomputable def plpError (u lam τ ρ κ m S : ℝ) (p : ℕ) (x : List ℝ) (k : ℕ) : ℝ :=
  κ + k * predictorError p ρ (corrError u (√x.length * (τ + lam * x.getD 0 0)) (autoCorr x 0) x.length) S m

theorem flPlp_distance {nfft N : ℕ} (hn : nfft ≠ 0) {L L' : ℕ → ℝ} (h0 : ∀ j, 0 ≤ L j) {lam τ ρ κ : ℝ} (hlam : 0 ≤ lam)
    (hL : ∀ j < N, |L' j - L j| ≤ lam * L j) {p : ℕ} {x : List ℝ} (hx : x = (List.range nfft).map (inverseDft nfft N L))
    {y : List ℝ} {b c : ℕ → ℝ} (hf : FlPlp fl nfft N L' p τ ρ κ y b c) : y.length = x.length ∧ 0 ≤ √x.length * (τ + lam * x.getD 0 0) ∧
      ∑ n ∈ Finset.range x.length, (y.getD n 0 - x.getD n 0) ^ 2 ≤ (√x.length * (τ + lam * x.getD 0 0)) ^ 2 := by
  have hlen : x.length = nfft := by rw [hx]; simp
  have hx0 : x.getD 0 0 = inverseDft nfft N L 0 := by rw [hx, getD_map_range_lt _ _ (Nat.pos_of_ne_zero hn)]
  have hτ : 0 ≤ τ := (abs_nonneg _).trans (hf.idft 0 (Nat.pos_of_ne_zero hn))
  have hi0 : 0 ≤ x.getD 0 0 := by rw [hx0]; unfold inverseDft; positivity
  refine ⟨hf.length.trans hlen.symm, by positivity, ?_⟩
  rw [mul_pow, Real.sq_sqrt (Nat.cast_nonneg _)]
  refine (Finset.sum_le_card_nsmul _ _ ((τ + lam * x.getD 0 0) ^ 2) fun t ht => ?_).trans (le_of_eq (by simp))
  have ht := Finset.mem_range.mp ht
  rw [hlen] at ht
  have e1 := hf.idft t ht
  have e2 := inverseDft_close (n := nfft) (N := N) h0 hL t
  rw [← hx0] at e2
  have e3 : x.getD t 0 = inverseDft nfft N L t := by rw [hx, getD_map_range_lt _ _ ht]
  rw [e3]
  have e4 := abs_sub_le (y.getD t 0) (inverseDft nfft N L' t) (inverseDft nfft N L t)
  exact sq_le_sq' (by linarith [neg_abs_le (y.getD t 0 - inverseDft nfft N L t)]) (by linarith [le_abs_self (y.getD t 0 - inverseDft nfft N L t)])

/-- **C198**, from the loudness values on: an inexact inverse DFT, autocorrelation, solver and recursion on inexact loudness values. -/
theorem C198_tail (h : Rounding u fl) {nfft N : ℕ} (hn : nfft ≠ 0) {L L' : ℕ → ℝ} (h0 : ∀ j, 0 ≤ L j) {lam τ ρ κ : ℝ} (hlam : 0 ≤ lam)
    (hL : ∀ j < N, |L' j - L j| ≤ lam * L j) {p : ℕ} (hp : 1 ≤ p) {x : List ℝ} (hx : x = (List.range nfft).map (inverseDft nfft N L))
    {a : ℕ → ℝ} (ha : IsPredictor x p a) {m : ℝ} (hm : 0 < m) (hB : BoundedBelow x p m)
    (hs : 2 * p * corrError u (√x.length * (τ + lam * x.getD 0 0)) (autoCorr x 0) x.length ≤ m)
    {y : List ℝ} {b c : ℕ → ℝ} (hf : FlPlp fl nfft N L' p τ ρ κ y b c) (k : ℕ) (h1 : 1 ≤ k) (h2 : k ≤ p) (e : ℝ) :
    |c k - lpCoefficient a e k| ≤ plpError u lam τ ρ κ m (∑ k ∈ Finset.Icc 1 p, |a k|) p x k := by
  obtain ⟨hl, hε, hd⟩ := flPlp_distance hn h0 hlam hL hx hf
  have hb := flLpc_close h hl hp ha hm hB hε hd hs hf.lpc
  have hc := lpCoefficient_sub_le (e := e) (e' := 0) h1 fun j hj => hb j (hj.trans h2)
  have := abs_sub_le (c k) (lpCoefficient b 0 k) (lpCoefficient a e k)
  have := hf.cepstra k h1 h2
  unfold plpError
  linarith

/-- Error of the residual: `G` is the error of the autocorrelations, `r` the energy, `d` the error of the coefficients. -/
noncomputable def residualError (p : ℕ) (σ G S r d : ℝ) : ℝ := σ + G * (2 + S + p * d) + r * (p * d)

theorem residual_close {x : List ℝ} {p : ℕ} {a b : ℕ → ℝ} (ha : a 0 = 1) (hb : b 0 = 1) {r : ℕ → ℝ} {G d : ℝ} (hG : 0 ≤ G)
    (hr : ∀ k < x.length, |r k - autoCorr x k| ≤ G) (hd : ∀ k ≤ p, |b k - a k| ≤ d) (hx : x ≠ []) :
    |(|r (x.length - 1) + ∑ k ∈ Finset.range (min (p + 1) (2 * x.length - 2)), b k * r ((x.length : ℤ) - 2 - k).natAbs|) - lpResidual x p a| ≤
      residualError p 0 G (∑ k ∈ Finset.Icc 1 p, |a k|) (autoCorr x 0) d := by
  have hpos : 0 < x.length := List.length_pos_of_ne_nil hx
  have hd0 : 0 ≤ d := (abs_nonneg _).trans (hd 0 (Nat.zero_le _))
  have hr0 : ∀ k, |autoCorr x k| ≤ autoCorr x 0 := fun k => by
    have e : ∑ n ∈ Finset.range (x.length - k), x.getD n 0 * x.getD (n + k) 0 = autoCorr x k := by
      rw [autoCorr_eq]
      refine Finset.sum_subset (Finset.range_mono (Nat.sub_le _ _)) fun n _ hn => ?_
      rw [List.getD_eq_default x (n := n + k) _ (by have := Finset.mem_range.not.mp hn; omega), mul_zero]
    rw [← e]
    exact (Finset.abs_sum_le_sum_abs _ _).trans (autoCorr_abs_le x k)
  have h00 : 0 ≤ autoCorr x 0 := (abs_nonneg _).trans (hr0 0)
  obtain ⟨K, hK⟩ : ∃ K, K = min (p + 1) (2 * x.length - 2) := ⟨_, rfl⟩
  unfold lpResidual
  rw [← hK]
  refine (abs_abs_sub_abs_le (r (x.length - 1) + ∑ k ∈ Finset.range K, b k * r ((x.length : ℤ) - 2 - k).natAbs) _).trans ?_
  have e : r (x.length - 1) + ∑ k ∈ Finset.range K, b k * r ((x.length : ℤ) - 2 - k).natAbs -
      (autoCorr x (x.length - 1) + ∑ k ∈ Finset.range K, a k * autoCorr x ((x.length : ℤ) - 2 - k).natAbs) =
      (r (x.length - 1) - autoCorr x (x.length - 1)) + ∑ k ∈ Finset.range K,
        (b k * (r ((x.length : ℤ) - 2 - k).natAbs - autoCorr x ((x.length : ℤ) - 2 - k).natAbs) +
          (b k - a k) * autoCorr x ((x.length : ℤ) - 2 - k).natAbs) := by
    have : ∀ k ∈ Finset.range K, b k * (r ((x.length : ℤ) - 2 - k).natAbs - autoCorr x ((x.length : ℤ) - 2 - k).natAbs) +
          (b k - a k) * autoCorr x ((x.length : ℤ) - 2 - k).natAbs =
        b k * r ((x.length : ℤ) - 2 - k).natAbs - a k * autoCorr x ((x.length : ℤ) - 2 - k).natAbs := fun k _ => by ring
    rw [Finset.sum_congr rfl this, Finset.sum_sub_distrib]
    ring
  rw [e]
  have h1 := hr (x.length - 1) (by omega)
  have h2 : |∑ k ∈ Finset.range K, (b k * (r ((x.length : ℤ) - 2 - k).natAbs - autoCorr x ((x.length : ℤ) - 2 - k).natAbs) +
      (b k - a k) * autoCorr x ((x.length : ℤ) - 2 - k).natAbs)| ≤
      ∑ k ∈ Finset.range (p + 1), (G * |b k| + autoCorr x 0 * |b k - a k|) := by
    refine (Finset.abs_sum_le_sum_abs _ _).trans ((Finset.sum_le_sum fun k hk => ?_).trans
      (Finset.sum_le_sum_of_subset_of_nonneg (Finset.range_subset_range.mpr (by omega : K ≤ p + 1)) fun k _ _ => by positivity))
    have hk := Finset.mem_range.mp hk
    refine (abs_add_le _ _).trans (add_le_add ?_ ?_)
    · rw [abs_mul, mul_comm]
      exact mul_le_mul_of_nonneg_right (hr _ (by omega)) (abs_nonneg _)
    · rw [abs_mul, mul_comm]
      exact mul_le_mul_of_nonneg_right (hr0 _) (abs_nonneg _)
  have h3 : ∑ k ∈ Finset.range (p + 1), |b k - a k| ≤ p * d := by
    rw [Finset.sum_range_succ', ha, hb, sub_self, abs_zero, add_zero]
    refine (Finset.sum_le_card_nsmul _ _ d fun k hk => hd _ (by have := Finset.mem_range.mp hk; omega)).trans (le_of_eq (by simp))
  have h4 : ∑ k ∈ Finset.range (p + 1), |a k| = 1 + ∑ k ∈ Finset.Icc 1 p, |a k| := by
    rw [Finset.sum_range_succ', ha, abs_one, add_comm, Finset.range_eq_Ico, Finset.sum_Ico_add' (fun k => |a k|) 0 p 1]
    congr 1
  have h5 : ∑ k ∈ Finset.range (p + 1), |b k| ≤ 1 + ∑ k ∈ Finset.Icc 1 p, |a k| + p * d := by
    rw [← h4]
    refine le_trans ?_ (add_le_add_right h3 _)
    rw [← Finset.sum_add_distrib]
    refine Finset.sum_le_sum fun k _ => ?_
    have := abs_add_le (a k) (b k - a k)
    rwa [add_sub_cancel] at this
  have h9 : ∑ k ∈ Finset.range (p + 1), (G * |b k| + autoCorr x 0 * |b k - a k|) =
      G * ∑ k ∈ Finset.range (p + 1), |b k| + autoCorr x 0 * ∑ k ∈ Finset.range (p + 1), |b k - a k| := by
    rw [Finset.sum_add_distrib, ← Finset.mul_sum, ← Finset.mul_sum]
  rw [h9] at h2
  have h6 := mul_le_mul_of_nonneg_left h5 hG
  have h7 := mul_le_mul_of_nonneg_left h3 h00
  have h8 := abs_add_le (r (x.length - 1) - autoCorr x (x.length - 1)) (∑ k ∈ Finset.range K,
    (b k * (r ((x.length : ℤ) - 2 - k).natAbs - autoCorr x ((x.length : ℤ) - 2 - k).natAbs) +
      (b k - a k) * autoCorr x ((x.length : ℤ) - 2 - k).natAbs))
  unfold residualError
  linarith

/-- `G`, the error of the autocorrelations of `plp` and `rplp`, as in `plpError`. -/
noncomputable def plpCorrError (u lam τ : ℝ) (x : List ℝ) : ℝ :=
  corrError u (√x.length * (τ + lam * x.getD 0 0)) (autoCorr x 0) x.length

/-- The error of the residual in `plp` and `rplp`. -/
noncomputable def plpResidualError (u lam τ ρ σ m S : ℝ) (p : ℕ) (x : List ℝ) : ℝ :=
  residualError p σ (plpCorrError u lam τ x) S (autoCorr x 0) (predictorError p ρ (plpCorrError u lam τ x) S m)

/-- **C198** for coefficient 0, the logarithm of the residual: it is safe where the error of the residual is less than the fraction `t` of
the residual. -/
theorem C198_zero (h : Rounding u fl) {nfft N : ℕ} (hn : nfft ≠ 0) {L L' : ℕ → ℝ} (h0 : ∀ j, 0 ≤ L j) {lam τ ρ κ : ℝ} (hlam : 0 ≤ lam)
    (hL : ∀ j < N, |L' j - L j| ≤ lam * L j) {p : ℕ} (hp : 1 ≤ p) {x : List ℝ} (hx : x = (List.range nfft).map (inverseDft nfft N L))
    {a : ℕ → ℝ} (ha : IsPredictor x p a) {m : ℝ} (hm : 0 < m) (hB : BoundedBelow x p m)
    (hs : 2 * p * plpCorrError u lam τ x ≤ m)
    {y : List ℝ} {b c : ℕ → ℝ} (hf : FlPlp fl nfft N L' p τ ρ κ y b c) {σ κ' e c0 t : ℝ} (he : FlResidual fl y p σ κ' b e c0)
    (hpos : 0 < lpResidual x p a) (ht : t < 1)
    (hsmall : plpResidualError u lam τ ρ σ m (∑ k ∈ Finset.Icc 1 p, |a k|) p x ≤ t * lpResidual x p a) :
    |c0 - lpCoefficient a (lpResidual x p a) 0| ≤ κ' + Real.log (1 / (1 - t)) := by
  obtain ⟨hl, hε, hd⟩ := flPlp_distance hn h0 hlam hL hx hf
  have hb := flLpc_close h hl hp ha hm hB hε hd hs hf.lpc
  obtain ⟨r, hr, hres⟩ := he.residual
  rw [hl] at hr hres
  have hne : x ≠ [] := by
    rintro rfl
    have := congrArg List.length hx
    simp at this
    omega
  have hG0 := corrError_nonneg h.nonneg hε (le_trans (Finset.sum_nonneg fun _ _ => abs_nonneg _) (autoCorr_abs_le x 0)) x.length
  have h1 := residual_close ha.one hf.lpc.one hG0 (fun k hk => flAutoCorr_close h hl hε hd (hr k hk)) hb hne
  have h2 : |e - lpResidual x p a| ≤ t * lpResidual x p a := by
    refine (abs_sub_le _ _ _).trans ((add_le_add hres h1).trans (le_trans (le_of_eq ?_) hsmall))
    unfold plpResidualError plpCorrError residualError
    ring
  have h3 : Near (1 + t) e (lpResidual x p a) := by
    unfold Near
    rw [abs_of_pos hpos]
    simpa using h2
  have h4 := log_near_bound (by linarith) hpos h3
  rw [show (2 : ℝ) - (1 + t) = 1 - t by ring] at h4
  have h5 : lpCoefficient a (lpResidual x p a) 0 = Real.log (lpResidual x p a) := by
    simp [lpCoefficient, logFloor, hpos.ne']
  rw [h5]
  exact (abs_sub_le _ (Real.log e) _).trans (add_le_add he.log h4)

/-- **C198**: the error vanishes with the errors of the operations, whatever the loudness values (not all of them zero). -/
theorem C198_converges {nfft N : ℕ} (hn : nfft ≠ 0) {L : ℕ → ℝ} (h0 : ∀ j, 0 ≤ L j) (h1 : ∃ j < min nfft N, L j ≠ 0) {p : ℕ} (hp : 1 ≤ p)
    {a : ℕ → ℝ} (ha : IsPredictor ((List.range nfft).map (inverseDft nfft N L)) p a) (tol : ℝ) (ht : 0 < tol) :
    ∃ η > 0, ∀ fl L' y b c, Rounding η fl → (∀ j < N, |L' j - L j| ≤ η * L j) → FlPlp fl nfft N L' p η η η y b c →
      ∀ k e, 1 ≤ k → k ≤ p → |c k - lpCoefficient a e k| ≤ tol := by
  obtain ⟨x, hx⟩ : ∃ x, x = (List.range nfft).map (inverseDft nfft N L) := ⟨_, rfl⟩
  rw [← hx] at ha
  obtain ⟨m, hm, hB⟩ := (C175_lower_bound x p hp).1.mpr (hx ▸ inverseDft_notSilent hn h0 h1)
  obtain ⟨S, hS⟩ : ∃ S, S = ∑ k ∈ Finset.Icc 1 p, |a k| := ⟨_, rfl⟩
  let G : ℝ → ℝ := fun t => corrError t (√x.length * (t + t * x.getD 0 0)) (autoCorr x 0) x.length
  have hG : Continuous G := by
    show Continuous fun t => corrError t (√x.length * (t + t * x.getD 0 0)) (autoCorr x 0) x.length
    unfold corrError corrChange
    fun_prop
  have hG0 : G 0 = 0 := by simp [G, corrError, corrChange]
  let f : ℝ → ℝ := fun t => 2 * p * G t
  have hf : Continuous f := by fun_prop
  have hf0 : f 0 = 0 := by simp [f, hG0]
  have hev : ∀ᶠ t in nhds (0 : ℝ), f t < m := hf.continuousAt.eventually (by rw [hf0]; exact gt_mem_nhds hm)
  have hgv : ∀ᶠ t in nhds (0 : ℝ), ∀ k ∈ Finset.range (p + 1), plpError t t t t t m S p x k < tol := by
    rw [Filter.eventually_all_finset]
    intro k _
    have hc : Continuous fun t => plpError t t t t t m S p x k := by
      show Continuous fun t => t + k * (√p * (2 * (t + G t * (1 + S)) / m))
      fun_prop
    have : plpError 0 0 0 0 0 m S p x k = 0 := by
      show (0 : ℝ) + k * (√p * (2 * (0 + G 0 * (1 + S)) / m)) = 0
      simp [hG0]
    have ht' := hc.tendsto 0
    rw [this] at ht'
    exact ht'.eventually (gt_mem_nhds ht)
  obtain ⟨r, hr, hball⟩ := Metric.eventually_nhds_iff.mp (hev.and hgv)
  have hr2 : dist (r / 2) 0 < r := by
    rw [dist_zero_right, Real.norm_eq_abs, abs_of_pos (by positivity)]; linarith
  obtain ⟨b1, b2⟩ := hball hr2
  refine ⟨r / 2, by positivity, fun fl L' y b c hR hL hF k e k1 k2 => ?_⟩
  refine (C198_tail hR hn h0 (by positivity) hL hp hx ha hm hB b1.le hF k k1 k2 e).trans ?_
  rw [← hS]
  exact (b2 k (Finset.mem_range.mpr (by omega))).le

/-- **C198** for `plp`: `η` bounds the relative error of the root of each band energy (`C120`), `lam` that of the loudness law. -/
theorem C198_plp (a : Args) (fb : List (List ℝ)) (x : List ℝ) (l s : ℕ) (h : Setup a fb x l s) (M : ℝ) (hM : ∀ r ∈ fb, ∀ v ∈ r, v ≤ M)
    (ho : 2 ≤ a.numCeps) (hli : a.lifter = none) (hn : a.normalize = none)
    (ar : Arithmetic u v ω δ fl fft abs wv a.win.winType l a.nfft) (η : ℝ) (h0 : 0 ≤ η) (h1 : η < 1)
    (hE : ∀ i < (x.length - l) / s + 1, ∀ n < fb.length, 0 < energyOf a a.preEmphCoeff fb x l s i n ∧
      rootError u v ω δ M (energyOf a a.preEmphCoeff fb x l s i n) (frameAmplitude a.preEmph a.preEmphCoeff x l s i) a.nfft ≤
        η * √(energyOf a a.preEmphCoeff fb x l s i n)) :
    ∃ m, plp a x = .ok m ∧ HasShape m ((x.length - l) / s + 1) a.numCeps ∧ ∀ i < (x.length - l) / s + 1,
      ∃ q, IsPredictor (plpVector a fb l s i x) (a.numCeps - 1) q ∧
      ∀ (F : FlFrame fl fb wv fft abs a.preEmph a.preEmphCoeff x l s a.nfft i) (L : ℕ → ℝ) (y : List ℝ) (b c : ℕ → ℝ) (lam lam' τ ρ κ μ : ℝ),
        0 ≤ lam → (∀ n < fb.length, |L n - intensity (F.energy n)| ≤ lam * intensity (F.energy n)) →
        lam' = (1 + lam) * (1 / (1 - η)) ^ 4 - 1 → FlPlp fl a.nfft fb.length L (a.numCeps - 1) τ ρ κ y b c →
        0 < μ → BoundedBelow (plpVector a fb l s i x) (a.numCeps - 1) μ →
        2 * (a.numCeps - 1 : ℕ) * corrError u (√a.nfft * (τ + lam' * (plpVector a fb l s i x).getD 0 0))
          (autoCorr (plpVector a fb l s i x) 0) a.nfft ≤ μ →
        (∀ k, 1 ≤ k → k < a.numCeps → ∃ w, (m.getD i []).getD k nan = fin w ∧
          |c k - w| ≤ plpError u lam' τ ρ κ μ (∑ k ∈ Finset.Icc 1 (a.numCeps - 1), |q k|) (a.numCeps - 1) (plpVector a fb l s i x) k) ∧
        ∀ σ e t, FlResidual fl y (a.numCeps - 1) σ κ b e (c 0) → 0 < lpResidual (plpVector a fb l s i x) (a.numCeps - 1) q → t < 1 →
          plpResidualError u lam' τ ρ σ μ (∑ k ∈ Finset.Icc 1 (a.numCeps - 1), |q k|) (a.numCeps - 1) (plpVector a fb l s i x) ≤
            t * lpResidual (plpVector a fb l s i x) (a.numCeps - 1) q →
          ∃ w, (m.getD i []).getD 0 nan = fin w ∧ |c 0 - w| ≤ κ + Real.log (1 / (1 - t)) := by
  have hrows := h.rows
  have hnf := h.nfft
  obtain ⟨m, hm, hsh, hrow⟩ := C107_plp_meaning a fb x l s h ho hli hn _ rfl
    (fun i hi => ⟨0, by omega, (hE i hi 0 hrows).1.ne'⟩)
  refine ⟨m, hm, hsh, fun i hi => ?_⟩
  obtain ⟨q, hq, hv⟩ := hrow i hi _ rfl
  refine ⟨q, hq, fun F L y b c lam lam' τ ρ κ μ hlam hL hlam' hF hμ hB hs => ?_⟩
  have hz : 1 ≤ 1 / (1 - η) := by rw [le_div_iff₀ (by linarith)]; linarith
  have hlen : (plpVector a fb l s i x).length = a.nfft := by simp [plpVector]
  have hlam0 : 0 ≤ lam' := by
    have := one_le_pow₀ hz (n := 4)
    rw [hlam']
    nlinarith
  have hloud : ∀ j < fb.length, |L j - intensity (energyOf a a.preEmphCoeff fb x l s i j)| ≤
      lam' * intensity (energyOf a a.preEmphCoeff fb x l s i j) := by
    intro j hj
    obtain ⟨e1, e2⟩ := hE i hi j hj
    have e3 := (root_energy h hM ar hi F hj).trans e2
    have e4 := log_near h0 h1 e1 e3
    obtain ⟨e5, -⟩ := rpow_near (γ := 1) h0 h1 e1 e3
    simp only [logFloor, e1.ne', e5.ne', if_false] at e4
    have e6 := loudness_close e1 e5 e4 hlam (hL j hj)
    have e7 : Real.exp (2 * (2 * Real.log (1 / (1 - η)))) = (1 / (1 - η)) ^ 4 := by
      rw [show 2 * (2 * Real.log (1 / (1 - η))) = ((4 : ℕ) : ℝ) * Real.log (1 / (1 - η)) by push_cast; ring, Real.exp_nat_mul,
        Real.exp_log (by linarith)]
    rw [e7, ← hlam'] at e6
    exact e6
  refine ⟨fun k k1 k2 => ⟨_, hv k k2, ?_⟩, fun σ e t he hpos ht hsm => ⟨_, hv 0 (by omega), ?_⟩⟩
  · exact C198_tail ar.round hnf (fun j => intensity_nonneg' _) hlam0 hloud (by omega) (x := plpVector a fb l s i x) rfl hq hμ hB
      (by rw [hlen]; exact hs) hF k k1 (by omega) _
  · exact C198_zero ar.round hnf (fun j => intensity_nonneg' _) hlam0 hloud (by omega) (x := plpVector a fb l s i x) rfl hq hμ hB
      (by unfold plpCorrError; rw [hlen]; exact hs) hF he hpos ht hsm

/-- **C198** for `rplp`: `X` bounds the logarithms of the energies; logarithm, filter and exponential add their errors (`C197`). -/
theorem C198_rplp (a : Args) (fb : List (List ℝ)) (x : List ℝ) (l s : ℕ) (h : Setup a fb x l s) (M : ℝ) (hM : ∀ r ∈ fb, ∀ v ∈ r, v ≤ M)
    (ho : 2 ≤ a.numCeps) (hli : a.lifter = none) (hn : a.normalize = none)
    (ar : Arithmetic u v ω δ fl fft abs wv a.win.winType l a.nfft) (hu : u ≤ 1 / 10 ^ 7) (η X : ℝ) (h0 : 0 ≤ η) (h1 : η < 1)
    (hE : ∀ i < (x.length - l) / s + 1, ∀ n < fb.length, 0 < energyOf a a.preEmphCoeff fb x l s i n ∧
      |Real.log (energyOf a a.preEmphCoeff fb x l s i n)| ≤ X ∧
      rootError u v ω δ M (energyOf a a.preEmphCoeff fb x l s i n) (frameAmplitude a.preEmph a.preEmphCoeff x l s i) a.nfft ≤
        η * √(energyOf a a.preEmphCoeff fb x l s i n)) :
    ∃ m, rplp a x = .ok m ∧ HasShape m ((x.length - l) / s + 1) a.numCeps ∧ ∀ i < (x.length - l) / s + 1,
      ∃ q, IsPredictor (rplpVector a fb l s i x) (a.numCeps - 1) q ∧
      ∀ (F : FlFrame fl fb wv fft abs a.preEmph a.preEmphCoeff x l s a.nfft i) (w L : ℕ → ℝ) (lg out y : List ℝ) (b c : ℕ → ℝ)
        (β ν lam lam' τ ρ κ μ : ℝ), 0 ≤ ν → ν < 1 → FlLogRasta fl fb.length F.energy β ν w lg out →
        0 ≤ lam → (∀ n < fb.length, |L n - intensity (w n)| ≤ lam * intensity (w n)) →
        lam' = (1 + lam) * Real.exp (2 * (11 * (β + 2 * Real.log (1 / (1 - η))) + 750 * (u * X) + Real.log (1 / (1 - ν)))) - 1 →
        FlPlp fl a.nfft fb.length L (a.numCeps - 1) τ ρ κ y b c →
        0 < μ → BoundedBelow (rplpVector a fb l s i x) (a.numCeps - 1) μ →
        2 * (a.numCeps - 1 : ℕ) * corrError u (√a.nfft * (τ + lam' * (rplpVector a fb l s i x).getD 0 0))
          (autoCorr (rplpVector a fb l s i x) 0) a.nfft ≤ μ →
        (∀ k, 1 ≤ k → k < a.numCeps → ∃ z, (m.getD i []).getD k nan = fin z ∧
          |c k - z| ≤ plpError u lam' τ ρ κ μ (∑ k ∈ Finset.Icc 1 (a.numCeps - 1), |q k|) (a.numCeps - 1) (rplpVector a fb l s i x) k) ∧
        ∀ σ e t, FlResidual fl y (a.numCeps - 1) σ κ b e (c 0) → 0 < lpResidual (rplpVector a fb l s i x) (a.numCeps - 1) q → t < 1 →
          plpResidualError u lam' τ ρ σ μ (∑ k ∈ Finset.Icc 1 (a.numCeps - 1), |q k|) (a.numCeps - 1) (rplpVector a fb l s i x) ≤
            t * lpResidual (rplpVector a fb l s i x) (a.numCeps - 1) q →
          ∃ z, (m.getD i []).getD 0 nan = fin z ∧ |c 0 - z| ≤ κ + Real.log (1 / (1 - t)) := by
  have hrows := h.rows
  have hnf := h.nfft
  have hne : ∀ i, ((List.range fb.length).map fun (n : ℕ) => Real.log (energyOf a a.preEmphCoeff fb x l s i n)) ≠ [] := by
    intro i h0
    have := congrArg List.length h0
    rw [List.length_map, List.length_range] at this
    simp_all
  obtain ⟨m, hm, hsh, hrow⟩ := C107_rplp_meaning a fb x l s h ho hli hn _ rfl (fun i hi n hn' => (hE i hi n hn').1)
  refine ⟨m, hm, hsh, fun i hi => ?_⟩
  have hR := rastaRowOut_spec (hne i)
  obtain ⟨q, hq, hv⟩ := hrow i hi _ _ hR rfl
  refine ⟨q, hq, fun F w L lg out y b c β ν lam lam' τ ρ κ μ hν0 hν1 hw hlam hL hlam' hF hμ hB hs => ?_⟩
  have hlen : (rplpVector a fb l s i x).length = a.nfft := by simp [rplpVector]
  obtain ⟨r, hr⟩ : ∃ r, r = (List.range fb.length).map fun (n : ℕ) => Real.log (energyOf a a.preEmphCoeff fb x l s i n) := ⟨_, rfl⟩
  have hrl : r.length = fb.length := by rw [hr]; simp
  have hlog : ∀ n < r.length, |r.getD n 0| ≤ X ∧ |lg.getD n 0 - r.getD n 0| ≤ β + 2 * Real.log (1 / (1 - η)) := by
    intro n hn'
    rw [hrl] at hn'
    have e0 : r.getD n 0 = Real.log (energyOf a a.preEmphCoeff fb x l s i n) := by rw [hr, getD_map_range_lt _ _ hn']
    rw [e0]
    obtain ⟨e1, eX, e2⟩ := hE i hi n hn'
    have e3 := (root_energy h hM ar hi F hn').trans e2
    have e4 := log_near h0 h1 e1 e3
    obtain ⟨e5, -⟩ := rpow_near (γ := 1) h0 h1 e1 e3
    simp only [logFloor, e1.ne', e5.ne', if_false] at e4
    exact ⟨eX, (abs_sub_le _ (Real.log (F.energy n)) _).trans (add_le_add (hw.logs n hn') e4)⟩
  have hro := hne i
  rw [← hr] at hR hro
  obtain ⟨-, hout⟩ := C197_row ar.round hu r lg (rastaRowOut r) out hR hro (by rw [hw.length, hrl]) hlog hw.filter
  have hq0 : ∀ n < fb.length, 0 < w n ∧ |Real.log (w n) - Real.log (Real.exp ((rastaRowOut r).getD n 0))| ≤
      11 * (β + 2 * Real.log (1 / (1 - η))) + 750 * (u * X) + Real.log (1 / (1 - ν)) := by
    intro n hn'
    have e1 := hout n (by rw [hR.length, hrl]; exact hn')
    have e2 : Near (1 + ν) (w n) (Real.exp (out.getD n 0)) := by
      unfold Near
      rw [abs_of_pos (Real.exp_pos _)]
      simpa using hw.exps n hn'
    have e3 := log_near_bound (by linarith) (Real.exp_pos _) e2
    rw [show (2 : ℝ) - (1 + ν) = 1 - ν by ring, Real.log_exp] at e3
    refine ⟨e2.pos (by linarith) (Real.exp_pos _), ?_⟩
    rw [Real.log_exp]
    have := abs_sub_le (Real.log (w n)) (out.getD n 0) ((rastaRowOut r).getD n 0)
    linarith
  have hlam0 : 0 ≤ lam' := by
    have e1 := (abs_nonneg _).trans (hq0 0 hrows).2
    have := Real.one_le_exp (mul_nonneg (by norm_num : (0 : ℝ) ≤ 2) e1)
    rw [hlam']
    nlinarith
  have hloud : ∀ j < fb.length, |L j - intensity (Real.exp ((rastaRowOut ((List.range fb.length).map fun (n : ℕ) =>
      Real.log (energyOf a a.preEmphCoeff fb x l s i n))).getD j 0))| ≤ lam' * intensity (Real.exp ((rastaRowOut
      ((List.range fb.length).map fun (n : ℕ) => Real.log (energyOf a a.preEmphCoeff fb x l s i n))).getD j 0)) := by
    intro j hj
    obtain ⟨e1, e2⟩ := hq0 j hj
    have e3 := loudness_close (Real.exp_pos _) e1 e2 hlam (hL j hj)
    rw [← hlam', hr] at e3
    exact e3
  refine ⟨fun k k1 k2 => ⟨_, hv k k2, ?_⟩, fun σ e t he hpos ht hsm => ⟨_, hv 0 (by omega), ?_⟩⟩
  · exact C198_tail ar.round hnf (fun j => intensity_nonneg' _) hlam0 hloud (by omega) (x := rplpVector a fb l s i x) rfl hq hμ hB
      (by rw [hlen]; exact hs) hF k k1 (by omega) _
  · exact C198_zero ar.round hnf (fun j => intensity_nonneg' _) hlam0 hloud (by omega) (x := rplpVector a fb l s i x) rfl hq hμ hB
      (by unfold plpCorrError; rw [hlen]; exact hs) hF he hpos ht hsm

/-! ### The hypotheses are met -/

theorem plpTail_demo : (List.range 2).map (inverseDft 2 1 fun _ => 2) = [1, 1] := by
  simp [inverseDft, List.range_succ]

/-- One loudness value known up to 1/1000, an inverse DFT off by 1/1000, and a rounding that enlarges everything by 1/1024. -/
theorem flPlp_demo : FlPlp (fun t => t * (1 + 1 / 1024)) 2 1 (fun _ => 2.002) 1 (1 / 1000) (1 / 1024) (1 / 1000) [1, 1]
      (fun k => if k = 0 then 1 else -1 / 2) (fun _ => -0.4995) ∧
    IsPredictor [1, 1] 1 (fun k => if k = 0 then 1 else -1 / 2) ∧ autoCorr ([1, 1] : List ℝ) 0 = 2 ∧
    plpCorrError (1 / 1024) (1 / 1000) (1 / 1000) [1, 1] ≤ 1 / 80 ∧ Rounding (1 / 1024) (fun t => t * (1 + 1 / 1024)) := by
  have hr : autoCorr ([1, 1] : List ℝ) 0 = 2 := by norm_num [autoCorr_eq, Finset.sum_range_succ]
  refine ⟨⟨rfl, fun t ht => ?_, roundingLpc_demo.2, fun k h1 h2 => ?_⟩, ⟨by simp, fun i h1 h2 => ?_⟩, hr, ?_, by norm_num, fun t => ?_⟩
  · have : inverseDft 2 1 (fun _ => 2.002) t = 1.001 := by
      simp [inverseDft]
      norm_num
    rw [this]
    obtain rfl | rfl : t = 0 ∨ t = 1 := by omega
    all_goals norm_num [abs_le]
  · obtain rfl : k = 1 := by omega
    norm_num [lpCoefficient, abs_le]
  · obtain rfl : i = 1 := by omega
    norm_num [autoCorr_eq, Finset.sum_range_succ]
  · unfold plpCorrError
    rw [hr]
    have h2 : √(2 : ℝ) * √2 = 2 := Real.mul_self_sqrt (by norm_num)
    simp only [corrError, corrChange, List.length_cons, List.length_nil, List.getD_cons_zero]
    norm_num
    nlinarith
  · rw [show t * (1 + 1 / 1024) - t = 1 / 1024 * t by ring, abs_mul, abs_of_pos (show (0 : ℝ) < 1 / 1024 by norm_num)]

example : |(-0.4995 : ℝ) - lpCoefficient (fun k => if k = 0 then 1 else -1 / 2) 0 1| ≤
    plpError (1 / 1024) (1 / 1000) (1 / 1000) (1 / 1024) (1 / 1000) 2 (∑ k ∈ Finset.Icc 1 1, |if k = 0 then 1 else -1 / 2|) 1 [1, 1] 1 := by
  obtain ⟨hF, hp, hr, hG, hR⟩ := flPlp_demo
  unfold plpCorrError at hG
  exact C198_tail hR two_ne_zero (L := fun _ => 2) (fun _ => by norm_num) (lam := 1 / 1000) (by norm_num) (fun _ _ => by norm_num [abs_le]) le_rfl
    plpTail_demo.symm hp two_pos roundingLpc_demo.1 (by push_cast; linarith) hF 1 le_rfl le_rfl 0

/-- Coefficient 0 of the same run: the residual is 5/2, and 5/2 + 2/1024 is computed. -/
example : |Real.log (5 / 2 + 2 / 1024) - Real.log (5 / 2)| ≤ 0 + Real.log (1 / (1 - 1 / 2)) := by
  obtain ⟨hF, hp, hr, hG, hR⟩ := flPlp_demo
  have hres : lpResidual [1, 1] 1 (fun k => if k = 0 then 1 else -1 / 2) = 5 / 2 := by
    norm_num [lpResidual, autoCorr_eq, Finset.sum_range_succ]
  have hE : FlResidual (fun t => t * (1 + 1 / 1024)) [1, 1] 1 0 0 (fun k => if k = 0 then 1 else -1 / 2) (5 / 2 + 2 / 1024)
      (Real.log (5 / 2 + 2 / 1024)) := by
    refine ⟨⟨fun k => if k = 0 then 2 * (1 + 1 / 1024) else 1, fun k hk => ?_, ?_⟩, by simp⟩
    · obtain rfl | rfl : k = 0 ∨ k = 1 := by simp at hk; omega
      · simp only [FlAutoCorr]
        rw [if_pos (by simp)]
        refine ⟨fun _ => 1, fun k hk => ?_, ?_⟩
        · obtain rfl | rfl : k = 0 ∨ k = 1 := by simp at hk; omega
          · left; simp
          · left; simp
        · have := FlSum.add (fl := fun t => t * (1 + 1 / 1024)) (FlSum.one (1 : ℝ)) (FlSum.one (1 : ℝ))
          convert this using 1
          · norm_num; rfl
          · norm_num
      · simp only [FlAutoCorr]
        rw [if_pos (by simp)]
        refine ⟨fun _ => 1, fun k hk => ?_, ?_⟩
        · obtain rfl : k = 0 := by simp at hk; omega
          left; simp
        · exact FlSum.one (1 : ℝ)
    · norm_num [Finset.sum_range_succ]
  have := C198_zero hR two_ne_zero (L := fun _ => 2) (fun _ => by norm_num) (lam := 1 / 1000) (by norm_num) (fun _ _ => by norm_num [abs_le]) le_rfl
    plpTail_demo.symm hp two_pos roundingLpc_demo.1 (by push_cast; linarith) hF (t := 1 / 2) hE (by rw [hres]; norm_num) (by norm_num) (by
      rw [hres]
      unfold plpResidualError residualError predictorError
      have h0 : 0 ≤ plpCorrError (1 / 1024) (1 / 1000) (1 / 1000) [1, 1] := by
        unfold plpCorrError
        rw [hr]
        exact corrError_nonneg (by norm_num) (by simp) (by norm_num) _
      rw [hr]
      generalize plpCorrError (1 / 1024) (1 / 1000) (1 / 1000) [1, 1] = G at *
      norm_num [abs_of_neg]
      nlinarith)
  rwa [hres, show lpCoefficient (fun k => if k = 0 then 1 else -1 / 2) (5 / 2) 0 = Real.log (5 / 2) by
    norm_num [lpCoefficient, logFloor]] at this

theorem arithmetic_exact (name : String) (l nfft : ℕ) : Arithmetic 0 0 0 0 (fun t => t)
    (fun z k => frameBin (fun _ => 1) z l 0 nfft 0 k) (fun z => ‖z‖) (fun j => windowWeight name l j) name l nfft where
  round := ⟨le_rfl, fun t => by simp⟩
  v0 := le_rfl
  ω0 := le_rfl
  δ0 := le_rfl
  abs_err z := by simp
  window_err j _ := by simp
  fft_err z := by simp

/-- Two frames, two bands, order 2. -/
example : (∃ m, plp demo2 [5, 1, 4] = .ok m ∧ HasShape m 2 2) ∧ ∃ m, rplp demo2 [5, 1, 4] = .ok m ∧ HasShape m 2 2 := by
  have hE := demo2_energy
  constructor
  · obtain ⟨m, h1, h2, -⟩ := C198_plp demo2 _ _ 2 1 demo2_setup 3 (by norm_num) le_rfl rfl rfl
      (arithmetic_exact demo2.win.winType 2 demo2.nfft) 0 le_rfl one_pos
      (fun i hi n hn => ⟨hE i n hi hn, by simp [rootError]⟩)
    exact ⟨m, h1, h2⟩
  · have hX : ∀ i < 2, ∀ n < 2, |Real.log (energyOf demo2 demo2.preEmphCoeff [[1, 2], [3, 1]] [5, 1, 4] 2 1 i n)| ≤
        ∑ i ∈ Finset.range 2, ∑ n ∈ Finset.range 2,
          |Real.log (energyOf demo2 demo2.preEmphCoeff [[1, 2], [3, 1]] [5, 1, 4] 2 1 i n)| := by
      intro i hi n hn
      refine le_trans ?_ (Finset.single_le_sum (f := fun i => ∑ n ∈ Finset.range 2,
        |Real.log (energyOf demo2 demo2.preEmphCoeff [[1, 2], [3, 1]] [5, 1, 4] 2 1 i n)|)
        (fun _ _ => Finset.sum_nonneg fun _ _ => abs_nonneg _) (Finset.mem_range.mpr hi))
      exact Finset.single_le_sum (f := fun n => |Real.log (energyOf demo2 demo2.preEmphCoeff [[1, 2], [3, 1]] [5, 1, 4] 2 1 i n)|)
        (fun _ _ => abs_nonneg _) (Finset.mem_range.mpr hn)
    obtain ⟨m, h1, h2, -⟩ := C198_rplp demo2 _ _ 2 1 demo2_setup 3 (by norm_num) le_rfl rfl rfl
      (arithmetic_exact demo2.win.winType 2 demo2.nfft) (by norm_num) 0 _ le_rfl one_pos
      (fun i hi n hn => ⟨hE i n hi hn, hX i hi n hn, by simp [rootError]⟩)
    exact ⟨m, h1, h2⟩

end Props
end Spafe
