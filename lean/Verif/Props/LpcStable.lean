import Verif.Props.Lpc
import Verif.Model.Plp
import Verif.Lemmas.Butter
import Verif.Spec.Butter
import Mathlib.Topology.Algebra.Polynomial
import Mathlib.Analysis.Complex.Polynomial.Basic
import Mathlib.Algebra.Polynomial.Reverse
import Mathlib.Algebra.Polynomial.Splits

/-! C128: linear prediction gives stable synthesis filters. -/

set_option linter.unusedSectionVars false

namespace Spafe
namespace Props
open Model Spec Complex

/-- The Hermitian form of a Toeplitz matrix. -/
noncomputable def tForm (r : ℕ → ℝ) (p : ℕ) (u v : ℕ → ℂ) : ℂ :=
  ∑ j ∈ Finset.range (p + 1), (starRingEnd ℂ) (v j) *
    ∑ k ∈ Finset.range (p + 1), u k * (r ((j : ℤ) - (k : ℤ)).natAbs : ℂ)

theorem tForm_conj (r : ℕ → ℝ) (p : ℕ) (u v : ℕ → ℂ) : (starRingEnd ℂ) (tForm r p u v) = tForm r p v u := by
  simp only [tForm, map_sum, map_mul, conj_conj, conj_ofReal, Finset.mul_sum]
  rw [Finset.sum_comm]
  refine Finset.sum_congr rfl fun j _ => Finset.sum_congr rfl fun k _ => ?_
  rw [show ((k : ℤ) - (j : ℤ)).natAbs = ((j : ℤ) - (k : ℤ)).natAbs by omega]
  ring

/-- Levinson's argument: a solution of the normal equations with a positive error has all its zeros in the unit disc. -/
theorem roots_in_disc {r : ℕ → ℝ} {p : ℕ} {a : ℕ → ℝ} (h0 : a 0 = 1)
    (hn : ∀ j, 1 ≤ j → j ≤ p → ∑ k ∈ Finset.range (p + 1), a k * r ((j : ℤ) - (k : ℤ)).natAbs = 0)
    (hE : 0 < ∑ k ∈ Finset.range (p + 1), a k * r k)
    (hpos : ∀ u : ℕ → ℂ, 0 ≤ (tForm r p u u).re) {z : ℂ} (hz : ∑ k ∈ Finset.range (p + 1), (a k : ℂ) * z ^ (p - k) = 0) :
    ‖z‖ < 1 := by
  obtain ⟨b, hb⟩ : ∃ b : ℕ → ℂ, b = fun k => ∑ i ∈ Finset.range (k + 1), (a i : ℂ) * z ^ (k - i) := ⟨_, rfl⟩
  obtain ⟨c, hc⟩ : ∃ c : ℕ → ℂ, c = fun k => if k = 0 then 0 else b (k - 1) := ⟨_, rfl⟩
  have hbp : b p = 0 := by rw [hb]; exact hz
  have hb0 : b 0 = 1 := by rw [hb]; simp [h0]
  have hbs : ∀ k, b (k + 1) = a (k + 1) + z * b k := by
    intro k
    rw [hb]
    dsimp only
    rw [Finset.sum_range_succ, Nat.sub_self, pow_zero, mul_one, add_comm, Finset.mul_sum]
    congr 1
    refine Finset.sum_congr rfl fun i hi => ?_
    have := Finset.mem_range.mp hi
    rw [show k + 1 - i = (k - i) + 1 by omega, pow_succ]
    ring
  have hc0 : c 0 = 0 := by rw [hc]; simp
  have hcs : ∀ k, c (k + 1) = b k := by intro k; rw [hc]; simp
  have hac : ∀ k, (a k : ℂ) = b k - z * c k := by
    intro k
    cases k with
    | zero => rw [hb0, hc0, h0]; simp
    | succ k => rw [hbs, hcs]; ring
  have hgen : ∀ v : ℕ → ℂ, tForm r p (fun k => (a k : ℂ)) v = (starRingEnd ℂ) (v 0) *
      ((∑ k ∈ Finset.range (p + 1), a k * r k : ℝ) : ℂ) := by
    intro v
    rw [tForm, Finset.sum_range_succ', Finset.sum_eq_zero, zero_add]
    · congr 1
      push_cast
      refine Finset.sum_congr rfl fun k _ => ?_
      congr 3
      omega
    · intro j hj
      have := hn (j + 1) (by omega) (by have := Finset.mem_range.mp hj; omega)
      have h2 : ∑ k ∈ Finset.range (p + 1), (a k : ℂ) * (r (((j + 1 : ℕ) : ℤ) - (k : ℤ)).natAbs : ℂ) = 0 := by
        exact_mod_cast this
      rw [h2, mul_zero]
  have hlin : ∀ v, tForm r p (fun k => (a k : ℂ)) v = tForm r p b v - z * tForm r p c v := by
    intro v
    simp only [tForm, hac]
    rw [Finset.mul_sum, ← Finset.sum_sub_distrib]
    refine Finset.sum_congr rfl fun j _ => ?_
    rw [mul_left_comm, ← mul_sub]
    congr 1
    rw [Finset.mul_sum, ← Finset.sum_sub_distrib]
    exact Finset.sum_congr rfl fun k _ => by ring
  have hshift : tForm r p c c = tForm r p b b := by
    have l1 : ∀ f : ℕ → ℂ, ∑ k ∈ Finset.range (p + 1), c k * f k = ∑ k ∈ Finset.range p, b k * f (k + 1) := by
      intro f
      rw [Finset.sum_range_succ', hc0, zero_mul, add_zero]
      exact Finset.sum_congr rfl fun k _ => by rw [hcs]
    have l2 : ∀ f : ℕ → ℂ, ∑ k ∈ Finset.range (p + 1), b k * f k = ∑ k ∈ Finset.range p, b k * f k := by
      intro f
      rw [Finset.sum_range_succ, hbp, zero_mul, add_zero]
    simp only [tForm, l1, l2]
    rw [Finset.sum_range_succ', hc0, map_zero, zero_mul, add_zero,
      Finset.sum_range_succ (fun j => (starRingEnd ℂ) (b j) * _), hbp, map_zero, zero_mul, add_zero]
    refine Finset.sum_congr rfl fun j _ => ?_
    rw [hcs]
    congr 1
    refine Finset.sum_congr rfl fun k _ => ?_
    congr 3
    omega
  have e1 := hgen b
  have e2 := hgen c
  rw [hlin, hb0, map_one, one_mul] at e1
  rw [hlin, hc0, map_zero, zero_mul, hshift] at e2
  have e3 := congrArg (starRingEnd ℂ) e2
  rw [map_zero, map_sub, map_mul, tForm_conj, tForm_conj] at e3
  obtain ⟨E, hEe⟩ : ∃ E, E = ∑ k ∈ Finset.range (p + 1), a k * r k := ⟨_, rfl⟩
  rw [← hEe] at e1 hE
  have e4 : (E : ℂ) = (1 - z * (starRingEnd ℂ) z) * tForm r p b b := by
    linear_combination -e1 - z * e3
  have e5 := congrArg re e4
  rw [mul_conj] at e5
  have : (1 - ((normSq z : ℝ) : ℂ)) = ((1 - normSq z : ℝ) : ℂ) := by push_cast; ring
  rw [this, re_ofReal_mul, ofReal_re] at e5
  have h1 : 0 < 1 - normSq z := by
    by_contra hcon
    have := mul_nonpos_of_nonpos_of_nonneg (not_lt.mp hcon) (hpos b)
    linarith
  rw [normSq_eq_norm_sq] at h1
  nlinarith [norm_nonneg z]

theorem tForm_autoCorr (x : List ℝ) (p : ℕ) (u : ℕ → ℂ) : 0 ≤ (tForm (autoCorr x) p u u).re := by
  have e : tForm (autoCorr x) p u u = ∑ n ∈ Finset.range (x.length + p),
      ((normSq (∑ k ∈ Finset.range (p + 1), u k * (sh x k n : ℂ)) : ℝ) : ℂ) := by
    simp_rw [← mul_conj, map_sum, map_mul, conj_ofReal]
    simp_rw [Finset.sum_mul_sum]
    rw [Finset.sum_comm, tForm]
    simp_rw [Finset.sum_comm (s := Finset.range (x.length + p)), Finset.mul_sum]
    rw [Finset.sum_comm]
    refine Finset.sum_congr rfl fun k hk => Finset.sum_congr rfl fun j hj => ?_
    rw [← sum_sh_mul' (x := x) (p := p) (i := j) (j := k) (by have := Finset.mem_range.mp hj; omega)
      (by have := Finset.mem_range.mp hk; omega)]
    push_cast
    rw [Finset.mul_sum, Finset.mul_sum]
    exact Finset.sum_congr rfl fun n _ => by ring
  rw [e, re_sum]
  exact Finset.sum_nonneg fun n _ => by rw [ofReal_re]; exact normSq_nonneg _

theorem sum_range_Icc (p : ℕ) (f : ℕ → ℝ) : ∑ k ∈ Finset.range (p + 1), f k = f 0 + ∑ k ∈ Finset.Icc 1 p, f k := by
  rw [Finset.sum_range_succ', add_comm, Finset.range_eq_Ico, Finset.sum_Ico_add' f 0 p 1]
  rfl

/-- A frame that is not silent cannot be predicted without error. -/
theorem predError_pos {x : List ℝ} (hx : NotSilent x) (p : ℕ) (b : ℕ → ℝ) : 0 < predError x p b := by
  obtain ⟨v, hv, hv0⟩ := hx
  obtain ⟨i, hi, rfl⟩ := (mem_iff_getD (0 : ℝ) v).mp hv
  have hex : ∃ i, x.getD i 0 ≠ 0 := ⟨i, hv0⟩
  obtain ⟨m, hm, hmin⟩ : ∃ m, x.getD m 0 ≠ 0 ∧ ∀ k < m, x.getD k 0 = 0 :=
    ⟨Nat.find hex, Nat.find_spec hex, fun k hk => not_not.mp (Nat.find_min hex hk)⟩
  have hml : m < x.length := by
    by_contra h
    exact hm (List.getD_eq_default _ _ (by omega))
  refine Finset.sum_pos' (fun _ _ => sq_nonneg _) ⟨m, Finset.mem_range.mpr (by omega), ?_⟩
  have : predErrorAt x p b m = x.getD m 0 := by
    rw [predErrorAt, ext_natCast, Finset.sum_eq_zero, add_zero]
    intro k hk
    have := Finset.mem_Icc.mp hk
    rw [ext_sub, sh]
    split_ifs
    · rw [hmin _ (by omega), mul_zero]
    · rw [mul_zero]
  rw [this]
  positivity

/-- C128: all zeros of the prediction error filter `1 + a_1 z⁻¹ + ... + a_p z⁻ᵖ` lie strictly inside the unit circle, for
every frame on which the coefficients are defined. -/
theorem C128_stable (frame : List ℝ) (order : ℕ) (a : List ℝ) (e : ℝ) (h : lpcHelper frame order = .ok (a, e)) (z : ℂ)
    (hz : ∑ k ∈ Finset.range (order + 1), (a.getD k 0 : ℂ) * z ^ (order - k) = 0) : ‖z‖ < 1 := by
  obtain ⟨-, h0, hn⟩ := C59_normal_equations frame order a e h
  have hx := (helper_cases h).2
  refine roots_in_disc (r := autoCorr frame) (a := fun k => a.getD k 0) h0 (fun j j1 j2 => ?_) ?_ (tForm_autoCorr frame order) hz
  · rw [sum_range_Icc, h0, one_mul, hn j j1 j2]
    rw [show ((j : ℤ) - ((0 : ℕ) : ℤ)).natAbs = j by omega]
    ring
  · rw [sum_range_Icc, h0, one_mul, ← C63_minimal_error_formula frame order a e h]
    exact predError_pos hx _ _

/-! ### The polynomial of the coefficients -/

open Polynomial in
/-- `z^p + a_1 z^(p-1) + ... + a_p`. -/
noncomputable def lpPoly (a : List ℝ) (p : ℕ) : ℝ[X] := ∑ k ∈ Finset.range (p + 1), C (a.getD k 0) * X ^ (p - k)

theorem lpPoly_coeff (a : List ℝ) (p i : ℕ) : (lpPoly a p).coeff i = if i ≤ p then a.getD (p - i) 0 else 0 := by
  simp only [lpPoly, Polynomial.finsetSum_coeff, Polynomial.coeff_C_mul, Polynomial.coeff_X_pow]
  split_ifs with h
  · rw [Finset.sum_eq_single (p - i)]
    · rw [if_pos (by omega), mul_one]
    · intro k hk hki
      have := Finset.mem_range.mp hk
      rw [if_neg (by omega), mul_zero]
    · intro hk
      exact absurd (Finset.mem_range.mpr (by omega)) hk
  · refine Finset.sum_eq_zero fun k hk => ?_
    have := Finset.mem_range.mp hk
    rw [if_neg (by omega), mul_zero]

theorem lpPoly_degree {a : List ℝ} {p : ℕ} (h0 : a.getD 0 0 = 1) : (lpPoly a p).natDegree = p ∧ (lpPoly a p).Monic := by
  have hle : (lpPoly a p).natDegree ≤ p := by
    rw [Polynomial.natDegree_le_iff_coeff_eq_zero]
    intro i hi
    rw [lpPoly_coeff, if_neg (by omega)]
  have hc : (lpPoly a p).coeff p = 1 := by rw [lpPoly_coeff, if_pos le_rfl, Nat.sub_self, h0]
  exact ⟨le_antisymm hle (Polynomial.le_natDegree_of_ne_zero (by rw [hc]; exact one_ne_zero)),
    Polynomial.monic_of_natDegree_le_of_coeff_eq_one p hle hc⟩

theorem lpPoly_root {a : List ℝ} {p : ℕ} {z : ℂ} (hz : z ∈ ((lpPoly a p).map ofRealHom).roots) :
    ∑ k ∈ Finset.range (p + 1), (a.getD k 0 : ℂ) * z ^ (p - k) = 0 := by
  have h := Polynomial.isRoot_of_mem_roots hz
  rw [Polynomial.IsRoot, lpPoly, Polynomial.eval_map, Polynomial.eval₂_finsetSum] at h
  rw [← h]
  refine Finset.sum_congr rfl fun k _ => ?_
  simp

theorem reverse_lin (r : ℂ) : (Polynomial.X - Polynomial.C r).reverse = 1 - Polynomial.C r * Polynomial.X := by
  rw [Polynomial.reverse, Polynomial.natDegree_X_sub_C, Polynomial.reflect_sub, Polynomial.reflect_one_X, Polynomial.reflect_C, pow_one]

theorem reverse_list (ps : List ℂ) : ((ps.map fun r => Polynomial.X - Polynomial.C r).prod).reverse =
    (ps.map fun r => 1 - Polynomial.C r * Polynomial.X).prod := by
  induction ps with
  | nil => simpa using Polynomial.reverse_C (1 : ℂ)
  | cons r ps ih => rw [List.map_cons, List.prod_cons, Polynomial.reverse_mul_of_domain, ih, reverse_lin, List.map_cons, List.prod_cons]

open PowerSeries in
/-- The coefficients as a power series: a product over the zeros. -/
theorem ser_factors {a : List ℝ} {p : ℕ} (hl : a.length = p + 1) (h0 : a.getD 0 0 = 1) :
    PowerSeries.map ofRealHom (ser a) =
      (((lpPoly a p).map ofRealHom).roots.toList.map fun r => 1 - C r * X).prod := by
  obtain ⟨hd, hm⟩ := lpPoly_degree (p := p) h0
  have hs := (IsAlgClosed.splits ((lpPoly a p).map ofRealHom)).eq_prod_roots_of_monic (hm.map _)
  obtain ⟨ps, hps⟩ : ∃ ps, ps = ((lpPoly a p).map ofRealHom).roots.toList := ⟨_, rfl⟩
  have hr : ((lpPoly a p).map ofRealHom).roots = (ps : Multiset ℂ) := by rw [hps, Multiset.coe_toList]
  rw [hr, Multiset.map_coe, Multiset.prod_coe] at hs
  rw [← hps]
  have e1 : (((lpPoly a p).map ofRealHom).reverse : PowerSeries ℂ) = PowerSeries.map ofRealHom (ser a) := by
    ext n
    rw [Polynomial.coeff_coe, Polynomial.coeff_reverse, hm.natDegree_map, hd, Polynomial.coeff_map, coeff_map, coeff_ser, lpPoly_coeff]
    by_cases hn : n ≤ p
    · rw [Polynomial.revAt_le hn, if_pos (by omega), show p - (p - n) = n by omega]
    · rw [Polynomial.revAt_eq_self_of_lt (by omega), if_neg hn, List.getD_eq_default _ _ (by omega)]
  rw [← e1, hs, reverse_list]
  have := map_list_prod (Polynomial.coeToPowerSeries.ringHom (R := ℂ)) (ps.map fun r => 1 - Polynomial.C r * Polynomial.X)
  rw [List.map_map] at this
  rw [← Polynomial.coeToPowerSeries.ringHom_apply, this]
  congr 1
  refine List.map_congr_left fun r _ => ?_
  simp [Polynomial.coeToPowerSeries.ringHom_apply]

/-- C128: the coefficients are bounded by the binomial coefficients, whatever the frame. -/
theorem C128_coefficients (frame : List ℝ) (order : ℕ) (a : List ℝ) (e : ℝ) (h : lpcHelper frame order = .ok (a, e)) (k : ℕ) :
    |a.getD k 0| ≤ order.choose k := by
  obtain ⟨hl, h0, -⟩ := C59_normal_equations frame order a e h
  obtain ⟨hd, hm⟩ := lpPoly_degree (p := order) h0
  by_cases hk : k ≤ order
  · have := Polynomial.coeff_le_of_roots_le (f := ofRealHom) (B := 1) (order - k) hm (IsAlgClosed.splits _)
      (fun z hz => (C128_stable frame order a e h z (lpPoly_root hz)).le)
    rw [one_pow, one_mul, hd, Nat.choose_symm hk, Polynomial.coeff_map, lpPoly_coeff, if_pos (by omega),
      show order - (order - k) = k by omega] at this
    simpa using this
  · rw [List.getD_eq_default _ _ (by omega)]
    simp

/-- C128: rebuilding a signal from its prediction error is stable: there is a bound `K`, depending on the coefficients
only, such that a signal whose prediction errors are at most `B` is at most `K B`. -/
theorem C128_synthesis (frame : List ℝ) (order : ℕ) (a : List ℝ) (e : ℝ) (h : lpcHelper frame order = .ok (a, e)) :
    ∃ K : ℝ, ∀ (y : List ℝ) (B : ℝ), (∀ n < y.length, |predErrorAt y order (fun k => a.getD k 0) n| ≤ B) →
      ∀ v ∈ y, |v| ≤ K * B := by
  obtain ⟨hl, h0, -⟩ := C59_normal_equations frame order a e h
  have hf := ser_factors hl h0
  obtain ⟨ps, hps⟩ : ∃ ps, ps = ((lpPoly a order).map ofRealHom).roots.toList := ⟨_, rfl⟩
  rw [← hps] at hf
  have hdisc : ∀ r ∈ ps, ‖r‖ < 1 := fun r hr => by
    rw [hps, Multiset.mem_toList] at hr
    exact C128_stable frame order a e h r (lpPoly_root hr)
  have hc : PowerSeries.constantCoeff (ser a) ≠ 0 := by
    rw [← PowerSeries.coeff_zero_eq_constantCoeff_apply, coeff_ser, h0]; exact one_ne_zero
  obtain ⟨g, hg⟩ : ∃ g, g = (ser a)⁻¹ := ⟨_, rfl⟩
  have hga : ser a * g = 1 := by rw [hg, PowerSeries.mul_inv_cancel _ hc]
  have hgm : PowerSeries.map ofRealHom g = (ps.map geo).prod := by
    have h1 := congrArg (PowerSeries.map ofRealHom) hga
    rw [map_mul, map_one, hf] at h1
    calc PowerSeries.map ofRealHom g = ((ps.map fun p => 1 - PowerSeries.C p * PowerSeries.X).prod * (ps.map geo).prod) *
          PowerSeries.map ofRealHom g := by rw [geo_prod, one_mul]
      _ = ((ps.map fun p => 1 - PowerSeries.C p * PowerSeries.X).prod * PowerSeries.map ofRealHom g) * (ps.map geo).prod := by ring
      _ = _ := by rw [h1, one_mul]
  have hL : L1 (PowerSeries.map ofRealHom g) := by
    rw [hgm]
    refine L1_prod _ fun φ hφ => ?_
    obtain ⟨r, hr, rfl⟩ := List.mem_map.mp hφ
    exact L1_geo (hdisc r hr)
  have hS : Summable fun n => |PowerSeries.coeff n g| := hL.congr fun n => by
    rw [PowerSeries.coeff_map]; simp
  refine ⟨∑' n, |PowerSeries.coeff n g|, fun y B hy v hv => ?_⟩
  obtain ⟨n, hn, rfl⟩ := (mem_iff_getD (0 : ℝ) v).mp hv
  have hB : 0 ≤ B := le_trans (abs_nonneg _) (hy n hn)
  have hE : ∀ m < y.length, PowerSeries.coeff m (ser a * ser y) = predErrorAt y order (fun k => a.getD k 0) m := by
    intro m hm
    rw [coeff_ser_mul]
    have e1 : predErrorAt y order (fun k => a.getD k 0) m = ∑ k ∈ Finset.range (order + 1), a.getD k 0 * sh y k m := by
      rw [sum_range_Icc, h0, predErrorAt, one_mul]
      congr 1
      exact Finset.sum_congr rfl fun k _ => by rw [ext_sub]
    have e2 : ∀ N, m ≤ N → order ≤ N → (∑ k ∈ Finset.range (m + 1), a.getD k 0 * PowerSeries.coeff (m - k) (ser y) =
        ∑ k ∈ Finset.range (N + 1), a.getD k 0 * sh y k m) ∧
        (∑ k ∈ Finset.range (order + 1), a.getD k 0 * sh y k m = ∑ k ∈ Finset.range (N + 1), a.getD k 0 * sh y k m) := by
      intro N hmN hoN
      constructor
      · rw [← Finset.sum_subset (Finset.range_mono (show m + 1 ≤ N + 1 by omega))]
        · refine Finset.sum_congr rfl fun k hk => ?_
          have := Finset.mem_range.mp hk
          rw [coeff_ser, sh, if_pos (by omega)]
        · intro k _ hk
          have : ¬ k < m + 1 := fun hh => hk (Finset.mem_range.mpr hh)
          rw [sh, if_neg (by omega), mul_zero]
      · refine Finset.sum_subset (Finset.range_mono (show order + 1 ≤ N + 1 by omega)) ?_
        intro k _ hk
        have : ¬ k < order + 1 := fun hh => hk (Finset.mem_range.mpr hh)
        rw [List.getD_eq_default _ _ (by omega), zero_mul]
    obtain ⟨f1, f2⟩ := e2 (m + order) (by omega) (by omega)
    rw [f1, e1, f2]
  have hY : ser y = g * (ser a * ser y) := by
    rw [← mul_assoc, mul_comm g, hga, one_mul]
  have hyn : y.getD n 0 = ∑ k ∈ Finset.range (n + 1), PowerSeries.coeff k g * PowerSeries.coeff (n - k) (ser a * ser y) := by
    rw [← coeff_ser]
    conv_lhs => rw [hY]
    rw [PowerSeries.coeff_mul, Finset.Nat.sum_antidiagonal_eq_sum_range_succ fun i j => PowerSeries.coeff i g *
      PowerSeries.coeff j (ser a * ser y)]
  rw [hyn]
  calc |∑ k ∈ Finset.range (n + 1), PowerSeries.coeff k g * PowerSeries.coeff (n - k) (ser a * ser y)|
      ≤ ∑ k ∈ Finset.range (n + 1), |PowerSeries.coeff k g| * B := by
        refine (Finset.abs_sum_le_sum_abs _ _).trans (Finset.sum_le_sum fun k hk => ?_)
        rw [abs_mul, hE _ (by omega)]
        exact mul_le_mul_of_nonneg_left (hy _ (by omega)) (abs_nonneg _)
    _ = (∑ k ∈ Finset.range (n + 1), |PowerSeries.coeff k g|) * B := by rw [Finset.sum_mul]
    _ ≤ _ := mul_le_mul_of_nonneg_right (hS.sum_le_tsum _ fun _ _ => abs_nonneg _) hB

/-- C128: the minimal prediction error is positive, at most the energy of the frame, and does not grow with the order. -/
theorem C128_error (frame : List ℝ) (p q : ℕ) (hpq : p ≤ q) (a b : List ℝ) (e f : ℝ) (ha : lpcHelper frame p = .ok (a, e))
    (hb : lpcHelper frame q = .ok (b, f)) :
    0 < predError frame q (fun k => b.getD k 0) ∧
    predError frame q (fun k => b.getD k 0) ≤ predError frame p (fun k => a.getD k 0) ∧
    predError frame p (fun k => a.getD k 0) ≤ ∑ i ∈ Finset.range frame.length, frame.getD i 0 ^ 2 := by
  have hx := (helper_cases ha).2
  have hla := (C59_normal_equations frame p a e ha).1
  have hgrow : ∀ (p q : ℕ) (c : ℕ → ℝ), p ≤ q → (∀ k, p < k → c k = 0) → predError frame q c = predError frame p c := by
    intro p q c hpq hc
    have hat : ∀ n : ℕ, predErrorAt frame q c n = predErrorAt frame p c n := by
      intro n
      rw [predErrorAt, predErrorAt]
      congr 1
      symm
      refine Finset.sum_subset (Finset.Icc_subset_Icc le_rfl hpq) fun k hk hk2 => ?_
      rw [Finset.mem_Icc] at hk hk2
      rw [hc k (by omega), zero_mul]
    rw [predError, predError]
    symm
    rw [Finset.sum_congr rfl fun n _ => by rw [← hat n]]
    refine Finset.sum_subset (Finset.range_mono (by omega)) fun n _ hn => ?_
    have hn : frame.length + p ≤ n := by
      by_contra hh
      exact hn (Finset.mem_range.mpr (by omega))
    rw [hat, predErrorAt, ext_natCast, List.getD_eq_default _ _ (by omega), zero_add, Finset.sum_eq_zero]
    · norm_num
    · intro k hk
      have := Finset.mem_Icc.mp hk
      rw [ext_sub, sh]
      split_ifs
      · rw [List.getD_eq_default _ _ (by omega), mul_zero]
      · rw [mul_zero]
  refine ⟨predError_pos hx _ _, ?_, ?_⟩
  · rw [← hgrow p q _ hpq fun k hk => List.getD_eq_default a _ (by omega)]
    exact (C60_minimal_error frame q b f hb _).1
  · refine (C60_minimal_error frame p a e ha fun _ => 0).1.trans ?_
    rw [hgrow 0 p _ (by omega) fun _ _ => rfl, predError]
    refine (Finset.sum_congr rfl fun n _ => ?_).le
    rw [predErrorAt, ext_natCast]
    simp

private theorem mapM_mem {α β : Type} {f : α → Py β} {l : List α} {r : List β} (h : l.mapM f = .ok r) {b : β} (hb : b ∈ r) :
    ∃ x ∈ l, f x = .ok b := by
  have h2 := (mapM_ok_iff _ _ _).mp h
  obtain ⟨i, hi, rfl⟩ := List.mem_iff_getElem.mp hb
  have hl := h2.length_eq
  exact ⟨l[i]'(by omega), List.getElem_mem _, h2.get (by omega) hi⟩

/-- C128 for `lpc`: every row of the coefficient matrix is a stable filter with coefficients bounded by the binomials. -/
theorem C128_lpc (a : LpcArgs) (sig : List ℝ) (A : List (List ℝ)) (E : List ℝ) (h : lpc a sig = .ok (A, E)) :
    ∀ row ∈ A, (∀ z : ℂ, ∑ k ∈ Finset.range (a.order - 1 + 1), (row.getD k 0 : ℂ) * z ^ (a.order - 1 - k) = 0 → ‖z‖ < 1) ∧
      ∀ k, |row.getD k 0| ≤ (a.order - 1).choose k := by
  simp only [lpc, bind_ok_iff] at h
  obtain ⟨F, hF, rows, hrows, h⟩ := h
  injection h with h
  injection h with h1 h2
  subst h1
  intro row hrow
  obtain ⟨⟨co, e⟩, hr, rfl⟩ := List.mem_map.mp hrow
  obtain ⟨f, -, hf⟩ := mapM_mem hrows hr
  exact ⟨fun z hz => C128_stable f _ co e hf z hz, C128_coefficients f _ co e hf⟩

/-- The cepstra of a frame: every value but the first is at most `2^p`. -/
theorem cepstra_bound {f : List ℝ} {p : ℕ} {co : List ℝ} {e : ℝ} (hh : lpcHelper f p = .ok (co, e)) {row : List (XF ℝ)}
    (hf : lpc2lpcc co e (p + 1) = .ok row) {m : ℕ} (hm1 : 1 ≤ m) (hm2 : m ≤ p) :
    ∃ v : ℝ, row.getD m 0 = XF.fin v ∧ |v| ≤ 2 ^ p := by
  obtain ⟨hlen, -, -⟩ := C59_normal_equations _ _ _ _ hh
  obtain ⟨c, h1, h2, -, h4, -⟩ := C65_lpc2lpcc_partial co e (p + 1) (by omega) (by omega) (by omega)
  have : row = c := by
    have := hf.symm.trans h1
    injection this
  subst this
  refine ⟨_, h4 m hm1 (by omega), ?_⟩
  have hb := C128_coefficients f _ co e hh
  have hcm : ∀ k ∈ Finset.Ico 1 m, |(k : ℝ) / m * co.getD (m - k) 0| ≤ ((p).choose (m - k) : ℝ) := by
    intro k hk
    have := Finset.mem_Ico.mp hk
    rw [abs_mul]
    have h5 : |(k : ℝ) / m| ≤ 1 := by
      rw [abs_of_nonneg (by positivity), div_le_one (by exact_mod_cast hm1)]
      exact_mod_cast this.2.le
    calc |(k : ℝ) / m| * |co.getD (m - k) 0| ≤ 1 * |co.getD (m - k) 0| := mul_le_mul_of_nonneg_right h5 (abs_nonneg _)
      _ ≤ _ := by rw [one_mul]; exact hb _
  have hsum : ∑ k ∈ Finset.Ico 1 m, ((p).choose (m - k) : ℝ) = ∑ k ∈ Finset.Ico 1 m, ((p).choose k : ℝ) := by
    refine Finset.sum_nbij' (fun k => m - k) (fun k => m - k) ?_ ?_ ?_ ?_ ?_ <;> intro k hk <;> rw [Finset.mem_Ico] at * <;> try omega
  calc _ ≤ |co.getD m 0| + ∑ k ∈ Finset.Ico 1 m, |(k : ℝ) / m * co.getD (m - k) 0| :=
        (abs_add_le _ _).trans (add_le_add le_rfl (Finset.abs_sum_le_sum_abs _ _))
    _ ≤ ((p).choose m : ℝ) + ∑ k ∈ Finset.Ico 1 m, ((p).choose (m - k) : ℝ) :=
        add_le_add (hb m) (Finset.sum_le_sum hcm)
    _ = ∑ k ∈ Finset.Ico 1 (m + 1), ((p).choose k : ℝ) := by
        rw [hsum, Finset.sum_Ico_succ_top (by omega), add_comm]
    _ ≤ ∑ k ∈ Finset.range (p + 1), ((p).choose k : ℝ) := by
        refine Finset.sum_le_sum_of_subset_of_nonneg (fun k hk => ?_) fun _ _ _ => by positivity
        rw [Finset.mem_Ico] at hk
        exact Finset.mem_range.mpr (by omega)
    _ = _ := by exact_mod_cast Nat.sum_range_choose _

/-- C128 for `lpcc` (no liftering, no normalisation): every value but the first of a row is at most `2^(order-1)`. -/
theorem C128_lpcc (a : LpcArgs) (sig : List ℝ) (M : XMat) (hl : a.lifter = none) (hn : a.normalize = none)
    (h : lpcc a sig = .ok M) : ∀ row ∈ M, ∀ m, 1 ≤ m → m ≤ a.order - 1 → ∃ v : ℝ, row.getD m 0 = XF.fin v ∧ |v| ≤ 2 ^ (a.order - 1) := by
  simp only [lpcc, bind_ok_iff, hl, hn] at h
  obtain ⟨F, hF, rows, hrows, m', hm', h⟩ := h
  injection hm' with hm'
  injection h with h
  subst h; subst hm'
  intro row hrow m hm1 hm2
  obtain ⟨f, -, hf⟩ := mapM_mem hrows hrow
  obtain ⟨⟨co, e⟩, hh, hf⟩ := (bind_ok_iff _ _ _).mp hf
  exact cepstra_bound hh hf hm1 hm2

/-- C128 for `plp` (`doRasta = false`) and `rplp` (`doRasta = true`), no liftering, no normalisation: every value but the
first of a row is at most `2^(order-1)`. -/
theorem C128_plp (doRasta : Bool) (a : Args) (sig : List ℝ) (M : XMat) (hl : a.lifter = none) (hn : a.normalize = none)
    (h : rastaplp doRasta a sig = .ok M) :
    ∀ row ∈ M, ∀ m, 1 ≤ m → m < a.numCeps → ∃ v : ℝ, row.getD m 0 = XF.fin v ∧ |v| ≤ 2 ^ (a.numCeps - 1) := by
  rw [rastaplp] at h
  split_ifs at h
  simp only [bind_ok_iff, plpTail, hl, hn] at h
  obtain ⟨fb, -, ⟨aud, n⟩, -, aud', -, rows, hrows, m', hm', h⟩ := h
  injection hm' with hm'
  injection h with h
  subst h; subst hm'
  intro row hrow m hm1 hm2
  obtain ⟨r, -, hr⟩ := mapM_mem hrows hrow
  rw [plpRow] at hr
  split_ifs at hr with h1 h2
  obtain ⟨⟨co, e⟩, hh, hf⟩ := (bind_ok_iff _ _ _).mp hr
  have ho : a.numCeps = a.numCeps - 1 + 1 := by omega
  dsimp only at hf
  rw [ho] at hf
  exact cepstra_bound hh hf hm1 (by omega)

/-- The frame `[1, 1, 1]` at order 1: the coefficients are `[1, -2/3]`, the zero is `2/3`, and the bound of
`C128_coefficients` is 1. -/
example : ∃ e, lpcHelper [1, 1, 1] 1 = .ok ([1, -2 / 3], e) ∧
    ∑ k ∈ Finset.range (1 + 1), (([1, -2 / 3] : List ℝ).getD k 0 : ℂ) * (2 / 3 : ℂ) ^ (1 - k) = 0 ∧ ‖(2 / 3 : ℂ)‖ < 1 := by
  obtain ⟨e, he⟩ := ones_helper
  have hz : ∑ k ∈ Finset.range (1 + 1), (([1, -2 / 3] : List ℝ).getD k 0 : ℂ) * (2 / 3 : ℂ) ^ (1 - k) = 0 := by
    rw [Finset.sum_range_succ, Finset.sum_range_one]
    norm_num
  exact ⟨e, he, hz, C128_stable _ _ _ _ he _ hz⟩

/-- Not every polynomial with leading coefficient 1 would do: `z - 2` has its zero outside, and no frame has the
coefficients `[1, -2]`. -/
example (frame : List ℝ) (e : ℝ) : lpcHelper frame 1 ≠ .ok ([1, -2], e) := by
  intro h
  have := C128_coefficients frame 1 _ e h 1
  norm_num at this

end Props
end Spafe
