import Verif.Model.Butter
import Verif.Lemmas.Filters
import Verif.Lemmas.ListAux
import Mathlib.RingTheory.PowerSeries.Inverse
import Mathlib.Analysis.Normed.Ring.InfiniteSum
import Mathlib.Analysis.SpecificLimits.Normed

/-! Lemmas on `lfilter` and on the Butterworth design: power series of coefficient lists. -/

set_option linter.unusedSectionVars false

namespace Spafe
namespace Model
open Complex PowerSeries

section Ring
variable {α : Type} [CommRing α]

/-- The power series of a list of coefficients. -/
def ser (l : List α) : PowerSeries α := PowerSeries.mk fun n => l.getD n 0

theorem coeff_ser (l : List α) (n : ℕ) : coeff n (ser l) = l.getD n 0 := coeff_mk _ _

theorem polyStep_length (zs : List α) : ∀ a : List α, (zs.foldl (fun a z => (List.range (a.length + 1)).map fun (i : ℕ) =>
    a.getD i 0 - z * (0 :: a).getD i 0) a).length = a.length + zs.length := by
  induction zs with
  | nil => intro a; rfl
  | cons z zs ih => intro a; rw [List.foldl_cons, ih]; simp; omega

theorem npPoly_length (zs : List α) : (npPoly zs).length = zs.length + 1 := by
  rw [npPoly, polyStep_length]; simp; omega

theorem ser_step (a : List α) (z : α) : ser ((List.range (a.length + 1)).map fun (i : ℕ) => a.getD i 0 - z * (0 :: a).getD i 0) =
    ser a * (1 - C z * X) := by
  ext n
  have e : ser a * (1 - C z * X) = ser a - C z * (ser a * X) := by ring
  rw [e, map_sub, coeff_C_mul, coeff_ser, coeff_ser]
  have hX : coeff n (ser a * X) = (0 :: a).getD n 0 := by
    cases n with
    | zero => simp
    | succ n => rw [coeff_succ_mul_X, coeff_ser]; simp
  rw [hX]
  by_cases h : n < a.length + 1
  · rw [getD_map_range_lt _ _ h]
  · rw [List.getD_eq_default _ _ (by simpa using h), List.getD_eq_default a _ (by omega), List.getD_eq_default (0 :: a) _ (by simp; omega)]
    ring

theorem ser_npPoly (zs : List α) : ser (npPoly zs) = (zs.map fun z => 1 - C z * X).prod := by
  have key : ∀ a : List α, ser (zs.foldl (fun a z => (List.range (a.length + 1)).map fun (i : ℕ) =>
      a.getD i 0 - z * (0 :: a).getD i 0) a) = ser a * (zs.map fun z => 1 - C z * X).prod := by
    induction zs with
    | nil => intro a; simp
    | cons z zs ih => intro a; rw [List.foldl_cons, ih, ser_step, List.map_cons, List.prod_cons, mul_assoc]
  have h1 : ser ([1] : List α) = 1 := by
    ext n
    rw [coeff_ser, coeff_one]
    cases n <;> simp
  rw [npPoly, key, h1, one_mul]

theorem df2t_cons' (b a z : List α) (x : α) (xs : List α) :
    df2t b a z (x :: xs) = ((df2tStep b a z x).1 :: (df2t b a (df2tStep b a z x).2 xs).1,
      (df2t b a (df2tStep b a z x).2 xs).2) := rfl

theorem df2tStep_smul (b a z : List α) (x c : α) : df2tStep b a (z.map (c * ·)) (c * x) =
    (c * (df2tStep b a z x).1, (df2tStep b a z x).2.map (c * ·)) := by
  have hz : ∀ k, (z.map (c * ·)).getD k 0 = c * z.getD k 0 := fun k => by
    rw [List.getD_eq_getElem?_getD, List.getElem?_map, List.getD_eq_getElem?_getD]
    cases z[k]? <;> simp
  simp only [df2tStep, hz, List.length_map, List.map_map]
  refine Prod.ext ?_ (List.map_congr_left fun k _ => ?_)
  · simp only; ring
  · simp only [Function.comp]; ring

theorem df2t_smul (b a : List α) (c : α) (xs : List α) : ∀ z : List α,
    (df2t b a (z.map (c * ·)) (xs.map (c * ·))).1 = (df2t b a z xs).1.map (c * ·) := by
  induction xs with
  | nil => intro z; rfl
  | cons x xs ih => intro z; rw [List.map_cons, df2t_cons', df2t_cons', df2tStep_smul]; simp only [List.map_cons, ih]

theorem lfilter_smul (b a : List α) (c : α) (xs : List α) : lfilter b a (xs.map (c * ·)) = (lfilter b a xs).map (c * ·) := by
  have h : (List.replicate (max a.length b.length - 1) (0 : α)).map (c * ·) = List.replicate (max a.length b.length - 1) 0 := by
    simp
  unfold lfilter
  rw [← df2t_smul, h]

theorem df2t_eq (b a : List α) (ha : a.getD 0 0 = 1) (xs : List α) : ∀ z : List α,
    (∀ k, z.length < k → b.getD k 0 = 0 ∧ a.getD k 0 = 0) → ∀ n < xs.length,
      ∑ k ∈ Finset.range (n + 1), a.getD k 0 * (df2t b a z xs).1.getD (n - k) 0 =
        ∑ k ∈ Finset.range (n + 1), b.getD k 0 * xs.getD (n - k) 0 + z.getD n 0 := by
  induction xs with
  | nil => intro z _ n hn; simp at hn
  | cons x xs ih =>
    intro z hz n hn
    rw [df2t_cons']
    obtain ⟨y, hy⟩ : ∃ y, y = (df2tStep b a z x).1 := ⟨_, rfl⟩
    obtain ⟨z', hz'⟩ : ∃ z', z' = (df2tStep b a z x).2 := ⟨_, rfl⟩
    rw [← hy, ← hz']
    have hy' : y = b.getD 0 0 * x + z.getD 0 0 := hy
    have hzk : ∀ k, z'.getD k 0 = z.getD (k + 1) 0 + b.getD (k + 1) 0 * x - a.getD (k + 1) 0 * y := by
      intro k
      by_cases h : k < z.length
      · rw [hz', hy, df2tStep, getD_map_range_lt _ _ h]
      · obtain ⟨h1, h2⟩ := hz (k + 1) (by omega)
        rw [List.getD_eq_default, List.getD_eq_default z, h1, h2]
        · ring
        · omega
        · rw [hz', df2tStep]; simp; omega
    have hlen : z'.length = z.length := by rw [hz', df2tStep]; simp
    cases n with
    | zero =>
      rw [Finset.sum_range_one, Finset.sum_range_one, ha, one_mul, Nat.sub_zero, List.getD_cons_zero, List.getD_cons_zero, hy']
    | succ n =>
      have := ih z' (fun k hk => hz k (by omega)) n (by simpa using hn)
      rw [Finset.sum_range_succ, Finset.sum_range_succ (n := n + 1)]
      have e1 : ∑ k ∈ Finset.range (n + 1), a.getD k 0 * (y :: (df2t b a z' xs).1).getD (n + 1 - k) 0 =
          ∑ k ∈ Finset.range (n + 1), a.getD k 0 * (df2t b a z' xs).1.getD (n - k) 0 :=
        Finset.sum_congr rfl fun k hk => by
          have := Finset.mem_range.mp hk
          rw [show n + 1 - k = (n - k) + 1 by omega, List.getD_cons_succ]
      have e2 : ∑ k ∈ Finset.range (n + 1), b.getD k 0 * (x :: xs).getD (n + 1 - k) 0 =
          ∑ k ∈ Finset.range (n + 1), b.getD k 0 * xs.getD (n - k) 0 :=
        Finset.sum_congr rfl fun k hk => by
          have := Finset.mem_range.mp hk
          rw [show n + 1 - k = (n - k) + 1 by omega, List.getD_cons_succ]
      rw [e1, e2, this, hzk, Nat.sub_self, List.getD_cons_zero, List.getD_cons_zero]
      ring

theorem lfilter_length (b a x : List α) : (lfilter b a x).length = x.length := by
  have : ∀ z, (df2t b a z x).1.length = x.length := by
    induction x with
    | nil => intro z; rfl
    | cons x xs ih => intro z; rw [df2t_cons']; simp [ih]
  exact this _

theorem lfilter_eq (b a x : List α) (ha : a.getD 0 0 = 1) {n : ℕ} (hn : n < x.length) :
    ∑ k ∈ Finset.range (n + 1), a.getD k 0 * (lfilter b a x).getD (n - k) 0 =
      ∑ k ∈ Finset.range (n + 1), b.getD k 0 * x.getD (n - k) 0 := by
  have h := df2t_eq b a ha x (List.replicate (max a.length b.length - 1) 0) (fun k hk => by
    rw [List.length_replicate] at hk
    exact ⟨List.getD_eq_default _ _ (by omega), List.getD_eq_default _ _ (by omega)⟩) n hn
  rw [lfilter, h]
  have : (List.replicate (max a.length b.length - 1) (0 : α)).getD n 0 = 0 := by
    by_cases hl : n < max a.length b.length - 1
    · rw [List.getD_eq_getElem _ _ (by simpa using hl), List.getElem_replicate]
    · exact List.getD_eq_default _ _ (by simpa using hl)
  rw [this, add_zero]

theorem coeff_ser_mul (l : List α) (φ : PowerSeries α) (n : ℕ) :
    coeff n (ser l * φ) = ∑ k ∈ Finset.range (n + 1), l.getD k 0 * coeff (n - k) φ := by
  rw [coeff_mul, Finset.Nat.sum_antidiagonal_eq_sum_range_succ fun i j => coeff i (ser l) * coeff j φ]
  exact Finset.sum_congr rfl fun k _ => by rw [coeff_ser]

/-- `lfilter` is the convolution with any `h` such that `a h = b`. -/
theorem lfilter_conv (b a x : List α) (ha : a.getD 0 0 = 1) (h : PowerSeries α) (hh : ser a * h = ser b) {n : ℕ}
    (hn : n < x.length) : (lfilter b a x).getD n 0 = ∑ k ∈ Finset.range (n + 1), coeff k h * x.getD (n - k) 0 := by
  have hs : ∀ m, coeff m (h * ser x) = ∑ k ∈ Finset.range (m + 1), coeff k h * x.getD (m - k) 0 := by
    intro m
    rw [coeff_mul, Finset.Nat.sum_antidiagonal_eq_sum_range_succ fun i j => coeff i h * coeff j (ser x)]
    exact Finset.sum_congr rfl fun k _ => by rw [coeff_ser]
  rw [← hs]
  induction n using Nat.strong_induction_on with
  | _ n ih =>
    have h1 := lfilter_eq b a x ha hn
    have h2 : coeff n (ser a * (h * ser x)) = coeff n (ser b * ser x) := by rw [← mul_assoc, hh]
    rw [coeff_ser_mul, coeff_ser_mul] at h2
    have h3 : ∑ k ∈ Finset.range (n + 1), b.getD k 0 * coeff (n - k) (ser x) =
        ∑ k ∈ Finset.range (n + 1), b.getD k 0 * x.getD (n - k) 0 :=
      Finset.sum_congr rfl fun k _ => by rw [coeff_ser]
    rw [h3, ← h1, Finset.sum_range_succ', Finset.sum_range_succ', ha, one_mul, one_mul, Nat.sub_zero] at h2
    have h4 : ∑ k ∈ Finset.range n, a.getD (k + 1) 0 * coeff (n - (k + 1)) (h * ser x) =
        ∑ k ∈ Finset.range n, a.getD (k + 1) 0 * (lfilter b a x).getD (n - (k + 1)) 0 :=
      Finset.sum_congr rfl fun k hk => by
        have := Finset.mem_range.mp hk
        rw [ih (n - (k + 1)) (by omega) (by omega)]
    rw [h4] at h2
    exact (add_left_cancel h2).symm

end Ring

/-! ### Absolutely summable series -/

/-- The coefficients are absolutely summable. -/
def L1 (φ : PowerSeries ℂ) : Prop := Summable fun n => ‖coeff n φ‖

/-- The value at `w`. -/
noncomputable def ev (φ : PowerSeries ℂ) (w : ℂ) : ℂ := ∑' n, coeff n φ * w ^ n

theorem L1_mul {φ ψ : PowerSeries ℂ} (h1 : L1 φ) (h2 : L1 ψ) : L1 (φ * ψ) := by
  have := summable_norm_sum_mul_antidiagonal_of_summable_norm h1 h2
  refine this.congr fun n => ?_
  rw [coeff_mul]

theorem L1_at {φ : PowerSeries ℂ} (h : L1 φ) {w : ℂ} (hw : ‖w‖ ≤ 1) : Summable fun n => ‖coeff n φ * w ^ n‖ := by
  refine Summable.of_nonneg_of_le (fun _ => norm_nonneg _) (fun n => ?_) h
  rw [norm_mul, norm_pow]
  exact mul_le_of_le_one_right (norm_nonneg _) (pow_le_one₀ (norm_nonneg _) hw)

theorem ev_mul {φ ψ : PowerSeries ℂ} (h1 : L1 φ) (h2 : L1 ψ) {w : ℂ} (hw : ‖w‖ ≤ 1) : ev (φ * ψ) w = ev φ w * ev ψ w := by
  rw [ev, ev, ev, tsum_mul_tsum_eq_tsum_sum_antidiagonal_of_summable_norm (L1_at h1 hw) (L1_at h2 hw)]
  refine tsum_congr fun n => ?_
  rw [coeff_mul, Finset.sum_mul]
  refine Finset.sum_congr rfl fun kl hkl => ?_
  rw [← Finset.mem_antidiagonal.mp hkl, pow_add]
  ring

theorem L1_one : L1 1 := by
  refine summable_of_ne_finset_zero (s := {0}) fun n hn => ?_
  simp only [Finset.mem_singleton] at hn
  rw [coeff_one, if_neg hn, norm_zero]

theorem ev_one (w : ℂ) : ev 1 w = 1 := by
  rw [ev, tsum_eq_single 0]
  · simp
  · intro n hn; rw [coeff_one, if_neg hn, zero_mul]

theorem coeff_lin (p : ℂ) (n : ℕ) : coeff n (1 - C p * X : PowerSeries ℂ) = if n = 0 then 1 else if n = 1 then -p else 0 := by
  rw [map_sub, coeff_C_mul, coeff_one, coeff_X]
  rcases n with - | - | n <;> simp

theorem L1_lin (p : ℂ) : L1 (1 - C p * X) := by
  refine summable_of_ne_finset_zero (s := {0, 1}) fun n hn => ?_
  simp only [Finset.mem_insert, Finset.mem_singleton, not_or] at hn
  rw [coeff_lin, if_neg hn.1, if_neg hn.2, norm_zero]

theorem ev_lin (p w : ℂ) : ev (1 - C p * X) w = 1 - p * w := by
  rw [ev, tsum_eq_sum (s := {0, 1})]
  · rw [Finset.sum_pair (by norm_num), coeff_lin, coeff_lin]; simp; ring
  · intro n hn
    simp only [Finset.mem_insert, Finset.mem_singleton, not_or] at hn
    rw [coeff_lin, if_neg hn.1, if_neg hn.2, zero_mul]

/-- The geometric series. -/
noncomputable def geo (p : ℂ) : PowerSeries ℂ := PowerSeries.mk fun n => p ^ n

theorem geo_mul (p : ℂ) : (1 - C p * X) * geo p = 1 := by
  ext n
  have : (1 - C p * X) * geo p = geo p - C p * (geo p * X) := by ring
  rw [this, map_sub, coeff_C_mul, geo, coeff_mk]
  cases n with
  | zero => simp
  | succ n => rw [coeff_succ_mul_X, coeff_mk, coeff_one, if_neg (by omega)]; ring

theorem L1_geo {p : ℂ} (hp : ‖p‖ < 1) : L1 (geo p) := by
  simp only [L1, geo, coeff_mk, norm_pow]
  exact summable_geometric_of_lt_one (norm_nonneg _) hp

theorem L1_prod (l : List (PowerSeries ℂ)) (h : ∀ φ ∈ l, L1 φ) : L1 l.prod := by
  induction l with
  | nil => simpa using L1_one
  | cons φ l ih =>
    rw [List.prod_cons]
    exact L1_mul (h φ (by simp)) (ih fun ψ hψ => h ψ (by simp [hψ]))

theorem ev_prod (l : List (PowerSeries ℂ)) (h : ∀ φ ∈ l, L1 φ) {w : ℂ} (hw : ‖w‖ ≤ 1) :
    ev l.prod w = (l.map fun φ => ev φ w).prod := by
  induction l with
  | nil => simp [ev_one]
  | cons φ l ih =>
    rw [List.prod_cons, ev_mul (h φ (by simp)) (L1_prod l fun ψ hψ => h ψ (by simp [hψ])) hw, List.map_cons, List.prod_cons,
      ih fun ψ hψ => h ψ (by simp [hψ])]

theorem geo_prod (ps : List ℂ) : (ps.map fun p => 1 - C p * X).prod * (ps.map geo).prod = 1 := by
  rw [← List.prod_map_mul]
  simp [geo_mul]

/-! ### The design -/

theorem csqrt_sq (z : ℂ) : csqrt z ^ 2 = z := by
  have := Complex.cpow_nat_inv_pow z (two_ne_zero)
  rw [csqrt]
  simpa using this

/-- A product over the transformed poles, from the products over the pairs. -/
theorem bandPoles_prod {M : Type} [CommMonoid M] (wo bw : ℝ) (ps : List ℂ) (φ ψ : ℂ → M)
    (h : ∀ p ∈ ps, ∀ r r' : ℂ, r + r' = p * bw → r * r' = (wo : ℂ) ^ 2 → φ r * φ r' = ψ p) :
    ((bandPoles wo bw ps).map φ).prod = (ps.map ψ).prod := by
  rw [bandPoles, List.map_append, List.prod_append, List.map_map, List.map_map, ← List.prod_map_mul]
  congr 1
  refine List.map_congr_left fun p hp => ?_
  have hs := csqrt_sq ((p * bw / 2) ^ 2 - (wo : ℂ) ^ 2)
  refine h p hp _ _ (by ring) ?_
  linear_combination -hs

theorem mem_bandPoles {wo bw : ℝ} {ps : List ℂ} {r : ℂ} (h : r ∈ bandPoles wo bw ps) :
    ∃ p ∈ ps, r ^ 2 + (wo : ℂ) ^ 2 = bw * p * r := by
  rw [bandPoles, List.mem_append, List.mem_map, List.mem_map] at h
  rcases h with ⟨p, hp, rfl⟩ | ⟨p, hp, rfl⟩
  · refine ⟨p, hp, ?_⟩
    linear_combination csqrt_sq ((p * bw / 2) ^ 2 - (wo : ℂ) ^ 2)
  · refine ⟨p, hp, ?_⟩
    linear_combination csqrt_sq ((p * bw / 2) ^ 2 - (wo : ℂ) ^ 2)

/-- Poles in the left half plane go to poles in the left half plane. -/
theorem left_half {wo bw : ℝ} (hwo : 0 < wo) (hbw : 0 < bw) {p r : ℂ} (hp : p.re < 0) (h : r ^ 2 + (wo : ℂ) ^ 2 = bw * p * r) :
    r.re < 0 := by
  have h1 : r ≠ 0 := by
    rintro rfl
    have : (wo : ℂ) ^ 2 = 0 := by simpa using h
    simp [hwo.ne'] at this
  have hn : 0 < normSq r := normSq_pos.mpr h1
  have h2 : (r ^ 2 + (wo : ℂ) ^ 2) * (starRingEnd ℂ) r = bw * p * (r * (starRingEnd ℂ) r) := by rw [h]; ring
  rw [mul_conj] at h2
  have h3 := congrArg re h2
  have e1 : ((r ^ 2 + (wo : ℂ) ^ 2) * (starRingEnd ℂ) r).re = r.re * (normSq r + wo ^ 2) := by
    rw [normSq_apply]
    simp [sq]
    ring
  have e2 : (bw * p * ((normSq r : ℝ) : ℂ)).re = bw * p.re * normSq r := by simp
  rw [e1, e2] at h3
  by_contra hc
  have : 0 ≤ r.re * (normSq r + wo ^ 2) := by
    have := not_lt.mp hc
    positivity
  have : bw * p.re * normSq r < 0 := mul_neg_of_neg_of_pos (mul_neg_of_pos_of_neg hbw hp) hn
  linarith

/-- The bilinear transformation maps the left half plane into the unit disc. -/
theorem bilinear_disc {r : ℂ} (hr : r.re < 0) : 4 - r ≠ 0 ∧ ‖(4 + r) / (4 - r)‖ < 1 := by
  have h0 : 4 - r ≠ 0 := by
    intro h
    have := congrArg re h
    simp at this
    linarith
  refine ⟨h0, ?_⟩
  rw [norm_div, div_lt_one (norm_pos_iff.mpr h0)]
  refine lt_of_pow_lt_pow_left₀ 2 (norm_nonneg _) ?_
  rw [← normSq_eq_norm_sq, ← normSq_eq_norm_sq, normSq_apply, normSq_apply]
  simp
  nlinarith

theorem pole_eq (φ : ℝ) : -cexp (φ * I) = -((Real.cos φ : ℂ) + Real.sin φ * I) := by
  rw [exp_mul_I, ofReal_cos, ofReal_sin]

theorem buttPoles_form : buttPoles = [
    -((Real.cos (5 * (Real.pi / 12)) : ℂ) - Real.sin (5 * (Real.pi / 12)) * I),
    -((Real.cos (3 * (Real.pi / 12)) : ℂ) - Real.sin (3 * (Real.pi / 12)) * I),
    -((Real.cos (Real.pi / 12) : ℂ) - Real.sin (Real.pi / 12) * I),
    -((Real.cos (Real.pi / 12) : ℂ) + Real.sin (Real.pi / 12) * I),
    -((Real.cos (3 * (Real.pi / 12)) : ℂ) + Real.sin (3 * (Real.pi / 12)) * I),
    -((Real.cos (5 * (Real.pi / 12)) : ℂ) + Real.sin (5 * (Real.pi / 12)) * I)] := by
  have e : ∀ m : ℝ, -cexp (I * (Real.pi * m / 12 : ℝ)) =
      -((Real.cos (m * (Real.pi / 12)) : ℂ) + Real.sin (m * (Real.pi / 12)) * I) := by
    intro m
    rw [← pole_eq]
    congr 2
    push_cast; ring
  simp only [buttPoles, List.map_cons, List.map_nil, e, neg_mul, Real.cos_neg, Real.sin_neg, one_mul, ofReal_neg,
    ← sub_eq_add_neg]

theorem buttPoles_re {p : ℂ} (hp : p ∈ buttPoles) : p.re < 0 := by
  have hpi := Real.pi_pos
  have c1 : 0 < Real.cos (Real.pi / 12) := Real.cos_pos_of_mem_Ioo ⟨by linarith, by linarith⟩
  have c3 : 0 < Real.cos (3 * (Real.pi / 12)) := Real.cos_pos_of_mem_Ioo ⟨by linarith, by linarith⟩
  have c5 : 0 < Real.cos (5 * (Real.pi / 12)) := Real.cos_pos_of_mem_Ioo ⟨by linarith, by linarith⟩
  rw [buttPoles_form] at hp
  simp only [List.mem_cons, List.not_mem_nil, or_false] at hp
  rcases hp with rfl | rfl | rfl | rfl | rfl | rfl <;>
    simp only [neg_re, sub_re, add_re, mul_re, ofReal_re, ofReal_im, I_re, I_im, mul_zero, zero_mul, sub_zero, add_zero] <;>
    linarith

/-- A product over the six poles does not change if every pole is replaced by its conjugate. -/
theorem buttPoles_conj {M : Type} [CommMonoid M] (ψ : ℂ → M) :
    (buttPoles.map fun p => ψ ((starRingEnd ℂ) p)).prod = (buttPoles.map ψ).prod := by
  have h1 : ∀ c s : ℝ, (starRingEnd ℂ) (-((c : ℂ) - s * I)) = -((c : ℂ) + s * I) := by
    intro c s; first | (simp; done) | (simp; ring)
  have h2 : ∀ c s : ℝ, (starRingEnd ℂ) (-((c : ℂ) + s * I)) = -((c : ℂ) - s * I) := by
    intro c s; first | (simp; done) | (simp; ring)
  have : buttPoles.map (fun p => ψ ((starRingEnd ℂ) p)) = (buttPoles.map ψ).reverse := by
    rw [buttPoles_form]
    simp only [List.map_cons, List.map_nil, h1, h2]
    rfl
  rw [this, List.prod_reverse]

theorem abs_pair (x β c s : ℝ) (hcs : s ^ 2 + c ^ 2 = 1) :
    ‖(x : ℂ) - I * β * -((c : ℂ) - s * I)‖ ^ 2 = x ^ 2 + 2 * x * β * s + β ^ 2 ∧
    ‖(x : ℂ) - I * β * -((c : ℂ) + s * I)‖ ^ 2 = x ^ 2 - 2 * x * β * s + β ^ 2 := by
  constructor
  · rw [← normSq_eq_norm_sq, normSq_apply]
    simp
    linear_combination β ^ 2 * hcs
  · rw [← normSq_eq_norm_sq, normSq_apply]
    simp
    linear_combination β ^ 2 * hcs

/-- The defining identity of the Butterworth polynomial of degree 6. -/
theorem butterworth_identity (x β : ℝ) : (buttPoles.map fun p => ‖(x : ℂ) - I * β * p‖ ^ 2).prod = x ^ 12 + β ^ 12 := by
  rw [buttPoles_form]
  have q : ∀ φ : ℝ, 4 * Real.sin φ ^ 2 = 2 - 2 * Real.cos (2 * φ) := by
    intro φ
    rw [Real.cos_two_mul, Real.cos_sq']
    ring
  have q1 := q (Real.pi / 12)
  have q3 := q (3 * (Real.pi / 12))
  have q5 := q (5 * (Real.pi / 12))
  rw [show 2 * (Real.pi / 12) = Real.pi / 6 by ring, Real.cos_pi_div_six] at q1
  rw [show 2 * (3 * (Real.pi / 12)) = Real.pi / 2 by ring, Real.cos_pi_div_two] at q3
  rw [show 2 * (5 * (Real.pi / 12)) = Real.pi - Real.pi / 6 by ring, Real.cos_pi_sub, Real.cos_pi_div_six] at q5
  have s3 : Real.sqrt 3 ^ 2 = 3 := Real.sq_sqrt (by norm_num)
  simp only [List.map_cons, List.map_nil, List.prod_cons, List.prod_nil, (abs_pair x β _ _ (Real.sin_sq_add_cos_sq _)).1,
    (abs_pair x β _ _ (Real.sin_sq_add_cos_sq _)).2]
  generalize Real.sin (Real.pi / 12) = s1 at *
  generalize Real.sin (3 * (Real.pi / 12)) = s2 at *
  generalize Real.sin (5 * (Real.pi / 12)) = s5 at *
  have p1 : (x ^ 2 + 2 * x * β * s1 + β ^ 2) * (x ^ 2 - 2 * x * β * s1 + β ^ 2) = x ^ 4 + β ^ 4 + Real.sqrt 3 * x ^ 2 * β ^ 2 := by
    linear_combination -(x ^ 2 * β ^ 2) * q1
  have p3 : (x ^ 2 + 2 * x * β * s2 + β ^ 2) * (x ^ 2 - 2 * x * β * s2 + β ^ 2) = x ^ 4 + β ^ 4 := by
    linear_combination -(x ^ 2 * β ^ 2) * q3
  have p5 : (x ^ 2 + 2 * x * β * s5 + β ^ 2) * (x ^ 2 - 2 * x * β * s5 + β ^ 2) = x ^ 4 + β ^ 4 - Real.sqrt 3 * x ^ 2 * β ^ 2 := by
    linear_combination -(x ^ 2 * β ^ 2) * q5
  calc _ = ((x ^ 2 + 2 * x * β * s1 + β ^ 2) * (x ^ 2 - 2 * x * β * s1 + β ^ 2)) *
        ((x ^ 2 + 2 * x * β * s2 + β ^ 2) * (x ^ 2 - 2 * x * β * s2 + β ^ 2)) *
        ((x ^ 2 + 2 * x * β * s5 + β ^ 2) * (x ^ 2 - 2 * x * β * s5 + β ^ 2)) := by ring
    _ = _ := by
      rw [p1, p3, p5]
      linear_combination -(x ^ 4 + β ^ 4) * x ^ 4 * β ^ 4 * s3

theorem getD_map_zero {β γ : Type} [Zero β] [Zero γ] (f : β → γ) (hf : f 0 = 0) (l : List β) (n : ℕ) :
    (l.map f).getD n 0 = f (l.getD n 0) := by
  by_cases h : n < l.length
  · exact getD_map_lt f l 0 0 h
  · rw [List.getD_eq_default _ _ (by simpa using h), List.getD_eq_default _ _ (by simpa using h), hf]

/-- Real parts of a series with real coefficients. -/
theorem ser_re (l : List ℂ) (h : PowerSeries.map (starRingEnd ℂ) (ser l) = ser l) (k : ℝ) :
    PowerSeries.map ofRealHom (ser (l.map fun v => k * v.re)) = C (k : ℂ) * ser l := by
  ext n
  have h1 : (l.getD n 0).im = 0 := by
    have := congrArg (coeff n) h
    rw [coeff_map, coeff_ser] at this
    exact conj_eq_iff_im.mp this
  rw [coeff_map, coeff_C_mul, coeff_ser, coeff_ser, getD_map_zero (fun v : ℂ => k * v.re) (by simp)]
  generalize l.getD n 0 = v at h1 ⊢
  apply Complex.ext
  · simp
  · simp [h1]

section Design
variable {w1 w2 : ℝ} (h1 : 0 < w1) (h12 : w1 < w2) (h2 : w2 < 1)
include h1 h12 h2

theorem tan_pos_lt : 0 < Real.tan (Real.pi * w1 / 2) ∧ Real.tan (Real.pi * w1 / 2) < Real.tan (Real.pi * w2 / 2) := by
  have hpi := Real.pi_pos
  have e1 : 0 < Real.pi * w1 := by positivity
  have e2 : Real.pi * w1 < Real.pi * w2 := mul_lt_mul_of_pos_left h12 hpi
  have e3 : Real.pi * w2 < Real.pi := by nlinarith
  exact ⟨Real.tan_pos_of_pos_of_lt_pi_div_two (by linarith) (by linarith),
    Real.tan_lt_tan_of_nonneg_of_lt_pi_div_two (by linarith) (by linarith) (by linarith)⟩

theorem warp_facts : 0 < Real.sqrt (warp w1 * warp w2) ∧ 0 < warp w2 - warp w1 ∧
    Real.sqrt (warp w1 * warp w2) ^ 2 = 16 * (Real.tan (Real.pi * w1 / 2) * Real.tan (Real.pi * w2 / 2)) := by
  obtain ⟨a, b⟩ := tan_pos_lt h1 h12 h2
  have : 0 < warp w1 * warp w2 := by
    simp only [warp]; exact mul_pos (by linarith) (by linarith)
  refine ⟨Real.sqrt_pos.mpr this, by simp only [warp]; linarith, ?_⟩
  rw [Real.sq_sqrt this.le]
  simp only [warp]; ring

theorem pole_left {r : ℂ} (hr : r ∈ bandPoles (Real.sqrt (warp w1 * warp w2)) (warp w2 - warp w1) buttPoles) : r.re < 0 := by
  obtain ⟨p, hp, h⟩ := mem_bandPoles hr
  obtain ⟨a, b, -⟩ := warp_facts h1 h12 h2
  exact left_half a b (buttPoles_re hp) h

theorem digital_disc {z : ℂ} (hz : z ∈ digitalPoles w1 w2) : ‖z‖ < 1 := by
  rw [digitalPoles, List.mem_map] at hz
  obtain ⟨r, hr, rfl⟩ := hz
  exact (bilinear_disc (pole_left h1 h12 h2 hr)).2

/-- The denominator of the gain. -/
noncomputable def gainDen (w1 w2 : ℝ) : ℂ :=
  ((bandPoles (Real.sqrt (warp w1 * warp w2)) (warp w2 - warp w1) buttPoles).map fun p => 4 - p).prod

theorem gainDen_ne : gainDen w1 w2 ≠ 0 := by
  rw [gainDen]
  refine List.prod_ne_zero fun h => ?_
  obtain ⟨r, hr, h0⟩ := List.mem_map.mp h
  exact (bilinear_disc (pole_left h1 h12 h2 hr)).1 h0

omit h1 h12 h2 in
theorem gainDen_real (w1 w2 : ℝ) : (starRingEnd ℂ) (gainDen w1 w2) = gainDen w1 w2 := by
  have e := bandPoles_prod (Real.sqrt (warp w1 * warp w2)) (warp w2 - warp w1) buttPoles (fun r => 4 - r)
    (fun p => 16 + (Real.sqrt (warp w1 * warp w2) : ℂ) ^ 2 - 4 * (warp w2 - warp w1 : ℝ) * p) (fun p _ r r' ha hb => by
      linear_combination -4 * ha + hb)
  rw [gainDen, e, map_list_prod, List.map_map, ← buttPoles_conj fun p =>
    16 + (Real.sqrt (warp w1 * warp w2) : ℂ) ^ 2 - 4 * (warp w2 - warp w1 : ℝ) * p]
  congr 1
  refine List.map_congr_left fun p _ => ?_
  simp only [Function.comp, map_sub, map_add, map_mul, map_pow, conj_ofReal, map_ofNat]

theorem den_mul (M : Type) [CommRing M] (f : ℂ →+* M) (Y : M) :
    f (gainDen w1 w2) * ((digitalPoles w1 w2).map fun z => 1 - f z * Y).prod =
      (buttPoles.map fun p => 16 * (1 - Y) ^ 2 + f (Real.sqrt (warp w1 * warp w2)) ^ 2 * (1 + Y) ^ 2 -
        4 * f ((warp w2 - warp w1 : ℝ)) * f p * ((1 - Y) * (1 + Y))).prod := by
  rw [← bandPoles_prod (Real.sqrt (warp w1 * warp w2)) (warp w2 - warp w1) buttPoles
    (fun r => (4 - f r) - (4 + f r) * Y)]
  · rw [gainDen, map_list_prod, digitalPoles, List.map_map, List.map_map, ← List.prod_map_mul]
    congr 1
    refine List.map_congr_left fun r hr => ?_
    have h0 := (bilinear_disc (pole_left h1 h12 h2 hr)).1
    have e : f (4 - r) * f ((4 + r) / (4 - r)) = f (4 + r) := by
      rw [← map_mul, mul_div_cancel₀ _ h0]
    rw [map_add, map_ofNat] at e
    simp only [Function.comp]
    have e4 : f (4 - r) = 4 - f r := by rw [map_sub, map_ofNat]
    linear_combination -Y * e + e4
  · intro p _ r r' ha hb
    have ha' := congrArg f ha
    have hb' := congrArg f hb
    rw [map_add, map_mul] at ha'
    rw [map_mul, map_pow] at hb'
    linear_combination (-4 * (1 - Y) * (1 + Y)) * ha' + (1 + Y) ^ 2 * hb'

theorem den_conj : PowerSeries.map (starRingEnd ℂ) (ser (npPoly (digitalPoles w1 w2))) = ser (npPoly (digitalPoles w1 w2)) := by
  have h := den_mul h1 h12 h2 (PowerSeries ℂ) C X
  have hc := congrArg (PowerSeries.map (starRingEnd ℂ)) h
  rw [map_mul, map_C, gainDen_real, map_list_prod, map_list_prod, List.map_map, List.map_map] at hc
  have e : (buttPoles.map ((PowerSeries.map (starRingEnd ℂ)) ∘ fun p => 16 * (1 - X) ^ 2 +
      C (Real.sqrt (warp w1 * warp w2) : ℂ) ^ 2 * (1 + X) ^ 2 - 4 * C ((warp w2 - warp w1 : ℝ) : ℂ) * C p * ((1 - X) * (1 + X)))).prod =
      (buttPoles.map fun p => 16 * (1 - X) ^ 2 + C (Real.sqrt (warp w1 * warp w2) : ℂ) ^ 2 * (1 + X) ^ 2 -
        4 * C ((warp w2 - warp w1 : ℝ) : ℂ) * C p * ((1 - X) * (1 + X))).prod := by
    rw [← buttPoles_conj fun p => 16 * (1 - X) ^ 2 + C (Real.sqrt (warp w1 * warp w2) : ℂ) ^ 2 * (1 + X) ^ 2 -
        4 * C ((warp w2 - warp w1 : ℝ) : ℂ) * C p * ((1 - X) * (1 + X))]
    congr 1
    refine List.map_congr_left fun p _ => ?_
    simp only [Function.comp, map_sub, map_add, map_mul, map_pow, map_C, conj_ofReal, map_ofNat, map_one, map_X]
  rw [e, ← h] at hc
  have h0 : C (gainDen w1 w2) ≠ (0 : PowerSeries ℂ) := fun h => gainDen_ne h1 h12 h2 (by
    have := congrArg constantCoeff h
    simpa using this)
  have := mul_left_cancel₀ h0 hc
  rw [ser_npPoly, map_list_prod, List.map_map]
  exact this

end Design

end Model
end Spafe
