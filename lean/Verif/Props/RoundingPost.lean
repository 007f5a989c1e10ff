import Verif.Model.RoundingPost
import Verif.Props.Rounding
import Verif.Props.Cepstral
import Verif.Props.Float64

/-! C144: what rounding does to `normalize_ceps` and `deltas`. -/

set_option linter.unusedSectionVars false

namespace Spafe
namespace Props
open Model XF Spec

/-- The mean of the absolute values. -/
noncomputable def meanAbs (x : List ℝ) : ℝ := Np.mean (x.map fun v => |v|)

theorem meanAbs_nonneg (x : List ℝ) : 0 ≤ meanAbs x :=
  div_nonneg (List.sum_nonneg (by intro v hv; obtain ⟨w, -, rfl⟩ := List.mem_map.mp hv; exact abs_nonneg _)) (by positivity)

theorem meanAbs_le {x : List ℝ} {K : ℝ} (hK : 0 ≤ K) (h : ∀ v ∈ x, |v| ≤ K) : meanAbs x ≤ K := by
  rcases x.eq_nil_or_concat with rfl | ⟨_, _, hx⟩
  · simpa [meanAbs, Np.mean] using hK
  have hp : (0:ℝ) < x.length := by
    have : 0 < x.length := by rw [hx]; simp
    exact_mod_cast this
  rw [meanAbs, Np.mean, List.length_map, div_le_iff₀ hp, mul_comm]
  have := List.sum_le_card_nsmul (x.map fun v => |v|) K (by
    intro v hv; obtain ⟨w, hw, rfl⟩ := List.mem_map.mp hv; exact h w hw)
  simpa [nsmul_eq_mul] using this

/-- C144, means: `np.mean` of `n` numbers is off by at most `(1 + u)^n - 1` times the mean of their absolute values. -/
theorem C144_mean {u : ℝ} {fl : ℝ → ℝ} (h : Rounding u fl) {x : List ℝ} {m : ℝ} (hm : FlMean fl x m) :
    |m - Np.mean x| ≤ ((1 + u) ^ x.length - 1) * meanAbs x := by
  obtain ⟨s, hs, rfl⟩ := hm
  have hn := hs.length_pos
  have h1 := C120_sum h hs
  have h2 := h.err (s / x.length)
  have h3 := abs_sum_le_list x
  have hu := h.nonneg
  obtain ⟨n, hn'⟩ : ∃ n, x.length = n + 1 := ⟨x.length - 1, by omega⟩
  rw [meanAbs, Np.mean, Np.mean, List.length_map, hn']
  rw [hn', Nat.add_sub_cancel] at h1
  rw [hn'] at h2
  have hp : (0:ℝ) < ((n + 1 : ℕ) : ℝ) := by positivity
  generalize (x.map fun v => |v|).sum = S at h1 h3 ⊢
  generalize ((n + 1 : ℕ) : ℝ) = N at h2 hp ⊢
  have hs' : |s| ≤ (1 + u) ^ n * S := by
    have := abs_sub_abs_le_abs_sub s x.sum
    linarith
  rw [abs_div, abs_of_pos hp] at h2
  have e : fl (s / N) - x.sum / N = (fl (s / N) - s / N) + (s - x.sum) / N := by field_simp; ring
  rw [e]
  refine (abs_add_le _ _).trans ?_
  rw [abs_div (s - x.sum), abs_of_pos hp]
  have i1 : u * (|s| / N) ≤ u * ((1 + u) ^ n * S / N) := by gcongr
  have i2 : |s - x.sum| / N ≤ (((1 + u) ^ n - 1) * S) / N := by gcongr
  have i3 : u * ((1 + u) ^ n * S / N) + (((1 + u) ^ n - 1) * S) / N = ((1 + u) ^ (n + 1) - 1) * (S / N) := by
    rw [pow_succ]; field_simp; ring
  linarith

/-- The mean square distance from any number is the variance plus the square of the distance from the mean. -/
theorem mean_sq_dist {x : List ℝ} (hx : x ≠ []) (m : ℝ) :
    (x.map fun t => (t - m) ^ 2).sum / x.length = Np.var x + (m - Np.mean x) ^ 2 := by
  have hp : (x.length : ℝ) ≠ 0 := by exact_mod_cast (List.length_pos_iff.mpr hx).ne'
  have key : ∀ (l : List ℝ) (a b : ℝ), (l.map fun t => (t - a) ^ 2).sum =
      (l.map fun t => (t - b) ^ 2).sum + 2 * (b - a) * (l.sum - l.length * b) + l.length * (b - a) ^ 2 := by
    intro l a b
    induction l with
    | nil => simp
    | cons t l ih => simp only [List.map_cons, List.sum_cons, List.length_cons, ih]; push_cast; ring
  rw [key x m (Np.mean x), Np.var]
  have : x.sum - x.length * Np.mean x = 0 := by rw [Np.mean]; field_simp; ring
  rw [this]
  field_simp
  ring

/-- C144, standard deviations: `np.std` of `n` numbers is off by a relative error of `(1 + u)^(n+4) - 1` and, because the
mean is rounded too, by at most about the error of the mean. -/
theorem C144_std {u : ℝ} {fl : ℝ → ℝ} (h : Rounding u fl) {x : List ℝ} {σ : ℝ} (hσ : FlStd fl x σ) :
    |σ - √(Np.var x)| ≤ ((1 + u) ^ (x.length + 4) - 1) * √(Np.var x) +
      (1 + u) ^ (x.length + 4) * (((1 + u) ^ x.length - 1) * meanAbs x) := by
  obtain ⟨m, hm, v, ⟨s, hs, rfl⟩, rfl⟩ := hσ
  have hu := h.nonneg
  have hmean := C144_mean h hm
  have hx : x ≠ [] := by
    obtain ⟨_, hs', _⟩ := hm
    exact List.length_pos_iff.mp hs'.length_pos
  have hp : (0:ℝ) < x.length := by exact_mod_cast List.length_pos_iff.mpr hx
  rw [List.length_map]
  -- the sum of squares
  have hq : ∀ t : ℝ, Near ((1 + u) ^ 3) (fl (fl (t - m) * fl (t - m))) ((t - m) ^ 2) := by
    intro t
    have h1 := h.near (t - m)
    have h2 := (h.near (fl (t - m) * fl (t - m))).trans (by linarith) (Near.mul (by linarith) (by linarith) h1 h1)
    rw [show (1 + u) ^ 3 = (1 + u) * ((1 + u) * (1 + u)) by ring, sq]
    exact h2
  have hsum : |(x.map fun t => fl (fl (t - m) * fl (t - m))).sum - (x.map fun t => (t - m) ^ 2).sum| ≤
        ((1 + u) ^ 3 - 1) * (x.map fun t => (t - m) ^ 2).sum ∧
      ((x.map fun t => fl (fl (t - m) * fl (t - m))).map fun v => |v|).sum ≤ (1 + u) ^ 3 * (x.map fun t => (t - m) ^ 2).sum := by
    clear hs hmean hm hx hp
    induction x with
    | nil => simp
    | cons t l ih =>
      obtain ⟨i1, i2⟩ := ih
      have a := hq t
      have b := a.abs_le
      unfold Near at a
      rw [abs_of_nonneg (sq_nonneg (t - m))] at a b
      simp only [List.map_cons, List.sum_cons]
      constructor
      · have := abs_add_le (fl (fl (t - m) * fl (t - m)) - (t - m) ^ 2)
          ((l.map fun t => fl (fl (t - m) * fl (t - m))).sum - (l.map fun t => (t - m) ^ 2).sum)
        rw [show fl (fl (t - m) * fl (t - m)) + (l.map fun t => fl (fl (t - m) * fl (t - m))).sum -
          ((t - m) ^ 2 + (l.map fun t => (t - m) ^ 2).sum) = (fl (fl (t - m) * fl (t - m)) - (t - m) ^ 2) +
          ((l.map fun t => fl (fl (t - m) * fl (t - m))).sum - (l.map fun t => (t - m) ^ 2).sum) by ring]
        linarith
      · linarith
  obtain ⟨hs1, hs2⟩ := hsum
  have hs3 := C120_sum h hs
  rw [List.length_map] at hs3
  obtain ⟨T, hT⟩ : ∃ T, T = (x.map fun t => (t - m) ^ 2).sum := ⟨_, rfl⟩
  have hT0 : 0 ≤ T := by
    rw [hT]; exact List.sum_nonneg (by intro v hv; obtain ⟨w, -, rfl⟩ := List.mem_map.mp hv; exact sq_nonneg _)
  have hvar := mean_sq_dist hx m
  rw [← hT] at hs1 hs2 hvar
  have hsT : |s - T| ≤ ((1 + u) ^ (x.length + 2) - 1) * T := by
    have h1 : (0:ℝ) ≤ (1 + u) ^ (x.length - 1) - 1 := sub_nonneg.mpr (one_le_pow₀ (by linarith))
    have h2 := mul_le_mul_of_nonneg_left hs2 h1
    have h3 := abs_sub_le s (x.map fun t => fl (fl (t - m) * fl (t - m))).sum T
    have h4 : (1 + u) ^ (x.length + 2) = (1 + u) ^ (x.length - 1) * (1 + u) ^ 3 := by
      rw [← pow_add]; congr 1
      have := List.length_pos_iff.mpr hx
      omega
    rw [h4]
    linarith
  have hv1 : |fl (s / x.length) - T / x.length| ≤ ((1 + u) ^ (x.length + 3) - 1) * (T / x.length) := by
    have a : Near ((1 + u) ^ (x.length + 2)) (s / x.length) (T / x.length) := by
      unfold Near
      rw [← sub_div, abs_div, abs_div, abs_of_pos hp, abs_of_nonneg hT0, ← mul_div_assoc]
      exact div_le_div_of_nonneg_right hsT hp.le
    have b := (h.near (s / x.length)).trans (by linarith) a
    unfold Near at b
    rw [abs_of_nonneg (div_nonneg hT0 hp.le)] at b
    rwa [pow_succ' (1 + u) (x.length + 2)]
  have hr := sqrt_near (div_nonneg hT0 hp.le) hv1
  have hf : Near ((1 + u) ^ (x.length + 4)) (fl √(fl (s / x.length))) √(T / x.length) := by
    rw [pow_succ' (1 + u) (x.length + 3)]
    refine (h.near _).trans (by linarith) ?_
    unfold Near
    rwa [abs_of_nonneg (Real.sqrt_nonneg _)]
  unfold Near at hf
  rw [abs_of_nonneg (Real.sqrt_nonneg _), hvar] at hf
  -- the root
  have hV : 0 ≤ Np.var x := by
    refine div_nonneg (List.sum_nonneg ?_) (by positivity)
    intro v hv; obtain ⟨w, -, rfl⟩ := List.mem_map.mp hv; exact sq_nonneg _
  have lo : √(Np.var x) ≤ √(Np.var x + (m - Np.mean x) ^ 2) := Real.sqrt_le_sqrt (by nlinarith [sq_nonneg (m - Np.mean x)])
  have hi : √(Np.var x + (m - Np.mean x) ^ 2) ≤ √(Np.var x) + |m - Np.mean x| := by
    refine Real.sqrt_le_iff.mpr ⟨by positivity, ?_⟩
    have := Real.sq_sqrt hV
    have := sq_abs (m - Np.mean x)
    nlinarith [Real.sqrt_nonneg (Np.var x), abs_nonneg (m - Np.mean x)]
  have hG : (1:ℝ) ≤ (1 + u) ^ (x.length + 4) := one_le_pow₀ (by linarith)
  generalize (1 + u) ^ (x.length + 4) = G at hG hf ⊢
  generalize √(Np.var x + (m - Np.mean x) ^ 2) = R at lo hi hf
  generalize fl √(fl (s / x.length)) = F at hf ⊢
  have t1 := abs_sub_le F R √(Np.var x)
  have t2 : |R - √(Np.var x)| ≤ |m - Np.mean x| := by rw [abs_of_nonneg (by linarith)]; linarith
  have t3 : (G - 1) * R ≤ (G - 1) * (√(Np.var x) + |m - Np.mean x|) := mul_le_mul_of_nonneg_left hi (by linarith)
  have t4 : G * |m - Np.mean x| ≤ G * (((1 + u) ^ x.length - 1) * meanAbs x) := mul_le_mul_of_nonneg_left hmean (by linarith)
  linarith

/-- A rounded quotient of two approximate numbers. -/
theorem quot_err {u : ℝ} {fl : ℝ → ℝ} (h : Rounding u fl) {a a' s s' δ η : ℝ} (ha : |a' - a| ≤ δ) (hs : |s' - s| ≤ η * s)
    (hs0 : 0 < s) (hη : η < 1) :
    |fl (a' / s') - a / s| ≤ ((1 + u) / (1 - η) - 1) * (|a| / s) + (1 + u) / (1 - η) * (δ / s) := by
  have hu := h.nonneg
  have hη0 : 0 ≤ η := by
    by_contra hc
    push Not at hc
    have := abs_nonneg (s' - s)
    nlinarith
  have h1 := abs_le.mp hs
  have hd : 0 < 1 - η := by linarith
  have hs' : (1 - η) * s ≤ s' := by linarith [h1.1]
  have hs'0 : 0 < s' := lt_of_lt_of_le (mul_pos hd hs0) hs'
  have e1 : |1 / s' - 1 / s| ≤ (1 / (1 - η) - 1) * (1 / s) := by
    have : 1 / s' - 1 / s = -(s' - s) / (s' * s) := by field_simp; ring
    rw [this, abs_div, abs_neg, abs_of_pos (mul_pos hs'0 hs0), div_le_iff₀ (mul_pos hs'0 hs0)]
    have e : (1 / (1 - η) - 1) * (1 / s) * (s' * s) = η * (s' / (1 - η)) := by field_simp; ring
    rw [e]
    have : s ≤ s' / (1 - η) := by rw [le_div_iff₀ hd]; linarith
    exact hs.trans (mul_le_mul_of_nonneg_left this hη0)
  have e2 : 1 / s' ≤ 1 / (1 - η) * (1 / s) := by
    have := (abs_le.mp e1).2
    linarith
  have q : |a' / s' - a / s| ≤ (1 / (1 - η) - 1) * (|a| / s) + 1 / (1 - η) * (δ / s) := by
    have e : a' / s' - a / s = (a' - a) * (1 / s') + a * (1 / s' - 1 / s) := by ring
    rw [e]
    refine (abs_add_le _ _).trans ?_
    rw [abs_mul, abs_mul, abs_of_pos (by positivity : 0 < 1 / s')]
    have i1 : |a' - a| * (1 / s') ≤ δ * (1 / (1 - η) * (1 / s)) :=
      mul_le_mul ha e2 (by positivity) ((abs_nonneg _).trans ha)
    have i2 : |a| * |1 / s' - 1 / s| ≤ |a| * ((1 / (1 - η) - 1) * (1 / s)) := mul_le_mul_of_nonneg_left e1 (abs_nonneg _)
    have e3 : (1 / (1 - η) - 1) * (|a| / s) + 1 / (1 - η) * (δ / s) =
      δ * (1 / (1 - η) * (1 / s)) + |a| * ((1 / (1 - η) - 1) * (1 / s)) := by ring
    linarith
  have hq : |a' / s'| ≤ 1 / (1 - η) * (|a| / s) + 1 / (1 - η) * (δ / s) := by
    have h1 := abs_sub_abs_le_abs_sub (a' / s') (a / s)
    have h2 : |a / s| = |a| / s := by rw [abs_div, abs_of_pos hs0]
    rw [h2] at h1
    linarith
  have hf := h.err (a' / s')
  have h3 := abs_sub_le (fl (a' / s')) (a' / s') (a / s)
  have h4 := mul_le_mul_of_nonneg_left hq hu
  have e : ((1 + u) / (1 - η) - 1) * (|a| / s) + (1 + u) / (1 - η) * (δ / s) =
      u * (1 / (1 - η) * (|a| / s) + 1 / (1 - η) * (δ / s)) +
        ((1 / (1 - η) - 1) * (|a| / s) + 1 / (1 - η) * (δ / s)) := by ring
  linarith

/-- A rounded difference from an approximate number. -/
theorem diff_err {u : ℝ} {fl : ℝ → ℝ} (h : Rounding u fl) {a m m' ε : ℝ} (hm : |m' - m| ≤ ε) :
    |fl (a - m') - (a - m)| ≤ u * |a - m| + (1 + u) * ε := by
  have hu := h.nonneg
  have h1 := h.err (a - m')
  have h2 := abs_sub_le (fl (a - m')) (a - m') (a - m)
  have h3 : |a - m' - (a - m)| ≤ ε := by rw [show a - m' - (a - m) = -(m' - m) by ring, abs_neg]; exact hm
  have h4 := abs_sub_abs_le_abs_sub (a - m') (a - m)
  have h5 := mul_le_mul_of_nonneg_left (h4.trans h3) hu
  linarith

section
variable {A : List (List ℝ)} {c : ℕ} {u : ℝ} {fl : ℝ → ℝ} {B : ℕ → ℕ → ℝ}

theorem col_length (A : List (List ℝ)) (j : ℕ) : (Np.col A j).length = A.length := by simp [Np.col]

/-- C144, 'ms': a float run of `normalize_ceps(x, "ms")` gives the exact result up to the roundoff and the error of the
column mean. -/
theorem C144_ms (hr : Rounding u fl) (h : Np.Rect A c) (hA : A ≠ []) (hc : 0 < c) (hB : FlNormalized fl A c "ms" B) :
    ∃ E, normalizeCeps (finMat A) c "ms" = .ok (finMat E) ∧ ∀ i < A.length, ∀ j < c,
      |B i j - Np.at2 E i j| ≤ u * |Np.at2 E i j| + (1 + u) * (((1 + u) ^ A.length - 1) * meanAbs (Np.col A j)) := by
  obtain ⟨E, h1, -, -, h4, -⟩ := C15_ms h hA hc
  refine ⟨E, h1, fun i hi j hj => ?_⟩
  rw [FlNormalized, if_neg (by decide), if_pos rfl] at hB
  obtain ⟨m, hm, hB⟩ := hB
  have := C144_mean hr (hm j hj)
  rw [col_length] at this
  rw [hB i hi j hj, h4 i j hi hj]
  exact diff_err hr this

/-- The bound of `C144_std` relative to the standard deviation. -/
noncomputable def stdError (u : ℝ) (x : List ℝ) : ℝ :=
  (1 + u) ^ (x.length + 4) - 1 + (1 + u) ^ (x.length + 4) * (((1 + u) ^ x.length - 1) * meanAbs x) / √(Np.var x)

theorem std_relative (hr : Rounding u fl) {x : List ℝ} {σ : ℝ} (hv : 0 < √(Np.var x)) (hσ : FlStd fl x σ) :
    |σ - √(Np.var x)| ≤ stdError u x * √(Np.var x) := by
  refine (C144_std hr hσ).trans (le_of_eq ?_)
  rw [stdError]
  field_simp

theorem std_pos (h : Np.var A.flatten ≠ 0) : 0 < √(Np.var A.flatten) := by
  refine Real.sqrt_pos.mpr (lt_of_le_of_ne ?_ (Ne.symm h))
  refine div_nonneg (List.sum_nonneg ?_) (by positivity)
  intro v hv; obtain ⟨w, -, rfl⟩ := List.mem_map.mp hv; exact sq_nonneg _

/-- C144, 'vn': as long as the error of the standard deviation is below the standard deviation, the float run has a
small relative error. -/
theorem C144_vn (hr : Rounding u fl) (h : Np.Rect A c) (hA : A ≠ []) (hc : 0 < c) (hv : Np.var A.flatten ≠ 0)
    (hη : stdError u A.flatten < 1) (hB : FlNormalized fl A c "vn" B) :
    ∃ E, normalizeCeps (finMat A) c "vn" = .ok (finMat E) ∧ ∀ i < A.length, ∀ j < c,
      |B i j - Np.at2 E i j| ≤ ((1 + u) / (1 - stdError u A.flatten) - 1) * |Np.at2 E i j| := by
  have hs := std_pos hv
  refine ⟨_, normalize_vn h hA hc hv, fun i hi j hj => ?_⟩
  rw [FlNormalized, if_neg (by decide), if_neg (by decide), if_pos rfl] at hB
  obtain ⟨σ, hσ, hB⟩ := hB
  have e : Np.at2 (A.map fun r => r.map fun v => v / √(Np.var A.flatten)) i j = Np.at2 A i j / √(Np.var A.flatten) := by
    have hrow : (A.getD i []).length = c := h _ (getD_mem [] hi)
    unfold Np.at2
    rw [getD_map_lt _ _ [] [] hi, getD_map_lt _ _ (0:ℝ) 0 (by rw [hrow]; exact hj)]
  rw [hB i hi j hj, e]
  have := quot_err hr (a := Np.at2 A i j) (a' := Np.at2 A i j) (δ := 0) (by simp) (std_relative hr hs hσ) hs hη
  rw [abs_div, abs_of_pos hs]
  simpa using this

/-- C144, 'mvn': the errors of the column mean and of the standard deviation together. -/
theorem C144_mvn (hr : Rounding u fl) (h : Np.Rect A c) (hA : A ≠ []) (hc : 0 < c) (hv : Np.var A.flatten ≠ 0)
    (hη : stdError u A.flatten < 1) (hB : FlNormalized fl A c "mvn" B) :
    ∃ E, normalizeCeps (finMat A) c "mvn" = .ok (finMat E) ∧ ∀ i < A.length, ∀ j < c,
      |B i j - Np.at2 E i j| ≤ ((1 + u) ^ 2 / (1 - stdError u A.flatten) - 1) * |Np.at2 E i j| +
        (1 + u) ^ 2 / (1 - stdError u A.flatten) *
          (((1 + u) ^ A.length - 1) * meanAbs (Np.col A j) / √(Np.var A.flatten)) := by
  have hs := std_pos hv
  obtain ⟨E, h1, -, -, h4, -⟩ := C16_mvn h hA hc hv
  refine ⟨E, h1, fun i hi j hj => ?_⟩
  rw [FlNormalized, if_pos rfl] at hB
  obtain ⟨m, hm, σ, hσ, hB⟩ := hB
  have hmean := C144_mean hr (hm j hj)
  rw [col_length] at hmean
  have := quot_err hr (diff_err hr (a := Np.at2 A i j) hmean) (std_relative hr hs hσ) hs hη
  rw [hB i hi j hj, h4 i j hi hj, abs_div, abs_of_pos hs]
  refine this.trans (le_of_eq ?_)
  have : 1 - stdError u A.flatten ≠ 0 := by linarith
  field_simp
  ring

/-- C144, 'mn': the range is exact up to one rounding. -/
theorem C144_mn (hr : Rounding u fl) (hu : u < 1) (h : Np.Rect A c) (hA : A ≠ []) (hc : 0 < c)
    (hne : ∃ s ∈ A.flatten, ∃ t ∈ A.flatten, s ≠ t) (hB : FlNormalized fl A c "mn" B) :
    ∃ E hi lo, normalizeCeps (finMat A) c "mn" = .ok (finMat E) ∧ hi ∈ A.flatten ∧ lo ∈ A.flatten ∧
      (∀ v ∈ A.flatten, lo ≤ v ∧ v ≤ hi) ∧ ∀ i < A.length, ∀ j < c,
      |B i j - Np.at2 E i j| ≤ ((1 + u) ^ 2 / (1 - u) - 1) * |Np.at2 E i j| +
        (1 + u) ^ 2 / (1 - u) * (((1 + u) ^ A.flatten.length - 1) * meanAbs A.flatten / (hi - lo)) := by
  have hfl := flatten_ne_nil h hA hc
  obtain ⟨M, m, hM, hm, hMm, hmm, hb⟩ := xmax_xmin_fin hfl
  have hlt : m < M := by
    obtain ⟨s, hs, t, ht, hst⟩ := hne
    rcases lt_or_gt_of_ne hst with h' | h'
    · exact ((hb s hs).1.trans_lt h').trans_le (hb t ht).2
    · exact ((hb t ht).1.trans_lt h').trans_le (hb s hs).2
  have hd : 0 < M - m := sub_pos.mpr hlt
  refine ⟨A.map fun r => r.map fun v => (v - Np.mean A.flatten) / (M - m), M, m, ?_, hMm, hmm, hb, fun i hi j hj => ?_⟩
  · rw [normalizeCeps, if_neg (by rw [finMat_flatten]; simpa using hfl), if_neg (by decide),
      if_neg (by decide), if_neg (by decide), if_pos rfl, finMat_flatten, hM, hm, xmean_fin hfl]
    congr 1
    simp only [finMat, List.map_map]
    apply List.map_congr_left
    intro r _
    simp only [Function.comp, List.map_map]
    apply List.map_congr_left
    intro v _
    simp only [Function.comp, fin_sub, fin_div _ _ hd.ne']
  · rw [FlNormalized, if_neg (by decide), if_neg (by decide), if_neg (by decide), if_pos rfl] at hB
    obtain ⟨μ, hμ, hi', hhi, lo', hlo, hb', hB⟩ := hB
    have e1 : hi' = M := le_antisymm (hb hi' hhi).2 (hb' M hMm).2
    have e2 : lo' = m := le_antisymm (hb' m hmm).1 (hb lo' hlo).1
    subst e1 e2
    have e : Np.at2 (A.map fun r => r.map fun v => (v - Np.mean A.flatten) / (hi' - lo')) i j =
        (Np.at2 A i j - Np.mean A.flatten) / (hi' - lo') := by
      have hrow : (A.getD i []).length = c := h _ (getD_mem [] hi)
      unfold Np.at2
      rw [getD_map_lt _ _ [] [] hi, getD_map_lt _ _ (0:ℝ) 0 (by rw [hrow]; exact hj)]
    have hrange : |fl (hi' - lo') - (hi' - lo')| ≤ u * (hi' - lo') := by
      have := hr.err (hi' - lo'); rwa [abs_of_pos hd] at this
    have := quot_err hr (diff_err hr (a := Np.at2 A i j) (C144_mean hr hμ)) hrange hd hu
    rw [hB i hi j hj, e, abs_div, abs_of_pos hd]
    refine this.trans (le_of_eq ?_)
    have : 1 - u ≠ 0 := by linarith
    field_simp
    ring

/-- C144, deltas: a float run of `deltas` is off by at most `(1 + u)^(2h+1) - 1` times the weighted absolute values of
the neighbours. -/
theorem C144_deltas (hr : Rounding u fl) (h : Np.Rect A c) (hA : A ≠ []) (hc : 0 < c) (k : ℕ) (w : ℤ) (hw : w / 2 = k) :
    ∃ E, deltas A c w = .ok E ∧ ∀ i t y, i < A.length → t < c → FlDelta fl k (A.getD i []) t y →
      |y - Np.at2 E i t| ≤ ((1 + u) ^ (2 * k + 1) - 1) *
        ∑ q ∈ Finset.Icc (-(k : ℤ)) k, |(q : ℝ)| * |clampGet (A.getD i []) (t + q)| := by
  obtain ⟨E, h1, -, -, h4⟩ := (C22_deltas_formula A c w h).2.2 hc (by omega) hA
  refine ⟨E, h1, fun i t y hi ht hy => ?_⟩
  have := C120_dot hr le_rfl (fun _ _ => Near.refl _) hy
  rw [mul_one] at this
  have reindex : ∀ f : ℤ → ℝ, ∑ q ∈ Finset.Icc (-(k : ℤ)) k, f q = ∑ q ∈ Finset.range (2 * k + 1), f ((q : ℤ) - k) := by
    intro f
    symm
    refine Finset.sum_bij (fun q _ => (q : ℤ) - k) ?_ ?_ ?_ ?_
    · intro q hq; rw [Finset.mem_range] at hq; rw [Finset.mem_Icc]; omega
    · intro a _ b _ hab; simpa using hab
    · intro b hb; rw [Finset.mem_Icc] at hb; exact ⟨(b + k).toNat, by rw [Finset.mem_range]; omega, by omega⟩
    · intros; rfl
  rw [h4 i t hi ht, hw, reindex, reindex]
  have cl : ∀ q : ℕ, clampGet (A.getD i []) ((t : ℤ) + ((q : ℤ) - k)) =
      (A.getD i []).getD (min (t + q - k) ((A.getD i []).length - 1)) 0 := by
    intro q; unfold clampGet; congr 2; omega
  have e1 : ∑ q ∈ Finset.range (2 * k + 1), (((q : ℤ) - (k : ℤ) : ℤ) : ℝ) * clampGet (A.getD i []) ((t : ℤ) + ((q : ℤ) - k)) =
      ∑ q ∈ Finset.range (2 * k + 1), (A.getD i []).getD (min (t + q - k) ((A.getD i []).length - 1)) 0 * ((q : ℝ) - k) := by
    refine Finset.sum_congr rfl fun q _ => ?_
    rw [cl]; push_cast; ring
  have e2 : ∑ q ∈ Finset.range (2 * k + 1), |(((q : ℤ) - (k : ℤ) : ℤ) : ℝ)| * |clampGet (A.getD i []) ((t : ℤ) + ((q : ℤ) - k))| =
      ∑ q ∈ Finset.range (2 * k + 1), |(A.getD i []).getD (min (t + q - k) ((A.getD i []).length - 1)) 0 * ((q : ℝ) - k)| := by
    refine Finset.sum_congr rfl fun q _ => ?_
    rw [cl, abs_mul]; push_cast; ring
  rw [e1, e2]
  exact this

end

/-- `(1 + u)^n` in double precision. -/
theorem growth_double {n : ℕ} (hn : n ≤ 10 ^ 6 + 4) : ((1 : ℝ) + 1 / 2 ^ 53) ^ n - 1 ≤ 1 / 10 ^ 9 := by
  have h1 : ((1 : ℝ) + 1 / 2 ^ 53) ^ 200 ≤ 1 + 1 / 10 ^ 13 := by norm_num
  have h2 : ((1 : ℝ) + 1 / 10 ^ 13) ^ 100 ≤ 1 + 11 / 10 ^ 12 := by norm_num
  have h3 : ((1 : ℝ) + 11 / 10 ^ 12) ^ 51 ≤ 1 + 1 / 10 ^ 9 := by norm_num
  have h : ((1 : ℝ) + 1 / 2 ^ 53) ^ n ≤ 1 + 1 / 10 ^ 9 := by
    calc ((1 : ℝ) + 1 / 2 ^ 53) ^ n ≤ ((1 : ℝ) + 1 / 2 ^ 53) ^ (200 * 100 * 51) :=
          pow_le_pow_right₀ (by norm_num) (by omega)
      _ = (((1 + 1 / 2 ^ 53) ^ 200) ^ 100) ^ 51 := by rw [pow_mul, pow_mul]
      _ ≤ ((1 + 1 / 10 ^ 13) ^ 100) ^ 51 :=
          pow_le_pow_left₀ (by positivity) (pow_le_pow_left₀ (by positivity) h1 100) 51
      _ ≤ (1 + 11 / 10 ^ 12) ^ 51 := pow_le_pow_left₀ (by positivity) h2 51
      _ ≤ 1 + 1 / 10 ^ 9 := h3
  linarith

/-- C144 in numbers: with `float64`, at most a million coefficients and a standard deviation of at least a thousandth of
the largest coefficient, every float run of `normalize_ceps(x, "mvn")` is accurate to five digits. -/
theorem C144_double {A : List (List ℝ)} {c : ℕ} {B : ℕ → ℕ → ℝ} (h : Np.Rect A c) (hA : A ≠ []) (hc : 0 < c)
    (hn : A.flatten.length ≤ 10 ^ 6) (hv : Np.var A.flatten ≠ 0)
    (hsize : ∀ v ∈ A.flatten, |v| ≤ 10 ^ 3 * √(Np.var A.flatten)) (hB : FlNormalized fl64 A c "mvn" B) :
    ∃ E, normalizeCeps (finMat A) c "mvn" = .ok (finMat E) ∧ ∀ i < A.length, ∀ j < c,
      |B i j - Np.at2 E i j| ≤ 1 / 10 ^ 5 * (1 + |Np.at2 E i j|) := by
  have hs := std_pos hv
  have hlen : A.length ≤ 10 ^ 6 := by
    refine le_trans ?_ hn
    clear hA hn hv hsize hB hs
    induction A with
    | nil => simp
    | cons r l ih =>
      have h1 := h r (by simp)
      have h2 := ih fun r' hr' => h r' (by simp [hr'])
      simp only [List.flatten_cons, List.length_append, List.length_cons]
      omega
  have hmf : meanAbs A.flatten ≤ 10 ^ 3 * √(Np.var A.flatten) := meanAbs_le (by positivity) hsize
  have g1 := growth_double (n := A.flatten.length + 4) (by omega)
  have g2 := growth_double (n := A.flatten.length) (by omega)
  have g3 := growth_double (n := A.length) (by omega)
  have o : ∀ n : ℕ, (0:ℝ) ≤ ((1 : ℝ) + 1 / 2 ^ 53) ^ n - 1 := fun n => sub_nonneg.mpr (one_le_pow₀ (by norm_num))
  have o1 := o (A.flatten.length + 4)
  have o2 := o A.flatten.length
  have o3 := o A.length
  have hη : stdError (1 / 2 ^ 53) A.flatten ≤ 2 / 10 ^ 6 := by
    have m0 := meanAbs_nonneg A.flatten
    rw [stdError]
    have i1 : (((1 : ℝ) + 1 / 2 ^ 53) ^ A.flatten.length - 1) * meanAbs A.flatten ≤
        1 / 10 ^ 9 * (10 ^ 3 * √(Np.var A.flatten)) := mul_le_mul g2 hmf m0 (by norm_num)
    have i2 : ((1 : ℝ) + 1 / 2 ^ 53) ^ (A.flatten.length + 4) *
        ((((1 : ℝ) + 1 / 2 ^ 53) ^ A.flatten.length - 1) * meanAbs A.flatten) ≤
        (1 + 1 / 10 ^ 9) * (1 / 10 ^ 9 * (10 ^ 3 * √(Np.var A.flatten))) :=
      mul_le_mul (by linarith) i1 (mul_nonneg o2 m0) (by norm_num)
    have i3 : ((1 : ℝ) + 1 / 2 ^ 53) ^ (A.flatten.length + 4) *
        ((((1 : ℝ) + 1 / 2 ^ 53) ^ A.flatten.length - 1) * meanAbs A.flatten) / √(Np.var A.flatten) ≤
        (1 + 1 / 10 ^ 9) * (1 / 10 ^ 9 * 10 ^ 3) := by
      rw [div_le_iff₀ hs]; linarith
    have i4 : (1 + 1 / 10 ^ 9) * (1 / 10 ^ 9 * 10 ^ 3) + 1 / 10 ^ 9 ≤ (2 / 10 ^ 6 : ℝ) := by norm_num
    linarith
  obtain ⟨E, h1, h2⟩ := C144_mvn C130_binary64.1 h hA hc hv (lt_of_le_of_lt hη (by norm_num)) hB
  refine ⟨E, h1, fun i hi j hj => (h2 i hi j hj).trans ?_⟩
  have hcol : meanAbs (Np.col A j) ≤ 10 ^ 3 * √(Np.var A.flatten) := by
    refine meanAbs_le (by positivity) fun v hv => ?_
    obtain ⟨r, hr, rfl⟩ := List.mem_map.mp hv
    refine hsize _ (List.mem_flatten.mpr ⟨r, hr, getD_mem 0 (by rw [h r hr]; exact hj)⟩)
  have q : ((1 : ℝ) + 1 / 2 ^ 53) ^ 2 / (1 - stdError (1 / 2 ^ 53) A.flatten) ≤ 1 + 1 / 10 ^ 5 := by
    rw [div_le_iff₀ (by linarith [show (2 / 10 ^ 6 : ℝ) < 1 by norm_num])]
    have : ((1 : ℝ) + 1 / 2 ^ 53) ^ 2 ≤ (1 + 1 / 10 ^ 5) * (1 - 2 / 10 ^ 6) := by norm_num
    nlinarith
  have q0 : 0 ≤ ((1 : ℝ) + 1 / 2 ^ 53) ^ 2 / (1 - stdError (1 / 2 ^ 53) A.flatten) :=
    div_nonneg (by positivity) (by linarith [show (2 / 10 ^ 6 : ℝ) < 1 by norm_num])
  have i1 : (((1 : ℝ) + 1 / 2 ^ 53) ^ A.length - 1) * meanAbs (Np.col A j) / √(Np.var A.flatten) ≤ 1 / 10 ^ 6 := by
    rw [div_le_iff₀ hs]
    refine (mul_le_mul g3 hcol (meanAbs_nonneg _) (by norm_num)).trans (le_of_eq (by ring))
  have i2 := mul_le_mul q i1 (div_nonneg (mul_nonneg o3 (meanAbs_nonneg _)) hs.le) (by norm_num)
  have i3 := mul_le_mul_of_nonneg_right (sub_le_sub_right q 1) (abs_nonneg (Np.at2 E i j))
  have i4 : (1 + 1 / 10 ^ 5) * (1 / 10 ^ 6) ≤ (1 / 10 ^ 5 : ℝ) := by norm_num
  have i5 : (1 + 1 / 10 ^ 5 - 1 : ℝ) = 1 / 10 ^ 5 := by norm_num
  rw [i5] at i3
  linarith

/-- Rounding a number halfway between two floats. -/
theorem fl64_tie {x : ℝ} {e r : ℤ} (h1 : (2 : ℝ) ^ e ≤ x) (h2 : x < (2 : ℝ) ^ (e + 1))
    (h3 : x / (2 : ℝ) ^ (e - 52) = r + 1 / 2) (hr : ¬ Even r) : fl64 x = (r + 1) * (2 : ℝ) ^ (e - 52) := by
  have hx : 0 < x := lt_of_lt_of_le (zpow_pos (by norm_num) e) h1
  have hlog : Int.log 2 |x| = e := by
    rw [abs_of_pos hx]
    refine le_antisymm ?_ ?_
    · have h := Int.zpow_log_le_self (b := 2) (by norm_num) hx
      have h' : ((2 : ℕ) : ℝ) = 2 := by norm_num
      rw [h'] at h
      have := (zpow_lt_zpow_iff_right₀ (by norm_num : (1 : ℝ) < 2)).mp (h.trans_lt h2)
      omega
    · have h := Int.lt_zpow_succ_log_self (b := 2) (by norm_num) x
      have h' : ((2 : ℕ) : ℝ) = 2 := by norm_num
      rw [h'] at h
      have := (zpow_lt_zpow_iff_right₀ (by norm_num : (1 : ℝ) < 2)).mp (h1.trans_lt h)
      omega
  have hu : ulp64 x = (2 : ℝ) ^ (e - 52) := by rw [ulp64, hlog]
  have hf : ⌊(r : ℝ) + 1 / 2⌋ = r := by rw [Int.floor_eq_iff]; constructor <;> linarith
  have hfr : Int.fract ((r : ℝ) + 1 / 2) = 1 / 2 := by rw [Int.fract, hf]; ring
  rw [fl64, hu, h3, roundEven, hfr, if_neg (lt_irrefl _), if_neg (lt_irrefl _), hf, if_neg hr]
  push_cast
  ring

/-- The `float64` nearest to 0.1. -/
theorem fl64_tenth : fl64 (1 / 10) = 3602879701896397 / 2 ^ 55 := by
  rw [fl64_eq (e := -4) (r := 7205759403792794) (by norm_num) (by norm_num) (by rw [abs_lt]; norm_num)]
  norm_num

/-- A float run of `np.mean` of three times 0.1: the sum is rounded up, and so is the mean. -/
theorem mean_tenths : FlMean fl64 [fl64 (1 / 10), fl64 (1 / 10), fl64 (1 / 10)] (7205759403792795 / 2 ^ 56) := by
  refine ⟨5404319552844596 / 2 ^ 54, ?_, ?_⟩
  · have e1 : fl64 (fl64 (1 / 10) + fl64 (1 / 10)) = 3602879701896397 / 2 ^ 54 := by
      rw [fl64_tenth, fl64_eq (e := -3) (r := 7205759403792794) (by norm_num) (by norm_num) (by rw [abs_lt]; norm_num)]
      norm_num
    have e2 : fl64 (3602879701896397 / 2 ^ 54 + fl64 (1 / 10)) = 5404319552844596 / 2 ^ 54 := by
      rw [fl64_tenth, fl64_tie (e := -2) (r := 5404319552844595) (by norm_num) (by norm_num) (by norm_num) (by decide)]
      norm_num
    have h1 : FlSum fl64 [fl64 (1 / 10), fl64 (1 / 10)] (fl64 (fl64 (1 / 10) + fl64 (1 / 10))) :=
      .add (a := [_]) (b := [_]) (.one _) (.one _)
    rw [e1] at h1
    have h2 := FlSum.add h1 (.one (fl64 (1 / 10)))
    rwa [e2] at h2
  · symm
    simp only [List.length_cons, List.length_nil]
    rw [fl64_eq (e := -4) (r := 7205759403792795) (by norm_num) (by norm_num) (by rw [abs_lt]; norm_num)]
    norm_num

/-- C144: the condition on the standard deviation is needed. For three frames with the one coefficient 0.1 the exact result
of 'mvn' is NaN (the standard deviation is 0), but in `float64` the mean of three times 0.1 is not 0.1, the computed
standard deviation is the rounding error, and the result is -1 in every frame: full-scale features made of rounding errors. -/
theorem C144_constant :
    normalizeCeps (finMat [[fl64 (1 / 10)], [fl64 (1 / 10)], [fl64 (1 / 10)]]) 1 "mvn" = .ok [[nan], [nan], [nan]] ∧
    FlNormalized fl64 [[fl64 (1 / 10)], [fl64 (1 / 10)], [fl64 (1 / 10)]] 1 "mvn" (fun _ _ => -1) := by
  constructor
  · have := (C19_constant (A := [[fl64 (1 / 10)], [fl64 (1 / 10)], [fl64 (1 / 10)]]) (c := 1)
      (by intro r hr; simp at hr; subst hr; rfl) (by simp) (by norm_num) (fl64 (1 / 10)) (by simp)).2.1
    simpa using this
  · rw [FlNormalized, if_pos rfl]
    have d : fl64 (fl64 (1 / 10) - 7205759403792795 / 2 ^ 56) = -(1 / 2 ^ 56) := by
      rw [fl64_tenth, show (3602879701896397 / 2 ^ 55 - 7205759403792795 / 2 ^ 56 : ℝ) = -(1 / 2 ^ 56) by norm_num]
      exact fl64_fixed ⟨-1, -56, by norm_num, by norm_num⟩
    have sq : fl64 (-(1 / 2 ^ 56) * -(1 / 2 ^ 56)) = 1 / 2 ^ 112 := by
      rw [show (-(1 / 2 ^ 56) * -(1 / 2 ^ 56) : ℝ) = 1 / 2 ^ 112 by norm_num]
      exact fl64_fixed ⟨1, -112, by norm_num, by norm_num⟩
    refine ⟨fun _ => 7205759403792795 / 2 ^ 56, fun j hj => ?_, 1 / 2 ^ 56, ?_, ?_⟩
    · obtain rfl : j = 0 := by omega
      exact mean_tenths
    · refine ⟨_, mean_tenths, 1 / 2 ^ 112, ⟨3 / 2 ^ 112, ?_, ?_⟩, ?_⟩
      · show FlSum fl64 [_, _, _] _
        beta_reduce
        rw [d, sq]
        have h1 : FlSum fl64 [(1 / 2 ^ 112 : ℝ), 1 / 2 ^ 112] (fl64 (1 / 2 ^ 112 + 1 / 2 ^ 112)) :=
          .add (a := [_]) (b := [_]) (.one _) (.one _)
        rw [show (1 / 2 ^ 112 + 1 / 2 ^ 112 : ℝ) = 2 / 2 ^ 112 by norm_num,
          fl64_fixed (x := 2 / 2 ^ 112) ⟨2, -112, by norm_num, by norm_num⟩] at h1
        have h2 := FlSum.add h1 (.one (1 / 2 ^ 112))
        rwa [show (2 / 2 ^ 112 + 1 / 2 ^ 112 : ℝ) = 3 / 2 ^ 112 by norm_num,
          fl64_fixed (x := 3 / 2 ^ 112) ⟨3, -112, by norm_num, by norm_num⟩] at h2
      · show (1 / 2 ^ 112 : ℝ) = fl64 (3 / 2 ^ 112 / ((3 : ℕ) : ℝ))
        rw [show (3 / 2 ^ 112 / ((3 : ℕ) : ℝ) : ℝ) = 1 / 2 ^ 112 by norm_num]
        exact (fl64_fixed ⟨1, -112, by norm_num, by norm_num⟩).symm
      · rw [show (1 / 2 ^ 112 : ℝ) = (1 / 2 ^ 56) ^ 2 by norm_num, Real.sqrt_sq (by positivity)]
        exact (fl64_fixed ⟨1, -56, by norm_num, by norm_num⟩).symm
    · intro i hi j hj
      have e : Np.at2 [[fl64 (1 / 10)], [fl64 (1 / 10)], [fl64 (1 / 10)]] i j = fl64 (1 / 10) := by
        obtain rfl : j = 0 := by omega
        have : i < 3 := hi
        interval_cases i <;> rfl
      rw [e, d]
      show (-1 : ℝ) = fl64 (-(1 / 2 ^ 56) / (1 / 2 ^ 56))
      rw [show (-(1 / 2 ^ 56) / (1 / 2 ^ 56) : ℝ) = -1 by norm_num]
      exact (fl64_fixed ⟨-1, 0, by norm_num, by norm_num⟩).symm

/-- A case of `C144_double`: two frames with the coefficients 0, 2 and 4, 6. -/
example : ∃ B, FlNormalized fl64 [[0, 2], [4, 6]] 2 "mvn" B ∧ ∃ E, normalizeCeps (finMat [[0, 2], [4, 6]]) 2 "mvn" = .ok (finMat E) ∧
    ∀ i < 2, ∀ j < 2, |B i j - Np.at2 E i j| ≤ 1 / 10 ^ 5 * (1 + |Np.at2 E i j|) := by
  have hvar : Np.var ([[0, 2], [4, 6]] : List (List ℝ)).flatten = 5 := by
    simp [Np.var, Np.mean]; norm_num
  have ex : ∀ (x : ℝ) (l : List ℝ), ∃ m, FlMean fl64 (x :: l) m := fun x l =>
    let ⟨s, hs⟩ := flSum_exists fl64 x l; ⟨_, s, hs, rfl⟩
  obtain ⟨m0, h0⟩ := ex 0 [4]
  obtain ⟨m1, h1⟩ := ex 2 [6]
  obtain ⟨m, hm⟩ := ex 0 [2, 4, 6]
  obtain ⟨v, hv⟩ := ex (fl64 (fl64 (0 - m) * fl64 (0 - m))) (([2, 4, 6] : List ℝ).map fun t => fl64 (fl64 (t - m) * fl64 (t - m)))
  have hB : FlNormalized fl64 [[0, 2], [4, 6]] 2 "mvn"
      (fun i j => fl64 (fl64 (Np.at2 [[0, 2], [4, 6]] i j - (if j = 0 then m0 else m1)) / fl64 √v)) := by
    rw [FlNormalized, if_pos rfl]
    refine ⟨fun j => if j = 0 then m0 else m1, fun j hj => ?_, fl64 √v, ⟨m, hm, v, hv, rfl⟩, fun _ _ _ _ => rfl⟩
    interval_cases j
    · exact h0
    · exact h1
  refine ⟨_, hB, C144_double (by intro r hr; simp at hr; rcases hr with rfl | rfl <;> rfl) (by simp) (by norm_num)
    (by simp) (by rw [hvar]; norm_num) (fun v hv => ?_) hB⟩
  rw [hvar]
  have : (1:ℝ) ≤ √5 := Real.one_le_sqrt.mpr (by norm_num)
  simp at hv
  rcases hv with rfl | rfl | rfl | rfl <;> norm_num <;> linarith

end Props
end Spafe
