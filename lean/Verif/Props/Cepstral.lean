import Verif.Lemmas.Cepstral
import Mathlib.NumberTheory.Niven

/-! Properties C15–C23: `spafe/utils/cepstral.py`.

`finMat A` is the real matrix `A` seen as a float matrix; `Np.Rect A c` says all rows have `c` entries;
`Np.at2 A i j` is entry `(i, j)`; `Np.mean`/`Np.var` are mean and population variance. -/

set_option linter.unusedSectionVars false

namespace Spafe
namespace Props
open XF Model

variable {A : List (List ℝ)} {c : ℕ}

theorem normalize_ms (h : Np.Rect A c) (hA : A ≠ []) (hc : 0 < c) :
    normalizeCeps (finMat A) c "ms" = .ok (finMat (centered A c)) := by
  rw [normalizeCeps, if_neg (by rw [finMat_flatten]; simpa using flatten_ne_nil h hA hc),
    if_neg (by decide), if_pos rfl, subRow_fin h hA]

/-- C15: 'ms' subtracts the column mean: entry by entry, and every column of the result has mean zero. -/
theorem C15_ms (h : Np.Rect A c) (hA : A ≠ []) (hc : 0 < c) :
    ∃ B, normalizeCeps (finMat A) c "ms" = .ok (finMat B) ∧ B.length = A.length ∧ Np.Rect B c ∧
      (∀ i j, i < A.length → j < c → Np.at2 B i j = Np.at2 A i j - Np.mean (Np.col A j)) ∧
      ∀ j, j < c → Np.mean (Np.col B j) = 0 := by
  refine ⟨_, normalize_ms h hA hc, centered_length _ _, centered_rect _ _,
    fun i j hi hj => centered_at2 A hi hj, fun j hj => ?_⟩
  rw [mean_col, centered_length, centered_col_sum hA hj, zero_div]

/-- C15: 'ms' is idempotent. -/
theorem C15_ms_idempotent (h : Np.Rect A c) (hA : A ≠ []) (hc : 0 < c) (B : XMat)
    (hB : normalizeCeps (finMat A) c "ms" = .ok B) : normalizeCeps B c "ms" = .ok B := by
  rw [normalize_ms h hA hc] at hB
  injection hB with hB
  subst hB
  have hne : centered A c ≠ [] := by simpa [centered] using hA
  rw [normalize_ms (centered_rect _ _) hne hc]
  congr 2
  refine mat_ext (centered_rect _ _) (centered_rect _ _) (by simp [centered_length]) fun i j hi hj => ?_
  rw [centered_length] at hi
  rw [centered_at2 _ hi hj, mean_col, centered_length, centered_col_sum hA hj]; simp

/-- C15: adding the same row vector to every frame (a channel offset) does not change the 'ms' result. -/
theorem C15_ms_shift (h : Np.Rect A c) (hA : A ≠ []) (hc : 0 < c) (v : List ℝ) (hv : v.length = c) :
    normalizeCeps (finMat (A.map fun r => List.zipWith (· + ·) r v)) c "ms" =
      normalizeCeps (finMat A) c "ms" := by
  set A' := A.map fun r => List.zipWith (· + ·) r v with hA'
  have h' : Np.Rect A' c := by
    intro r hr
    obtain ⟨s, hs, rfl⟩ := List.mem_map.mp hr
    simp [h s hs, hv]
  have hne : A' ≠ [] := by simpa [hA'] using hA
  have hl : A'.length = A.length := by simp [hA']
  have hat : ∀ i j, i < A.length → j < c → Np.at2 A' i j = Np.at2 A i j + v.getD j 0 := by
    intro i j hi hj
    unfold Np.at2
    rw [hA', getD_map_lt _ _ [] _ hi,
      getD_zipWith_lt _ _ _ 0 0 0 (by rw [rect_row h hi]; exact hj) (by omega)]
  rw [normalize_ms h hA hc, normalize_ms h' hne hc]
  congr 2
  refine mat_ext (centered_rect _ _) (centered_rect _ _) (by simp [centered_length, hl]) fun i j hi hj => ?_
  rw [centered_length, hl] at hi
  have hn : (A.length : ℝ) ≠ 0 := by
    have := List.length_pos_iff.mpr hA
    exact_mod_cast this.ne'
  rw [centered_at2 _ (hl ▸ hi) hj, centered_at2 _ hi hj, mean_col, mean_col, hl, hat i j hi hj,
    Finset.sum_congr rfl fun k hk => hat k j (Finset.mem_range.mp hk) hj, Finset.sum_add_distrib]
  simp
  field_simp
  ring

/-- C16: what 'mvn' really does. Columns get mean zero, and the overall variance of the result is
`1 - n Σ_j (mean_j - mean)² / (n c var)`, hence at most 1, with equality iff all column means agree with the
global mean. -/
theorem C16_mvn (h : Np.Rect A c) (hA : A ≠ []) (hc : 0 < c) (hv : Np.var A.flatten ≠ 0) :
    ∃ B, normalizeCeps (finMat A) c "mvn" = .ok (finMat B) ∧ B.length = A.length ∧ Np.Rect B c ∧
      (∀ i j, i < A.length → j < c →
        Np.at2 B i j = (Np.at2 A i j - Np.mean (Np.col A j)) / Real.sqrt (Np.var A.flatten)) ∧
      (∀ j, j < c → Np.mean (Np.col B j) = 0) ∧
      Np.var B.flatten ≤ 1 ∧
      (Np.var B.flatten = 1 ↔ ∀ j, j < c → Np.mean (Np.col A j) = Np.mean A.flatten) := by
  have hfl := flatten_ne_nil h hA hc
  have hvp : 0 < Np.var A.flatten := lt_of_le_of_ne (np_var_nonneg _) (Ne.symm hv)
  have hs : 0 < Real.sqrt (Np.var A.flatten) := Real.sqrt_pos.mpr hvp
  have hAl : 0 < A.length := List.length_pos_iff.mpr hA
  have hn : (0:ℝ) < A.length := by exact_mod_cast hAl
  have hcR : (0:ℝ) < c := by exact_mod_cast hc
  set B := (centered A c).map fun r => r.map fun v => v / Real.sqrt (Np.var A.flatten) with hBdef
  have hBl : B.length = A.length := by simp [hBdef, centered_length]
  have hBr : Np.Rect B c := rect_map (centered_rect _ _) _
  have hBat : ∀ i j, i < A.length → j < c →
      Np.at2 B i j = (Np.at2 A i j - Np.mean (Np.col A j)) / Real.sqrt (Np.var A.flatten) := by
    intro i j hi hj
    rw [hBdef, at2_map (centered_rect _ _) _ (by rw [centered_length]; exact hi) hj, centered_at2 _ hi hj]
  have hcol : ∀ j, j < c → ∑ i ∈ Finset.range A.length, Np.at2 B i j = 0 := by
    intro j hj
    have := centered_col_sum hA hj
    rw [Finset.sum_congr rfl fun i hi => hBat i j (Finset.mem_range.mp hi) hj, ← Finset.sum_div]
    rw [Finset.sum_congr rfl fun i hi => centered_at2 A (Finset.mem_range.mp hi) hj] at this
    rw [this, zero_div]
  have hmB : Np.mean B.flatten = 0 := by
    rw [mean_flatten hBr, Finset.sum_comm, hBl, Finset.sum_eq_zero fun j hj => hcol j (Finset.mem_range.mp hj),
      zero_div]
  have hdec := ss_decomp hAl (c := c) (Np.at2 A) (Np.mean A.flatten)
  have hvA := var_flatten h
  have hvB : Np.var B.flatten = 1 - (A.length * ∑ j ∈ Finset.range c,
      (Np.mean (Np.col A j) - Np.mean A.flatten) ^ 2) / (A.length * c * Np.var A.flatten) := by
    have h1 : ∑ i ∈ Finset.range A.length, ∑ j ∈ Finset.range c, (Np.at2 B i j - 0) ^ 2 =
        (∑ i ∈ Finset.range A.length, ∑ j ∈ Finset.range c,
          (Np.at2 A i j - Np.mean (Np.col A j)) ^ 2) / Np.var A.flatten := by
      rw [Finset.sum_div]
      apply Finset.sum_congr rfl; intro i hi
      rw [Finset.sum_div]
      apply Finset.sum_congr rfl; intro j hj
      rw [hBat i j (Finset.mem_range.mp hi) (Finset.mem_range.mp hj), sub_zero, div_pow, Real.sq_sqrt hvp.le]
    rw [var_flatten hBr, hmB, hBl, h1]
    have h2 : ∑ i ∈ Finset.range A.length, ∑ j ∈ Finset.range c, (Np.at2 A i j - Np.mean (Np.col A j)) ^ 2 =
        A.length * c * Np.var A.flatten - A.length * ∑ j ∈ Finset.range c,
          (Np.mean (Np.col A j) - Np.mean A.flatten) ^ 2 := by
      simp only [mean_col]
      rw [eq_sub_iff_add_eq, ← hdec, hvA]
      field_simp
    rw [h2]
    field_simp
  have hsum : 0 ≤ ∑ j ∈ Finset.range c, (Np.mean (Np.col A j) - Np.mean A.flatten) ^ 2 :=
    Finset.sum_nonneg fun j _ => sq_nonneg _
  refine ⟨B, ?_, hBl, hBr, hBat, fun j hj => ?_, ?_, ?_⟩
  · rw [normalizeCeps, if_neg (by rw [finMat_flatten]; simpa using hfl), if_pos rfl, subRow_fin h hA,
      finMat_flatten, xstd_fin hfl]
    congr 1
    simp only [finMat, hBdef, List.map_map]
    apply List.map_congr_left
    intro r _
    simp only [Function.comp, List.map_map]
    apply List.map_congr_left
    intro v _
    simp only [Function.comp, fin_div _ _ hs.ne']
  · rw [mean_col, hBl, hcol j hj, zero_div]
  · rw [hvB]
    have : 0 ≤ (A.length * ∑ j ∈ Finset.range c,
      (Np.mean (Np.col A j) - Np.mean A.flatten) ^ 2) / (A.length * c * Np.var A.flatten) := by positivity
    linarith
  · rw [hvB]
    constructor
    · intro he j hj
      have h0 : (A.length * ∑ j ∈ Finset.range c,
        (Np.mean (Np.col A j) - Np.mean A.flatten) ^ 2) / (A.length * c * Np.var A.flatten) = 0 := by linarith
      have h1 : ∑ j ∈ Finset.range c, (Np.mean (Np.col A j) - Np.mean A.flatten) ^ 2 = 0 := by
        rcases div_eq_zero_iff.mp h0 with h2 | h2
        · exact (mul_eq_zero.mp h2).resolve_left hn.ne'
        · exact absurd h2 (by positivity)
      have h2 := (Finset.sum_eq_zero_iff_of_nonneg fun j _ => sq_nonneg _).mp h1 j (Finset.mem_range.mpr hj)
      exact sub_eq_zero.mp (pow_eq_zero_iff (by norm_num) |>.mp h2)
    · intro he
      rw [Finset.sum_eq_zero fun j hj => by rw [he j (Finset.mem_range.mp hj), sub_self]; norm_num]
      simp

/-- C16 (violation of the documented unit variance): for `[[0, 1], [0, 2]]` 'mvn' does not give variance 1. -/
theorem C16_mvn_not_unit_variance :
    ∃ B, normalizeCeps (finMat [[0, 1], [0, 2]]) 2 "mvn" = .ok (finMat B) ∧ Np.var B.flatten < 1 := by
  have hr : Np.Rect [[(0:ℝ), 1], [0, 2]] 2 := by intro r hr; simp at hr; rcases hr with rfl | rfl <;> rfl
  have hv : Np.var [[(0:ℝ), 1], [0, 2]].flatten ≠ 0 := by norm_num [Np.var, Np.mean]
  obtain ⟨B, hB, -, -, -, -, h1, h2⟩ := C16_mvn hr (by simp) (by norm_num) hv
  refine ⟨B, hB, lt_of_le_of_ne h1 fun he => ?_⟩
  have := h2.mp he 0 (by norm_num)
  norm_num [Np.mean, Np.col] at this

theorem normalize_vn (h : Np.Rect A c) (hA : A ≠ []) (hc : 0 < c) (hv : Np.var A.flatten ≠ 0) :
    normalizeCeps (finMat A) c "vn" =
      .ok (finMat (A.map fun r => r.map fun v => v / Real.sqrt (Np.var A.flatten))) := by
  have hfl := flatten_ne_nil h hA hc
  have hvp : 0 < Np.var A.flatten := lt_of_le_of_ne (np_var_nonneg _) (Ne.symm hv)
  have hs : 0 < Real.sqrt (Np.var A.flatten) := Real.sqrt_pos.mpr hvp
  rw [normalizeCeps, if_neg (by rw [finMat_flatten]; simpa using hfl), if_neg (by decide), if_neg (by decide),
    if_pos rfl, finMat_flatten, xstd_fin hfl]
  congr 1
  simp only [finMat, List.map_map]
  apply List.map_congr_left
  intro r _
  simp only [Function.comp, List.map_map]
  apply List.map_congr_left
  intro v _
  simp only [Function.comp, fin_div _ _ hs.ne']

theorem sum_map_affine (a b : ℝ) (l : List ℝ) : (l.map fun v => a * v + b).sum = a * l.sum + l.length * b := by
  induction l with
  | nil => simp
  | cons v l ih => simp only [List.map_cons, List.sum_cons, ih, List.length_cons]; push_cast; ring

theorem mean_map_mul (g : ℝ) (l : List ℝ) : Np.mean (l.map (g * ·)) = g * Np.mean l := by
  have : (l.map (g * ·)).sum = g * l.sum := by simpa using sum_map_affine g 0 l
  rw [Np.mean, List.length_map, this, Np.mean]
  ring

theorem var_map_mul (g : ℝ) (l : List ℝ) : Np.var (l.map (g * ·)) = g ^ 2 * Np.var l := by
  simp only [Np.var, mean_map_mul, List.length_map, List.map_map]
  rw [show ((fun v => (v - g * Np.mean l) ^ 2) ∘ fun x => g * x) = fun v => g ^ 2 * (v - Np.mean l) ^ 2 by
    funext v; simp only [Function.comp]; ring, List.sum_map_mul_left]
  ring

/-- C17: 'vn' gives overall variance (standard deviation) 1. -/
theorem C17_vn (h : Np.Rect A c) (hA : A ≠ []) (hc : 0 < c) (hv : Np.var A.flatten ≠ 0) :
    ∃ B, normalizeCeps (finMat A) c "vn" = .ok (finMat B) ∧ Np.Rect B c ∧ B.length = A.length ∧
      Np.var B.flatten = 1 := by
  refine ⟨_, normalize_vn h hA hc hv, rect_map h _, by simp, ?_⟩
  have hvp : 0 < Np.var A.flatten := lt_of_le_of_ne (np_var_nonneg _) (Ne.symm hv)
  have : (A.map fun r => r.map fun v => v / Real.sqrt (Np.var A.flatten)).flatten =
      A.flatten.map ((Real.sqrt (Np.var A.flatten))⁻¹ * ·) := by
    rw [List.map_flatten]
    congr 1
    apply List.map_congr_left
    intro r _
    apply List.map_congr_left
    intro v _
    rw [div_eq_inv_mul]
  rw [this, var_map_mul, inv_pow, Real.sq_sqrt hvp.le, inv_mul_cancel₀ hv]

/-- C17: 'vn' ignores a positive gain. -/
theorem C17_vn_gain (h : Np.Rect A c) (hA : A ≠ []) (hc : 0 < c) (hv : Np.var A.flatten ≠ 0) (g : ℝ)
    (hg : 0 < g) :
    normalizeCeps (finMat (A.map fun r => r.map (g * ·))) c "vn" = normalizeCeps (finMat A) c "vn" := by
  have hfl : (A.map fun r => r.map (g * ·)).flatten = A.flatten.map (g * ·) := by rw [List.map_flatten]
  have hv' : Np.var (A.map fun r => r.map (g * ·)).flatten = g ^ 2 * Np.var A.flatten := by
    rw [hfl, var_map_mul]
  rw [normalize_vn h hA hc hv, normalize_vn (rect_map h _) (by simpa using hA) hc
    (by rw [hv']; exact mul_ne_zero (by positivity) hv)]
  congr 2
  rw [hv', List.map_map]
  apply List.map_congr_left
  intro r _
  simp only [Function.comp, List.map_map]
  apply List.map_congr_left
  intro v _
  simp only [Function.comp]
  rw [Real.sqrt_mul (by positivity), Real.sqrt_sq hg.le, mul_div_mul_left _ _ hg.ne']

/-- C18: 'mn' gives overall mean 0, range (max - min) exactly 1, and all values in `[-1, 1]`. -/
theorem C18_mn (h : Np.Rect A c) (hA : A ≠ []) (hc : 0 < c)
    (hne : ∃ u ∈ A.flatten, ∃ v ∈ A.flatten, u ≠ v) :
    ∃ B, normalizeCeps (finMat A) c "mn" = .ok (finMat B) ∧ Np.Rect B c ∧ B.length = A.length ∧
      Np.mean B.flatten = 0 ∧ (∀ v ∈ B.flatten, -1 ≤ v ∧ v ≤ 1) ∧
      ∃ M ∈ B.flatten, ∃ m ∈ B.flatten, (∀ v ∈ B.flatten, m ≤ v ∧ v ≤ M) ∧ M - m = 1 := by
  have hfl := flatten_ne_nil h hA hc
  obtain ⟨M, m, hM, hm, hMm, hmm, hb⟩ := xmax_xmin_fin hfl
  have hlt : m < M := by
    obtain ⟨u, hu, v, hv, huv⟩ := hne
    rcases lt_or_gt_of_ne huv with h' | h'
    · exact ((hb u hu).1.trans_lt h').trans_le (hb v hv).2
    · exact ((hb v hv).1.trans_lt h').trans_le (hb u hu).2
  have hd : 0 < M - m := sub_pos.mpr hlt
  have hlenpos : (0:ℝ) < A.flatten.length := by exact_mod_cast List.length_pos_iff.mpr hfl
  set μ := Np.mean A.flatten with hμ
  have hsum : A.flatten.sum = A.flatten.length * μ := by rw [hμ, Np.mean]; field_simp
  have hBfl : (A.map fun r => r.map fun v => (v - μ) / (M - m)).flatten =
      A.flatten.map fun v => (v - μ) / (M - m) := by rw [List.map_flatten]
  have hμ1 : m ≤ μ := by
    rw [hμ, Np.mean, le_div_iff₀ hlenpos, mul_comm]
    have := List.card_nsmul_le_sum A.flatten m fun v hv => (hb v hv).1
    simpa [nsmul_eq_mul] using this
  have hμ2 : μ ≤ M := by
    rw [hμ, Np.mean, div_le_iff₀ hlenpos, mul_comm]
    have := List.sum_le_card_nsmul A.flatten M fun v hv => (hb v hv).2
    simpa [nsmul_eq_mul] using this
  refine ⟨A.map fun r => r.map fun v => (v - μ) / (M - m), ?_, rect_map h _, by simp, ?_, ?_, ?_⟩
  · rw [normalizeCeps, if_neg (by rw [finMat_flatten]; simpa using hfl), if_neg (by decide),
      if_neg (by decide), if_neg (by decide), if_pos rfl, finMat_flatten, hM, hm, xmean_fin hfl]
    congr 1
    simp only [finMat, List.map_map]
    apply List.map_congr_left
    intro r _
    simp only [Function.comp, List.map_map]
    apply List.map_congr_left
    intro v _
    simp only [Function.comp, fin_sub, fin_div _ _ hd.ne']
    rfl
  · rw [hBfl, Np.mean, List.length_map]
    have : (A.flatten.map fun v => (v - μ) / (M - m)).sum = 0 := by
      have e : (fun v : ℝ => (v - μ) / (M - m)) = fun v => (M - m)⁻¹ * v + (-(μ / (M - m))) := by
        funext v; field_simp; ring
      rw [e, sum_map_affine, hsum]
      field_simp
      ring
    rw [this, zero_div]
  · intro v hv
    rw [hBfl] at hv
    obtain ⟨w, hw, rfl⟩ := List.mem_map.mp hv
    have := hb w hw
    rw [le_div_iff₀ hd, div_le_iff₀ hd]
    constructor <;> linarith
  · rw [hBfl]
    refine ⟨_, List.mem_map_of_mem hMm, _, List.mem_map_of_mem hmm, fun v hv => ?_, by field_simp; ring⟩
    obtain ⟨w, hw, rfl⟩ := List.mem_map.mp hv
    have := hb w hw
    constructor
    · exact div_le_div_of_nonneg_right (by linarith) hd.le
    · exact div_le_div_of_nonneg_right (by linarith) hd.le

theorem const_stats {l : List ℝ} (hl : l ≠ []) {k : ℝ} (hk : ∀ v ∈ l, v = k) :
    Np.mean l = k ∧ Np.var l = 0 := by
  have hlen : (l.length : ℝ) ≠ 0 := by exact_mod_cast (List.length_pos_iff.mpr hl).ne'
  have e : l = List.replicate l.length k := List.eq_replicate_of_mem hk
  have hm : Np.mean l = k := by
    rw [Np.mean]
    have : l.sum = l.length * k := by rw [e]; simp
    rw [this]; field_simp
  refine ⟨hm, ?_⟩
  rw [Np.var, hm]
  have : (l.map fun v => (v - k) ^ 2).sum = 0 := by
    apply List.sum_eq_zero
    intro x hx
    obtain ⟨v, hv, rfl⟩ := List.mem_map.mp hx
    rw [hk v hv]; ring
  rw [this, zero_div]

/-- C19: on a constant matrix (e.g. the cepstra of silence) 'ms' gives zeros, 'mvn' and 'mn' give NaN in every
entry, and 'vn' gives `x/0` in every entry: NaN for 0, an infinity of the constant's sign otherwise. -/
theorem C19_constant (h : Np.Rect A c) (hA : A ≠ []) (hc : 0 < c) (k : ℝ) (hk : ∀ v ∈ A.flatten, v = k) :
    normalizeCeps (finMat A) c "ms" = .ok (List.replicate A.length (List.replicate c (fin 0))) ∧
    normalizeCeps (finMat A) c "mvn" = .ok (List.replicate A.length (List.replicate c nan)) ∧
    normalizeCeps (finMat A) c "mn" = .ok (List.replicate A.length (List.replicate c nan)) ∧
    normalizeCeps (finMat A) c "vn" = .ok (List.replicate A.length (List.replicate c
      (if k = 0 then nan else if 0 < k then pinf else ninf))) := by
  have hfl := flatten_ne_nil h hA hc
  have hfl' : (finMat A).flatten ≠ [] := by rw [finMat_flatten]; simpa using hfl
  obtain ⟨hm, hv⟩ := const_stats hfl hk
  have hrow : ∀ r ∈ A, r = List.replicate c k := fun r hr =>
    List.eq_replicate_iff.mpr ⟨h r hr, fun v hv => hk v (List.mem_flatten.mpr ⟨r, hr, hv⟩)⟩
  have hAe : A = List.replicate A.length (List.replicate c k) := List.eq_replicate_of_mem hrow
  have hcen : centered A c = List.replicate A.length (List.replicate c 0) := by
    rw [List.eq_replicate_iff]
    refine ⟨centered_length _ _, fun r hr => ?_⟩
    obtain ⟨s, hs, rfl⟩ := List.mem_map.mp hr
    rw [List.eq_replicate_iff]
    refine ⟨by simp, fun v hv => ?_⟩
    obtain ⟨j, hj, rfl⟩ := List.mem_map.mp hv
    have hj := List.mem_range.mp hj
    have hcm : Np.mean (Np.col A j) = k := by
      apply (const_stats (col_ne_nil hA j) _).1
      intro v hv
      obtain ⟨r, hr, rfl⟩ := List.mem_map.mp hv
      rw [hrow r hr, getD_replicate', if_pos hj]
    rw [hcm, hrow s hs, getD_replicate', if_pos hj, sub_self]
  have hstd : xstd (finMat A).flatten = fin 0 := by
    rw [finMat_flatten, xstd_fin hfl, hv, Real.sqrt_zero]
  obtain ⟨M, m, hM, hmn, hMm, hmm, -⟩ := xmax_xmin_fin hfl
  have hfA : finMat A = List.replicate A.length (List.replicate c (fin k)) := by
    conv_lhs => rw [hAe]
    simp [finMat]
  refine ⟨?_, ?_, ?_, ?_⟩
  · rw [normalize_ms h hA hc, hcen]; simp [finMat]
  · rw [normalizeCeps, if_neg hfl', if_pos rfl, subRow_fin h hA, hcen, hstd]
    simp [finMat]
  · rw [normalizeCeps, if_neg hfl', if_neg (by decide), if_neg (by decide), if_neg (by decide), if_pos rfl,
      finMat_flatten, hM, hmn, hk M hMm, hk m hmm, xmean_fin hfl, hm, hfA]
    simp
  · rw [normalizeCeps, if_neg hfl', if_neg (by decide), if_neg (by decide), if_pos rfl, hstd, hfA]
    simp only [List.map_replicate]
    congr 3
    split_ifs with h1 h2
    · rw [h1, zero_div_zero]
    · exact fin_div_zero_of_pos _ h2
    · exact fin_div_zero_of_neg _ (lt_of_le_of_ne (not_lt.mp h2) h1)

/-- C19: unknown names raise `KeyError` on non-empty matrices; empty matrices raise `ValueError` for every name. -/
theorem C19_errors (x : XMat) (c : ℕ) (name : String) :
    (x.flatten = [] → normalizeCeps x c name = .error .valueError) ∧
    (x.flatten ≠ [] → name ≠ "mvn" → name ≠ "ms" → name ≠ "vn" → name ≠ "mn" →
      normalizeCeps x c name = .error .keyError) := by
  refine ⟨fun h => by rw [normalizeCeps, if_pos h], fun h h1 h2 h3 h4 => ?_⟩
  rw [normalizeCeps, if_neg h, if_neg h1, if_neg h2, if_neg h3, if_neg h4]

/-- A concrete matrix satisfying the hypotheses of C15–C18. -/
example : Np.Rect [[(0:ℝ), 1], [0, 2]] 2 ∧ Np.var [[(0:ℝ), 1], [0, 2]].flatten ≠ 0 ∧
    ∃ u ∈ [[(0:ℝ), 1], [0, 2]].flatten, ∃ v ∈ [[(0:ℝ), 1], [0, 2]].flatten, u ≠ v := by
  refine ⟨?_, by norm_num [Np.var, Np.mean], 0, by simp, 1, by simp, by norm_num⟩
  intro r hr; simp at hr; rcases hr with rfl | rfl <;> rfl

/-! ### Liftering -/

/-- The specified lifter weight of column `j`. -/
noncomputable def lifterWeight (lift : ℝ) (j : ℕ) : ℝ :=
  if 0 < lift then (if j = 0 then 1 else (j:ℝ) ^ lift)
  else 1 + (⌊-lift⌋ / 2) * Real.sin (Real.pi * (j + 1) / ⌊-lift⌋)

/-- C20: identity for `lift = 0` and `lift > 10`, on every matrix (finite or not). -/
theorem C20_lifter_identity (x : XMat) (c : ℕ) (lift : ℝ) (h : lift = 0 ∨ 10 < lift) :
    lifterCeps x c lift = .ok x := by
  rw [lifterCeps, if_pos h]

/-- C20: for `0 < lift ≤ 10` or `lift ≤ -1`, column `j` is multiplied by the weight above; shape is kept. -/
theorem C20_lifter_weights (h : Np.Rect A c) (hc : 0 < c) (lift : ℝ)
    (hl : (0 < lift ∧ lift ≤ 10) ∨ lift ≤ -1) :
    ∃ B, lifterCeps (finMat A) c lift = .ok (finMat B) ∧ B.length = A.length ∧ Np.Rect B c ∧
      ∀ i j, i < A.length → j < c → Np.at2 B i j = Np.at2 A i j * lifterWeight lift j := by
  refine ⟨A.map fun r => (List.range c).map fun j => r.getD j 0 * lifterWeight lift j, ?_, by simp, ?_, ?_⟩
  · rcases hl with ⟨h1, h2⟩ | h1
    · rw [lifterCeps, if_neg (by push Not; exact ⟨h1.ne', h2⟩), if_pos h1, if_neg hc.ne']
      congr 1
      simp only [finMat, List.map_map]
      apply List.map_congr_left
      intro r hr
      have hrl := h r hr
      simp only [Function.comp]
      rw [dotDiag_fin _ _ (by rw [liftVecPos_length _ hc, hrl])]
      congr 1
      apply ext_getD 0 (by simp [liftVecPos_length _ hc, hrl])
      intro j hj
      have hj : j < c := by simpa [liftVecPos_length _ hc, hrl] using hj
      rw [getD_zipWith_lt _ _ _ 0 0 0 (by omega) (by rw [liftVecPos_length _ hc]; exact hj),
        getD_map_range_lt _ _ hj, liftVecPos_getD _ hj, lifterWeight, if_pos h1]
    · have hlt : ¬ (0 < lift) := by linarith
      have hfl : (1:ℤ) ≤ ⌊-lift⌋ := Int.le_floor.mpr (by push_cast; linarith)
      have hpy : pyInt (-1 * lift) = ⌊-lift⌋ := by
        rw [pyInt, if_pos (by linarith)]; congr 1; ring
      rw [lifterCeps, if_neg (by push Not; constructor <;> linarith), if_neg (by linarith)]
      congr 1
      simp only [finMat, List.map_map]
      apply List.map_congr_left
      intro r hr
      have hrl := h r hr
      simp only [Function.comp]
      apply ext_getD 0 (by simp [liftVecNeg, hrl])
      intro j hj
      have hj : j < c := by simpa [liftVecNeg, hrl] using hj
      rw [getD_zipWith_lt _ _ _ 0 0 0 (by simp [hrl, hj]) (by simp [liftVecNeg, hj]),
        getD_map_lt _ _ 0 _ (by omega), getD_map_lt _ _ 0 _ (by simp [hj]), getD_map_range_lt _ _ hj]
      simp only [liftVecNeg]
      rw [getD_map_range_lt _ _ hj, hpy, if_neg (by omega), fin_mul, lifterWeight, if_neg hlt]
  · intro r hr
    obtain ⟨s, _, rfl⟩ := List.mem_map.mp hr
    simp
  · intro i j hi hj
    unfold Np.at2
    rw [getD_map_lt _ _ [] _ hi, getD_map_range_lt _ _ hj]

/-- C20: a lift strictly between -1 and 0 makes every entry NaN (division by `int(0.x) = 0`). -/
theorem C20_lifter_fraction_nan (x : XMat) (hx : Np.Rect x c) (lift : ℝ) (h1 : -1 < lift) (h2 : lift < 0) :
    lifterCeps x c lift = .ok (x.map fun _ => List.replicate c nan) := by
  have hpy : pyInt (-1 * lift) = 0 := by
    rw [pyInt, if_pos (by linarith), Int.floor_eq_zero_iff]; constructor <;> linarith
  rw [lifterCeps, if_neg (by push Not; constructor <;> linarith), if_neg (by linarith)]
  congr 1
  apply List.map_congr_left
  intro r hr
  rw [List.eq_replicate_iff]
  refine ⟨by simp [liftVecNeg, hx r hr], fun v hv => ?_⟩
  obtain ⟨i, hi, rfl⟩ := (mem_iff_getD 0 v).mp hv
  have hi : i < r.length ∧ i < c := by simpa [liftVecNeg] using hi
  rw [getD_zipWith_lt _ _ _ 0 0 0 hi.1 (by simp [liftVecNeg, hi.2])]
  simp only [liftVecNeg]
  rw [getD_map_range_lt _ _ hi.2, hpy, if_pos rfl, mul_nan]

/-- A lifter weight is zero for `⌊-lift⌋ = 2` only (Niven's theorem), and then not in the first two columns. -/
theorem lifterWeight_ne_zero (lift : ℝ) (c : ℕ) (hl : (0 < lift ∧ lift ≤ 10) ∨ lift ≤ -1)
    (hx : ¬ (-3 < lift ∧ lift ≤ -2 ∧ 3 ≤ c)) (j : ℕ) (hj : j < c) : lifterWeight lift j ≠ 0 := by
  rcases hl with ⟨h1, -⟩ | h1
  · rw [lifterWeight, if_pos h1]
    split_ifs with h
    · exact one_ne_zero
    · exact (Real.rpow_pos_of_pos (by exact_mod_cast Nat.pos_of_ne_zero h) _).ne'
  · rw [lifterWeight, if_neg (by linarith)]
    obtain ⟨L, hL⟩ : ∃ L, L = ⌊-lift⌋ := ⟨_, rfl⟩
    have hL1 : (1 : ℤ) ≤ L := by rw [hL]; exact Int.le_floor.mpr (by push_cast; linarith)
    rw [← hL]
    have hL1' : (1 : ℝ) ≤ L := by exact_mod_cast hL1
    have hL0 : (L : ℝ) ≠ 0 := by linarith
    intro h0
    have hs : Real.sin (Real.pi * (j + 1) / L) = -2 / L := by
      field_simp
      linarith
    have hn := niven_sin (θ := Real.pi * (j + 1) / L) ⟨((j : ℚ) + 1) / L, by push_cast; ring⟩ ⟨-2 / L, by rw [hs]; push_cast; ring⟩
    rw [hs] at hn
    have hneg : (-2 : ℝ) / L < 0 := div_neg_of_neg_of_pos (by norm_num) (by linarith)
    rcases hn with hn | hn | hn | hn | hn
    · have hL2 : (L : ℝ) = 2 := by field_simp at hn; linarith
      have hL2' : L = 2 := by exact_mod_cast hL2
      rw [hL2'] at hL
      have hfl := Int.floor_eq_iff.mp hL.symm
      push_cast at hfl
      have hc : c < 3 := by
        by_contra hc
        exact hx ⟨by linarith [hfl.2], by linarith [hfl.1], by omega⟩
      rw [hL2] at hs
      have hj2 : j = 0 ∨ j = 1 := by omega
      rcases hj2 with rfl | rfl
      · norm_num at hs
      · norm_num at hs
    · have hL4 : (L : ℝ) = 4 := by field_simp at hn; linarith
      rw [hL4] at hs
      have e1 := Real.cos_sq' (Real.pi * (j + 1) / 4)
      have e2 := Real.cos_two_mul (Real.pi * (j + 1) / 4)
      have e3 := Real.cos_two_mul (2 * (Real.pi * (j + 1) / 4))
      have e4 : Real.cos (2 * (2 * (Real.pi * (j + 1) / 4))) = (-1) ^ (j + 1) := by
        rw [← Real.cos_nat_mul_pi]; congr 1; push_cast; ring
      rw [hs] at e1
      rw [e1] at e2
      rw [e4, e2] at e3
      rcases neg_one_pow_eq_or ℝ (j + 1) with h | h <;> rw [h] at e3 <;> norm_num at e3
    · linarith
    · linarith
    · have := Set.mem_singleton_iff.mp hn; linarith

/-- C21: when the cepstra can be recovered from the liftered ones. Exactly for every `lift` outside `(-1, 0)`, unless
`int(-lift) = 2` and there are three columns or more. -/
theorem C21_reversible_iff (c : ℕ) (hc : 0 < c) (lift : ℝ) :
    (∀ A A' : List (List ℝ), Np.Rect A c → Np.Rect A' c → lifterCeps (finMat A) c lift = lifterCeps (finMat A') c lift → A = A') ↔
      ¬ (-1 < lift ∧ lift < 0) ∧ ¬ (-3 < lift ∧ lift ≤ -2 ∧ 3 ≤ c) := by
  have hrep : ∀ v : ℝ, Np.Rect [List.replicate c v] c := by
    intro v r hr; rw [List.mem_singleton.mp hr, List.length_replicate]
  constructor
  · intro h
    constructor
    · rintro ⟨h1, h2⟩
      have hr : ∀ v : ℝ, Np.Rect (finMat [List.replicate c v]) c := by
        intro v r hr; simp [finMat] at hr; rw [hr]; simp
      have := h [List.replicate c 0] [List.replicate c 1] (hrep 0) (hrep 1) (by
        rw [C20_lifter_fraction_nan _ (hr 0) lift h1 h2, C20_lifter_fraction_nan _ (hr 1) lift h1 h2]; rfl)
      have h3 := congrArg (fun M : List (List ℝ) => (M.getD 0 []).getD 0 0) this
      simp [hc] at h3
    · rintro ⟨h1, h2, h3⟩
      obtain ⟨z, hz⟩ : ∃ z : List ℝ, z = List.replicate c 0 := ⟨_, rfl⟩
      have hzl : z.length = c := by rw [hz]; simp
      have r1 : Np.Rect [z] c := by intro r hr; rw [List.mem_singleton.mp hr, hzl]
      have r2 : Np.Rect [z.set 2 1] c := by intro r hr; rw [List.mem_singleton.mp hr, List.length_set, hzl]
      have hw : lifterWeight lift 2 = 0 := by
        rw [lifterWeight, if_neg (by linarith)]
        have : ⌊-lift⌋ = 2 := Int.floor_eq_iff.mpr ⟨by push_cast; linarith, by push_cast; linarith⟩
        rw [this]
        have h3 : Real.pi * (((2:ℕ):ℝ) + 1) / ((2:ℤ):ℝ) = Real.pi / 2 + Real.pi := by push_cast; ring
        rw [h3, Real.sin_add_pi, Real.sin_pi_div_two]; norm_num
      obtain ⟨B, hB, hBl, hBr, hBv⟩ := C20_lifter_weights r1 hc lift (Or.inr (by linarith))
      obtain ⟨B', hB', hBl', hBr', hBv'⟩ := C20_lifter_weights r2 hc lift (Or.inr (by linarith))
      have hBB : B = B' := by
        refine mat_ext hBr hBr' (by rw [hBl, hBl']; rfl) fun i j hi hj => ?_
        rw [hBl] at hi
        rw [hBv i j hi hj, hBv' i j (by simpa using hi) hj]
        have hi : i = 0 := by simpa using hi
        subst hi
        by_cases hj2 : j = 2
        · rw [hj2, hw, mul_zero, mul_zero]
        · have : Np.at2 [z] 0 j = Np.at2 [z.set 2 1] 0 j := by
            unfold Np.at2
            simp [List.getD_eq_getElem?_getD, List.getElem?_set_ne (Ne.symm hj2)]
          rw [this]
      have := h [z] [z.set 2 1] r1 r2 (by rw [hB, hB', hBB])
      have h4 := congrArg (fun M : List (List ℝ) => (M.getD 0 []).getD 2 0) this
      simp only [List.getD_cons_zero] at h4
      rw [List.getD_eq_getElem (z.set 2 1) _ (by rw [List.length_set, hzl]; omega), List.getElem_set_self, hz,
        List.getD_replicate _ (by omega)] at h4
      norm_num at h4
  · rintro ⟨hn1, hn2⟩ A A' h h' he
    by_cases hid : lift = 0 ∨ 10 < lift
    · rw [C20_lifter_identity _ _ _ hid, C20_lifter_identity _ _ _ hid] at he
      injection he with he
      exact finMat_injective he
    have hl : (0 < lift ∧ lift ≤ 10) ∨ lift ≤ -1 := by
      push Not at hid
      rcases lt_trichotomy lift 0 with h3 | h3 | h3
      · right; by_contra h4; exact hn1 ⟨by linarith, h3⟩
      · exact absurd h3 hid.1
      · left; exact ⟨h3, hid.2⟩
    obtain ⟨B, hB, hBl, hBr, hBv⟩ := C20_lifter_weights h hc lift hl
    obtain ⟨B', hB', hBl', hBr', hBv'⟩ := C20_lifter_weights h' hc lift hl
    rw [hB, hB'] at he
    injection he with he
    have he := finMat_injective he
    subst he
    have hlen : A.length = A'.length := by omega
    refine mat_ext h h' hlen fun i j hi hj => ?_
    have e := (hBv i j hi hj).symm.trans (hBv' i j (hlen ▸ hi) hj)
    exact mul_right_cancel₀ (lifterWeight_ne_zero lift c hl hn2 j hj) e

/-- C21, concrete: the usual `lift = -22` loses nothing with 13 columns, nor with 100; `-2` and `-2.5` do with 13. -/
example : (∀ A A' : List (List ℝ), Np.Rect A 13 → Np.Rect A' 13 → lifterCeps (finMat A) 13 (-22) = lifterCeps (finMat A') 13 (-22) → A = A') ∧
    (∀ A A' : List (List ℝ), Np.Rect A 100 → Np.Rect A' 100 → lifterCeps (finMat A) 100 (-22) = lifterCeps (finMat A') 100 (-22) → A = A') ∧
    ¬ (∀ A A' : List (List ℝ), Np.Rect A 13 → Np.Rect A' 13 → lifterCeps (finMat A) 13 (-2.5) = lifterCeps (finMat A') 13 (-2.5) → A = A') :=
  ⟨(C21_reversible_iff 13 (by norm_num) _).mpr (by norm_num), (C21_reversible_iff 100 (by norm_num) _).mpr (by norm_num),
    fun h => absurd ((C21_reversible_iff 13 (by norm_num) _).mp h) (by norm_num)⟩

/-- C21, concrete: `lift = -2` with three columns zeroes the third column, so different cepstra become equal. -/
theorem C21_lifter_minus_two_not_injective :
    lifterCeps (finMat [[1, 2, 3]]) 3 (-2) = lifterCeps (finMat [[1, 2, 4]]) 3 (-2) := by
  have hw : lifterWeight (-2) 2 = 0 := by
    rw [lifterWeight, if_neg (by norm_num)]
    have : ⌊-(-2:ℝ)⌋ = 2 := by norm_num
    rw [this]
    have h3 : Real.pi * (((2:ℕ):ℝ) + 1) / ((2:ℤ):ℝ) = Real.pi / 2 + Real.pi := by push_cast; ring
    rw [h3, Real.sin_add_pi, Real.sin_pi_div_two]; norm_num
  have r1 : Np.Rect [[(1:ℝ), 2, 3]] 3 := by intro r hr; simp at hr; rw [hr]; rfl
  have r2 : Np.Rect [[(1:ℝ), 2, 4]] 3 := by intro r hr; simp at hr; rw [hr]; rfl
  obtain ⟨B, hB, hBl, hBr, hBv⟩ := C20_lifter_weights r1 (by norm_num) (-2) (Or.inr (by norm_num))
  obtain ⟨B', hB', hBl', hBr', hBv'⟩ := C20_lifter_weights r2 (by norm_num) (-2) (Or.inr (by norm_num))
  rw [hB, hB']
  congr 2
  refine mat_ext hBr hBr' (by rw [hBl, hBl']; rfl) fun i j hi hj => ?_
  rw [hBl] at hi
  rw [hBv i j hi hj, hBv' i j hi hj]
  have hi : i = 0 := by simpa using hi
  subst hi
  have hj : j = 0 ∨ j = 1 ∨ j = 2 := by omega
  rcases hj with rfl | rfl | rfl
  · rfl
  · rfl
  · rw [hw, mul_zero, mul_zero]

/-! ### Deltas -/

section deltas
variable {α : Type} [Field α] [LinearOrder α] [IsStrictOrderedRing α]

/-- Value of a row at position `t`, clamped to the row's ends. -/
def clampGet (r : List α) (t : ℤ) : α := r.getD (min t.toNat (r.length - 1)) 0

/-- C22: `deltas(x, w)[i][t] = Σ_{k=-h}^{h} k * x[i][clamp(t+k)]` with `h = ⌊w/2⌋`; the shape is kept; a matrix
without columns raises `IndexError`, a negative window or a matrix without rows `ValueError`. -/
theorem C22_deltas_formula (x : List (List α)) (c : ℕ) (w : ℤ) (hx : Np.Rect x c) :
    (c = 0 → deltas x c w = .error .indexError) ∧
    (0 < c → w < 0 ∨ x = [] → deltas x c w = .error .valueError) ∧
    (0 < c → 0 ≤ w → x ≠ [] → ∃ y, deltas x c w = .ok y ∧ y.length = x.length ∧ Np.Rect y c ∧
      ∀ i t, i < x.length → t < c → Np.at2 y i t =
        ∑ k ∈ Finset.Icc (-(w / 2)) (w / 2), (k : α) * clampGet (x.getD i []) (t + k)) := by
  refine ⟨fun h => by rw [deltas, if_pos h], fun hc h => ?_, fun hc hw hne => ?_⟩
  · rw [deltas, if_neg hc.ne']
    by_cases hw : w < 0
    · rw [if_pos hw]
    · rw [if_neg hw, if_pos (by rw [h.resolve_left hw]; rfl)]
  · refine ⟨_, by rw [deltas, if_neg hc.ne', if_neg (not_lt.mpr hw),
      if_neg (fun h => hne (List.length_eq_zero_iff.mp h))], by simp, ?_, ?_⟩
    · intro r hr
      obtain ⟨s, hs, rfl⟩ := List.mem_map.mp hr
      rw [deltaRow_length, hx s hs]
    · intro i t hi ht
      have h2 : (((w / 2).toNat : ℕ) : ℤ) = w / 2 := Int.toNat_of_nonneg (by omega)
      unfold Np.at2
      rw [getD_map_lt _ _ [] _ hi, deltaRow_getD _ _ _ (by rw [rect_row hx hi]; exact ht), h2]
      rfl

theorem sum_Icc_id (h : ℕ) : ∑ k ∈ Finset.Icc (-(h:ℤ)) h, (k : α) = 0 := by
  have h1 : ∑ k ∈ Finset.Icc (-(h:ℤ)) h, (k : α) = ∑ k ∈ Finset.Icc (-(h:ℤ)) h, -(k : α) := by
    refine Finset.sum_nbij' (fun k => -k) (fun k => -k) ?_ ?_ ?_ ?_ ?_
    · intro k hk; rw [Finset.mem_Icc] at *; omega
    · intro k hk; rw [Finset.mem_Icc] at *; omega
    · intro k _; ring
    · intro k _; ring
    · intro k _; push_cast; ring
  rw [Finset.sum_neg_distrib] at h1
  linarith

theorem sum_Icc_sq (h : ℕ) :
    ∑ k ∈ Finset.Icc (-(h:ℤ)) h, (k : α) * k = (h:α) * (h + 1) * (2 * h + 1) / 3 := by
  induction h with
  | zero => simp
  | succ h ih =>
    have : Finset.Icc (-((h+1:ℕ):ℤ)) ((h+1:ℕ):ℤ) =
        insert (-((h:ℤ)+1)) (insert ((h:ℤ)+1) (Finset.Icc (-(h:ℤ)) h)) := by
      ext k; simp only [Finset.mem_Icc, Finset.mem_insert]; push_cast; omega
    rw [this, Finset.sum_insert, Finset.sum_insert, ih]
    · push_cast; field_simp; ring
    · rw [Finset.mem_Icc]; omega
    · rw [Finset.mem_insert, Finset.mem_Icc]; omega

theorem deltaRow_constant (h : ℕ) (r : List α) (v : α) (hr : ∀ u ∈ r, u = v) :
    deltaRow h r = List.replicate r.length 0 := by
  apply ext_getD 0 (by simp [deltaRow_length])
  intro t ht
  rw [deltaRow_length] at ht
  rw [deltaRow_getD h r t ht, getD_replicate', if_pos ht]
  have : ∀ k ∈ Finset.Icc (-(h:ℤ)) h, (k : α) * r.getD (clampIdx r.length (t + k)) 0 = v * (k : α) := by
    intro k _
    have hlt : clampIdx r.length (t + k) < r.length := by unfold clampIdx; omega
    rw [hr _ (getD_mem 0 hlt)]; ring
  rw [Finset.sum_congr rfl this, ← Finset.mul_sum, sum_Icc_id, mul_zero]

theorem deltaRow_ramp (h : ℕ) (r : List α) (s b : α) (hr : ∀ t, t < r.length → r.getD t 0 = s * t + b)
    (t : ℕ) (h1 : h ≤ t) (h2 : t + h < r.length) :
    (deltaRow h r).getD t 0 = s * ((h:α) * (h + 1) * (2 * h + 1) / 3) := by
  rw [deltaRow_getD h r t (by omega)]
  have : ∀ k ∈ Finset.Icc (-(h:ℤ)) h, (k : α) * r.getD (clampIdx r.length (t + k)) 0 =
      s * ((k:α) * k) + (s * t + b) * (k : α) := by
    intro k hk
    rw [Finset.mem_Icc] at hk
    obtain ⟨m, hm⟩ : ∃ m : ℕ, (t:ℤ) + k = m := ⟨((t:ℤ) + k).toNat, by omega⟩
    have hc : clampIdx r.length (t + k) = m := by unfold clampIdx; omega
    have hmk : (m:α) = t + k := by
      have : ((m:ℤ):α) = (((t:ℤ) + k : ℤ) : α) := by rw [hm]
      push_cast at this; exact this
    rw [hc, hr m (by omega), hmk]; ring
  rw [Finset.sum_congr rfl this, Finset.sum_add_distrib, ← Finset.mul_sum, ← Finset.mul_sum, sum_Icc_id,
    sum_Icc_sq]
  ring

theorem deltaRow_reverse (h : ℕ) (r : List α) :
    deltaRow h r.reverse = ((deltaRow h r).map (-·)).reverse := by
  apply ext_getD 0 (by simp [deltaRow_length])
  intro t ht
  rw [deltaRow_length, List.length_reverse] at ht
  rw [getD_reverse' _ _ (by simpa [deltaRow_length] using ht), List.length_map, deltaRow_length,
    getD_map_lt _ _ 0 _ (by rw [deltaRow_length]; omega), deltaRow_getD _ _ _ (by simpa using ht),
    deltaRow_getD _ _ _ (by omega), ← Finset.sum_neg_distrib, List.length_reverse]
  refine Finset.sum_nbij' (fun k => -k) (fun k => -k) ?_ ?_ ?_ ?_ ?_
  · intro k hk; rw [Finset.mem_Icc] at *; omega
  · intro k hk; rw [Finset.mem_Icc] at *; omega
  · intro k _; ring
  · intro k _; ring
  · intro k _
    rw [getD_reverse' _ _ (by unfold clampIdx; omega)]
    have : r.length - 1 - clampIdx r.length (t + k) = clampIdx r.length (((r.length - 1 - t : ℕ):ℤ) + -k) := by
      unfold clampIdx; omega
    rw [this]; push_cast; ring

theorem deltaRow_add (h : ℕ) (r s : List α) (hl : r.length = s.length) :
    deltaRow h (List.zipWith (· + ·) r s) = List.zipWith (· + ·) (deltaRow h r) (deltaRow h s) := by
  have hz : (List.zipWith (· + ·) r s).length = r.length := by simp [hl]
  apply ext_getD 0 (by simp [deltaRow_length])
  intro t ht
  rw [deltaRow_length, hz] at ht
  rw [deltaRow_getD _ _ _ (by omega), getD_zipWith_lt _ (deltaRow h r) (deltaRow h s) 0 0 0
    (by rw [deltaRow_length]; omega) (by rw [deltaRow_length]; omega), deltaRow_getD _ _ _ ht,
    deltaRow_getD _ _ _ (by omega), ← Finset.sum_add_distrib, hz, ← hl]
  apply Finset.sum_congr rfl
  intro k _
  have : clampIdx r.length (t + k) < r.length := by unfold clampIdx; omega
  rw [getD_zipWith_lt _ r s 0 0 0 this (by omega)]; ring

theorem deltaRow_smul (h : ℕ) (r : List α) (g : α) :
    deltaRow h (r.map (g * ·)) = (deltaRow h r).map (g * ·) := by
  apply ext_getD 0 (by simp [deltaRow_length])
  intro t ht
  rw [deltaRow_length, List.length_map] at ht
  rw [deltaRow_getD _ _ _ (by simpa using ht), getD_map_lt _ _ 0 _ (by rw [deltaRow_length]; exact ht),
    deltaRow_getD _ _ _ ht, Finset.mul_sum, List.length_map]
  apply Finset.sum_congr rfl
  intro k _
  have : clampIdx r.length (t + k) < r.length := by unfold clampIdx; omega
  rw [getD_map_lt _ _ 0 _ this]; ring

theorem deltas_ok_iff (x y : List (List α)) (c : ℕ) (w : ℤ) : deltas x c w = .ok y ↔
    c ≠ 0 ∧ 0 ≤ w ∧ x ≠ [] ∧ y = x.map (deltaRow (w / 2).toNat) := by
  unfold deltas
  split_ifs with h1 h2 h3
  · simp [h1]
  · simp; intro _ h; omega
  · simp [List.length_eq_zero_iff.mp h3]
  · have : x ≠ [] := fun h => h3 (by rw [h]; rfl)
    constructor
    · intro h; injection h with h; exact ⟨h1, not_lt.mp h2, this, h.symm⟩
    · rintro ⟨-, -, -, rfl⟩; rfl

/-- C23: the deltas of a constant row are zero. -/
theorem C23_deltas_constant (x y : List (List α)) (c : ℕ) (w : ℤ) (h : deltas x c w = .ok y) (i : ℕ)
    (hi : i < x.length) (v : α) (hv : ∀ u ∈ x.getD i [], u = v) :
    y.getD i [] = List.replicate (x.getD i []).length 0 := by
  obtain ⟨-, -, -, rfl⟩ := (deltas_ok_iff ..).mp h
  rw [getD_map_lt _ _ [] _ hi, deltaRow_constant _ _ v hv]

/-- C23: on a ramp with slope `s`, at least `h = ⌊w/2⌋` samples away from both ends, the delta is
`s * h(h+1)(2h+1)/3`. -/
theorem C23_deltas_ramp (x y : List (List α)) (c : ℕ) (w : ℤ) (h : deltas x c w = .ok y) (i : ℕ) (hi : i < x.length)
    (s b : α) (hr : ∀ t, t < (x.getD i []).length → Np.at2 x i t = s * t + b) (t : ℕ) (h1 : w / 2 ≤ t)
    (h2 : t + w / 2 < (x.getD i []).length) :
    Np.at2 y i t = s * (((w / 2 : ℤ) : α) * ((w / 2 : ℤ) + 1) * (2 * (w / 2 : ℤ) + 1) / 3) := by
  obtain ⟨-, hw, -, rfl⟩ := (deltas_ok_iff ..).mp h
  obtain ⟨n, hn⟩ := Int.eq_ofNat_of_zero_le (show 0 ≤ w / 2 by omega)
  unfold Np.at2
  rw [getD_map_lt _ _ [] _ hi, hn, Int.toNat_natCast, deltaRow_ramp n _ s b hr t (by omega) (by omega)]
  push_cast
  rfl

/-- C23: reversing the rows reverses and negates their deltas. -/
theorem C23_deltas_reverse (x y : List (List α)) (c : ℕ) (w : ℤ) (h : deltas x c w = .ok y) :
    deltas (x.map List.reverse) c w = .ok (y.map fun r => (r.map (-·)).reverse) := by
  obtain ⟨h1, h2, h3, rfl⟩ := (deltas_ok_iff ..).mp h
  refine (deltas_ok_iff ..).mpr ⟨h1, h2, by simpa using h3, ?_⟩
  rw [List.map_map, List.map_map]
  apply List.map_congr_left
  intro r _
  exact (deltaRow_reverse _ r).symm

/-- C23: deltas are additive … -/
theorem C23_deltas_add (x x' y y' : List (List α)) (c : ℕ) (w : ℤ) (h : deltas x c w = .ok y)
    (h' : deltas x' c w = .ok y') (hx : Np.Rect x c) (hx' : Np.Rect x' c) (hl : x.length = x'.length) :
    deltas (List.zipWith (List.zipWith (· + ·)) x x') c w = .ok (List.zipWith (List.zipWith (· + ·)) y y') := by
  obtain ⟨h1, h2, h3, rfl⟩ := (deltas_ok_iff ..).mp h
  obtain ⟨-, -, h3', rfl⟩ := (deltas_ok_iff ..).mp h'
  refine (deltas_ok_iff ..).mpr ⟨h1, h2, ?_, ?_⟩
  · intro he
    have := congrArg List.length he
    rw [List.length_zipWith, ← hl] at this
    exact h3 (List.length_eq_zero_iff.mp (by simpa using this))
  · apply ext_getD [] (by simp)
    intro i hi
    have hi : i < x.length := by simpa [hl] using hi
    rw [getD_zipWith_lt _ _ _ [] [] [] (by simpa using hi) (by simpa [← hl] using hi), getD_map_lt _ _ [] _ hi,
      getD_map_lt _ _ [] _ (by omega), getD_map_lt _ _ [] _ (by simpa [← hl] using hi),
      getD_zipWith_lt _ x x' [] [] [] hi (by omega),
      deltaRow_add _ _ _ (by rw [rect_row hx hi, rect_row hx' (by omega)])]

/-- … and commute with gain. -/
theorem C23_deltas_smul (x y : List (List α)) (c : ℕ) (w : ℤ) (h : deltas x c w = .ok y) (g : α) :
    deltas (x.map fun r => r.map (g * ·)) c w = .ok (y.map fun r => r.map (g * ·)) := by
  obtain ⟨h1, h2, h3, rfl⟩ := (deltas_ok_iff ..).mp h
  refine (deltas_ok_iff ..).mpr ⟨h1, h2, by simpa using h3, ?_⟩
  rw [List.map_map, List.map_map]
  apply List.map_congr_left
  intro r _
  exact (deltaRow_smul _ r g).symm

example : deltas [[1, 2, 4, 7, (11:ℚ)]] 5 3 = .ok [[1, 3, 5, 7, 4]] := by
  simp [deltas, deltaRow, deltaWin, padRow, Np.firFilter, List.range_succ, Finset.sum_range_succ]
  norm_num

end deltas

end Props
end Spafe
