import Verif.Props.Cepstral
import Verif.Spec.Deltas

/-! C142: deltas are slopes of fitted lines. -/

set_option linter.unusedSectionVars false

namespace Spafe
namespace Props
open Model XF Spec

variable {α : Type} [Field α] [LinearOrder α] [IsStrictOrderedRing α]

theorem sum_Icc_id' {h : ℤ} (hh : 0 ≤ h) : ∑ k ∈ Finset.Icc (-h) h, (k : α) = 0 := by
  obtain ⟨n, rfl⟩ := Int.eq_ofNat_of_zero_le hh
  exact sum_Icc_id n

theorem sum_Icc_sq' {h : ℤ} (hh : 0 ≤ h) :
    ∑ k ∈ Finset.Icc (-h) h, (k : α) * k = (h:α) * (h + 1) * (2 * h + 1) / 3 := by
  obtain ⟨n, rfl⟩ := Int.eq_ofNat_of_zero_le hh
  have := sum_Icc_sq (α := α) n
  push_cast
  exact this

theorem sum_Icc_abs (n : ℕ) : ∑ k ∈ Finset.Icc (-(n:ℤ)) n, |(k : α)| = (n:α) * (n + 1) := by
  induction n with
  | zero => simp
  | succ h ih =>
    have : Finset.Icc (-((h+1:ℕ):ℤ)) ((h+1:ℕ):ℤ) =
        insert (-((h:ℤ)+1)) (insert ((h:ℤ)+1) (Finset.Icc (-(h:ℤ)) h)) := by
      ext k; simp only [Finset.mem_Icc, Finset.mem_insert]; push_cast; omega
    have h0 : (0:α) ≤ (h:α) + 1 := by positivity
    rw [this, Finset.sum_insert, Finset.sum_insert, ih]
    · push_cast
      rw [show -((h:α) + 1) = -(h + 1) by ring, abs_neg, abs_of_nonneg h0]
      ring
    · rw [Finset.mem_Icc]; omega
    · rw [Finset.mem_insert, Finset.mem_Icc]; omega

/-- Decomposition of the squared error around the fitted line. -/
theorem squaredError_split (y : ℤ → α) {h : ℤ} (hh : 0 < h) (a b : α) :
    let N : α := 2 * h + 1
    let S : α := (h:α) * (h + 1) * (2 * h + 1) / 3
    let m := (∑ k ∈ Finset.Icc (-h) h, y k) / N
    let s := (∑ k ∈ Finset.Icc (-h) h, (k : α) * y k) / S
    squaredError y h a b = squaredError y h m s + N * (a - m) ^ 2 + S * (b - s) ^ 2 := by
  intro N S m s
  have hhα : (0:α) < h := by exact_mod_cast hh
  have hN : N ≠ 0 := by simp only [N]; positivity
  have hS : S ≠ 0 := by simp only [S]; positivity
  obtain ⟨Y, hY⟩ : ∃ Y, Y = ∑ k ∈ Finset.Icc (-h) h, y k := ⟨_, rfl⟩
  obtain ⟨D, hD⟩ : ∃ D, D = ∑ k ∈ Finset.Icc (-h) h, (k : α) * y k := ⟨_, rfl⟩
  have hc : ∑ _k ∈ Finset.Icc (-h) h, (1 : α) = N := by
    rw [Finset.sum_const, Int.card_Icc, nsmul_eq_mul, mul_one]
    obtain ⟨n, rfl⟩ := Int.eq_ofNat_of_zero_le hh.le
    simp only [N]
    rw [show ((n:ℤ) + 1 - -(n:ℤ)).toNat = 2 * n + 1 by omega]
    push_cast; ring
  have key : ∀ a b, squaredError y h a b = (∑ k ∈ Finset.Icc (-h) h, y k ^ 2) - 2 * a * Y - 2 * b * D + a ^ 2 * N
      + b ^ 2 * S := by
    intro a b
    have : ∀ k ∈ Finset.Icc (-h) h, (y k - (a + b * (k:α))) ^ 2 =
        y k ^ 2 - 2 * a * y k - 2 * b * ((k:α) * y k) + a ^ 2 * 1 + b ^ 2 * ((k:α) * k) + 2 * a * b * (k:α) := by
      intro k _; ring
    unfold squaredError
    rw [Finset.sum_congr rfl this, Finset.sum_add_distrib, Finset.sum_add_distrib, Finset.sum_add_distrib,
      Finset.sum_sub_distrib, Finset.sum_sub_distrib, ← Finset.mul_sum, ← Finset.mul_sum, ← Finset.mul_sum,
      ← Finset.mul_sum, ← Finset.mul_sum, sum_Icc_id' hh.le, sum_Icc_sq' hh.le, hc, ← hY, ← hD]
    simp only [S]
    ring
  have hm : m * N = Y := by simp only [m]; rw [← hY, div_mul_cancel₀ _ hN]
  have hs : s * S = D := by simp only [s]; rw [← hD, div_mul_cancel₀ _ hS]
  rw [key, key, ← hm, ← hs]
  ring

/-- The slope of the fitted line is unique: `Σ k·y(k) / Σ k²`. -/
theorem fittedSlope_iff (y : ℤ → α) {h : ℤ} (hh : 0 < h) (b : α) :
    IsFittedSlope y h b ↔ ∑ k ∈ Finset.Icc (-h) h, (k : α) * y k = b * ((h:α) * (h + 1) * (2 * h + 1) / 3) := by
  have hhα : (0:α) < h := by exact_mod_cast hh
  obtain ⟨N, hN⟩ : ∃ N : α, N = 2 * h + 1 := ⟨_, rfl⟩
  obtain ⟨S, hS⟩ : ∃ S : α, S = (h:α) * (h + 1) * (2 * h + 1) / 3 := ⟨_, rfl⟩
  obtain ⟨m, hm⟩ : ∃ m, m = (∑ k ∈ Finset.Icc (-h) h, y k) / N := ⟨_, rfl⟩
  obtain ⟨s, hs⟩ : ∃ s, s = (∑ k ∈ Finset.Icc (-h) h, (k : α) * y k) / S := ⟨_, rfl⟩
  have hN0 : 0 < N := by rw [hN]; positivity
  have hS0 : 0 < S := by rw [hS]; positivity
  have key : ∀ a b, squaredError y h a b = squaredError y h m s + N * (a - m) ^ 2 + S * (b - s) ^ 2 := by
    intro a b
    have := squaredError_split y hh a b
    rw [hs, hm, hS, hN]
    exact this
  rw [← hS, ← div_eq_iff hS0.ne', ← hs]
  constructor
  · rintro ⟨a, ha⟩
    have h1 := ha m s
    rw [key a b] at h1
    have h2 := mul_nonneg hN0.le (sq_nonneg (a - m))
    have h3 : S * (b - s) ^ 2 ≤ 0 := by linarith
    have h4 : (b - s) ^ 2 ≤ 0 := by
      by_contra hc
      have := mul_pos hS0 (not_le.mp hc)
      linarith
    have h5 : b - s = 0 := by
      have := le_antisymm h4 (sq_nonneg _)
      exact pow_eq_zero_iff (two_ne_zero) |>.mp this
    linarith
  · rintro rfl
    refine ⟨m, fun a' b' => ?_⟩
    rw [key a' b']
    have h2 := mul_nonneg hN0.le (sq_nonneg (a' - m))
    have h3 := mul_nonneg hS0.le (sq_nonneg (b' - s))
    linarith

/-- C142: an entry of `deltas(x, w)` with `w ≥ 2` is `h(h+1)(2h+1)/3` times the slope of the line fitted by least
squares to the `2h+1` values around it (the row continued by its end values), `h = ⌊w/2⌋`. -/
theorem C142_least_squares (x : List (List α)) (c : ℕ) (w : ℤ) (hx : Np.Rect x c) (hc : 0 < c) (hx0 : x ≠ [])
    (hw : 2 ≤ w) :
    ∃ y, deltas x c w = .ok y ∧ y.length = x.length ∧ Np.Rect y c ∧ ∀ i t, i < x.length → t < c → ∀ b,
      IsFittedSlope (fun k => clampGet (x.getD i []) (t + k)) (w / 2) b ↔
        Np.at2 y i t = b * (((w / 2 : ℤ) : α) * ((w / 2 : ℤ) + 1) * (2 * (w / 2 : ℤ) + 1) / 3) := by
  obtain ⟨y, h1, h2, h3, h4⟩ := (C22_deltas_formula x c w hx).2.2 hc (by omega) hx0
  refine ⟨y, h1, h2, h3, fun i t hi ht b => ?_⟩
  rw [fittedSlope_iff _ (by omega) b, h4 i t hi ht]

/-- C142: with the default window of 9 an entry of `deltas` is 60 times the fitted slope. -/
theorem C142_default_window (x : List (List α)) (c : ℕ) (hx : Np.Rect x c) (hc : 0 < c) (hx0 : x ≠ []) :
    ∃ y, deltas x c 9 = .ok y ∧ ∀ i t, i < x.length → t < c → ∀ b,
      IsFittedSlope (fun k => clampGet (x.getD i []) (t + k)) 4 b ↔ Np.at2 y i t = 60 * b := by
  obtain ⟨y, h1, -, -, h4⟩ := C142_least_squares x c 9 hx hc hx0 (by norm_num)
  refine ⟨y, h1, fun i t hi ht b => ?_⟩
  rw [show (4:ℤ) = 9 / 2 by norm_num, h4 i t hi ht]
  norm_num
  rw [mul_comm]

/-- C142: values in `[lo, hi]` give deltas of absolute value at most `(hi − lo)·h(h+1)/2`. -/
theorem C142_bound (x : List (List α)) (c : ℕ) (w : ℤ) (hx : Np.Rect x c) (hc : 0 < c) (hw : 0 ≤ w)
    (lo hi : α) (hb : ∀ r ∈ x, ∀ v ∈ r, lo ≤ v ∧ v ≤ hi) (y : List (List α)) (h : deltas x c w = .ok y) :
    ∀ i t, i < x.length → t < c → |Np.at2 y i t| ≤ (hi - lo) * (((w / 2 : ℤ) : α) * ((w / 2 : ℤ) + 1) / 2) := by
  intro i t hi' ht
  have hx0 : x ≠ [] := by rintro rfl; simp at hi'
  obtain ⟨y', h1, -, -, h4⟩ := (C22_deltas_formula x c w hx).2.2 hc hw hx0
  rw [h] at h1
  injection h1 with h1
  subst h1
  obtain ⟨n, hn⟩ := Int.eq_ofNat_of_zero_le (show 0 ≤ w / 2 by omega)
  rw [h4 i t hi' ht, hn]
  have hmid : ∀ k ∈ Finset.Icc (-(n:ℤ)) n, (k:α) * clampGet (x.getD i []) (t + k) =
      (k:α) * (clampGet (x.getD i []) (t + k) - (lo + hi) / 2) + (lo + hi) / 2 * k := by
    intro k _; ring
  show |∑ k ∈ Finset.Icc (-(n:ℤ)) n, _| ≤ _
  rw [Finset.sum_congr rfl hmid, Finset.sum_add_distrib, ← Finset.mul_sum, sum_Icc_id, mul_zero, add_zero]
  refine le_trans (Finset.abs_sum_le_sum_abs _ _) ?_
  refine le_trans (Finset.sum_le_sum (g := fun k : ℤ => |(k:α)| * ((hi - lo) / 2)) fun k _ => ?_) ?_
  · rw [abs_mul]
    apply mul_le_mul_of_nonneg_left _ (abs_nonneg _)
    have hr := rect_row hx hi'
    have hm : clampGet (x.getD i []) (t + k) ∈ x.getD i [] := getD_mem 0 (by omega)
    obtain ⟨h5, h6⟩ := hb _ (getD_mem [] hi') _ hm
    rw [abs_le]
    constructor <;> linarith
  · rw [← Finset.sum_mul, sum_Icc_abs]
    push_cast
    apply le_of_eq; ring

/-- C142: the deltas of a non-decreasing row are not negative. -/
theorem C142_monotone (x : List (List α)) (c : ℕ) (w : ℤ) (hx : Np.Rect x c) (hc : 0 < c) (hw : 0 ≤ w)
    (y : List (List α)) (h : deltas x c w = .ok y) (i : ℕ) (hi : i < x.length)
    (hm : ∀ s t, s ≤ t → t < c → Np.at2 x i s ≤ Np.at2 x i t) : ∀ t < c, 0 ≤ Np.at2 y i t := by
  intro t ht
  have hx0 : x ≠ [] := by rintro rfl; simp at hi
  obtain ⟨y', h1, -, -, h4⟩ := (C22_deltas_formula x c w hx).2.2 hc hw hx0
  rw [h] at h1
  injection h1 with h1
  subst h1
  rw [h4 i t hi ht]
  have hr := rect_row hx hi
  have hmid : ∀ k ∈ Finset.Icc (-(w / 2)) (w / 2), (k:α) * clampGet (x.getD i []) (t + k) =
      (k:α) * (clampGet (x.getD i []) (t + k) - clampGet (x.getD i []) t) + clampGet (x.getD i []) t * k := by
    intro k _; ring
  rw [Finset.sum_congr rfl hmid, Finset.sum_add_distrib, ← Finset.mul_sum, sum_Icc_id' (by omega), mul_zero, add_zero]
  apply Finset.sum_nonneg
  intro k _
  have hle : ∀ p q : ℤ, p ≤ q → clampGet (x.getD i []) p ≤ clampGet (x.getD i []) q := by
    intro p q hpq
    exact hm _ _ (by omega) (by omega)
  rcases le_total 0 k with h0 | h0
  · exact mul_nonneg (by exact_mod_cast h0) (sub_nonneg.mpr (hle _ _ (by omega)))
  · exact mul_nonneg_of_nonpos_of_nonpos (by exact_mod_cast h0) (sub_nonpos.mpr (hle _ _ (by omega)))

/-- C142: an even window is the same as the next odd one. -/
theorem C142_even_window (x : List (List α)) (c : ℕ) (h : ℤ) : deltas x c (2 * h) = deltas x c (2 * h + 1) := by
  unfold deltas
  rw [show (2 * h) / 2 = h by omega, show (2 * h + 1) / 2 = h by omega]
  by_cases hc : c = 0
  · rw [if_pos hc, if_pos hc]
  · rw [if_neg hc, if_neg hc]
    by_cases hh : h < 0
    · rw [if_pos (by omega), if_pos (by omega)]
    · rw [if_neg (c := 2 * h < 0) (by omega), if_neg (c := 2 * h + 1 < 0) (by omega)]

/-- C142: windows 0 and 1 give zeros. -/
theorem C142_trivial_window (x : List (List α)) (c : ℕ) (hc : 0 < c) (hx : Np.Rect x c) (hx0 : x ≠ []) :
    deltas x c 0 = .ok (List.replicate x.length (List.replicate c 0)) ∧
    deltas x c 1 = .ok (List.replicate x.length (List.replicate c 0)) := by
  have h0 : deltas x c 0 = .ok (List.replicate x.length (List.replicate c 0)) := by
    obtain ⟨y, h1, h2, h3, h4⟩ := (C22_deltas_formula x c 0 hx).2.2 hc le_rfl hx0
    rw [h1]
    congr 1
    apply ext_getD [] (by simp [h2])
    intro i hi
    rw [List.getD_replicate _ (by omega)]
    apply ext_getD 0 (by rw [List.length_replicate]; exact rect_row h3 hi)
    intro t ht
    rw [rect_row h3 hi] at ht
    rw [List.getD_replicate _ ht]
    have := h4 i t (by omega) ht
    simpa [Np.at2] using this
  refine ⟨h0, ?_⟩
  have := C142_even_window x c 0
  norm_num at this
  rw [← this, h0]

/-- C142: each row is differentiated on its own, along the columns: the deltas of stacked matrices are the stacked
deltas. On a matrix of features (frames × coefficients) the derivative is therefore taken over the coefficients of one
frame, never over time. -/
theorem C142_rows_separate (x x' y y' : List (List α)) (c : ℕ) (w : ℤ) (h : deltas x c w = .ok y)
    (h' : deltas x' c w = .ok y') : deltas (x ++ x') c w = .ok (y ++ y') := by
  unfold deltas at h h' ⊢
  by_cases hc : c = 0
  · rw [if_pos hc] at h; cases h
  rw [if_neg hc] at h h' ⊢
  by_cases hw : w < 0
  · rw [if_pos hw] at h; cases h
  rw [if_neg hw] at h h' ⊢
  by_cases hx : x.length = 0
  · rw [if_pos hx] at h; cases h
  by_cases hx' : x'.length = 0
  · rw [if_pos hx'] at h'; cases h'
  rw [if_neg hx] at h
  rw [if_neg hx'] at h'
  rw [if_neg (by rw [List.length_append]; omega), List.map_append]
  injection h with h
  injection h' with h'
  rw [h, h']

/-- The default window on a row with a step: the entry at the step is `60·b` for the fitted slope `b`. -/
example : ∃ y, deltas [[0, 0, 0, 0, 0, 1, 1, 1, 1, 1, (1:ℚ)]] 11 9 = .ok y ∧ Np.at2 y 0 4 = 10 ∧
    IsFittedSlope (fun k => clampGet [0, 0, 0, 0, 0, 1, 1, 1, 1, 1, (1:ℚ)] (4 + k)) 4 (1 / 6) := by
  have hr : Np.Rect [[0, 0, 0, 0, 0, 1, 1, 1, 1, 1, (1:ℚ)]] 11 := by intro r hr; simp at hr; rw [hr]; rfl
  obtain ⟨y, h1, h2⟩ := C142_default_window _ 11 hr (by norm_num) (by simp)
  obtain ⟨y', h3, -, -, h4⟩ := (C22_deltas_formula _ 11 9 hr).2.2 (by norm_num) (by norm_num) (by simp)
  rw [h1] at h3
  injection h3 with h3
  subst h3
  have hv : Np.at2 y 0 4 = 10 := by
    rw [h4 0 4 (by simp) (by norm_num)]
    rw [show Finset.Icc (-((9:ℤ) / 2)) (9 / 2) = {-4, -3, -2, -1, 0, 1, 2, 3, 4} by decide]
    simp [clampGet]
    norm_num
  refine ⟨y, h1, hv, ?_⟩
  have := (h2 0 4 (by simp) (by norm_num) (1 / 6)).mpr (by rw [hv]; norm_num)
  exact this

example : deltas [[1, (2:ℚ)], [3, 5]] 2 (-1) = .error .valueError := by
  simp [deltas]

end Props
end Spafe
