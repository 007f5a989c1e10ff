import Verif.Model.Yin
import Verif.Spec.Yin
import Verif.Lemmas.XF
import Verif.Lemmas.ListAux
import Verif.Lemmas.Lpc2

/-! Lemmas about the YIN model. -/

set_option linter.unusedSectionVars false

namespace Spafe
open Model XF

theorem cumsum_length (l : List ℝ) : (cumsum l).length = l.length := by simp [cumsum]

theorem cumsum_getD (l : List ℝ) {i : ℕ} (h : i < l.length) :
    (cumsum l).getD i 0 = ∑ j ∈ Finset.range (i + 1), l.getD j 0 := by
  rw [cumsum, getD_map_range_lt _ _ h]

theorem getD_of_le {β : Type} (l : List β) (d : β) {i : ℕ} (h : l.length ≤ i) : l.getD i d = d := by
  simp [List.getD, List.getElem?_eq_none h]

theorem getD_sq (x : List ℝ) (j : ℕ) : (x.map fun v => v * v).getD j 0 = x.getD j 0 ^ 2 := by
  by_cases h : j < x.length
  · rw [getD_map_lt _ _ 0 _ h, sq]
  · rw [getD_of_le _ _ (by simpa using h), getD_of_le _ _ (by simpa using h)]; norm_num

theorem cs_getD (x : List ℝ) {i : ℕ} (h : i ≤ x.length) :
    ((0 : ℝ) :: cumsum (x.map fun v => v * v)).getD i 0 = ∑ j ∈ Finset.range i, x.getD j 0 ^ 2 := by
  cases i with
  | zero => simp
  | succ i =>
    rw [List.getD_cons_succ, cumsum_getD _ (by simp; omega)]
    exact Finset.sum_congr rfl fun j _ => getD_sq x j

theorem conv_sum (x : List ℝ) {τ : ℕ} (h : τ < x.length) :
    ∑ i ∈ Finset.range (x.length - 1 + τ + 1), x.getD i 0 * x.reverse.getD (x.length - 1 + τ - i) 0 =
      ∑ j ∈ Finset.range (x.length - τ), x.getD j 0 * x.getD (j + τ) 0 := by
  rw [show x.length - 1 + τ + 1 = τ + (x.length - τ + τ) by omega, Finset.sum_range_add, Finset.sum_range_add]
  rw [Finset.sum_eq_zero (s := Finset.range τ), zero_add, Finset.sum_eq_zero (s := Finset.range τ), add_zero]
  · refine Finset.sum_congr rfl fun j hj => ?_
    have hj := Finset.mem_range.mp hj
    rw [getD_reverse' _ _ (by omega), show x.length - 1 - (x.length - 1 + τ - (τ + j)) = j by omega, add_comm τ j,
      mul_comm]
  · intro i _
    rw [getD_of_le x _ (by omega), zero_mul]
  · intro i hi
    have hi := Finset.mem_range.mp hi
    rw [getD_of_le x.reverse _ (by rw [List.length_reverse]; omega), mul_zero]

theorem diff_expand (x : List ℝ) {τ : ℕ} (h : τ ≤ x.length) :
    Spec.yinDiff x τ = (∑ j ∈ Finset.range (x.length - τ), x.getD j 0 ^ 2) +
      ((∑ j ∈ Finset.range x.length, x.getD j 0 ^ 2) - ∑ j ∈ Finset.range τ, x.getD j 0 ^ 2) -
      2 * ∑ j ∈ Finset.range (x.length - τ), x.getD j 0 * x.getD (j + τ) 0 := by
  have e : ∑ j ∈ Finset.range x.length, x.getD j 0 ^ 2 =
      ∑ j ∈ Finset.range τ, x.getD j 0 ^ 2 + ∑ j ∈ Finset.range (x.length - τ), x.getD (j + τ) 0 ^ 2 := by
    conv_lhs => rw [show x.length = τ + (x.length - τ) by omega]
    rw [Finset.sum_range_add]
    simp only [add_comm τ]
  rw [e, add_sub_cancel_left, Spec.yinDiff, Finset.mul_sum, ← Finset.sum_add_distrib, ← Finset.sum_sub_distrib]
  exact Finset.sum_congr rfl fun j _ => by ring

/-- The difference function before it is cut to `tau_max` values. -/
theorem computeDifference_eq (x : List ℝ) (tauMax : ℤ) :
    computeDifference x tauMax = pySlice ((List.range x.length).map (Spec.yinDiff x)) 0 tauMax := by
  simp only [computeDifference]
  congr 1
  by_cases hw : x.length = 0
  · have : x = [] := List.length_eq_zero_iff.mp hw
    subst this
    simp
  have hconv : convolve x x.reverse = (List.range (x.length + x.length - 1)).map fun (n : ℕ) =>
      ∑ i ∈ Finset.range (n + 1), x.getD i 0 * x.reverse.getD (n - i) 0 := by
    rw [convolve, if_neg (by simp; intro h; exact hw (by simp [h])), List.length_reverse]
  have hsl : sliceBound (convolve x x.reverse).length ((x.length : ℤ) - 1) = x.length - 1 := by
    rw [hconv, List.length_map, List.length_range, sliceBound, if_neg (by omega)]
    omega
  have hrt : pySliceFrom (convolve x x.reverse) ((x.length : ℤ) - 1) =
      (convolve x x.reverse).drop (x.length - 1) := by rw [pySliceFrom, hsl]
  have hcl : (convolve x x.reverse).length = x.length + x.length - 1 := by rw [hconv]; simp
  rw [hrt]
  set cs := (0 : ℝ) :: cumsum (x.map fun v => v * v) with hcs
  have hcsl : cs.length = x.length + 1 := by rw [hcs, List.length_cons, cumsum_length, List.length_map]
  have hL1 : ((cs.drop 1).reverse).length = x.length := by rw [List.length_reverse, List.length_drop, hcsl]; omega
  have hL2 : ((cs.take x.length).map fun v => cs.getD x.length 0 - v).length = x.length := by
    rw [List.length_map, List.length_take, hcsl]; omega
  have hL3 : ((convolve x x.reverse).drop (x.length - 1)).length = x.length := by
    rw [List.length_drop, hcl]; omega
  refine ext_getD 0 ?_ fun τ hτ => ?_
  · rw [List.length_zipWith, List.length_zipWith, hL1, hL2, hL3, List.length_map, List.length_range]; simp
  · have hτ' : τ < x.length := by
      rw [List.length_zipWith, List.length_zipWith, hL1, hL2, hL3] at hτ; omega
    rw [getD_zipWith_lt _ _ _ _ 0 0 (by rw [List.length_zipWith, hL1, hL2]; omega) (by rw [hL3]; exact hτ'),
      getD_zipWith_lt _ _ _ _ 0 0 (by rw [hL1]; exact hτ') (by rw [hL2]; exact hτ'), getD_map_range_lt _ _ hτ',
      getD_map_lt _ _ 0 _ (by rw [List.length_take, hcsl]; omega), getD_take_lt _ _ hτ',
      getD_reverse' _ _ (by rw [List.length_drop, hcsl]; omega), getD_drop', List.length_drop, hcsl,
      show 1 + (x.length + 1 - 1 - 1 - τ) = x.length - τ by omega, getD_drop', hconv,
      getD_map_range_lt _ _ (by omega), hcs, cs_getD x (by omega), cs_getD x le_rfl, cs_getD x hτ'.le,
      conv_sum x hτ', diff_expand x hτ'.le]

theorem pySlice_zero_nat {β : Type} (l : List β) (n : ℕ) : pySlice l 0 (n : ℤ) = l.take n := by
  have h0 : sliceBound l.length 0 = 0 := by simp [sliceBound]
  have h1 : sliceBound l.length (n : ℤ) = min n l.length := by
    rw [sliceBound, if_neg (by omega), Int.toNat_natCast]
  rw [pySlice, h0, h1, List.drop_zero, Nat.sub_zero]
  rcases le_total n l.length with h | h
  · rw [min_eq_left h]
  · rw [min_eq_right h, List.take_of_length_le le_rfl, List.take_of_length_le h]

theorem computeDifference_nat (x : List ℝ) (T : ℕ) :
    computeDifference x (T : ℤ) = (List.range (min T x.length)).map (Spec.yinDiff x) := by
  rw [computeDifference_eq, pySlice_zero_nat, ← List.map_take, List.take_range]

theorem yinDiff_nonneg (x : List ℝ) (τ : ℕ) : 0 ≤ Spec.yinDiff x τ := Finset.sum_nonneg fun _ _ => sq_nonneg _

theorem yinCum_nonneg (x : List ℝ) (τ : ℕ) : 0 ≤ Spec.yinCum x τ := Finset.sum_nonneg fun _ _ => yinDiff_nonneg _ _

theorem yinDiff_zero_iff (x : List ℝ) (τ : ℕ) : Spec.yinDiff x τ = 0 ↔ Spec.Periodic x τ := by
  rw [Spec.yinDiff, Finset.sum_eq_zero_iff_of_nonneg (fun _ _ => sq_nonneg _)]
  constructor
  · intro h j hj
    have := h j (Finset.mem_range.mpr (by omega))
    rwa [sq_eq_zero_iff, sub_eq_zero] at this
  · intro h j hj
    have := h j (by have := Finset.mem_range.mp hj; omega)
    rw [this, sub_self]; norm_num

theorem yinDiff_one_pos (x : List ℝ) (h : Spec.NotConst x) : 0 < Spec.yinDiff x 1 := by
  obtain ⟨j, hj, hne⟩ := h
  refine (yinDiff_nonneg x 1).lt_of_ne fun h0 => hne ?_
  exact (yinDiff_zero_iff x 1).mp h0.symm j hj

theorem yinCum_pos (x : List ℝ) (h : Spec.NotConst x) {τ : ℕ} (hτ : 1 ≤ τ) : 0 < Spec.yinCum x τ :=
  Finset.sum_pos' (fun _ _ => yinDiff_nonneg _ _) ⟨0, Finset.mem_range.mpr (by omega), yinDiff_one_pos x h⟩

theorem getD_const (x : List ℝ) (h : ¬ Spec.NotConst x) : ∀ j < x.length, x.getD j 0 = x.getD 0 0 := by
  intro j hj
  induction j with
  | zero => rfl
  | succ j ih =>
    by_contra hne
    exact h ⟨j, hj, fun e => hne (by rw [← e]; exact ih (by omega))⟩

theorem yinDiff_const (x : List ℝ) (h : ¬ Spec.NotConst x) (τ : ℕ) : Spec.yinDiff x τ = 0 := by
  rw [yinDiff_zero_iff]
  intro j hj
  rw [getD_const x h j (by omega), getD_const x h (j + τ) hj]

/-! ### Normalisation -/

theorem broadcast_eq {α β γ : Type} (f : α → β → γ) (a : List α) (b : List β) (h : a.length = b.length) :
    broadcast f a b = .ok (List.zipWith f a b) := by unfold broadcast; rw [if_pos h]

theorem broadcast_map {α β γ α' β' : Type} (f : α → β → γ) (g : α' → α) (k : β' → β) (a : List α') (b : List β') :
    broadcast f (a.map g) (b.map k) = broadcast (fun x y => f (g x) (k y)) a b := by
  unfold broadcast
  rw [List.length_map, List.length_map]
  by_cases h : a.length = b.length
  · rw [if_pos h, if_pos h, List.zipWith_map]
  · rw [if_neg h, if_neg h]
    rcases a with _ | ⟨x, _ | ⟨x', a⟩⟩ <;> rcases b with _ | ⟨y, _ | ⟨y', b⟩⟩ <;> simp at h ⊢ <;> rfl

theorem pySliceFrom_one {β : Type} (l : List β) : pySliceFrom l 1 = l.drop 1 := by
  rw [pySliceFrom, sliceBound, if_neg (by norm_num)]
  rcases l with _ | ⟨a, l⟩
  · simp
  · simp

/-- What `compute_cmnd` computes from the values `g 0, ..., g n` of a difference function. -/
theorem computeCmnd_eq (g : ℕ → ℝ) (n : ℕ) :
    computeCmnd ((List.range (n + 1)).map g) ((n : ℤ) + 1) = .ok ((List.range (n + 1)).map fun (τ : ℕ) =>
      if τ = 0 then fin 1 else fin (g τ * τ) / fin (∑ j ∈ Finset.range τ, g (j + 1))) := by
  have hd : pySliceFrom ((List.range (n + 1)).map g) 1 = (List.range n).map fun (j : ℕ) => g (j + 1) := by
    rw [pySliceFrom_one, List.range_succ_eq_map, List.map_cons, List.drop_one, List.tail_cons, List.map_map]; rfl
  have hr : pyRange 1 ((n : ℤ) + 1) = (List.range n).map fun (i : ℕ) => (1 : ℤ) + (i : ℤ) := by
    rw [pyRange, show ((n : ℤ) + 1 - 1).toNat = n by omega]
  rw [computeCmnd, hd, hr, broadcast_eq _ _ _ (by simp), ok_bind, broadcast_eq _ _ _ (by simp [cumsum]), ok_bind]
  congr 1
  rw [List.range_succ_eq_map, List.map_cons, List.map_map]
  congr 1
  refine ext_getD nan (by simp [cumsum]) fun i hi => ?_
  have hi' : i < n := by simpa [cumsum] using hi
  rw [getD_zipWith_lt _ _ _ _ 0 0 (by simpa using hi') (by simpa [cumsum] using hi'),
    getD_zipWith_lt _ _ _ _ 0 0 (by simpa using hi') (by simpa using hi'), getD_map_range_lt _ _ hi',
    getD_map_range_lt _ _ hi', getD_map_range_lt _ _ hi', cumsum_getD _ (by simpa using hi')]
  simp only [Function.comp_apply, Nat.succ_eq_add_one, Nat.add_eq_zero_iff, one_ne_zero, and_false, if_false]
  congr 2
  · push_cast; ring
  · refine Finset.sum_congr rfl fun j hj => ?_
    have := Finset.mem_range.mp hj
    rw [getD_map_range_lt _ _ (by omega)]

/-- The normalised difference of a frame at least as long as `tau_max`. -/
noncomputable def cmndList (x : List ℝ) (T : ℕ) : List (XF ℝ) := (List.range (max T 1)).map fun (τ : ℕ) =>
  if τ = 0 then fin 1 else fin (Spec.yinDiff x τ * τ) / fin (Spec.yinCum x τ)

theorem cmnd_of_frame (x : List ℝ) (T : ℕ) (h : T ≤ x.length) :
    computeCmnd (computeDifference x (T : ℤ)) (T : ℤ) = .ok (cmndList x T) := by
  rw [computeDifference_nat, min_eq_left h]
  cases T with
  | zero => simp [computeCmnd, pySliceFrom, sliceBound, pyRange, broadcast, cumsum, cmndList]
  | succ n =>
    rw [show ((n + 1 : ℕ) : ℤ) = (n : ℤ) + 1 by push_cast; ring, computeCmnd_eq, cmndList,
      max_eq_left (by omega)]
    rfl

theorem cmndList_length (x : List ℝ) (T : ℕ) : (cmndList x T).length = max T 1 := by simp [cmndList]

theorem cmndList_getD (x : List ℝ) {T τ : ℕ} (h : τ < T) :
    (cmndList x T).getD τ nan =
      if τ = 0 then fin 1 else fin (Spec.yinDiff x τ * τ) / fin (Spec.yinCum x τ) := by
  rw [cmndList, getD_map_range_lt _ _ (by omega)]

theorem cmndList_fin (x : List ℝ) (hx : Spec.NotConst x) {T τ : ℕ} (h : τ < T) :
    (cmndList x T).getD τ nan = fin (Spec.yinCmnd x τ) := by
  rw [cmndList_getD x h, Spec.yinCmnd]
  by_cases h0 : τ = 0
  · rw [if_pos h0, if_pos h0]
  · have hτ : (τ : ℝ) ≠ 0 := by exact_mod_cast h0
    have hc := (yinCum_pos x hx (Nat.pos_of_ne_zero h0)).ne'
    rw [if_neg h0, if_neg h0, fin_div _ _ hc]
    congr 1
    field_simp

theorem cmndList_const (x : List ℝ) (hx : ¬ Spec.NotConst x) {T τ : ℕ} (h : τ < T) (h0 : τ ≠ 0) :
    (cmndList x T).getD τ nan = nan := by
  have : Spec.yinCum x τ = 0 := Finset.sum_eq_zero fun j _ => yinDiff_const x hx _
  rw [cmndList_getD x h, if_neg h0, this, yinDiff_const x hx, zero_mul, zero_div_zero]

theorem yinCmnd_nonneg (x : List ℝ) (τ : ℕ) : 0 ≤ Spec.yinCmnd x τ := by
  unfold Spec.yinCmnd
  split_ifs
  · exact zero_le_one
  · exact div_nonneg (yinDiff_nonneg _ _) (div_nonneg (yinCum_nonneg _ _) (Nat.cast_nonneg _))

/-! ### The search -/

theorem ltb_trans {a b c : XF ℝ} (h1 : ltb a b = true) (h2 : ltb b c = true) : ltb a c = true := by
  cases a <;> cases b <;> cases c <;> simp_all [ltb]
  exact lt_trans h1 h2

theorem descend_spec (c : List (XF ℝ)) (T : ℕ) (hT : T ≤ c.length) : ∀ (n a : ℕ), T - a = n → a < T →
    ∃ p : ℕ, descend c T a = .ok (p : ℤ) ∧ a ≤ p ∧ p < T ∧
      (∀ t, a ≤ t → t < p → ltb (c.getD (t + 1) nan) (c.getD t nan) = true) ∧
      (p + 1 < T → ltb (c.getD (p + 1) nan) (c.getD p nan) = false) := by
  intro n
  induction n with
  | zero => intro a h1 h2; omega
  | succ n ih =>
    intro a h1 h2
    rw [descend]
    by_cases h : a + 1 < T
    · rw [dif_pos (by omega), show ((a : ℤ) + 1) = ((a + 1 : ℕ) : ℤ) by push_cast; ring,
        pyIdx_nat c nan (by omega), ok_bind, pyIdx_nat c nan (by omega), ok_bind]
      by_cases hl : ltb (c.getD (a + 1) nan) (c.getD a nan) = true
      · rw [if_pos hl]
        obtain ⟨p, hp, h3, h4, h5, h6⟩ := ih (a + 1) (by omega) h
        refine ⟨p, hp, by omega, h4, fun t ht1 ht2 => ?_, h6⟩
        rcases Nat.lt_or_ge a t with hat | hat
        · exact h5 t hat ht2
        · rw [show t = a by omega]; exact hl
      · rw [if_neg hl]
        exact ⟨a, rfl, le_rfl, h2, fun t _ _ => by omega, fun _ => by simpa using hl⟩
    · rw [dif_neg (by omega)]
      exact ⟨a, rfl, le_rfl, h2, fun t _ _ => by omega, fun h' => absurd h' h⟩

/-- What `get_pitch` does on a list with at least `tau_max` entries. -/
theorem getPitch_spec (c : List (XF ℝ)) (T : ℕ) (hT : T ≤ c.length) (thr : ℝ) : ∀ (n a : ℕ), T - a = n →
    (getPitch c a T thr = .ok 0 ∧ ∀ t, a ≤ t → t < T → ltb (c.getD t nan) (fin thr) = false) ∨
    ∃ t0 p : ℕ, getPitch c a T thr = .ok (p : ℤ) ∧ a ≤ t0 ∧ t0 ≤ p ∧ p < T ∧
      ltb (c.getD t0 nan) (fin thr) = true ∧ (∀ t, a ≤ t → t < t0 → ltb (c.getD t nan) (fin thr) = false) ∧
      (∀ t, t0 ≤ t → t < p → ltb (c.getD (t + 1) nan) (c.getD t nan) = true) ∧
      (p + 1 < T → ltb (c.getD (p + 1) nan) (c.getD p nan) = false) := by
  intro n
  induction n with
  | zero =>
    intro a h
    left
    rw [getPitch, dif_neg (by omega)]
    exact ⟨rfl, fun t h1 h2 => by omega⟩
  | succ n ih =>
    intro a h
    rw [getPitch, dif_pos (by omega), pyIdx_nat c nan (by omega), ok_bind]
    by_cases hl : ltb (c.getD a nan) (fin thr) = true
    · rw [if_pos hl]
      right
      obtain ⟨p, hp, h3, h4, h5, h6⟩ := descend_spec c T hT (n + 1) a h (by omega)
      exact ⟨a, p, hp, le_rfl, h3, h4, hl, fun t _ _ => by omega, h5, h6⟩
    · rw [if_neg hl, show ((a : ℤ) + 1) = ((a + 1 : ℕ) : ℤ) by push_cast; ring]
      have hl' : ltb (c.getD a nan) (fin thr) = false := by simpa using hl
      rcases ih (a + 1) (by omega) with ⟨h1, h2⟩ | ⟨t0, p, h1, h2, h3, h4, h5, h6, h7, h8⟩
      · left
        refine ⟨h1, fun t ht1 ht2 => ?_⟩
        rcases Nat.lt_or_ge a t with hat | hat
        · exact h2 t hat ht2
        · rw [show t = a by omega]; exact hl'
      · right
        refine ⟨t0, p, h1, by omega, h3, h4, h5, fun t ht1 ht2 => ?_, h7, h8⟩
        rcases Nat.lt_or_ge a t with hat | hat
        · exact h6 t hat ht2
        · rw [show t = a by omega]; exact hl'

theorem chain_below (c : List (XF ℝ)) (t0 p : ℕ) (b : XF ℝ) (h0 : t0 ≤ p) (hb : ltb (c.getD t0 nan) b = true)
    (h : ∀ t, t0 ≤ t → t < p → ltb (c.getD (t + 1) nan) (c.getD t nan) = true) : ltb (c.getD p nan) b = true := by
  induction p with
  | zero => rw [show t0 = 0 by omega] at hb; exact hb
  | succ p ih =>
    rcases Nat.lt_or_ge t0 (p + 1) with hlt | hge
    · exact ltb_trans (h p (by omega) (by omega)) (ih (by omega) fun t h1 h2 => h t h1 (by omega))
    · rw [show t0 = p + 1 by omega] at hb; exact hb

theorem descend_range (c : List (XF ℝ)) (T : ℤ) : ∀ (n : ℕ) (a p : ℤ), (T - a).toNat = n → a < T →
    descend c T a = .ok p → a ≤ p ∧ p < T := by
  intro n
  induction n with
  | zero => intro a p h1 h2; omega
  | succ n ih =>
    intro a p h1 h2 h
    rw [descend] at h
    split_ifs at h with hlt
    · rcases hx : pyIdx c (a + 1) with e | v
      · rw [hx] at h; cases h
      rcases hy : pyIdx c a with e | v'
      · rw [hx, hy] at h; cases h
      rw [hx, hy, ok_bind, ok_bind] at h
      split_ifs at h
      · have := ih (a + 1) p (by omega) hlt h; omega
      · injection h with h; omega
    · injection h with h; omega

/-- Whenever `get_pitch` succeeds, it returns 0 or a lag in the range. -/
theorem getPitch_range (c : List (XF ℝ)) (T : ℤ) (thr : ℝ) : ∀ (n : ℕ) (a p : ℤ), (T - a).toNat = n →
    getPitch c a T thr = .ok p → p = 0 ∨ (a ≤ p ∧ p < T) := by
  intro n
  induction n with
  | zero =>
    intro a p h1 h
    rw [getPitch, dif_neg (by omega)] at h
    injection h with h; exact Or.inl h.symm
  | succ n ih =>
    intro a p h1 h
    rw [getPitch, dif_pos (by omega)] at h
    rcases hx : pyIdx c a with e | v
    · rw [hx] at h; cases h
    rw [hx, ok_bind] at h
    split_ifs at h
    · exact Or.inr (descend_range c T _ a p rfl (by omega) h)
    · rcases ih (a + 1) p (by omega) h with h | h
      · exact Or.inl h
      · exact Or.inr (by omega)

/-! ### `argmin` and `min` -/

theorem argminX_const (x : List ℝ) (hx : ¬ Spec.NotConst x) (T : ℕ) (hT : 2 ≤ T) : argminX (cmndList x T) = 1 := by
  have hl : (cmndList x T).length = T := by rw [cmndList_length]; omega
  have hstay : ∀ (l : List ℕ), l.foldl (fun best i =>
      if ((cmndList x T).getD best nan).isNan then best
      else if ((cmndList x T).getD i nan).isNan || ltb ((cmndList x T).getD i nan) ((cmndList x T).getD best nan)
        then i else best) 1 = 1 := by
    intro l
    induction l with
    | nil => rfl
    | cons a l ih =>
      rw [List.foldl_cons, if_pos (by rw [cmndList_const x hx hT one_ne_zero]; rfl), ih]
  obtain ⟨n, rfl⟩ : ∃ n, T = n + 2 := ⟨T - 2, by omega⟩
  rw [argminX, hl, List.range_succ_eq_map, List.range_succ_eq_map, List.map_cons, List.foldl_cons, List.foldl_cons]
  have h0 : (cmndList x (n + 2)).getD 0 nan = fin 1 := by rw [cmndList_getD x (by omega), if_pos rfl]
  have h1 : (cmndList x (n + 2)).getD 1 nan = nan := cmndList_const x hx hT one_ne_zero
  have e : (if ((cmndList x (n + 2)).getD 0 nan).isNan then 0
      else if ((cmndList x (n + 2)).getD 0 nan).isNan || ltb ((cmndList x (n + 2)).getD 0 nan)
        ((cmndList x (n + 2)).getD 0 nan) then 0 else 0) = 0 := by split_ifs <;> rfl
  rw [e, h0, if_neg (by simp [isNan]), show Nat.succ 0 = 1 from rfl, h1, if_pos (by simp [isNan])]
  exact hstay _

theorem pyMin_const (x : List ℝ) (hx : ¬ Spec.NotConst x) (T : ℕ) : pyMin (cmndList x T) = .ok (fin 1) := by
  have hc : cmndList x T = fin 1 :: (List.range (max T 1 - 1)).map fun (_ : ℕ) => nan := by
    refine ext_getD nan (by rw [cmndList_length]; simp) fun i hi => ?_
    rw [cmndList_length] at hi
    cases i with
    | zero =>
      rw [cmndList, getD_map_range_lt _ _ (by omega), if_pos rfl, List.getD_cons_zero]
    | succ i =>
      rw [cmndList_const x hx (by omega) (by omega), List.getD_cons_succ, getD_map_range_lt _ _ (by omega)]
  rw [hc, pyMin]
  congr 1
  generalize (List.range (max T 1 - 1)) = l
  induction l with
  | nil => rfl
  | cons a l ih => rw [List.map_cons, List.foldl_cons, if_neg (by simp [ltb]), ih]

/-! ### Gain and offset -/

theorem fin_div_scale (c a b : ℝ) (hc : 0 < c) : fin (c * a) / fin (c * b) = fin a / fin b := by
  by_cases h : b = 0
  · subst h
    rw [mul_zero]
    rcases lt_trichotomy a 0 with h | h | h
    · rw [fin_div_zero_of_neg _ h, fin_div_zero_of_neg _ (mul_neg_of_pos_of_neg hc h)]
    · simp [h]
    · rw [fin_div_zero_of_pos _ h, fin_div_zero_of_pos _ (mul_pos hc h)]
  · rw [fin_div _ _ h, fin_div _ _ (mul_ne_zero hc.ne' h), mul_div_mul_left _ _ hc.ne']

theorem cumsum_scale (c : ℝ) (l : List ℝ) : cumsum (l.map (c * ·)) = (cumsum l).map (c * ·) := by
  rw [cumsum, cumsum, List.length_map, List.map_map]
  refine List.map_congr_left fun i hi => ?_
  rw [Function.comp_apply, Finset.mul_sum]
  refine Finset.sum_congr rfl fun j hj => ?_
  have := Finset.mem_range.mp hj
  have := List.mem_range.mp hi
  rw [getD_map_lt (c * ·) l 0 0 (by omega)]

theorem pySliceFrom_map {β γ : Type} (f : β → γ) (l : List β) (a : ℤ) :
    pySliceFrom (l.map f) a = (pySliceFrom l a).map f := by
  rw [pySliceFrom, pySliceFrom, List.length_map, List.map_drop]

theorem pySlice_map {β γ : Type} (f : β → γ) (l : List β) (a b : ℤ) :
    pySlice (l.map f) a b = (pySlice l a b).map f := by
  rw [pySlice, pySlice, List.length_map, List.map_take, List.map_drop]

theorem bcast_id {α β γ : Type} (f g : α → β → γ) (h : ∀ x y, f x y = g x y) (a : List α) (b : List β) :
    broadcast f a b = broadcast g a b := by
  rw [show f = g from funext fun x => funext fun y => h x y]

theorem broadcast_post {α β γ δ : Type} (f : α → β → γ) (k : γ → δ) (a : List α) (b : List β) :
    broadcast (fun x y => k (f x y)) a b = (broadcast f a b).map (List.map k) := by
  unfold broadcast
  by_cases h : a.length = b.length
  · rw [if_pos h, if_pos h, Except.map, List.map_zipWith]
  · rw [if_neg h, if_neg h]
    rcases a with _ | ⟨x, _ | ⟨x', a⟩⟩ <;> rcases b with _ | ⟨y, _ | ⟨y', b⟩⟩ <;> simp at h ⊢ <;> first | rfl | simp [Except.map]

theorem computeCmnd_scale (c : ℝ) (hc : 0 < c) (d : List ℝ) (tau : ℤ) :
    computeCmnd (d.map (c * ·)) tau = computeCmnd d tau := by
  unfold computeCmnd
  rw [pySliceFrom_map]
  have h1 : broadcast (fun (v : ℝ) (t : ℤ) => v * (t : ℝ)) ((pySliceFrom d 1).map (c * ·)) (pyRange 1 tau) =
      (broadcast (fun (v : ℝ) (t : ℤ) => v * (t : ℝ)) (pySliceFrom d 1) (pyRange 1 tau)).map (List.map (c * ·)) := by
    rw [← broadcast_post]
    conv_lhs => rw [← List.map_id (pyRange 1 tau)]
    rw [broadcast_map]
    exact bcast_id _ _ (fun x y => by simp [mul_assoc]) _ _
  rw [h1, cumsum_scale]
  rcases broadcast (fun (v : ℝ) (t : ℤ) => v * (t : ℝ)) (pySliceFrom d 1) (pyRange 1 tau) with e | num
  · rfl
  · show (broadcast _ (num.map (c * ·)) ((cumsum (pySliceFrom d 1)).map (c * ·)) >>= _) = _
    rw [broadcast_map, ok_bind, bcast_id _ (fun a b => fin a / fin b) (fun a b => fin_div_scale c a b hc)]

theorem yinDiff_affine (c b : ℝ) (x : List ℝ) (τ : ℕ) :
    Spec.yinDiff (x.map fun v => c * v + b) τ = c ^ 2 * Spec.yinDiff x τ := by
  rw [Spec.yinDiff, Spec.yinDiff, List.length_map, Finset.mul_sum]
  refine Finset.sum_congr rfl fun j hj => ?_
  have := Finset.mem_range.mp hj
  rw [getD_map_lt _ _ 0 _ (by omega), getD_map_lt _ _ 0 _ (by omega)]
  ring

theorem computeDifference_affine (c b : ℝ) (x : List ℝ) (tau : ℤ) :
    computeDifference (x.map fun v => c * v + b) tau = (computeDifference x tau).map (c ^ 2 * ·) := by
  rw [computeDifference_eq, computeDifference_eq, ← pySlice_map, List.map_map, List.length_map]
  congr 1
  exact List.map_congr_left fun τ _ => yinDiff_affine c b x τ

theorem yinFrame_affine (fs : ℝ) (a T : ℤ) (thr c b : ℝ) (hc : c ≠ 0) (x : List ℝ) :
    yinFrame fs a T thr (x.map fun v => c * v + b) = yinFrame fs a T thr x := by
  simp only [yinFrame]
  rw [computeDifference_affine, computeCmnd_scale _ (by positivity)]

/-! ### The frames -/

theorem pyInt_nonneg {x : ℝ} (h : 0 ≤ x) : pyInt x = ((⌊x⌋₊ : ℕ) : ℤ) := by
  rw [pyInt, if_pos h, Int.natCast_floor_eq_floor h]

theorem pyRangeStep_nat (len w s : ℕ) (hs : 0 < s) :
    pyRangeStep 0 ((len : ℤ) - w) s = .ok ((List.range (Spec.yinCount len w s)).map fun (i : ℕ) => (i : ℤ) * s) := by
  rw [pyRangeStep, if_neg (by omega)]
  simp only [if_pos (show (0 : ℤ) < s by omega), zero_add, sub_zero]
  congr 2
  rw [Spec.yinCount]
  rcases Nat.lt_or_ge w len with h | h
  · rw [show ((len : ℤ) - w + s - 1) = ((len - w + s - 1 : ℕ) : ℤ) by omega, ← Int.natCast_ediv, Int.toNat_natCast]
  · rw [show len - w = 0 by omega, Nat.div_eq_of_lt (by omega)]
    have h1 : ((len : ℤ) - w + s - 1) / s < 1 := Int.ediv_lt_of_lt_mul (by omega) (by omega)
    rw [Int.toNat_of_nonpos (by omega)]

theorem count_start_lt {len w s i : ℕ} (hs : 0 < s) (h : i < Spec.yinCount len w s) : i * s + w < len := by
  unfold Spec.yinCount at h
  have h1 : (i + 1) * s ≤ len - w + s - 1 := (Nat.le_div_iff_mul_le hs).mp h
  rw [add_mul, one_mul] at h1
  omega

theorem lt_count {len w s i : ℕ} (hs : 0 < s) (h : i * s + w < len) : i < Spec.yinCount len w s := by
  unfold Spec.yinCount
  refine (Nat.le_div_iff_mul_le hs).mpr ?_
  rw [Nat.succ_mul]
  omega

theorem frame_slice (sig : List ℝ) {t w : ℕ} (h : t + w ≤ sig.length) :
    pySlice sig (t : ℤ) ((t : ℤ) + w) = (sig.drop t).take w := by
  rw [pySlice, sliceBound, sliceBound, if_neg (by omega), if_neg (by omega)]
  congr 2 <;> omega

/-- `compute_yin` for non-negative sizes: the loop over the windows. -/
theorem computeYin_eq (sig : List ℝ) {fs winLen winHop low high thr : ℝ} (hfs : 0 < fs) (hl : 0 < low)
    (hh : 0 < high) (hw : 0 ≤ winLen) (hs : 1 ≤ winHop * fs) :
    computeYin sig fs winLen winHop low high thr =
      (((List.range (Spec.yinCount sig.length ⌊winLen * fs⌋₊ ⌊winHop * fs⌋₊)).map fun (i : ℕ) =>
          (sig.drop (i * ⌊winHop * fs⌋₊)).take ⌊winLen * fs⌋₊).mapM
        (yinFrame fs ⌊fs / high⌋₊ ⌊fs / low⌋₊ thr)) >>= fun rs =>
      .ok { pitches := rs.map (·.pitch), harmonicRates := rs.map (·.harmonicRate), argmins := rs.map (·.argmin),
            times := (List.range (Spec.yinCount sig.length ⌊winLen * fs⌋₊ ⌊winHop * fs⌋₊)).map fun (i : ℕ) =>
              (i * ⌊winHop * fs⌋₊ : ℕ) / fs } := by
  have hs' : 0 < ⌊winHop * fs⌋₊ := Nat.floor_pos.mpr hs
  rw [computeYin, if_neg (by rintro (h | h) <;> linarith)]
  simp only [pyInt_nonneg (show 0 ≤ fs / high by positivity), pyInt_nonneg (show 0 ≤ fs / low by positivity),
    pyInt_nonneg (show 0 ≤ winLen * fs by positivity), pyInt_nonneg (show 0 ≤ winHop * fs by linarith)]
  rw [pyRangeStep_nat _ _ _ hs', ok_bind]
  have hfr : (((List.range (Spec.yinCount sig.length ⌊winLen * fs⌋₊ ⌊winHop * fs⌋₊)).map
      fun (i : ℕ) => (i : ℤ) * (⌊winHop * fs⌋₊ : ℤ)).map
      fun t => pySlice sig t (t + (⌊winLen * fs⌋₊ : ℤ))) =
      (List.range (Spec.yinCount sig.length ⌊winLen * fs⌋₊ ⌊winHop * fs⌋₊)).map fun (i : ℕ) =>
          (sig.drop (i * ⌊winHop * fs⌋₊)).take ⌊winLen * fs⌋₊ := by
    rw [List.map_map]
    refine List.map_congr_left fun i hi => ?_
    have := count_start_lt hs' (List.mem_range.mp hi)
    rw [Function.comp_apply, ← Nat.cast_mul, frame_slice sig (by omega)]
  rw [hfr]
  congr 1
  funext rs
  congr 2
  rw [List.map_map]
  refine List.map_congr_left fun i _ => ?_
  rw [Function.comp_apply]
  push_cast
  rfl

theorem frame_length (sig : List ℝ) {i w s : ℕ} (hs : 0 < s) (h : i < Spec.yinCount sig.length w s) :
    ((sig.drop (i * s)).take w).length = w := by
  have := count_start_lt hs h
  rw [List.length_take, List.length_drop]
  omega

theorem pyMin_ok (a : XF ℝ) (l : List (XF ℝ)) : ∃ m, pyMin (a :: l) = .ok m := ⟨_, rfl⟩

theorem cmndList_cons (x : List ℝ) (T : ℕ) : ∃ l, cmndList x T = fin 1 :: l := by
  rw [cmndList, show max T 1 = (max T 1 - 1) + 1 by omega, List.range_succ_eq_map, List.map_cons]
  exact ⟨_, rfl⟩

theorem yinFrame_ok (fs : ℝ) (a T : ℕ) (thr : ℝ) (x : List ℝ) (h : T ≤ x.length) :
    ∃ r, yinFrame fs a T thr x = .ok r := by
  simp only [yinFrame]
  rw [cmnd_of_frame x T h, ok_bind]
  have hT : T ≤ (cmndList x T).length := by rw [cmndList_length]; omega
  obtain ⟨p, hp, hpl⟩ : ∃ p : ℕ, getPitch (cmndList x T) a T thr = .ok (p : ℤ) ∧ p < max T 1 := by
    rcases getPitch_spec (cmndList x T) T hT thr _ a rfl with ⟨h, -⟩ | ⟨t0, p, h, -, -, h4, -⟩
    · exact ⟨0, h, by omega⟩
    · exact ⟨p, h, by omega⟩
  rw [hp, ok_bind]
  split_ifs with h0
  · rw [pyIdx_nat _ nan (by rw [cmndList_length]; omega), ok_bind]; exact ⟨_, rfl⟩
  · rw [pyIdx_nat _ nan (by rw [cmndList_length]; omega), ok_bind]; exact ⟨_, rfl⟩
  · obtain ⟨l, hl⟩ := cmndList_cons x T
    rw [hl, pyMin, ok_bind]; exact ⟨_, rfl⟩
  · obtain ⟨l, hl⟩ := cmndList_cons x T
    rw [hl, pyMin, ok_bind]; exact ⟨_, rfl⟩

theorem yinFrame_short (fs : ℝ) (a T : ℕ) (thr : ℝ) (x : List ℝ) (h : x.length < T) (h3 : 3 ≤ x.length) :
    yinFrame fs a T thr x = .error .valueError := by
  simp only [yinFrame]
  rw [computeDifference_nat, min_eq_right h.le, computeCmnd]
  have : broadcast (fun (v : ℝ) (t : ℤ) => v * (t : ℝ))
      (pySliceFrom ((List.range x.length).map (Spec.yinDiff x)) 1) (pyRange 1 (T : ℤ)) = .error .valueError := by
    have hl1 : (pySliceFrom ((List.range x.length).map (Spec.yinDiff x)) 1).length = x.length - 1 := by
      rw [pySliceFrom_one]; simp
    have hl2 : (pyRange 1 (T : ℤ)).length = T - 1 := by simp [pyRange]
    generalize pySliceFrom ((List.range x.length).map (Spec.yinDiff x)) 1 = A at *
    generalize pyRange 1 (T : ℤ) = B at *
    unfold broadcast
    rw [if_neg (by omega)]
    rcases A with _ | ⟨u, _ | ⟨u', A⟩⟩ <;> rcases B with _ | ⟨y, _ | ⟨y', B⟩⟩ <;> simp at hl1 hl2 <;> first | omega | rfl
  rw [this]; rfl

end Spafe
