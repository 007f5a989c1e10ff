import Verif.Model.MultiChannel
import Verif.Props.Preprocessing

/-! C109: arrays with two axes (several channels). -/

set_option linter.unusedSectionVars false

namespace Spafe
namespace Props
open Model

variable {α : Type} [Field α] [LinearOrder α] [IsStrictOrderedRing α] [FloorRing α]

theorem flatten_shape {x : List (List α)} {m : ℕ} (hx : ∀ r ∈ x, r.length = m) : x.flatten.length = x.length * m := by
  induction x with
  | nil => simp
  | cons r x ih =>
    rw [List.flatten_cons, List.length_append, hx r (by simp), ih fun r hr => hx r (by simp [hr]), List.length_cons]
    ring

theorem flatten_first {x : List (List α)} {m : ℕ} (hm : 0 < m) (hx : ∀ r ∈ x, r.length = m) {t : ℕ}
    (ht : t < x.length) : x.flatten.getD (t * m) 0 = (x.getD t []).getD 0 0 := by
  induction x generalizing t with
  | nil => simp at ht
  | cons r x ih =>
    have hr := hx r (by simp)
    cases t with
    | zero =>
      rw [List.flatten_cons, Nat.zero_mul, List.getD_append _ _ _ _ (by omega)]; rfl
    | succ t =>
      rw [List.flatten_cons, List.getD_append_right _ _ _ _ (by rw [hr]; nlinarith), hr]
      have : (t + 1) * m - m = t * m := by rw [Nat.add_mul, Nat.one_mul, Nat.add_sub_cancel]
      rw [this, ih (fun r hr => hx r (by simp [hr])) (by simpa using ht)]
      rfl

/-- Position `t` of the first axis of an array with rows of `m` entries: the first channel of sample `t`, and nothing but
memory behind the array for `t` at least the number of samples. -/
theorem C109_read {x : List (List α)} {m : ℕ} (hm : 0 < m) (hx : ∀ r ∈ x, r.length = m) (t : ℕ) :
    (t < x.length → (Array2.ofRows x m).read t = .ok ((x.getD t []).getD 0 0)) ∧
    (x.length ≤ t → (Array2.ofRows x m).read t = .error .outOfBounds) := by
  simp only [Array2.read, Array2.ofRows, flatten_shape hx]
  constructor
  · intro ht
    have h : t * m < x.length * m := Nat.mul_lt_mul_of_pos_right ht hm
    rw [if_pos (by constructor <;> exact_mod_cast (by first | exact Nat.zero_le _ | exact h)), ← flatten_first hm hx ht]
    congr 2
  · intro ht
    have h : x.length * m ≤ t * m := Nat.mul_le_mul_right m ht
    rw [if_neg]
    rintro ⟨-, h'⟩
    have : t * m < x.length * m := by exact_mod_cast h'
    omega

/-- C109 is violated by the code: with two channels or more, every call whose arguments are in range reads outside the
array. (`x` has one row per sample.) -/
theorem C109_multichannel_out_of_bounds (rnd : α → α) (hrnd : Monotone rnd) (x : List (List α)) (m : ℕ) (hm : 2 ≤ m)
    (hx : ∀ r ∈ x, r.length = m) (fs wl wh : α) (hfs : 0 ≤ fs) (hw : wh ≤ wl) (hS : 0 < pyInt (rnd (wh * fs)))
    (hL : pyInt (rnd (wl * fs)) ≤ (x.length * m : ℕ)) :
    framing2 rnd (Array2.ofRows x m) fs wl wh = .error .outOfBounds := by
  have hsl : pyInt (rnd (wh * fs)) ≤ pyInt (rnd (wl * fs)) := pyInt_mono (hrnd (mul_le_mul_of_nonneg_right hw hfs))
  obtain ⟨s, hs⟩ := Int.eq_ofNat_of_zero_le hS.le
  obtain ⟨l, hl⟩ := Int.eq_ofNat_of_zero_le (hS.le.trans hsl)
  rw [hs, hl] at hsl
  rw [hs] at hS
  rw [hl] at hL
  have hsl' : s ≤ l := by exact_mod_cast hsl
  have hS' : 0 < s := by exact_mod_cast hS
  have hL' : l ≤ x.length * m := by exact_mod_cast hL
  unfold framing2
  rw [if_neg (not_lt.mpr hw), hs, hl]
  simp only [strideTrick2, pyFloorDiv]
  rw [if_neg (by omega)]
  have hq : ((Array2.ofRows x m).size : ℤ) - (l : ℤ) = ((x.length * m - l : ℕ) : ℤ) := by
    simp only [Array2.ofRows]; omega
  have hq' : (((Array2.ofRows x m).size : ℤ) - (l : ℤ)).fdiv s = (((x.length * m - l) / s : ℕ) : ℤ) := by
    rw [hq]; rw [Int.fdiv_eq_ediv_of_nonneg _ (by omega)]; norm_cast
  have hNn : ∀ k : ℕ, ((k : ℤ) + 1).toNat = k + 1 ∧ ¬ ((k : ℤ) + 1 < 0 ∨ (l : ℤ) < 0) := fun k => by omega
  rw [ok_bind, hq', if_neg (hNn _).2]
  have hN := (hNn ((x.length * m - l) / s)).1
  rw [hN, Int.toNat_natCast]
  have hread : ∀ i j : ℕ, (Array2.ofRows x m).read ((i : ℤ) * s + j) = (Array2.ofRows x m).read ((i * s + j : ℕ) : ℤ) :=
    fun i j => by push_cast; rfl
  have hcase : ∀ i j : ℕ, (∃ b, (Array2.ofRows x m).read ((i : ℤ) * s + j) = .ok b) ∨
      (Array2.ofRows x m).read ((i : ℤ) * s + j) = .error .outOfBounds := fun i j => by
    rw [hread]
    rcases lt_or_ge (i * s + j) x.length with h | h
    · exact .inl ⟨_, (C109_read (by omega) hx _).1 h⟩
    · exact .inr ((C109_read (by omega) hx _).2 h)
  have hrow : ∀ i : ℕ, (∃ b, ((List.range l).mapM fun (j : ℕ) => (Array2.ofRows x m).read ((i : ℤ) * s + j)) = .ok b) ∨
      ((List.range l).mapM fun (j : ℕ) => (Array2.ofRows x m).read ((i : ℤ) * s + j)) = .error .outOfBounds := fun i => by
    by_cases h : ∃ j ∈ List.range l, (Array2.ofRows x m).read ((i : ℤ) * s + (j : ℕ)) = .error .outOfBounds
    · exact .inr (mapM_eq_error _ _ _ (fun j _ => hcase i j) h)
    · push Not at h
      refine .inl ⟨_, mapM_ok _ (fun (j : ℕ) => (x.getD (i * s + j) []).getD 0 0) _ fun j hj => ?_⟩
      have h1 := h j hj
      rw [hread] at h1 ⊢
      exact (C109_read (by omega) hx _).1 (not_le.mp fun h2 => h1 ((C109_read (by omega) hx _).2 h2))
  rw [mapM_eq_error _ .outOfBounds _ (fun i _ => hrow i), error_bind]
  refine ⟨(x.length * m - l) / s, by simp, mapM_eq_error _ _ _ (fun j _ => hcase _ j) ⟨l - 1, by simp; omega, ?_⟩⟩
  rw [hread]
  refine (C109_read (by omega) hx _).2 ?_
  have h1 := Nat.lt_div_mul_add (a := x.length * m - l) hS'
  have h2 : x.length * 2 ≤ x.length * m := Nat.mul_le_mul_left _ hm
  omega

/-- With two channels or more `framing` never returns, whatever the (positive) hop. -/
theorem C109_multichannel_never_ok (rnd : α → α) (hrnd : Monotone rnd) (x : List (List α)) (m : ℕ) (hm : 2 ≤ m)
    (hx : ∀ r ∈ x, r.length = m) (fs wl wh : α) (hfs : 0 ≤ fs) (hS : 0 < pyInt (rnd (wh * fs)))
    (r : List (List α) × ℤ) : framing2 rnd (Array2.ofRows x m) fs wl wh ≠ .ok r := by
  by_cases hw : wl < wh
  · rw [framing2, if_pos hw]; simp
  · rcases le_or_gt (pyInt (rnd (wl * fs))) (x.length * m : ℕ) with h | h
    · rw [C109_multichannel_out_of_bounds rnd hrnd x m hm hx fs wl wh hfs (not_lt.mp hw) hS h]; simp
    · rw [framing2, if_neg hw]
      simp only [strideTrick2, pyFloorDiv]
      rw [if_neg (by omega), ok_bind]
      have hq : (((Array2.ofRows x m).size : ℤ) - pyInt (rnd (wl * fs))).fdiv (pyInt (rnd (wh * fs))) + 1 ≤ 0 := by
        have : (((Array2.ofRows x m).size : ℤ) - pyInt (rnd (wl * fs))).fdiv (pyInt (rnd (wh * fs))) < 0 := by
          rw [Int.fdiv_eq_ediv_of_nonneg _ hS.le]
          exact Int.ediv_neg_of_neg_of_pos (by simp only [Array2.ofRows]; omega) hS
        omega
      split_ifs with h1
      · simp
      · rw [Int.toNat_of_nonpos hq]
        simp [pure, Except.pure]

/-- One column (shape `(n, 1)`): the same as the one-dimensional signal. -/
theorem C109_one_column_partial (rnd : α → α) (sig : List α) (fs wl wh : α) :
    framing2 rnd (Array2.ofRows (sig.map fun v => [v]) 1) fs wl wh = framingR rnd sig fs wl wh := by
  have hb : Array2.ofRows (sig.map fun v => [v]) 1 = ⟨sig, sig.length, 1⟩ := by
    simp only [Array2.ofRows, List.length_map, Nat.mul_one]
    congr 1
    induction sig with
    | nil => rfl
    | cons a l ih => simpa using ih
  rw [hb]
  simp [framing2, framingR, strideTrick2, strideTrick, Array2.read]

/-- A Fortran-ordered array (one list per channel, `n` samples each) is framed as if the channels had been played one
after the other. -/
theorem C109_fortran_partial (rnd : α → α) (x : List (List α)) (n : ℕ) (hx : ∀ c ∈ x, c.length = n) (fs wl wh : α) :
    framing2 rnd (Array2.ofColumns x n) fs wl wh = framingR rnd x.flatten fs wl wh := by
  simp [framing2, framingR, strideTrick2, strideTrick, Array2.read, Array2.ofColumns, flatten_shape hx]

/-- Pre-emphasis of two axes runs over the channels, not over time: the first channel, the only one that `framing` reads
(`C109_read`), is left as it is, and sample `t` of channel `k + 1` depends on channel `k` at the same time. -/
theorem C109_pre_emphasis_across_channels (x : List (List α)) (m : ℕ) (hm : 2 ≤ m) (hx : ∀ r ∈ x, r.length = m) (c : α) :
    (preEmphasis2 x c).length = x.length ∧ (∀ r ∈ preEmphasis2 x c, r.length = m) ∧ ∀ t, t < x.length →
      ((preEmphasis2 x c).getD t []).getD 0 0 = (x.getD t []).getD 0 0 ∧
      ∀ k, k + 1 < m → ((preEmphasis2 x c).getD t []).getD (k + 1) 0 =
        (x.getD t []).getD (k + 1) 0 - c * (x.getD t []).getD k 0 := by
  have hr : ∀ t, t < x.length → (x.getD t []).length = m := fun t ht => hx _ (by
    rw [List.getD_eq_getElem _ _ ht]; exact List.getElem_mem _)
  refine ⟨by simp [preEmphasis2], ?_, fun t ht => ?_⟩
  · intro r h
    obtain ⟨r', h1, rfl⟩ := List.mem_map.mp h
    rw [(C09_pre_emphasis r' c).1, hx r' h1]
  · have h1 : (preEmphasis2 x c).getD t [] = preEmphasis (x.getD t []) c := by
      rw [preEmphasis2, getD_map_lt _ _ [] [] ht]
    obtain ⟨-, h2, h3⟩ := C09_pre_emphasis (x.getD t []) c
    rw [h1]
    exact ⟨h2 (by rw [hr t ht]; omega), fun k hk => h3 (k + 1) (by omega) (by rw [hr t ht]; omega)⟩

/-- C109 as stated is false: a stereo recording of one second, default window. -/
theorem C109_violated : ¬ ∀ (x : List (List ℝ)) (m : ℕ), (∀ r ∈ x, r.length = m) →
    framing2 id (Array2.ofRows x m) 16000 0.025 0.01 ≠ .error .outOfBounds := by
  intro h
  have hrep : ∀ n : ℕ, ∀ r ∈ List.replicate n [(0 : ℝ), 0], r.length = 2 := fun n r hr => by
    rw [List.eq_of_mem_replicate hr]; rfl
  refine h (List.replicate 16000 [0, 0]) 2 (hrep _) ?_
  have h1 : ((0.025 : ℝ) * 16000) = ((400 : ℕ) : ℝ) := by norm_num
  have h2 : ((0.01 : ℝ) * 16000) = ((160 : ℕ) : ℝ) := by norm_num
  have h3 : ∀ n : ℕ, pyInt ((n : ℕ) : ℝ) = n := fun n => by simp [pyInt]
  apply C109_multichannel_out_of_bounds id monotone_id _ 2 le_rfl (hrep _) _ _ _ (by norm_num) (by norm_num)
  · rw [id, h2, h3]; norm_num
  · rw [id, h1, h3, List.length_replicate]; norm_num

/-- Two samples of two channels, frames of one sample: the third frame lies outside the array. -/
example : framing2 id (Array2.ofRows [[1, 2], [3, 4]] 2) (1 : ℚ) 1 1 = .error .outOfBounds := by
  apply C109_multichannel_out_of_bounds id monotone_id _ 2 le_rfl (by simp) _ _ _ (by norm_num) (by norm_num) <;>
    simp [pyInt]

end Props
end Spafe
