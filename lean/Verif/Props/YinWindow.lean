import Verif.Props.YinMeaning

/-! C167: the number of terms of the YIN difference function, `fundamental_frequencies.py:16-73`. -/

set_option linter.unusedSectionVars false

namespace Spafe
namespace Spec

/-- The difference function of the docstring (`fundamental_frequencies.py:31`): `W` terms for every lag. `y` is the signal from the start of
the window on. -/
noncomputable def docDiff (y : ℕ → ℝ) (W τ : ℕ) : ℝ := ∑ j ∈ Finset.range W, (y j - y (j + τ)) ^ 2

/-- Its cumulative mean normalised version (`fundamental_frequencies.py:92-94`). -/
noncomputable def docCmnd (y : ℕ → ℝ) (W τ : ℕ) : ℝ :=
  if τ = 0 then 1 else docDiff y W τ / ((∑ j ∈ Finset.range τ, docDiff y W (j + 1)) / τ)

/-- `x` is the window of `W` samples at the start of `y`. -/
def StartsWith (x : List ℝ) (y : ℕ → ℝ) (W : ℕ) : Prop := x.length = W ∧ ∀ j < W, x.getD j 0 = y j

end Spec

namespace Props
open Model XF Spec

/-- **C167** (partial): the values of `compute_difference` never exceed the documented ones, and what is missing is the last `τ` terms.
They agree exactly when the signal around the end of the window repeats after `τ` samples. Missing: agreement for the other signals, which is
false, see `C167_differs`. -/
theorem C167_terms_partial (x : List ℝ) (y : ℕ → ℝ) (W T : ℕ) (h : StartsWith x y W) (τ : ℕ) (hτ : τ < min T W) :
    docDiff y W τ = (computeDifference x T).getD τ 0 + ∑ j ∈ Finset.Ico (W - τ) W, (y j - y (j + τ)) ^ 2 ∧
    (computeDifference x T).getD τ 0 ≤ docDiff y W τ ∧
    ((computeDifference x T).getD τ 0 = docDiff y W τ ↔ ∀ j, W - τ ≤ j → j < W → y j = y (j + τ)) := by
  obtain ⟨hl, hx⟩ := h
  subst hl
  have h1 := ((C77_difference x T).2 τ hτ).1
  have h2 : (computeDifference x T).getD τ 0 = ∑ j ∈ Finset.range (x.length - τ), (y j - y (j + τ)) ^ 2 := by
    rw [h1]
    refine Finset.sum_congr rfl fun j hj => ?_
    have := Finset.mem_range.mp hj
    rw [hx j (by omega), hx (j + τ) (by omega)]
  have h3 : docDiff y x.length τ = (computeDifference x T).getD τ 0 + ∑ j ∈ Finset.Ico (x.length - τ) x.length, (y j - y (j + τ)) ^ 2 := by
    rw [h2, docDiff, Finset.sum_range_add_sum_Ico _ (Nat.sub_le _ _)]
  have h4 : 0 ≤ ∑ j ∈ Finset.Ico (x.length - τ) x.length, (y j - y (j + τ)) ^ 2 := Finset.sum_nonneg fun _ _ => sq_nonneg _
  refine ⟨h3, by linarith, ?_⟩
  rw [h3, left_eq_add, Finset.sum_eq_zero_iff_of_nonneg fun _ _ => sq_nonneg _]
  constructor
  · intro h j ja jb
    exact sub_eq_zero.mp (pow_eq_zero_iff two_ne_zero |>.mp (h j (Finset.mem_Ico.mpr ⟨ja, jb⟩)))
  · intro h j hj
    obtain ⟨ja, jb⟩ := Finset.mem_Ico.mp hj
    rw [h j ja jb, sub_self, zero_pow two_ne_zero]

/-- A ramp, as a list and as a function. -/
noncomputable def ramp (c b : ℝ) (n : ℕ) : List ℝ := (List.range n).map fun (j : ℕ) => c * j + b

theorem sum_squares (τ : ℕ) : ∑ j ∈ Finset.range τ, ((j + 1 : ℕ) : ℝ) ^ 2 = τ * (τ + 1) * (2 * τ + 1) / 6 := by
  induction τ with
  | zero => simp
  | succ n ih => rw [Finset.sum_range_succ, ih]; push_cast; ring

theorem sum_shrinking (W τ : ℕ) (h : τ ≤ W) : ∑ j ∈ Finset.range τ, ((W - (j + 1) : ℕ) : ℝ) * ((j + 1 : ℕ) : ℝ) ^ 2 =
    W * (τ * (τ + 1) * (2 * τ + 1) / 6) - (τ * (τ + 1) / 2) ^ 2 := by
  induction τ with
  | zero => simp
  | succ n ih =>
    rw [Finset.sum_range_succ, ih (by omega), Nat.cast_sub h]
    push_cast
    ring

/-- **C167**: on a ramp the documented normalised difference is at least 1 at every lag, so a ramp is unvoiced for every threshold up to 1. -/
theorem C167_ramp_documented (c b : ℝ) (hc : c ≠ 0) (W : ℕ) (hW : 0 < W) (τ : ℕ) : 1 ≤ docCmnd (fun j => c * j + b) W τ := by
  unfold docCmnd
  split_ifs with h0
  · exact le_refl _
  have hd : ∀ t : ℕ, docDiff (fun j => c * j + b) W t = W * c ^ 2 * (t : ℝ) ^ 2 := by
    intro t
    unfold docDiff
    rw [Finset.sum_congr rfl fun (j : ℕ) _ => show (c * (j : ℝ) + b - (c * ((j + t : ℕ) : ℝ) + b)) ^ 2 = c ^ 2 * (t : ℝ) ^ 2 by push_cast; ring]
    simp
    ring
  simp only [hd]
  rw [← Finset.mul_sum, sum_squares]
  have hWc : 0 < (W : ℝ) * c ^ 2 := by positivity
  have ht : (1 : ℝ) ≤ τ := by exact_mod_cast Nat.one_le_iff_ne_zero.mpr h0
  generalize (W : ℝ) * c ^ 2 = K at *
  generalize (τ : ℝ) = t at *
  have hpos : 0 < t := by linarith
  rw [le_div_iff₀ (by positivity), one_mul, div_le_iff₀ hpos]
  have : 0 ≤ (4 * t + 1) * (t - 1) := mul_nonneg (by linarith) (by linarith)
  nlinarith [mul_nonneg (mul_pos hWc hpos).le this]

theorem ramp_window (c b : ℝ) (n W s i : ℕ) (h : i * s + W ≤ n) :
    StartsWith (yinWindow (ramp c b n) W s i) (fun j => c * j + (c * (i * s : ℕ) + b)) W := by
  constructor
  · simp [yinWindow, ramp]
    omega
  · intro j hj
    have h1 : j < (yinWindow (ramp c b n) W s i).length := by
      simp [yinWindow, ramp]
      omega
    rw [List.getD_eq_getElem _ _ h1]
    simp [yinWindow, ramp]
    ring

/-- The normalised difference of a ramp as computed, at the largest lag. -/
theorem ramp_last (x : List ℝ) (c b : ℝ) (hc : c ≠ 0) (W : ℕ) (hW : 2 ≤ W) (h : StartsWith x (fun j => c * j + b) W) :
    yinCmnd x (W - 1) = 12 * ((W : ℝ) - 1) ^ 2 / (W ^ 2 * (W + 1)) := by
  obtain ⟨hl, hx⟩ := h
  have hd : ∀ t, t < W → yinDiff x t = c ^ 2 * (((W - t : ℕ) : ℝ) * (t : ℝ) ^ 2) := by
    intro t ht
    unfold yinDiff
    rw [hl, Finset.sum_congr rfl fun j hj => show (x.getD j 0 - x.getD (j + t) 0) ^ 2 = c ^ 2 * (t : ℝ) ^ 2 by
      have := Finset.mem_range.mp hj
      rw [hx j (by omega), hx (j + t) (by omega)]
      push_cast
      ring]
    simp
    ring
  unfold yinCmnd
  rw [if_neg (by omega), hd _ (by omega)]
  unfold yinCum
  rw [Finset.sum_congr rfl fun j hj => hd (j + 1) (by have := Finset.mem_range.mp hj; omega), ← Finset.mul_sum,
    sum_shrinking W (W - 1) (by omega), show W - (W - 1) = 1 by omega, Nat.cast_sub (show 1 ≤ W by omega)]
  push_cast
  have hw : (2 : ℝ) ≤ W := by exact_mod_cast hW
  generalize (W : ℝ) = w at *
  have e : w * ((w - 1) * (w - 1 + 1) * (2 * (w - 1) + 1) / 6) - ((w - 1) * (w - 1 + 1) / 2) ^ 2 = w ^ 2 * (w - 1) * (w + 1) / 12 := by ring
  rw [e]
  have h1 : w - 1 ≠ 0 := by linarith
  have h2 : w ≠ 0 := by linarith
  have h3 : w + 1 ≠ 0 := by linarith
  field_simp

/-- **C167** (negation): with a window of exactly `tau_max = int(fs / low_freq)` samples, the shortest one that is accepted (C97), every window of
every ramp is reported as voiced, although the documented function stays at 1 or above (`C167_ramp_documented`). The threshold 0.1 needs
119 samples or more. -/
theorem C167_differs (c b : ℝ) (hc : c ≠ 0) (n : ℕ) {fs winLen winHop low high thr : ℝ} (hv : YinValid fs winLen winHop low high)
    (hh : high ≤ fs) (W : ℕ) (hW : ⌊winLen * fs⌋₊ = W) (hT : ⌊fs / low⌋₊ = W) (hlow : low ≤ fs) (ha : ⌊fs / high⌋₊ < W) (h2 : 2 ≤ W)
    (hthr : 12 ≤ thr * (W + 1)) :
    ∃ R, computeYin (ramp c b n) fs winLen winHop low high thr = .ok R ∧
      (∀ i, i < R.pitches.length ↔ i * ⌊winHop * fs⌋₊ + W < n) ∧
      ∀ i < R.pitches.length, ∃ f, R.pitches.getD i nan = fin f ∧ 0 < f := by
  obtain ⟨R, h1, h3, h4⟩ := C124_meaning (ramp c b n) (thr := thr) hv hlow (by rw [hT, hW])
  rw [hW] at h3 h4
  rw [hT] at h4
  have hn : (ramp c b n).length = n := by simp [ramp]
  rw [hn] at h3
  refine ⟨R, h1, h3, fun i hi => ?_⟩
  have hin := (h3 i).mp hi
  have hs := ramp_window c b n W ⌊winHop * fs⌋₊ i hin.le
  have h4 := h4 i hi
  generalize yinWindow (ramp c b n) W ⌊winHop * fs⌋₊ i = x at hs h4
  have hnc : NotConst x := by
    refine ⟨0, by rw [hs.1]; omega, ?_⟩
    rw [hs.2 0 (by omega), hs.2 (0 + 1) (by omega)]
    push_cast
    intro h
    exact hc (by linarith)
  obtain ⟨p, k, hp, -, hf, -⟩ := h4 hnc
  have hlast := ramp_last x c _ hc W h2 hs
  have hw : (2 : ℝ) ≤ W := by exact_mod_cast h2
  have hlt : yinCmnd x (W - 1) < thr := by
    rw [hlast, div_lt_iff₀ (by positivity)]
    generalize (W : ℝ) = w at *
    have h5 : 12 * w ^ 2 ≤ thr * (w + 1) * w ^ 2 := mul_le_mul_of_nonneg_right hthr (sq_nonneg _)
    nlinarith
  have ha1 : 1 ≤ ⌊fs / high⌋₊ := Nat.le_floor (by rw [Nat.cast_one, le_div_iff₀ hv.2.2.1]; linarith)
  have hp0 : p ≠ 0 := by
    rcases hp with ⟨-, h⟩ | ⟨t0, h5, h6, -⟩
    · have := h (W - 1) (by omega) (by omega)
      rw [add_zero] at this
      exact absurd hlt (not_lt.mpr this)
    · omega
  rw [if_neg hp0] at hf
  exact ⟨_, hf, div_pos hv.1 (by exact_mod_cast Nat.pos_of_ne_zero hp0)⟩

/-- The negation for the default frequencies and threshold: 320 samples at 16 kHz. A second of a rising ramp has pitches in all of its windows. -/
theorem C167_ramp_default : ∃ R, computeYin (ramp 1 0 16000) 16000 0.02 0.01 50 3000 0.1 = .ok R ∧ 0 < R.pitches.length ∧
    ∀ i < R.pitches.length, ∃ f, R.pitches.getD i nan = fin f ∧ 0 < f := by
  have e1 : ⌊(0.02 : ℝ) * 16000⌋₊ = 320 := by rw [show (0.02 : ℝ) * 16000 = ((320 : ℕ) : ℝ) by norm_num, Nat.floor_natCast]
  have e2 : ⌊(16000 : ℝ) / 50⌋₊ = 320 := by rw [show (16000 : ℝ) / 50 = ((320 : ℕ) : ℝ) by norm_num, Nat.floor_natCast]
  have e3 : ⌊(16000 : ℝ) / 3000⌋₊ < 320 := by rw [Nat.floor_lt (by norm_num)]; norm_num
  obtain ⟨R, h1, h2, h3⟩ := C167_differs 1 0 one_ne_zero 16000 (fs := 16000) (winLen := 0.02) (winHop := 0.01) (low := 50) (high := 3000)
    (thr := 0.1) ⟨by norm_num, by norm_num, by norm_num, by norm_num, by norm_num⟩ (by norm_num) 320 e1 e2 (by norm_num) e3 (by norm_num)
    (by norm_num)
  exact ⟨R, h1, (h2 0).mpr (by norm_num), h3⟩

/-- A case of the agreement in `C167_terms_partial` with lag 2 and a window of 4 samples: 0, 1, 0, 1, 0, 1, … -/
example : (computeDifference [0, 1, 0, 1] 4).getD 2 0 = docDiff (fun j => ((j % 2 : ℕ) : ℝ)) 4 2 := by
  refine ((C167_terms_partial [0, 1, 0, 1] (fun j => ((j % 2 : ℕ) : ℝ)) 4 4 ⟨rfl, ?_⟩ 2 (by norm_num)).2.2).mpr ?_
  · intro j hj
    obtain rfl | rfl | rfl | rfl : j = 0 ∨ j = 1 ∨ j = 2 ∨ j = 3 := by omega
    all_goals simp
  · intro j _ _
    simp

end Props
end Spafe
