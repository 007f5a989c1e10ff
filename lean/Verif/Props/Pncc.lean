import Verif.Lemmas.Pncc
import Mathlib.Data.Finset.Max
import Mathlib.Algebra.Order.BigOperators.Group.Finset

/-! Properties C53–C58: the medium-time processing in `spafe/features/pncc.py`.

Matrices are given by real matrices `A` (`finMat A` is the same matrix as floats); `HasShape A r c` says that `A` has
`r` rows and `c` columns, `Np.at2 A m l` is the entry in row (time) `m` and column (channel) `l`. -/

set_option linter.unusedSectionVars false

namespace Spafe
namespace Props
open XF Spec Model

/-- The small example matrix used below: three frames, two channels. -/
def demo : List (List ℝ) := [[1, 4], [3, 0], [2, 8]]

theorem demo_shape : HasShape demo 3 2 := ⟨rfl, by simp [demo]⟩

theorem demo_nonneg : NonnegMat demo := by
  intro r hr v hv
  simp only [demo, List.mem_cons, List.not_mem_nil, or_false] at hr
  rcases hr with rfl | rfl | rfl <;> simp only [List.mem_cons, List.not_mem_nil, or_false] at hv <;>
    rcases hv with rfl | rfl <;> norm_num

private theorem ne_nil_of_shape {A : List (List ℝ)} {r c : ℕ} (h : HasShape A r c) (hr : 0 < r) : A ≠ [] := by
  intro h0; rw [h0] at h; have := h.1; simp at this; omega

/-! ### C53 -/

/-- Frame `m + d - M` of channel `l`, zero before the first and after the last frame. -/
noncomputable def frameOrZero (A : List (List ℝ)) (r M m d l : ℕ) : ℝ :=
  if M ≤ m + d ∧ m + d - M < r then Np.at2 A (m + d - M) l else 0

/-- C53: the output is the sum over the `2M+1` frames `m-M … m+M` (missing ones are zero) divided by `2M+1`, in the
shape of the input. -/
theorem C53_medium_time_average (A : List (List ℝ)) (r c M : ℕ) (hA : HasShape A r c) (hr : 0 < r) :
    ∃ B, mediumTimePower (finMat A) M = finMat B ∧ HasShape B r c ∧ ∀ m l, m < r → l < c →
      Np.at2 B m l = (∑ d ∈ Finset.range (2 * M + 1), frameOrZero A r M m d l) / (2 * M + 1) := by
  refine ⟨_, mediumTimePower_fin hA.2 (ne_nil_of_shape hA hr) M, ⟨by simp [hA.1], matOf_rect _ _ _⟩, ?_⟩
  intro m l hm hl
  rw [at2_matOf _ (by rw [hA.1]; exact hm) hl, rMedium, one_div, inv_mul_eq_div]
  congr 1
  unfold frameOrZero
  rw [← Finset.sum_filter, hA.1]
  refine Finset.sum_nbij' (fun i => i + M - m) (fun d => m + d - M) ?_ ?_ ?_ ?_ ?_
  · intro i hi; rw [Finset.mem_Ico] at hi
    rw [Finset.mem_filter, Finset.mem_range]; omega
  · intro d hd; rw [Finset.mem_filter, Finset.mem_range] at hd
    rw [Finset.mem_Ico]; omega
  · intro i hi; rw [Finset.mem_Ico] at hi; omega
  · intro d hd; rw [Finset.mem_filter, Finset.mem_range] at hd; omega
  · intro i hi; rw [Finset.mem_Ico] at hi
    congr 1; omega

/-- C53: non-negative power stays non-negative, and no output exceeds a bound of its channel. -/
theorem C53_medium_time_bounds (A : List (List ℝ)) (r c M : ℕ) (hA : HasShape A r c) (hr : 0 < r)
    (hn : NonnegMat A) (B : List (List ℝ)) (h : mediumTimePower (finMat A) M = finMat B) (m l : ℕ) (hm : m < r)
    (hl : l < c) : 0 ≤ Np.at2 B m l ∧
      ∀ b : ℝ, (∀ k, k < r → Np.at2 A k l ≤ b) → Np.at2 B m l ≤ b := by
  obtain ⟨B', h1, -, h2⟩ := C53_medium_time_average A r c M hA hr
  obtain rfl : B = B' := finMat_injective (h.symm.trans h1)
  have hM : (0:ℝ) < 2 * M + 1 := by positivity
  rw [h2 m l hm hl]
  constructor
  · apply div_nonneg _ hM.le
    apply Finset.sum_nonneg
    intro d _
    unfold frameOrZero; split_ifs
    · exact nonneg_at2 hn _ _
    · exact le_rfl
  · intro b hb
    rw [div_le_iff₀ hM]
    have hb0 : 0 ≤ b := le_trans (nonneg_at2 hn 0 l) (hb 0 hr)
    calc _ ≤ ∑ _d ∈ Finset.range (2 * M + 1), b := by
          apply Finset.sum_le_sum
          intro d _
          unfold frameOrZero; split_ifs with h
          · exact hb _ h.2
          · exact hb0
      _ = b * (2 * M + 1) := by
          rw [Finset.sum_const, Finset.card_range, nsmul_eq_mul]; push_cast; ring

/-- The first entry of the example, with `M = 2`: `(0 + 0 + 1 + 3 + 2)/5`. -/
example : ∃ B, mediumTimePower (finMat demo) 2 = finMat B ∧ Np.at2 B 0 0 = 6 / 5 := by
  obtain ⟨B, h1, -, h2⟩ := C53_medium_time_average demo 3 2 2 demo_shape (by norm_num)
  refine ⟨B, h1, ?_⟩
  rw [h2 0 0 (by norm_num) (by norm_num)]
  simp [Finset.sum_range_succ, frameOrZero, Np.at2, demo]
  norm_num

/-! ### C54 -/

/-- C54 (what holds): from the second frame on the output follows the documented recursion
`out[m] = λ out[m-1] + (1-λ) in[m]` with `λ = λa` if `in[m] ≥ out[m-1]` and `λ = λb` otherwise; for non-negative input
and `λa, λb` in `[0,1]` it is non-negative and never above any bound of the inputs seen so far.
Missing from the full property: `out[0] = 0.9 * in[0]`, see `C54_first_frame` and `C54_violated`. -/
theorem C54_recursion_partial (A : List (List ℝ)) (r c : ℕ) (hA : HasShape A r c) (hr : 0 < r) (la lb : ℝ) :
    ∃ B, asymmetricLowpass (finMat A) la lb = .ok (finMat B) ∧ HasShape B r c ∧
      (∀ m l, m + 1 < r → l < c → Np.at2 B (m + 1) l =
        if Np.at2 B m l ≤ Np.at2 A (m + 1) l
        then la * Np.at2 B m l + (1 - la) * Np.at2 A (m + 1) l
        else lb * Np.at2 B m l + (1 - lb) * Np.at2 A (m + 1) l) ∧
      (NonnegMat A → 0 ≤ la → la ≤ 1 → 0 ≤ lb → lb ≤ 1 → ∀ m l, m < r → l < c →
        0 ≤ Np.at2 B m l ∧ ∀ b : ℝ, (∀ k, k ≤ m → Np.at2 A k l ≤ b) → Np.at2 B m l ≤ b) := by
  have h0 := ne_nil_of_shape hA hr
  refine ⟨_, asymmetricLowpass_fin h0 la lb, ⟨by simp [hA.1], rAsym_rect hA.2 h0 la lb⟩, ?_, ?_⟩
  · intro m l hm hl
    rw [rAsym_succ hA.2 h0 la lb (by rw [hA.1]; exact hm) hl]; rfl
  · intro hn h1 h2 h3 h4 m l hm hl
    exact rAsym_bounds hA.2 h0 h1 h2 h3 h4 hn (by rw [hA.1]; exact hm) hl

/-- C54: the first output as it is computed. The initial value `0.9 * in[0]` is overwritten, because the loop starts
at `m = 0` and reads row `-1`; with two frames or more that row is zero. -/
theorem C54_first_frame (A : List (List ℝ)) (r c : ℕ) (hA : HasShape A r c) (hr : 0 < r) (la lb : ℝ)
    (hn : NonnegMat A) (B : List (List ℝ)) (h : asymmetricLowpass (finMat A) la lb = .ok (finMat B)) (l : ℕ)
    (hl : l < c) :
    Np.at2 B 0 l = if r = 1 then (1 - 0.1 * la) * Np.at2 A 0 l else (1 - la) * Np.at2 A 0 l := by
  have h0 := ne_nil_of_shape hA hr
  rw [asymmetricLowpass_fin h0] at h
  injection h with h
  have h := finMat_injective h
  subst h
  have hx := nonneg_at2 hn 0 l
  rw [rAsym_zero hA.2 h0 la lb hl, hA.1, rAsymStep]
  split_ifs with h1 h2
  · ring
  · exact absurd (by linarith) h2
  · ring

/-- C54 (violated): with the default parameters and at least two frames the first output is `0.001 * in[0]`, so it is
not `0.9 * in[0]` in any channel whose first input is not zero. -/
theorem C54_violated (A : List (List ℝ)) (r c : ℕ) (hA : HasShape A r c) (hr : 2 ≤ r) (hn : NonnegMat A)
    (B : List (List ℝ)) (h : asymmetricLowpass (finMat A) = .ok (finMat B)) (l : ℕ) (hl : l < c)
    (hx : Np.at2 A 0 l ≠ 0) : Np.at2 B 0 l = 0.001 * Np.at2 A 0 l ∧ Np.at2 B 0 l ≠ 0.9 * Np.at2 A 0 l := by
  have h1 := C54_first_frame A r c hA (by omega) _ _ hn B h l hl
  rw [if_neg (by omega)] at h1
  have h2 : Np.at2 B 0 l = 0.001 * Np.at2 A 0 l := by rw [h1]; norm_num
  refine ⟨h2, fun h3 => hx ?_⟩
  rw [h2] at h3; linarith

/-- The violation is reached by the example matrix. -/
example : ∃ B, asymmetricLowpass (finMat demo) = .ok (finMat B) ∧ Np.at2 B 0 0 ≠ 0.9 * Np.at2 demo 0 0 := by
  obtain ⟨B, h1, -⟩ := C54_recursion_partial demo 3 2 demo_shape (by norm_num) 0.999 0.5
  exact ⟨B, h1, (C54_violated demo 3 2 demo_shape (by norm_num) demo_nonneg B h1 0 (by norm_num)
    (by norm_num [Np.at2, demo])).2⟩

/-- C54: without any frame the function raises `IndexError`. -/
theorem C54_no_frames (la lb : ℝ) : asymmetricLowpass [] la lb = .error .indexError := by
  simp [asymmetricLowpass]

/-! ### C55 -/

/-- `max over k ≤ m of lam^(m-k) * Q[k, l]`. -/
noncomputable def peakSpec (Q : List (List ℝ)) (lam : ℝ) (m l : ℕ) : ℝ :=
  (Finset.range (m + 1)).sup' ⟨0, by simp⟩ fun k => lam ^ (m - k) * Np.at2 Q k l

private theorem rPeak_eq {Q : List (List ℝ)} {c : ℕ} (hQ : Np.Rect Q c) {lam : ℝ} (hlam : 0 ≤ lam) {m l : ℕ}
    (hm : m < Q.length) (hl : l < c) : Np.at2 (rPeak lam Q) m l = peakSpec Q lam m l := by
  induction m with
  | zero => rw [rPeak_zero]; simp [peakSpec]
  | succ m ih =>
    rw [rPeak_succ hQ lam hm hl, ih (by omega)]
    unfold peakSpec
    apply le_antisymm
    · apply max_le
      · rcases hlam.eq_or_lt with h0 | h0
        · have h1 := Finset.le_sup' (fun k => lam ^ (m + 1 - k) * Np.at2 Q k l)
            (Finset.mem_range.mpr (by omega : 0 < m + 1 + 1))
          simp only [← h0] at h1 ⊢
          simpa using h1
        · rw [← le_div_iff₀' h0]
          apply Finset.sup'_le
          intro k hk
          rw [le_div_iff₀' h0, ← mul_assoc, ← pow_succ']
          have hk : k < m + 1 := Finset.mem_range.mp hk
          have e : m - k + 1 = m + 1 - k := by omega
          rw [e]
          exact Finset.le_sup' (fun k => lam ^ (m + 1 - k) * Np.at2 Q k l) (Finset.mem_range.mpr (by omega))
      · have := Finset.le_sup' (fun k => lam ^ (m + 1 - k) * Np.at2 Q k l)
          (Finset.mem_range.mpr (by omega : m + 1 < m + 1 + 1))
        simpa using this
    · apply Finset.sup'_le
      intro k hk
      have hk : k < m + 1 + 1 := Finset.mem_range.mp hk
      rcases Nat.lt_succ_iff_lt_or_eq.mp hk with h | h
      · apply le_max_of_le_left
        have e : m + 1 - k = m - k + 1 := by omega
        rw [e, pow_succ', mul_assoc]
        exact mul_le_mul_of_nonneg_left
          (Finset.le_sup' (fun k => lam ^ (m - k) * Np.at2 Q k l) (Finset.mem_range.mpr h)) hlam
      · subst h; simp

/-- C55: the first frame is passed on; a later entry is passed on when it reaches `lam` times the peak
`max over k ≤ m of lam^(m-k) Q[k]` of the frames before it, and is replaced by `myu` times that peak otherwise. -/
theorem C55_temporal_masking (Q : List (List ℝ)) (r c : ℕ) (hQ : HasShape Q r c) (hr : 0 < r) (lam myu : ℝ)
    (hlam : 0 < lam) :
    ∃ B, temporalMasking (finMat Q) lam myu = .ok (finMat B) ∧ HasShape B r c ∧
      (∀ l, l < c → Np.at2 B 0 l = Np.at2 Q 0 l) ∧
      (∀ m l, m + 1 < r → l < c → Np.at2 B (m + 1) l =
        if lam * peakSpec Q lam m l ≤ Np.at2 Q (m + 1) l then Np.at2 Q (m + 1) l else myu * peakSpec Q lam m l) := by
  have h0 := ne_nil_of_shape hQ hr
  refine ⟨_, temporalMasking_fin h0 lam myu, ⟨by simp [hQ.1], rMask_rect hQ.2 lam myu⟩, ?_, ?_⟩
  · intro l _; exact rMask_zero _ _ _
  · intro m l hm hl
    rw [rMask_succ hQ.2 lam myu (by rw [hQ.1]; exact hm) hl,
      rPeak_eq hQ.2 hlam.le (by rw [hQ.1]; omega) hl]
    rfl

/-- C55: for non-negative power and `0 ≤ myu ≤ lam` (defaults 0.2 and 0.85) the output lies between 0 and the peak of
the frames up to and including its own. -/
theorem C55_masking_bounds (Q : List (List ℝ)) (r c : ℕ) (hQ : HasShape Q r c) (hr : 0 < r) (lam myu : ℝ)
    (hlam : 0 < lam) (hmyu : 0 ≤ myu) (hle : myu ≤ lam) (hn : NonnegMat Q) (B : List (List ℝ))
    (h : temporalMasking (finMat Q) lam myu = .ok (finMat B)) (m l : ℕ) (hm : m < r) (hl : l < c) :
    0 ≤ Np.at2 B m l ∧ Np.at2 B m l ≤ peakSpec Q lam m l := by
  have h0 := ne_nil_of_shape hQ hr
  rw [temporalMasking_fin h0] at h
  injection h with h
  have h := finMat_injective h
  subst h
  rw [← rPeak_eq hQ.2 hlam.le (by rw [hQ.1]; exact hm) hl]
  refine ⟨rMask_nonneg hQ.2 hn lam hmyu (by rw [hQ.1]; exact hm) hl, ?_⟩
  cases m with
  | zero => rw [rMask_zero, rPeak_zero]
  | succ m =>
    have hp := rPeak_nonneg hQ.2 hn lam (m := m) (l := l) (by rw [hQ.1]; omega) hl
    rw [rMask_succ hQ.2 lam myu (by rw [hQ.1]; exact hm) hl, rPeak_succ hQ.2 lam (by rw [hQ.1]; exact hm) hl, rMaskStep]
    split_ifs
    · exact le_max_right _ _
    · exact le_max_of_le_left (mul_le_mul_of_nonneg_right hle hp)

/-- In the example, channel 0: `3 ≥ 0.85 * 1` is passed on. Channel 1: `0 < 0.85 * 4`, replaced by `0.2 * 4`. -/
example : ∃ B, temporalMasking (finMat demo) = .ok (finMat B) ∧ Np.at2 B 1 0 = 3 ∧ Np.at2 B 1 1 = 0.8 := by
  obtain ⟨B, h1, -, -, h2⟩ := C55_temporal_masking demo 3 2 demo_shape (by norm_num) 0.85 0.2 (by norm_num)
  refine ⟨B, h1, ?_, ?_⟩
  · rw [h2 0 0 (by norm_num) (by norm_num)]; norm_num [peakSpec, Np.at2, demo]
  · rw [h2 0 1 (by norm_num) (by norm_num)]; norm_num [peakSpec, Np.at2, demo]

/-! ### C56 -/

/-- The channels the code uses for channel `l`: `max(l-N, 1) … min(l+N, nfilts) - 1`. -/
def usedChannels (N nfilts l : ℕ) : Finset ℕ := Finset.Ico (max (l - N) 1) (min (l + N) nfilts)

/-- C56 (what holds): with `nfilts` channels, non-zero `Q` and `N ≥ 1`, the output is the sum of the ratios `R/Q` over
the channels in `usedChannels`, divided by **one more than** their number.
Missing from the full property: division by the number of channels; use of channel 0 and of channel `l+N`. -/
theorem C56_weight_smoothing_partial (R Q : List (List ℝ)) (r nfilts N : ℕ) (hR : HasShape R r nfilts)
    (hQ : HasShape Q r nfilts) (hr : 0 < r) (hN : 1 ≤ N)
    (hq : ∀ m k, m < r → 1 ≤ k → k < nfilts → Np.at2 Q m k ≠ 0) :
    ∃ S, weightSmoothing (finMat R) (finMat Q) nfilts N = .ok (finMat S) ∧ HasShape S r nfilts ∧
      ∀ m l, m < r → l < nfilts → Np.at2 S m l =
        (∑ k ∈ usedChannels N nfilts l, Np.at2 R m k / Np.at2 Q m k) / ((usedChannels N nfilts l).card + 1) := by
  have h0 := ne_nil_of_shape hR hr
  have hlen : R.length = Q.length := by rw [hR.1, hQ.1]
  have hle : ∀ l, l < nfilts → wsLo N l ≤ wsHi N nfilts l := by intro l hl; unfold wsLo wsHi; omega
  refine ⟨_, weightSmoothing_fin hR.2 hQ.2 hlen h0 le_rfl (fun l hl => ?_) (fun m k hm => hq m k (by rw [← hQ.1]; exact hm)),
    ⟨by simp [hR.1], matOf_rect _ _ _⟩, ?_⟩
  · have := hle l hl; omega
  · intro m l hm hl
    rw [at2_matOf _ (by rw [hR.1]; exact hm) hl, rWeight, one_div, inv_mul_eq_div]
    unfold usedChannels
    rw [Nat.card_Ico]
    change _ / _ = _ / (((wsHi N nfilts l - wsLo N l : ℕ) : ℝ) + 1)
    rw [Nat.cast_sub (hle l hl)]
    push_cast
    rfl

/-- C56 (violated): a constant ratio `ρ` is not reproduced; with `n` used channels the output is `ρ n/(n+1)`. -/
theorem C56_constant_ratio (R Q : List (List ℝ)) (r nfilts N : ℕ) (hR : HasShape R r nfilts)
    (hQ : HasShape Q r nfilts) (hr : 0 < r) (hN : 1 ≤ N)
    (hq : ∀ m k, m < r → 1 ≤ k → k < nfilts → Np.at2 Q m k ≠ 0) (ρ : ℝ)
    (hρ : ∀ m k, m < r → k < nfilts → Np.at2 R m k = ρ * Np.at2 Q m k) (S : List (List ℝ))
    (h : weightSmoothing (finMat R) (finMat Q) nfilts N = .ok (finMat S)) (m l : ℕ) (hm : m < r) (hl : l < nfilts) :
    Np.at2 S m l = ρ * ((usedChannels N nfilts l).card / ((usedChannels N nfilts l).card + 1)) ∧
      (ρ ≠ 0 → Np.at2 S m l ≠ ρ) := by
  obtain ⟨S', h1, -, h2⟩ := C56_weight_smoothing_partial R Q r nfilts N hR hQ hr hN hq
  rw [h] at h1; injection h1 with h1
  have h1 := finMat_injective h1
  subst h1
  have hS : Np.at2 S m l = ρ * ((usedChannels N nfilts l).card / ((usedChannels N nfilts l).card + 1)) := by
    rw [h2 m l hm hl]
    have : ∑ k ∈ usedChannels N nfilts l, Np.at2 R m k / Np.at2 Q m k = ∑ _k ∈ usedChannels N nfilts l, ρ := by
      apply Finset.sum_congr rfl
      intro k hk
      unfold usedChannels at hk
      rw [Finset.mem_Ico] at hk
      have hqk := hq m k hm (by omega) (by omega)
      rw [hρ m k hm (by omega), mul_div_assoc, div_self hqk, mul_one]
    rw [this, Finset.sum_const, nsmul_eq_mul]; ring
  refine ⟨hS, fun h0 h3 => ?_⟩
  rw [hS] at h3
  have hpos : ((usedChannels N nfilts l).card : ℝ) + 1 ≠ 0 := by positivity
  have h4 : ((usedChannels N nfilts l).card : ℝ) / ((usedChannels N nfilts l).card + 1) = 1 :=
    mul_left_cancel₀ h0 (by rw [h3, mul_one])
  rw [div_eq_one_iff_eq hpos] at h4
  linarith

/-- C56 (violated): channel 0 never influences the result. -/
theorem C56_channel_zero_unused (R Q R' Q' : List (List ℝ)) (r nfilts N : ℕ) (hR : HasShape R r nfilts)
    (hQ : HasShape Q r nfilts) (hR' : HasShape R' r nfilts) (hQ' : HasShape Q' r nfilts) (hr : 0 < r) (hN : 1 ≤ N)
    (hq : ∀ m k, m < r → 1 ≤ k → k < nfilts → Np.at2 Q m k ≠ 0)
    (heR : ∀ m k, m < r → 1 ≤ k → k < nfilts → Np.at2 R' m k = Np.at2 R m k)
    (heQ : ∀ m k, m < r → 1 ≤ k → k < nfilts → Np.at2 Q' m k = Np.at2 Q m k) :
    weightSmoothing (finMat R') (finMat Q') nfilts N = weightSmoothing (finMat R) (finMat Q) nfilts N := by
  obtain ⟨S, h1, hs, h2⟩ := C56_weight_smoothing_partial R Q r nfilts N hR hQ hr hN hq
  obtain ⟨S', h1', hs', h2'⟩ := C56_weight_smoothing_partial R' Q' r nfilts N hR' hQ' hr hN
    (fun m k hm hk hk' => by rw [heQ m k hm hk hk']; exact hq m k hm hk hk')
  rw [h1, h1']
  congr 2
  apply mat_ext hs'.2 hs.2 (by rw [hs.1, hs'.1])
  intro m l hm hl
  rw [hs'.1] at hm
  rw [h2 m l hm hl, h2' m l hm hl]
  congr 1
  apply Finset.sum_congr rfl
  intro k hk
  unfold usedChannels at hk
  rw [Finset.mem_Ico] at hk
  rw [heR m k hm (by omega) (by omega), heQ m k hm (by omega) (by omega)]

/-- C56: asking for more filters than there are channels raises `IndexError`. -/
theorem C56_too_many_filters (R Q : XMat) (r c nfilts N : ℕ) (hR : HasShape R r c) (hr : 0 < r) (hc : 0 < c)
    (hN : 2 ≤ N) (hcn : c < nfilts) : weightSmoothing R Q nfilts N = .error .indexError := by
  have h0 : R ≠ [] := by intro h; rw [h] at hR; have := hR.1; simp at this; omega
  have hcols : Np.ncols R = c := ncols_of_rect hR.2 h0
  unfold weightSmoothing
  rw [hcols, hR.1]
  have hrow : ∀ m, (List.range c).mapM (fun (l : ℕ) => wsEntry c N nfilts R Q m l) = .error .indexError := by
    intro m
    apply mapM_eq_error
    · intro l hl
      have hl : l < c := by simpa using hl
      unfold wsEntry
      rw [if_neg (by unfold wsLo wsHi; omega)]
      split_ifs
      · exact .inr rfl
      · exact .inl ⟨_, rfl⟩
    · refine ⟨c - 1, by simp; omega, ?_⟩
      unfold wsEntry
      rw [if_neg (by unfold wsLo wsHi; omega), if_pos (by unfold wsLo wsHi; omega)]
  apply mapM_eq_error
  · intro m _; exact .inr (hrow m)
  · exact ⟨0, by simpa using hr, hrow 0⟩

/-- The example: ratio 1 everywhere gives 1/2 (one used channel). -/
example : ∃ S, weightSmoothing (finMat [[1, 4], [3, 2]]) (finMat [[1, 4], [3, 2]]) 2 4 = .ok (finMat S) ∧
    Np.at2 S 0 0 = 1 / 2 := by
  have hsh : HasShape ([[1, 4], [3, 2]] : List (List ℝ)) 2 2 := ⟨rfl, by simp⟩
  have hq : ∀ m k, m < 2 → 1 ≤ k → k < 2 → Np.at2 ([[1, 4], [3, 2]] : List (List ℝ)) m k ≠ 0 := by
    intro m k hm hk hk'
    obtain rfl : k = 1 := by omega
    rcases (by omega : m = 0 ∨ m = 1) with rfl | rfl <;> norm_num [Np.at2]
  obtain ⟨S, h1, -⟩ := C56_weight_smoothing_partial _ _ 2 2 4 hsh hsh (by norm_num) (by norm_num) hq
  refine ⟨S, h1, ?_⟩
  rw [(C56_constant_ratio _ _ 2 2 4 hsh hsh (by norm_num) (by norm_num) hq 1 (by simp) S h1 0 0 (by norm_num)
    (by norm_num)).1]
  simp [usedChannels]; norm_num

/-! ### C57 -/

/-- C57: for non-negative power with at least `nfilts ≥ 1` channels and a forgetting factor in `(0,1]`, the running mean
`μ[0] = 0.0001`, `μ[m] = lam μ[m-1] + (1-lam)/nfilts * Σ_{l<nfilts} T[m,l]` is strictly positive at every frame and the
result is the finite matrix `k T[m,l] / μ[m]`, non-negative for `k ≥ 0`. -/
theorem C57_mean_power (T : List (List ℝ)) (r c nfilts : ℕ) (hT : HasShape T r c) (hr : 0 < r) (hL : 0 < nfilts)
    (hLc : nfilts ≤ c) (lam k : ℝ) (h0 : 0 < lam) (h1 : lam ≤ 1) (hn : NonnegMat T) :
    ∃ (μ : ℕ → ℝ) (U : List (List ℝ)), μ 0 = 0.0001 ∧
      (∀ m, m + 1 < r → μ (m + 1) =
        lam * μ m + (1 - lam) / nfilts * ∑ l ∈ Finset.range nfilts, Np.at2 T (m + 1) l) ∧
      (∀ m, m < r → 0 < μ m) ∧
      meanPowerNormalization (finMat T) lam nfilts k = .ok (finMat U) ∧ HasShape U r c ∧
      (∀ m l, m < r → l < c → Np.at2 U m l = k * Np.at2 T m l / μ m) ∧ (0 ≤ k → NonnegMat U) := by
  have hne := ne_nil_of_shape hT hr
  refine ⟨rMyu lam nfilts T, _, rfl, fun m _ => rfl, fun m _ => rMyu_pos h0 h1 nfilts hn m,
    meanPower_fin k hT.2 hne hLc (.inl hL) (fun m _ => (rMyu_pos h0 h1 nfilts hn m).ne'),
    ⟨by simp [hT.1], matOf_rect _ _ _⟩, ?_, ?_⟩
  · intro m l hm hl; rw [at2_matOf _ (by rw [hT.1]; exact hm) hl]
  · intro hk
    apply nonneg_of_at2 (matOf_rect _ _ _)
    intro i j hi hj
    rw [at2_matOf _ (by simpa using hi) hj]
    exact div_nonneg (mul_nonneg hk (nonneg_at2 hn _ _)) (rMyu_pos h0 h1 nfilts hn i).le

/-- The hypotheses hold for the example with the default parameters. -/
example : ∃ U, meanPowerNormalization (finMat demo) (nfilts := 2) = .ok (finMat U) ∧ Np.at2 U 0 0 = 10000 := by
  obtain ⟨μ, U, h1, -, -, h2, -, h3, -⟩ := C57_mean_power demo 3 2 2 demo_shape (by norm_num) (by norm_num) le_rfl
    0.999 1 (by norm_num) (by norm_num) demo_nonneg
  refine ⟨U, h2, ?_⟩
  rw [h3 0 0 (by norm_num) (by norm_num), h1]; norm_num [Np.at2, demo]

/-- C57: too few channels raise `IndexError` when there are at least two frames. -/
theorem C57_too_few_channels (t t' : List (XF ℝ)) (ts : XMat) (nfilts : ℕ) (hc : t'.length < nfilts) (lam k : ℝ) :
    meanPowerNormalization (t :: t' :: ts) lam nfilts k = .error .indexError := by
  have : nfilts ≠ 0 := by omega
  simp [meanPowerNormalization, myuLoop, this, hc]

/-! ### C58 -/

/-- C58: with a non-negative threshold (default 0) the result has the shape of the input and is non-negative — for
every real input, in particular for every non-negative power. -/
theorem C58_noise_suppression (Q : List (List ℝ)) (r c : ℕ) (hQ : HasShape Q r c) (hr : 0 < r) (t : ℝ) (ht : 0 ≤ t) :
    ∃ R, noiseSuppression (finMat Q) t = .ok (finMat R) ∧ HasShape R r c ∧ NonnegMat R := by
  have h0 := ne_nil_of_shape hQ hr
  refine ⟨_, noiseSuppression_fin hQ.2 h0 t, ⟨by simp [hQ.1], matOf_rect _ _ _⟩, ?_⟩
  apply nonneg_of_at2 (matOf_rect _ _ _)
  intro i j hi hj
  rw [at2_matOf _ (by simpa using hi) hj]
  exact rNoise_nonneg hQ.2 h0 ht (by simpa using hi) hj

/-- C58: for non-negative power the result never exceeds what the channel has shown so far. -/
theorem C58_noise_suppression_le (Q : List (List ℝ)) (r c : ℕ) (hQ : HasShape Q r c) (hr : 0 < r) (hn : NonnegMat Q)
    (t : ℝ) (ht : 0 ≤ t) (R : List (List ℝ)) (h : noiseSuppression (finMat Q) t = .ok (finMat R)) (m l : ℕ) (hm : m < r)
    (hl : l < c) (b : ℝ) (hb : ∀ k, k ≤ m → Np.at2 Q k l ≤ b) : Np.at2 R m l ≤ b := by
  have h0 := ne_nil_of_shape hQ hr
  rw [noiseSuppression_fin hQ.2 h0] at h
  injection h with h
  have h := finMat_injective h
  subst h
  have hlen := hQ.1
  have hq0l : (rQ0 t Q).length = Q.length := rQ0_length t Q
  have hq0 : rQ0 t Q ≠ [] := by
    intro h1; rw [h1] at hq0l; simp at hq0l; omega
  have hr2 := rQ0_rect hQ.2 h0 t
  have hn2 := rQ0_nonneg hQ.2 h0 ht
  have hb0 : 0 ≤ b := le_trans (nonneg_at2 hn m l) (hb m le_rfl)
  have hb2 : ∀ k, k ≤ m → Np.at2 (rQ0 t Q) k l ≤ b := by
    intro k hk
    rw [rQ0, at2_mapMat2 _ hQ.2 (rAsym_rect hQ.2 h0 _ _) (by simp) (by omega) hl, rSub]
    have := (rAsym_bounds hQ.2 h0 (lmA := 0.999) (lmB := 0.5) (by norm_num) (by norm_num) (by norm_num) (by norm_num)
      hn (m := k) (by omega) hl).1
    have := hb k hk
    split_ifs <;> linarith
  have hpeak : ∀ k, k ≤ m → Np.at2 (rPeak 0.85 (rQ0 t Q)) k l ≤ b := by
    intro k
    induction k with
    | zero => intro _; rw [rPeak_zero]; exact hb2 0 (by omega)
    | succ k ih =>
      intro hk
      rw [rPeak_succ hr2 _ (by omega) hl]
      have := ih (by omega)
      exact max_le (by linarith) (hb2 _ hk)
  rw [at2_matOf _ (by omega) hl, rNoise]
  split_ifs
  · cases m with
    | zero => rw [rMask_zero]; exact hb2 0 le_rfl
    | succ m =>
      rw [rMask_succ hr2 _ _ (by omega) hl, rMaskStep]
      split_ifs
      · exact hb2 _ le_rfl
      · have := hpeak m (by omega)
        linarith
  · exact (rAsym_bounds hr2 hq0 (by norm_num) (by norm_num) (by norm_num) (by norm_num) hn2 (by omega) hl).2 b hb2

example : ∃ R, noiseSuppression (finMat demo) = .ok (finMat R) ∧ HasShape R 3 2 ∧ NonnegMat R :=
  C58_noise_suppression demo 3 2 demo_shape (by norm_num) 0 le_rfl

end Props
end Spafe
