import Verif.Lemmas.Yin

/-! Properties C77–C84, C97 and C98: the YIN pitch tracker of `fundamental_frequencies.py`. -/

set_option linter.unusedSectionVars false

namespace Spafe
namespace Props
open Model XF

/-- C77: `compute_difference` returns `min(tau_max, len)` values, and the one at lag `τ` is `Σ_j (x_j - x_{j+τ})²`; it
is not negative, and 0 exactly when the frame repeats after `τ` samples. -/
theorem C77_difference (x : List ℝ) (T : ℕ) :
    (computeDifference x T).length = min T x.length ∧
    ∀ τ < min T x.length,
      (computeDifference x T).getD τ 0 =
        ∑ j ∈ Finset.range (x.length - τ), (x.getD j 0 - x.getD (j + τ) 0) ^ 2 ∧
      0 ≤ (computeDifference x T).getD τ 0 ∧
      ((computeDifference x T).getD τ 0 = 0 ↔ ∀ j, j + τ < x.length → x.getD j 0 = x.getD (j + τ) 0) := by
  rw [computeDifference_nat]
  refine ⟨by simp, fun τ hτ => ?_⟩
  rw [getD_map_range_lt _ _ hτ]
  exact ⟨rfl, yinDiff_nonneg x τ, yinDiff_zero_iff x τ⟩

/-- C77: the value at lag 0 is 0. -/
theorem C77_lag_zero (x : List ℝ) (T : ℕ) (hT : 0 < T) (hx : x ≠ []) : (computeDifference x T).getD 0 1 = 0 := by
  have hl : 0 < x.length := List.length_pos_iff.mpr hx
  rw [computeDifference_nat, getD_map_range_lt _ _ (by omega), yinDiff_zero_iff]
  intro j _; rw [add_zero]

example : computeDifference [1, 2, 4] (2 : ℕ) = [0, 5] := by
  rw [computeDifference_nat]
  simp [List.range_succ, Spec.yinDiff, Finset.sum_range_succ]
  norm_num

/-- C78: for a frame of at least `tau_max ≥ 1` samples the normalised difference has `tau_max` entries and starts with
1. If the frame is not constant, the entry at lag `τ ≥ 1` is `d(τ)` over the mean of `d(1), ..., d(τ)`, a number `≥ 0`
which is 0 exactly when the frame repeats after `τ` samples. If the frame is constant, every later entry is NaN. -/
theorem C78_normalised (x : List ℝ) (T : ℕ) (h1 : 1 ≤ T) (hT : T ≤ x.length) :
    ∃ c, computeCmnd (computeDifference x T) T = .ok c ∧ c.length = T ∧ c.getD 0 nan = fin 1 ∧
      (Spec.NotConst x → ∀ τ < T, τ ≠ 0 →
        ∃ v, c.getD τ nan = fin v ∧ v = Spec.yinDiff x τ / ((∑ j ∈ Finset.range τ, Spec.yinDiff x (j + 1)) / τ) ∧
          0 ≤ v ∧ (v = 0 ↔ Spec.Periodic x τ)) ∧
      (¬ Spec.NotConst x → ∀ τ < T, τ ≠ 0 → c.getD τ nan = nan) := by
  refine ⟨_, cmnd_of_frame x T hT, by rw [cmndList_length]; omega,
    by rw [cmndList_getD x (by omega), if_pos rfl], fun hx τ hτ h0 => ?_, fun hx τ hτ h0 => cmndList_const x hx hτ h0⟩
  have hp := yinCum_pos x hx (Nat.pos_of_ne_zero h0)
  have hτ' : (0 : ℝ) < τ := by exact_mod_cast Nat.pos_of_ne_zero h0
  have e : Spec.yinCmnd x τ = Spec.yinDiff x τ / (Spec.yinCum x τ / τ) := by rw [Spec.yinCmnd, if_neg h0]
  refine ⟨_, cmndList_fin x hx hτ, e, yinCmnd_nonneg x τ, ?_⟩
  rw [e, div_eq_zero_iff, or_iff_left (by positivity), yinDiff_zero_iff]

/-- C78: the normalised difference is unchanged when the frame is multiplied by `c ≠ 0` and shifted by `b`, for
every frame and every `tau_max`. -/
theorem C78_gain (x : List ℝ) (T : ℤ) (c b : ℝ) (hc : c ≠ 0) :
    computeCmnd (computeDifference (x.map fun v => c * v + b) T) T = computeCmnd (computeDifference x T) T := by
  rw [computeDifference_affine, computeCmnd_scale _ (by positivity)]

example : Spec.NotConst [1, 2, 4] := ⟨0, by simp, by simp⟩

/-- C79: on a list with at least `tau_max` entries and for `tau_min ≥ 1`, `get_pitch` returns 0 exactly when no lag in
`[tau_min, tau_max)` is below the threshold. Otherwise it starts at the first such lag, moves on while the next value
is strictly smaller, and stops at a lag inside the range and below the threshold. -/
theorem C79_search (c : List (XF ℝ)) (a T : ℕ) (thr : ℝ) (ha : 1 ≤ a) (hT : T ≤ c.length) :
    ∃ p : ℕ, getPitch c a T thr = .ok (p : ℤ) ∧
      (p = 0 ↔ ∀ t, a ≤ t → t < T → ltb (c.getD t nan) (fin thr) = false) ∧
      (p ≠ 0 → a ≤ p ∧ p < T ∧ ltb (c.getD p nan) (fin thr) = true ∧
        (p + 1 < T → ltb (c.getD (p + 1) nan) (c.getD p nan) = false) ∧
        ∃ t0, a ≤ t0 ∧ t0 ≤ p ∧ ltb (c.getD t0 nan) (fin thr) = true ∧
          (∀ t, a ≤ t → t < t0 → ltb (c.getD t nan) (fin thr) = false) ∧
          ∀ t, t0 ≤ t → t < p → ltb (c.getD (t + 1) nan) (c.getD t nan) = true) := by
  rcases getPitch_spec c T hT thr _ a rfl with ⟨h1, h2⟩ | ⟨t0, p, h1, h2, h3, h4, h5, h6, h7, h8⟩
  · exact ⟨0, h1, ⟨fun _ => h2, fun _ => rfl⟩, fun h => absurd rfl h⟩
  · refine ⟨p, h1, ⟨fun h => by omega, fun h => ?_⟩, fun _ =>
      ⟨by omega, h4, chain_below c t0 p _ h3 h5 h7, h8, t0, h2, h3, h5, h6, h7⟩⟩
    rw [h t0 h2 (by omega)] at h5; cases h5

/-- The search passes over lag 1, enters at lag 2 and walks down to lag 3. -/
example : getPitch [fin 1, fin 2, fin 0.05, fin 0.01, fin 0.5] (1 : ℕ) (5 : ℕ) 0.1 = .ok 3 := by
  obtain ⟨p, hp, h0, h⟩ := C79_search [fin 1, fin 2, fin 0.05, fin 0.01, fin 0.5] 1 5 0.1 le_rfl (by simp)
  have hp0 : p ≠ 0 := fun e => by
    have := h0.mp e 2 (by norm_num) (by norm_num)
    rw [show ([fin 1, fin 2, fin 0.05, fin 0.01, fin 0.5] : List (XF ℝ)).getD 2 nan = fin 0.05 from rfl, ltb_fin] at this
    exact absurd this (by norm_num)
  obtain ⟨h1, h2, h3, h4, t0, h5, h6, h7, h8, h9⟩ := h hp0
  have e1 : ([fin 1, fin 2, fin 0.05, fin 0.01, fin 0.5] : List (XF ℝ)).getD 1 nan = fin 2 := rfl
  have e2 : ([fin 1, fin 2, fin 0.05, fin 0.01, fin 0.5] : List (XF ℝ)).getD 2 nan = fin 0.05 := rfl
  have e3 : ([fin 1, fin 2, fin 0.05, fin 0.01, fin 0.5] : List (XF ℝ)).getD 3 nan = fin 0.01 := rfl
  have e4 : ([fin 1, fin 2, fin 0.05, fin 0.01, fin 0.5] : List (XF ℝ)).getD 4 nan = fin 0.5 := rfl
  have hp3 : p = 3 := by
    obtain rfl | rfl | rfl | rfl : p = 1 ∨ p = 2 ∨ p = 3 ∨ p = 4 := by omega
    · rw [e1, ltb_fin] at h3; exact absurd h3 (by norm_num)
    · have := h4 (by norm_num)
      rw [e3, e2, ltb_fin] at this; exact absurd this (by norm_num)
    · rfl
    · rw [e4, ltb_fin] at h3; exact absurd h3 (by norm_num)
  rw [hp, hp3]; rfl

/-! ### `compute_yin` -/

/-- All entries of a successful `compute_yin`. -/
theorem computeYin_entries (sig : List ℝ) {fs winLen winHop low high thr : ℝ}
    (hv : Spec.YinValid fs winLen winHop low high) (R : YinResult)
    (h : computeYin sig fs winLen winHop low high thr = .ok R) :
    let w := ⌊winLen * fs⌋₊
    let s := ⌊winHop * fs⌋₊
    let n := Spec.yinCount sig.length w s
    R.pitches.length = n ∧ R.harmonicRates.length = n ∧ R.argmins.length = n ∧ R.times.length = n ∧
      ∀ i < n, R.times.getD i 0 = ((i * s : ℕ) : ℝ) / fs ∧
        ∃ r, yinFrame fs ⌊fs / high⌋₊ ⌊fs / low⌋₊ thr (Spec.yinWindow sig w s i) = .ok r ∧
          R.pitches.getD i nan = r.pitch ∧ R.harmonicRates.getD i nan = r.harmonicRate ∧
          R.argmins.getD i nan = r.argmin := by
  obtain ⟨h1, h2, h3, h4, h5⟩ := hv
  rw [computeYin_eq sig h1 h2 h3 h4 h5] at h
  generalize hn : Spec.yinCount sig.length ⌊winLen * fs⌋₊ ⌊winHop * fs⌋₊ = n at h
  rcases hm : ((List.range n).map fun (i : ℕ) => (sig.drop (i * ⌊winHop * fs⌋₊)).take ⌊winLen * fs⌋₊).mapM
      (yinFrame fs ⌊fs / high⌋₊ ⌊fs / low⌋₊ thr) with e | rs
  · rw [hm] at h; cases h
  rw [hm, ok_bind] at h
  injection h with h
  have hl : rs.length = n := by rw [mapM_length _ _ _ hm]; simp
  have hget := List.forall₂_iff_get.mp ((mapM_ok_iff _ _ _).mp hm)
  subst h
  simp only [hn, List.length_map, hl, List.length_range, true_and]
  intro i hi
  refine ⟨by rw [getD_map_range_lt _ _ hi], rs[i]'(by omega), ?_, ?_, ?_, ?_⟩
  · have := hget.2 i (by simpa using hi) (by omega)
    simpa [Spec.yinWindow] using this
  · rw [List.getD_eq_getElem _ _ (by simpa [hl] using hi)]; simp
  · rw [List.getD_eq_getElem _ _ (by simpa [hl] using hi)]; simp
  · rw [List.getD_eq_getElem _ _ (by simpa [hl] using hi)]; simp

/-- C80: `compute_yin` returns four sequences of one length, entry `i` belongs to the window that starts at sample
`i * step`, and there is an entry for `i` exactly when `i * step + window < len`. -/
theorem C80_shape (sig : List ℝ) {fs winLen winHop low high thr : ℝ}
    (hv : Spec.YinValid fs winLen winHop low high) (R : YinResult)
    (h : computeYin sig fs winLen winHop low high thr = .ok R) :
    R.pitches.length = R.times.length ∧ R.harmonicRates.length = R.times.length ∧
      R.argmins.length = R.times.length ∧
      (∀ i, i < R.times.length ↔ i * ⌊winHop * fs⌋₊ + ⌊winLen * fs⌋₊ < sig.length) ∧
      ∀ i < R.times.length, R.times.getD i 0 = ((i * ⌊winHop * fs⌋₊ : ℕ) : ℝ) / fs := by
  obtain ⟨h1, h2, h3, h4, h5⟩ := computeYin_entries sig hv R h
  have hs : 0 < ⌊winHop * fs⌋₊ := Nat.floor_pos.mpr hv.2.2.2.2
  rw [h1, h2, h3, h4]
  exact ⟨rfl, rfl, rfl, fun i => ⟨count_start_lt hs, lt_count hs⟩, fun i hi => (h5 i hi).1⟩

/-- C80: a window that ends exactly at the end of the signal is skipped; a signal of one window gives empty results. -/
theorem C80_last_window_skipped (sig : List ℝ) {fs winLen winHop low high thr : ℝ}
    (hv : Spec.YinValid fs winLen winHop low high) (hl : sig.length = ⌊winLen * fs⌋₊) :
    computeYin sig fs winLen winHop low high thr = .ok ⟨[], [], [], []⟩ := by
  obtain ⟨h1, h2, h3, h4, h5⟩ := hv
  have hs : 0 < ⌊winHop * fs⌋₊ := Nat.floor_pos.mpr h5
  rw [computeYin_eq sig h1 h2 h3 h4 h5]
  have : Spec.yinCount sig.length ⌊winLen * fs⌋₊ ⌊winHop * fs⌋₊ = 0 := by
    by_contra h
    have := count_start_lt hs (Nat.pos_of_ne_zero h)
    omega
  rw [this]; rfl

/-- The defaults at 16 kHz meet `YinValid`: windows of 480 samples, hops of 240, lags 5 to 319. -/
theorem default_valid : Spec.YinValid 16000 0.03 0.015 50 3000 := by
  refine ⟨?_, ?_, ?_, ?_, ?_⟩ <;> norm_num

theorem default_sizes : ⌊(0.03 : ℝ) * 16000⌋₊ = 480 ∧ ⌊(0.015 : ℝ) * 16000⌋₊ = 240 ∧ ⌊(16000 : ℝ) / 3000⌋₊ = 5 ∧
    ⌊(16000 : ℝ) / 50⌋₊ = 320 := by
  refine ⟨?_, ?_, ?_, ?_⟩ <;> rw [Nat.floor_eq_iff (by norm_num)] <;> norm_num

/-- The pitch of one frame is 0 or `fs / p` for a lag `p` in the range. -/
theorem yinFrame_pitch (fs : ℝ) (a T : ℕ) (thr : ℝ) (x : List ℝ) (r : YinFrame)
    (h : yinFrame fs a T thr x = .ok r) :
    r.pitch = fin 0 ∨ ∃ p : ℕ, r.pitch = fin (fs / p) ∧ a ≤ p ∧ p < T ∧ p ≠ 0 := by
  simp only [yinFrame] at h
  rcases hc : computeCmnd (computeDifference x T) T with e | c
  · rw [hc] at h; cases h
  rw [hc, ok_bind] at h
  rcases hp : getPitch c a T thr with e | p
  · rw [hp] at h; cases h
  rw [hp, ok_bind] at h
  have hr := getPitch_range c T thr _ a p rfl hp
  by_cases hp0 : p = 0
  · left
    rw [if_neg (not_not.mpr hp0)] at h
    rcases hm : pyMin c with e | m
    · rw [hm] at h; cases h
    rw [hm, ok_bind] at h
    injection h with h
    rw [← h]
  · right
    rw [if_pos hp0] at h
    rcases hm : pyIdx c p with e | m
    · rw [hm] at h; cases h
    rw [hm, ok_bind] at h
    injection h with h
    rcases hr with hr | hr
    · exact absurd hr hp0
    · refine ⟨p.toNat, ?_, by omega, by omega, by omega⟩
      rw [← h]
      have : ((p.toNat : ℕ) : ℤ) = p := Int.toNat_of_nonneg (by omega)
      have : ((p.toNat : ℕ) : ℝ) = (p : ℝ) := by exact_mod_cast this
      rw [this]

/-- C81, the part that holds: every reported pitch is 0 or above `low_freq` and at most `fs / floor(fs/high_freq)`
(`fs` when that floor is 0), which is less than one lag away from `high_freq`; it is at most `high_freq` when
`fs / high_freq` is a whole number. Missing: the bound `high_freq` itself, see `C81_violated`. -/
theorem C81_range_partial (sig : List ℝ) {fs winLen winHop low high thr : ℝ}
    (hv : Spec.YinValid fs winLen winHop low high) (R : YinResult)
    (h : computeYin sig fs winLen winHop low high thr = .ok R) (i : ℕ) (hi : i < R.pitches.length) :
    ∃ f : ℝ, R.pitches.getD i nan = fin f ∧ (f = 0 ∨
      (low < f ∧ f ≤ fs ∧ (1 ≤ ⌊fs / high⌋₊ → f ≤ fs / ⌊fs / high⌋₊) ∧
        (∀ m : ℕ, m ≠ 0 → fs = m * high → f ≤ high))) := by
  obtain ⟨h1, h2, h3, h4, h5⟩ := computeYin_entries sig hv R h
  obtain ⟨hfs, hlow, hhigh, -, -⟩ := hv
  rw [h1] at hi
  obtain ⟨-, r, hr, hp, -, -⟩ := h5 i hi
  rw [hp]
  rcases yinFrame_pitch _ _ _ _ _ r hr with h0 | ⟨p, hp, ha, hT, hp0⟩
  · exact ⟨0, h0, Or.inl rfl⟩
  · refine ⟨_, hp, Or.inr ⟨?_, ?_, fun h1 => ?_, fun m hm0 hm => ?_⟩⟩
    · have hpp : (0 : ℝ) < p := by exact_mod_cast Nat.pos_of_ne_zero hp0
      have h6 : ((p + 1 : ℕ) : ℝ) ≤ fs / low := (Nat.le_floor_iff (by positivity)).mp hT
      rw [le_div_iff₀ hlow] at h6
      push_cast at h6
      rw [lt_div_iff₀ hpp]
      linarith
    · have hpp : (1 : ℝ) ≤ p := by exact_mod_cast Nat.pos_of_ne_zero hp0
      exact div_le_self hfs.le hpp
    · have hpp : (0 : ℝ) < (⌊fs / high⌋₊ : ℝ) := by exact_mod_cast h1
      exact div_le_div_of_nonneg_left hfs.le hpp (by exact_mod_cast ha)
    · have hmp : (0 : ℝ) < m := by exact_mod_cast Nat.pos_of_ne_zero hm0
      have : ⌊fs / high⌋₊ = m := by
        rw [hm, mul_div_assoc, div_self hhigh.ne', mul_one, Nat.floor_natCast]
      rw [this] at ha
      have hpm : (m : ℝ) ≤ p := by exact_mod_cast ha
      rw [div_le_iff₀ (by linarith), hm]
      nlinarith

/-- C82: neither a gain `c ≠ 0` nor a constant offset `b` changes anything in the result, for all arguments. -/
theorem C82_affine (sig : List ℝ) (fs winLen winHop low high thr c b : ℝ) (hc : c ≠ 0) :
    computeYin (sig.map fun v => c * v + b) fs winLen winHop low high thr =
      computeYin sig fs winLen winHop low high thr := by
  unfold computeYin
  rw [List.length_map]
  simp only [pySlice_map]
  split_ifs
  · rfl
  · congr 1
    funext scale
    congr 1
    rw [List.mapM_map, List.mapM_map]
    congr 1
    funext t
    exact yinFrame_affine _ _ _ _ c b hc _

/-- C82: in particular a gain alone. -/
theorem C82_gain (sig : List ℝ) (fs winLen winHop low high thr c : ℝ) (hc : c ≠ 0) :
    computeYin (sig.map (c * ·)) fs winLen winHop low high thr = computeYin sig fs winLen winHop low high thr := by
  rw [← C82_affine sig fs winLen winHop low high thr c 0 hc]
  simp

theorem yinFrame_const (fs : ℝ) (a T : ℕ) (thr : ℝ) (x : List ℝ) (hx : ¬ Spec.NotConst x) (hT : T ≤ x.length)
    (ha : 1 ≤ a) : yinFrame fs a T thr x = .ok ⟨fin 0, fin 1, fin 0⟩ := by
  simp only [yinFrame]
  rw [cmnd_of_frame x T hT, ok_bind]
  have hl : T ≤ (cmndList x T).length := by rw [cmndList_length]; omega
  have hp : getPitch (cmndList x T) a T thr = .ok 0 := by
    rcases getPitch_spec (cmndList x T) T hl thr _ a rfl with ⟨h, -⟩ | ⟨t0, p, h1, h2, h3, h4, h5, -⟩
    · exact h
    · rw [cmndList_const x hx (by omega) (by omega)] at h5
      cases h5
  rw [hp, ok_bind, if_neg (by simp), pyMin_const x hx, ok_bind]
  congr 2
  have ham : argminX (cmndList x T) ≤ 1 := by
    rcases Nat.lt_or_ge T 2 with h | h
    · have hl1 : (cmndList x T).length = 1 := by rw [cmndList_length]; omega
      rw [argminX, hl1]
      simp
    · rw [argminX_const x hx T h]
  rw [if_neg (by omega)]

/-- C83: a constant signal, silence in particular, is reported as unvoiced in every window: pitch 0, harmonic rate 1
and argmin 0, without error. The window must hold `tau_max` samples and `high_freq` be at most `fs`. -/
theorem C83_silence (sig : List ℝ) (v : ℝ) (hsig : ∀ x ∈ sig, x = v) {fs winLen winHop low high thr : ℝ}
    (hv : Spec.YinValid fs winLen winHop low high) (hw : ⌊fs / low⌋₊ ≤ ⌊winLen * fs⌋₊) (hh : high ≤ fs) :
    ∃ R n, computeYin sig fs winLen winHop low high thr = .ok R ∧
      n = Spec.yinCount sig.length ⌊winLen * fs⌋₊ ⌊winHop * fs⌋₊ ∧
      R.pitches = List.replicate n (fin 0) ∧ R.harmonicRates = List.replicate n (fin 1) ∧
      R.argmins = List.replicate n (fin 0) := by
  obtain ⟨h1, h2, h3, h4, h5⟩ := hv
  have hs : 0 < ⌊winHop * fs⌋₊ := Nat.floor_pos.mpr h5
  rw [computeYin_eq sig h1 h2 h3 h4 h5]
  have ha : 1 ≤ ⌊fs / high⌋₊ := Nat.floor_pos.mpr ((le_div_iff₀ h3).mpr (by linarith))
  generalize hn : Spec.yinCount sig.length ⌊winLen * fs⌋₊ ⌊winHop * fs⌋₊ = n
  rw [mapM_ok _ (fun _ => ⟨fin 0, fin 1, fin 0⟩)]
  · refine ⟨_, n, rfl, rfl, ?_⟩
    simp [Function.comp_def, List.map_const']
  · intro x hx
    obtain ⟨i, hi, rfl⟩ := List.mem_map.mp hx
    have hi := List.mem_range.mp hi
    refine yinFrame_const _ _ _ _ _ ?_ (by rw [frame_length sig hs (by rw [hn]; exact hi)]; exact hw) ha
    rintro ⟨j, hj, hne⟩
    apply hne
    have hall : ∀ k < ((sig.drop (i * ⌊winHop * fs⌋₊)).take ⌊winLen * fs⌋₊).length,
        ((sig.drop (i * ⌊winHop * fs⌋₊)).take ⌊winLen * fs⌋₊).getD k 0 = v := fun k hk =>
      hsig _ (List.mem_of_mem_drop (List.mem_of_mem_take (getD_mem 0 hk)))
    rw [hall _ hj, hall j (by omega)]

/-- With the default arguments at 16 kHz. -/
example (n : ℕ) : ∃ R, computeYin (List.replicate n 0) 16000 0.03 0.015 50 3000 0.1 = .ok R ∧
    ∀ p ∈ R.pitches, p = fin 0 := by
  obtain ⟨R, m, hR, -, hp, -⟩ := C83_silence (List.replicate n 0) 0 (fun x hx => List.eq_of_mem_replicate hx)
    (thr := 0.1) default_valid (by rw [default_sizes.1, default_sizes.2.2.2]; norm_num) (by norm_num)
  exact ⟨R, hR, fun p h => by rw [hp] at h; exact List.eq_of_mem_replicate h⟩

/-- The pitch of a periodic frame. -/
theorem yinFrame_periodic (fs : ℝ) (a T P : ℕ) (thr : ℝ) (hthr : 0 < thr) (x : List ℝ) (hx : Spec.NotConst x)
    (hP : Spec.Periodic x P) (ha : 1 ≤ a) (haP : a ≤ P) (hPT : P < T) (hT : T ≤ x.length) :
    ∃ r, yinFrame fs a T thr x = .ok r ∧ ∃ p : ℕ, a ≤ p ∧ p ≤ P ∧ r.pitch = fin (fs / p) ∧
      Spec.yinCmnd x p < thr ∧ r.harmonicRate = fin (Spec.yinCmnd x p) ∧
      ((∀ τ, a ≤ τ → τ < P → thr ≤ Spec.yinCmnd x τ) → p = P) := by
  have hl : T ≤ (cmndList x T).length := by rw [cmndList_length]; omega
  have hzero : Spec.yinCmnd x P = 0 := by
    rw [Spec.yinCmnd, if_neg (by omega), (yinDiff_zero_iff x P).mpr hP, zero_div]
  have hfin : ∀ τ < T, (cmndList x T).getD τ nan = fin (Spec.yinCmnd x τ) := fun τ hτ => cmndList_fin x hx hτ
  rcases getPitch_spec (cmndList x T) T hl thr _ a rfl with ⟨-, h⟩ | ⟨t0, p, h1, h2, h3, h4, h5, h6, h7, h8⟩
  · have := h P haP hPT
    rw [hfin P hPT, hzero, ltb_fin] at this
    simp at this
    linarith
  · have ht0 : t0 ≤ P := by
      by_contra hlt
      have := h6 P haP (by omega)
      rw [hfin P hPT, hzero, ltb_fin] at this
      simp at this
      linarith
    have hpP : p ≤ P := by
      by_contra hlt
      have := h7 P ht0 (by omega)
      rw [hfin _ (by omega), hfin _ hPT, hzero, ltb_fin] at this
      have h0 := yinCmnd_nonneg x (P + 1)
      simp at this
      linarith
    have hbelow := chain_below _ t0 p _ h3 h5 h7
    rw [hfin p h4, ltb_fin] at hbelow
    have hbelow : Spec.yinCmnd x p < thr := by simpa using hbelow
    refine ⟨⟨fin (fs / p), fin (Spec.yinCmnd x p), ?_⟩, ?_, p, by omega, hpP, rfl, hbelow, rfl, fun hall => ?_⟩
    · exact if (a : ℤ) < (argminX (cmndList x T) : ℤ) then fin fs / fin (argminX (cmndList x T) : ℝ) else fin 0
    · simp only [yinFrame]
      rw [cmnd_of_frame x T hT, ok_bind, h1, ok_bind, if_pos (by omega), pyIdx_nat _ nan (by omega), ok_bind, hfin p h4]
      simp
    · by_contra hne
      have := hall p (by omega) (by omega)
      linarith

/-- C84: if a window is not constant and repeats after `P` samples with `tau_min ≤ P < tau_max`, a pitch is reported
for it, of at least `fs / P`, with a harmonic rate below the threshold; it is exactly `fs / P` when the normalised
difference stays at or above the threshold for all shorter lags. -/
theorem C84_periodic (sig : List ℝ) {fs winLen winHop low high thr : ℝ}
    (hv : Spec.YinValid fs winLen winHop low high) (hthr : 0 < thr) (R : YinResult)
    (h : computeYin sig fs winLen winHop low high thr = .ok R) (i : ℕ) (hi : i < R.pitches.length)
    (hT : ⌊fs / low⌋₊ ≤ ⌊winLen * fs⌋₊) (hh : high ≤ fs) (P : ℕ) (h1 : ⌊fs / high⌋₊ ≤ P) (h2 : P < ⌊fs / low⌋₊)
    (hx : Spec.NotConst (Spec.yinWindow sig ⌊winLen * fs⌋₊ ⌊winHop * fs⌋₊ i))
    (hP : Spec.Periodic (Spec.yinWindow sig ⌊winLen * fs⌋₊ ⌊winHop * fs⌋₊ i) P) :
    ∃ f u : ℝ, R.pitches.getD i nan = fin f ∧ fs / P ≤ f ∧ R.harmonicRates.getD i nan = fin u ∧ 0 ≤ u ∧ u < thr ∧
      ((∀ τ, ⌊fs / high⌋₊ ≤ τ → τ < P →
        thr ≤ Spec.yinCmnd (Spec.yinWindow sig ⌊winLen * fs⌋₊ ⌊winHop * fs⌋₊ i) τ) → f = fs / P ∧ u = 0) := by
  obtain ⟨h3, -, -, -, h5⟩ := computeYin_entries sig hv R h
  obtain ⟨hfs, hlow, hhigh, -, hs⟩ := hv
  have hs' : 0 < ⌊winHop * fs⌋₊ := Nat.floor_pos.mpr hs
  rw [h3] at hi
  obtain ⟨-, r, hr, hp, hu, -⟩ := h5 i hi
  have ha : 1 ≤ ⌊fs / high⌋₊ := Nat.floor_pos.mpr ((le_div_iff₀ hhigh).mpr (by linarith))
  obtain ⟨r', hr', p, hp1, hp2, hp3, hp4, hp5, hp6⟩ := yinFrame_periodic fs _ _ P thr hthr _ hx hP ha h1 h2
    (by rw [Spec.yinWindow, frame_length sig hs' hi]; exact hT)
  rw [hr] at hr'
  injection hr' with hr'
  subst hr'
  have hpp : (0 : ℝ) < p := by exact_mod_cast (by omega : 0 < p)
  refine ⟨_, _, hp.trans hp3, div_le_div_of_nonneg_left hfs.le hpp (by exact_mod_cast hp2), hu.trans hp5,
    yinCmnd_nonneg _ _, hp4, fun hall => ?_⟩
  have hpP := hp6 hall
  subst hpP
  exact ⟨rfl, by rw [Spec.yinCmnd, if_neg (by omega), (yinDiff_zero_iff _ _).mpr hP, zero_div]⟩

/-- C97: with windows of at least `tau_max` samples (`win_len * fs ≥ fs / low_freq`) `compute_yin` succeeds on every
signal. -/
theorem C97_defined (sig : List ℝ) {fs winLen winHop low high thr : ℝ}
    (hv : Spec.YinValid fs winLen winHop low high) (hT : ⌊fs / low⌋₊ ≤ ⌊winLen * fs⌋₊) :
    ∃ R, computeYin sig fs winLen winHop low high thr = .ok R := by
  obtain ⟨h1, h2, h3, h4, h5⟩ := hv
  have hs : 0 < ⌊winHop * fs⌋₊ := Nat.floor_pos.mpr h5
  rw [computeYin_eq sig h1 h2 h3 h4 h5]
  classical
  rw [mapM_ok _ (fun x => if hx : ⌊fs / low⌋₊ ≤ x.length then (yinFrame_ok fs ⌊fs / high⌋₊ _ thr x hx).choose
    else ⟨nan, nan, nan⟩)]
  · exact ⟨_, rfl⟩
  · intro x hx
    obtain ⟨i, hi, rfl⟩ := List.mem_map.mp hx
    have hl := frame_length sig hs (List.mem_range.mp hi)
    have hx' : ⌊fs / low⌋₊ ≤ ((sig.drop (i * ⌊winHop * fs⌋₊)).take ⌊winLen * fs⌋₊).length := by rw [hl]; exact hT
    rw [dif_pos hx']
    exact (yinFrame_ok fs ⌊fs / high⌋₊ _ thr _ hx').choose_spec

/-- C97: with windows shorter than `tau_max` (but of 3 samples or more) every signal with at least one window raises a
bare `ValueError` from the shape mismatch in `compute_cmnd`. -/
theorem C97_short_window (sig : List ℝ) {fs winLen winHop low high thr : ℝ}
    (hv : Spec.YinValid fs winLen winHop low high) (h3w : 3 ≤ ⌊winLen * fs⌋₊)
    (hT : ⌊winLen * fs⌋₊ < ⌊fs / low⌋₊) (hsig : ⌊winLen * fs⌋₊ < sig.length) :
    computeYin sig fs winLen winHop low high thr = .error .valueError := by
  obtain ⟨h1, h2, h3, h4, h5⟩ := hv
  have hs : 0 < ⌊winHop * fs⌋₊ := Nat.floor_pos.mpr h5
  rw [computeYin_eq sig h1 h2 h3 h4 h5]
  have hn : 0 < Spec.yinCount sig.length ⌊winLen * fs⌋₊ ⌊winHop * fs⌋₊ := lt_count hs (by omega)
  have herr : ∀ i < Spec.yinCount sig.length ⌊winLen * fs⌋₊ ⌊winHop * fs⌋₊,
      yinFrame fs ⌊fs / high⌋₊ ⌊fs / low⌋₊ thr ((sig.drop (i * ⌊winHop * fs⌋₊)).take ⌊winLen * fs⌋₊) =
        .error .valueError := fun i hi => by
    have hl := frame_length sig hs hi
    exact yinFrame_short _ _ _ _ _ (by rw [hl]; exact hT) (by rw [hl]; exact h3w)
  rw [mapM_eq_error _ .valueError]
  · rfl
  · intro x hx
    obtain ⟨i, hi, rfl⟩ := List.mem_map.mp hx
    exact Or.inr (herr i (List.mem_range.mp hi))
  · exact ⟨_, List.mem_map.mpr ⟨0, List.mem_range.mpr hn, rfl⟩, herr 0 hn⟩

/-- The defaults meet the first condition; `low_freq = 30` at 16 kHz meets the second one (533 lags, 480 samples). -/
example : ⌊(16000 : ℝ) / 50⌋₊ ≤ ⌊(0.03 : ℝ) * 16000⌋₊ := by rw [default_sizes.1, default_sizes.2.2.2]; norm_num

example : ⌊(0.03 : ℝ) * 16000⌋₊ < ⌊(16000 : ℝ) / 30⌋₊ := by
  rw [default_sizes.1]
  exact (Nat.le_floor_iff (by norm_num)).mpr (by norm_num)

/-- C97: a zero frequency raises `ZeroDivisionError`, a hop below one sample `ValueError`. -/
theorem C97_errors (sig : List ℝ) (fs winLen winHop low high thr : ℝ) :
    ((low = 0 ∨ high = 0) → computeYin sig fs winLen winHop low high thr = .error .zeroDivisionError) ∧
    (low ≠ 0 → high ≠ 0 → |winHop * fs| < 1 →
      computeYin sig fs winLen winHop low high thr = .error .valueError) := by
  refine ⟨fun h => by rw [computeYin, if_pos h.symm], fun h1 h2 h3 => ?_⟩
  have h0 : pyInt (winHop * fs) = 0 := by
    rw [abs_lt] at h3
    unfold pyInt
    split_ifs with h
    · exact Int.floor_eq_iff.mpr ⟨by simpa using h, by simpa using h3.2⟩
    · exact Int.ceil_eq_iff.mpr ⟨by simpa using h3.1, by simpa using (not_le.mp h).le⟩
  rw [computeYin, if_neg (by rintro (h | h) <;> contradiction)]
  simp only [h0]
  rw [pyRangeStep, if_pos rfl]
  rfl

/-- C98: entry `i` of the result depends on the samples of its own window only: if two signals agree there, and both
calls succeed, the two entries agree. -/
theorem C98_local (sig sig' : List ℝ) {fs winLen winHop low high thr : ℝ}
    (hv : Spec.YinValid fs winLen winHop low high) (R R' : YinResult)
    (h : computeYin sig fs winLen winHop low high thr = .ok R)
    (h' : computeYin sig' fs winLen winHop low high thr = .ok R') (i : ℕ) (hi : i < R.pitches.length)
    (hi' : i < R'.pitches.length)
    (heq : ∀ j < ⌊winLen * fs⌋₊,
      sig.getD (i * ⌊winHop * fs⌋₊ + j) 0 = sig'.getD (i * ⌊winHop * fs⌋₊ + j) 0) :
    R.pitches.getD i nan = R'.pitches.getD i nan ∧ R.harmonicRates.getD i nan = R'.harmonicRates.getD i nan ∧
      R.argmins.getD i nan = R'.argmins.getD i nan := by
  obtain ⟨h1, -, -, -, h2⟩ := computeYin_entries sig hv R h
  obtain ⟨h1', -, -, -, h2'⟩ := computeYin_entries sig' hv R' h'
  have hs : 0 < ⌊winHop * fs⌋₊ := Nat.floor_pos.mpr hv.2.2.2.2
  rw [h1] at hi
  rw [h1'] at hi'
  obtain ⟨-, r, hr, ha, hb, hc⟩ := h2 i hi
  obtain ⟨-, r', hr', ha', hb', hc'⟩ := h2' i hi'
  have hwin : Spec.yinWindow sig ⌊winLen * fs⌋₊ ⌊winHop * fs⌋₊ i =
      Spec.yinWindow sig' ⌊winLen * fs⌋₊ ⌊winHop * fs⌋₊ i := by
    refine ext_getD 0 ?_ fun j hj => ?_
    · rw [Spec.yinWindow, Spec.yinWindow, frame_length sig hs hi, frame_length sig' hs hi']
    · rw [Spec.yinWindow, frame_length sig hs hi] at hj
      rw [Spec.yinWindow, Spec.yinWindow, getD_take_lt _ _ hj, getD_take_lt _ _ hj, getD_drop', getD_drop', heq j hj]
  rw [hwin, hr'] at hr
  injection hr with hr
  subst hr
  exact ⟨ha.trans ha'.symm, hb.trans hb'.symm, hc.trans hc'.symm⟩

/-- A 5-periodic pulse train of 481 samples. -/
noncomputable def pulses : List ℝ := (List.range 481).map fun (n : ℕ) => if n % 5 = 0 then 1 else 0

/-- C81, violated: with the default arguments at 16 kHz a pulse train with period 5 is reported at 3200 Hz, above
`high_freq = 3000`. -/
theorem C81_violated :
    ∃ R, computeYin pulses 16000 0.03 0.015 50 3000 0.1 = .ok R ∧ R.pitches = [fin 3200] ∧
      ¬ ∀ p ∈ R.pitches, ltb (fin 3000) p = false := by
  obtain ⟨hw, hs, ha, hT⟩ := default_sizes
  obtain ⟨R, hR⟩ := C97_defined pulses (thr := 0.1) default_valid (by rw [hw, hT]; norm_num)
  have hlen : pulses.length = 481 := by simp [pulses]
  obtain ⟨h1, -⟩ := computeYin_entries pulses default_valid R hR
  rw [hw, hs, hlen] at h1
  have hn : R.pitches.length = 1 := h1
  have hwin : Spec.yinWindow pulses 480 240 0 = (List.range 480).map fun (n : ℕ) => if n % 5 = 0 then 1 else 0 := by
    rw [Spec.yinWindow, Nat.zero_mul, List.drop_zero, pulses, ← List.map_take, List.take_range]; rfl
  have hget : ∀ j, j < 480 → (Spec.yinWindow pulses 480 240 0).getD j 0 = if j % 5 = 0 then 1 else 0 := fun j hj => by
    rw [hwin, getD_map_range_lt _ _ hj]
  have hwl : (Spec.yinWindow pulses 480 240 0).length = 480 := by rw [hwin, List.length_map, List.length_range]
  obtain ⟨f, u, hf, hle, -, -, -, hex⟩ := C84_periodic pulses default_valid (by norm_num) R hR 0 (by omega)
    (by rw [hw, hT]; norm_num) (by norm_num) 5 (by rw [ha]) (by rw [hT]; norm_num)
    (by rw [hw, hs]; exact ⟨0, by rw [hwl]; norm_num, by rw [hget 0 (by norm_num), hget 1 (by norm_num)]; norm_num⟩)
    (by
      rw [hw, hs]
      intro j hj
      rw [hwl] at hj
      rw [hget j (by omega), hget (j + 5) hj, Nat.add_mod_right])
  have hf5 : f = 3200 := by
    rw [(hex fun τ h1 h2 => by rw [ha] at h1; omega).1]; norm_num
  subst hf5
  have hpit : R.pitches = [fin 3200] := by
    refine ext_getD nan (by simpa using hn) fun i hi => ?_
    rw [show i = 0 by omega, hf]; rfl
  refine ⟨R, hR, hpit, fun hall => ?_⟩
  have := hall (fin 3200) (by rw [hpit]; simp)
  rw [ltb_fin] at this
  exact absurd this (by norm_num)

end Props
end Spafe
