import Verif.Props.PnccMeaning

/-! C133: `pncc` and the recording level. -/

set_option linter.unusedSectionVars false

namespace Spafe
namespace Props
open Model XF Spec

/-! ### The stages under gain -/

theorem mediumTime_gain (G : ℝ) (T : ℕ) (p : ℕ → ℝ) (m : ℕ) : mediumTime T (fun i => G * p i) m = G * mediumTime T p m := by
  unfold mediumTime
  rw [← Finset.mul_sum, mul_div_assoc]

theorem follow_gain {G : ℝ} (hG : 0 < G) (e x : ℝ) : follow (G * e) (G * x) = G * follow e x := by
  unfold follow
  by_cases h : e ≤ x
  · rw [if_pos h, if_pos (mul_le_mul_of_nonneg_left h hG.le)]; ring
  · rw [if_neg h, if_neg (fun h' => h (le_of_mul_le_mul_left h' hG))]; ring

theorem envelope_gain {G : ℝ} (hG : 0 < G) (T : ℕ) (q : ℕ → ℝ) :
    ∀ m, envelope T (fun i => G * q i) m = G * envelope T q m
  | 0 => by
    rw [envelope, envelope, ← follow_gain hG]
    congr 1
    split_ifs <;> ring
  | m + 1 => by rw [envelope, envelope, envelope_gain hG T q m, follow_gain hG]

theorem excess_gain {G : ℝ} (hG : 0 < G) (T : ℕ) (q : ℕ → ℝ) (m : ℕ) :
    excess T 0 (fun i => G * q i) m = G * excess T 0 q m := by
  unfold excess
  rw [envelope_gain hG, ← mul_sub]
  by_cases h : q m - envelope T q m < 0
  · rw [if_pos h, if_pos (mul_neg_of_pos_of_neg hG h), mul_zero]
  · rw [if_neg h, if_neg (not_lt.mpr (mul_nonneg hG.le (not_lt.mp h)))]

theorem decayingPeak_gain {G : ℝ} (hG : 0 < G) (q : ℕ → ℝ) :
    ∀ m, decayingPeak (fun i => G * q i) m = G * decayingPeak q m
  | 0 => rfl
  | m + 1 => by
    rw [decayingPeak, decayingPeak, decayingPeak_gain hG q m, mul_max_of_nonneg _ _ hG.le]
    congr 1
    ring

theorem masked_gain {G : ℝ} (hG : 0 < G) (q : ℕ → ℝ) : ∀ m, masked (fun i => G * q i) m = G * masked q m
  | 0 => rfl
  | m + 1 => by
    rw [masked, masked, decayingPeak_gain hG]
    have e : 0.85 * (G * decayingPeak q m) = G * (0.85 * decayingPeak q m) := by ring
    by_cases h : 0.85 * decayingPeak q m ≤ q (m + 1)
    · rw [if_pos h, if_pos (by rw [e]; exact mul_le_mul_of_nonneg_left h hG.le)]
    · rw [if_neg h, if_neg (by rw [e]; exact fun h' => h (le_of_mul_le_mul_left h' hG))]; ring

theorem suppressed_gain {G : ℝ} (hG : 0 < G) (T : ℕ) (q : ℕ → ℝ) (m : ℕ) :
    suppressed T 0 (fun i => G * q i) m = G * suppressed T 0 q m := by
  unfold suppressed
  have e : excess T 0 (fun i => G * q i) = fun i => G * excess T 0 q i := funext (excess_gain hG T q)
  rw [e, masked_gain hG, envelope_gain hG, envelope_gain hG]
  have e2 : 2 * (G * envelope T q m) = G * (2 * envelope T q m) := by ring
  by_cases h : 2 * envelope T q m ≤ q m
  · rw [if_pos h, if_pos (by rw [e2]; exact mul_le_mul_of_nonneg_left h hG.le)]
  · rw [if_neg h, if_neg (by rw [e2]; exact fun h' => h (le_of_mul_le_mul_left h' hG))]

theorem weighted_gain {G : ℝ} (hG : 0 < G) (T L : ℕ) (P : ℕ → ℕ → ℝ) (m l : ℕ) :
    weighted T L (fun i n => G * P i n) m l = G * weighted T L P m l := by
  unfold weighted
  have e : (fun k => suppressed T 0 (mediumTime T fun i => G * P i k) m / mediumTime T (fun i => G * P i k) m) =
      fun k => suppressed T 0 (mediumTime T fun i => P i k) m / mediumTime T (fun i => P i k) m := by
    funext k
    have e1 : (mediumTime T fun i => G * P i k) = fun j => G * mediumTime T (fun i => P i k) j :=
      funext (mediumTime_gain G T fun i => P i k)
    rw [e1, suppressed_gain hG, mul_div_mul_left _ _ hG.ne']
  rw [e, mul_assoc]

/-! ### The stages do not go below zero -/

theorem mediumTime_nonneg {T : ℕ} {p : ℕ → ℝ} (h : ∀ i, 0 ≤ p i) (m : ℕ) : 0 ≤ mediumTime T p m :=
  div_nonneg (Finset.sum_nonneg fun i _ => h i) (by norm_num)

theorem follow_nonneg {e x : ℝ} (he : 0 ≤ e) (hx : 0 ≤ x) : 0 ≤ follow e x := by
  unfold follow
  split_ifs <;> positivity

theorem envelope_nonneg {T : ℕ} {q : ℕ → ℝ} (h : ∀ i, 0 ≤ q i) : ∀ m, 0 ≤ envelope T q m
  | 0 => by
    refine follow_nonneg ?_ (h 0)
    have := h 0
    split_ifs <;> positivity
  | m + 1 => follow_nonneg (envelope_nonneg h m) (h _)

theorem excess_nonneg (T : ℕ) (q : ℕ → ℝ) (m : ℕ) : 0 ≤ excess T 0 q m := by
  unfold excess
  split_ifs with h
  · exact le_rfl
  · exact not_lt.mp h

theorem decayingPeak_nonneg {q : ℕ → ℝ} (h : ∀ i, 0 ≤ q i) : ∀ m, 0 ≤ decayingPeak q m
  | 0 => h 0
  | m + 1 => le_max_of_le_right (h _)

theorem masked_nonneg {q : ℕ → ℝ} (h : ∀ i, 0 ≤ q i) : ∀ m, 0 ≤ masked q m
  | 0 => h 0
  | m + 1 => by
    rw [masked]
    have := decayingPeak_nonneg h m
    split_ifs
    · exact h _
    · positivity

theorem suppressed_nonneg {T : ℕ} (q : ℕ → ℝ) (m : ℕ) : 0 ≤ suppressed T 0 q m := by
  unfold suppressed
  split_ifs
  · exact masked_nonneg (excess_nonneg T q) m
  · exact envelope_nonneg (excess_nonneg T q) m

theorem weighted_nonneg {T L : ℕ} {P : ℕ → ℕ → ℝ} (h : ∀ i n, 0 ≤ P i n) (m l : ℕ) : 0 ≤ weighted T L P m l := by
  unfold weighted smoothWeight
  refine mul_nonneg (h _ _) (div_nonneg (Finset.sum_nonneg fun k _ => ?_) (by positivity))
  exact div_nonneg (suppressed_nonneg _ _) (mediumTime_nonneg (fun i => h i k) m)

/-! ### The running mean -/

/-- The part of the running mean that comes from the signal. -/
noncomputable def meanFromSignal (L : ℕ) (t : ℕ → ℕ → ℝ) : ℕ → ℝ
  | 0 => 0
  | m + 1 => 0.999 * meanFromSignal L t m + 0.001 * ((∑ l ∈ Finset.range L, t (m + 1) l) / L)

theorem runningMean_split (L : ℕ) (t : ℕ → ℕ → ℝ) : ∀ m, runningMean L t m = 0.0001 * 0.999 ^ m + meanFromSignal L t m
  | 0 => by rw [runningMean, meanFromSignal]; norm_num
  | m + 1 => by rw [runningMean, meanFromSignal, runningMean_split L t m]; ring

theorem meanFromSignal_gain (G : ℝ) (L : ℕ) (t : ℕ → ℕ → ℝ) :
    ∀ m, meanFromSignal L (fun i l => G * t i l) m = G * meanFromSignal L t m
  | 0 => by rw [meanFromSignal, meanFromSignal, mul_zero]
  | m + 1 => by rw [meanFromSignal, meanFromSignal, meanFromSignal_gain G L t m, ← Finset.mul_sum]; ring

theorem meanFromSignal_nonneg {L : ℕ} {t : ℕ → ℕ → ℝ} (h : ∀ i l, 0 ≤ t i l) : ∀ m, 0 ≤ meanFromSignal L t m
  | 0 => le_rfl
  | m + 1 => by
    rw [meanFromSignal]
    have h1 := meanFromSignal_nonneg (L := L) h m
    have h2 : 0 ≤ (∑ l ∈ Finset.range L, t (m + 1) l) / (L : ℝ) :=
      div_nonneg (Finset.sum_nonneg fun l _ => h _ _) (by positivity)
    positivity

theorem meanFromSignal_ge {L : ℕ} {t : ℕ → ℕ → ℝ} {p : ℝ} (m : ℕ)
    (h : ∀ i, 1 ≤ i → i ≤ m → p ≤ (∑ l ∈ Finset.range L, t i l) / L) : p * (1 - 0.999 ^ m) ≤ meanFromSignal L t m := by
  induction m with
  | zero => rw [meanFromSignal]; norm_num
  | succ m ih =>
    rw [meanFromSignal, pow_succ]
    have h1 := ih fun i h1 h2 => h i h1 (by omega)
    have h2 := h (m + 1) (by omega) le_rfl
    nlinarith

/-- The factor between the two runs in frame `m`, to the power 15: `G (c + s) / (c + G s)` with `c = 0.0001 * 0.999^m`
left from the start value and `s` from the signal. -/
noncomputable def levelRatio (G : ℝ) (s : ℕ → ℝ) (m : ℕ) : ℝ :=
  G * (0.0001 * 0.999 ^ m + s m) / (0.0001 * 0.999 ^ m + G * s m)

theorem start_pos (m : ℕ) : (0 : ℝ) < 0.0001 * 0.999 ^ m := by positivity

theorem levelRatio_pos {G : ℝ} (hG : 0 < G) {s : ℕ → ℝ} (hs : ∀ m, 0 ≤ s m) (m : ℕ) : 0 < levelRatio G s m := by
  have h1 := start_pos m
  have h2 := hs m
  unfold levelRatio
  positivity

theorem levelRatio_zero {G : ℝ} {s : ℕ → ℝ} (hs : s 0 = 0) : levelRatio G s 0 = G := by
  unfold levelRatio
  rw [hs]
  norm_num

theorem levelRatio_sub {G : ℝ} (hG : 0 < G) {s : ℕ → ℝ} (hs : ∀ m, 0 ≤ s m) (m : ℕ) :
    levelRatio G s m - 1 = (G - 1) * (0.0001 * 0.999 ^ m) / (0.0001 * 0.999 ^ m + G * s m) := by
  have h1 := start_pos m
  have h2 := hs m
  unfold levelRatio
  rw [eq_div_iff (by positivity), sub_mul, div_mul_cancel₀ _ (by positivity)]
  ring

theorem levelRatio_step {G : ℝ} (hG : 0 < G) {s : ℕ → ℝ} (hs : ∀ m, 0 ≤ s m) (hstep : ∀ m, 0.999 * s m ≤ s (m + 1)) (m : ℕ) :
    |levelRatio G s (m + 1) - 1| ≤ |levelRatio G s m - 1| := by
  have h1 := start_pos m
  have h2 := hs m
  have h3 := hs (m + 1)
  have h4 := hstep m
  rw [levelRatio_sub hG hs, levelRatio_sub hG hs, abs_div, abs_div, abs_mul (G - 1), abs_mul (G - 1),
    abs_of_pos (a := 0.0001 * 0.999 ^ m + G * s m) (by positivity),
    abs_of_pos (a := 0.0001 * 0.999 ^ (m + 1) + G * s (m + 1)) (by positivity), abs_of_pos (start_pos m),
    abs_of_pos (start_pos (m + 1)), div_le_div_iff₀ (by positivity) (by positivity)]
  have : (0.0001 : ℝ) * 0.999 ^ (m + 1) * (0.0001 * 0.999 ^ m + G * s m) ≤
      0.0001 * 0.999 ^ m * (0.0001 * 0.999 ^ (m + 1) + G * s (m + 1)) := by
    rw [pow_succ]
    have := mul_le_mul_of_nonneg_left h4 (mul_pos h1 hG).le
    linarith
  have := mul_le_mul_of_nonneg_left this (abs_nonneg (G - 1))
  linarith

theorem frameBin_gain (g : ℝ) (w y : ℕ → ℝ) (l s nfft i k : ℕ) :
    frameBin w (fun t => g * y t) l s nfft i k = g * frameBin w y l s nfft i k := by
  unfold frameBin
  rw [Finset.mul_sum]
  refine Finset.sum_congr rfl fun j _ => ?_
  push_cast
  ring

theorem emphasised_gain (g : ℝ) (on : Bool) (c : ℝ) (x : List ℝ) :
    emphasised on c (x.map (g * ·)) = fun t => g * emphasised on c x t := by
  have e : ∀ t, (x.map (g * ·)).getD t 0 = g * x.getD t 0 := by
    intro t
    by_cases h : t < x.length
    · exact getD_map_lt (g * ·) x 0 0 h
    · rw [List.getD_eq_default _ _ (by simpa using h), List.getD_eq_default _ _ (by simpa using h), mul_zero]
  funext t
  unfold emphasised
  rw [e, e]
  split_ifs <;> ring

theorem bandPower_gain (g : ℝ) {power : ℝ} (fb : List (List ℝ)) (w y : ℕ → ℝ) (l s nfft i n : ℕ) :
    bandPower power fb w (fun t => g * y t) l s nfft i n = |g| ^ power * bandPower power fb w y l s nfft i n := by
  unfold bandPower
  rw [Finset.mul_sum]
  refine Finset.sum_congr rfl fun k _ => ?_
  rw [frameBin_gain, norm_mul, Complex.norm_real, Real.norm_eq_abs, Real.mul_rpow (abs_nonneg _) (norm_nonneg _)]
  ring

theorem Setup.gain {a : Args} {fb : List (List ℝ)} {sig : List ℝ} {l s : ℕ} (h : Setup a fb sig l s) (g : ℝ) :
    Setup a fb (sig.map (g * ·)) l s :=
  { h with
    long := by rw [List.length_map]; exact h.long
    samples := fun p e => h.samples p (List.map_eq_nil_iff.mp e) }

theorem dctII_smul (N : ℕ) (c : ℝ) (y : ℕ → ℝ) (k : ℕ) : dctII N (fun n => c * y n) k = c * dctII N y k := by
  unfold dctII
  have e : ∑ n ∈ Finset.range N, c * y n * Real.cos (Real.pi * k * (2 * n + 1) / (2 * N)) =
      c * ∑ n ∈ Finset.range N, y n * Real.cos (Real.pi * k * (2 * n + 1) / (2 * N)) := by
    rw [Finset.mul_sum]
    exact Finset.sum_congr rfl fun n _ => by ring
  simp only [e]
  ring

/-- One frame under gain `G` (of the powers): every band is multiplied by the fifteenth root of the level ratio. -/
theorem pnccBand_gain {G : ℝ} (hG : 0 < G) (T L : ℕ) {P : ℕ → ℕ → ℝ} (hP : ∀ i n, 0 ≤ P i n) (m l : ℕ) :
    pnccBand T L (fun i n => G * P i n) m l =
      levelRatio G (meanFromSignal L (weighted T L P)) m ^ (1 / 15 : ℝ) * pnccBand T L P m l := by
  have hw : weighted T L (fun i n => G * P i n) = fun i n => G * weighted T L P i n := by
    funext i n; exact weighted_gain hG T L P i n
  have hnn := weighted_nonneg (T := T) (L := L) hP
  have hs := meanFromSignal_nonneg (L := L) hnn m
  have h0 := start_pos m
  unfold pnccBand
  rw [hw, runningMean_split, runningMean_split, meanFromSignal_gain, ← Real.mul_rpow
    (levelRatio_pos hG (meanFromSignal_nonneg hnn) m).le (div_nonneg (hnn m l) (by positivity))]
  congr 1
  unfold levelRatio
  rw [div_mul_div_comm, div_eq_div_iff (by positivity) (by positivity)]
  ring

/-- C133: multiplying the signal by `g` multiplies row `i` of `pncc` by one positive number `κ i`. In the first row it is
`|g| ^ (power / 15)`: the output is not level independent, because the running mean power starts from the constant 0.0001.
From there it moves towards 1: never to the other side of 1, never away from 1; and with a mean weighted power of at least
`p` it is within `0.0001 * 0.999^i / (p * (1 - 0.999^i))` of 1 (in the fifteenth power) after `i` frames, whatever the
amplification. -/
theorem C133_gain (a : Args) (power : ℝ) (hp : 0 < power) (fb : List (List ℝ)) (sig : List ℝ) (l s : ℕ)
    (h : Setup a fb sig l s) (hf : fb.length = a.nfilts)
    (hd : a.dctType = 2) (hl : a.lifter = none) (hn : a.normalize = none) (R : ℕ) (hR : R = (sig.length - l) / s + 1)
    (P : ℕ → ℕ → ℝ) (hP : P = bandPower power fb (windowWeight a.win.winType l)
      (emphasised a.preEmph a.preEmphCoeff sig) l s a.nfft)
    (hpos : ∀ i n, i < R → 1 ≤ n → n < fb.length → 0 < mediumTime R (fun j => P j n) i) (g : ℝ) (hg : g ≠ 0) :
    ∃ (m m' : XMat) (κ : ℕ → ℝ), pncc a power sig = .ok m ∧ pncc a power (sig.map (g * ·)) = .ok m' ∧
      HasShape m R (min a.numCeps fb.length) ∧ HasShape m' R (min a.numCeps fb.length) ∧
      (∀ i k, i < R → k < min a.numCeps fb.length →
        ∃ v, (m.getD i []).getD k nan = fin v ∧ (m'.getD i []).getD k nan = fin (κ i * v)) ∧
      κ 0 = |g| ^ (power / 15) ∧ (∀ i, 0 < κ i) ∧ (1 ≤ |g| → ∀ i, 1 ≤ κ i) ∧ (|g| ≤ 1 → ∀ i, κ i ≤ 1) ∧
      (∀ i, |κ (i + 1) ^ 15 - 1| ≤ |κ i ^ 15 - 1|) ∧
      ∀ i p, 1 ≤ i → 0 < p → 1 ≤ |g| →
        (∀ j, 1 ≤ j → j ≤ i → p ≤ (∑ n ∈ Finset.range fb.length, weighted R fb.length P j n) / fb.length) →
        κ i ^ 15 - 1 ≤ 0.0001 * 0.999 ^ i / (p * (1 - 0.999 ^ i)) := by
  have hG : 0 < |g| ^ power := Real.rpow_pos_of_pos (abs_pos.mpr hg) _
  have hnn : ∀ i n, 0 ≤ P i n := fun i n => by rw [hP]; exact bandPower_nonneg h.nonneg ..
  have hwn := weighted_nonneg (T := R) (L := fb.length) hnn
  have hPg : (fun i n => |g| ^ power * P i n) = bandPower power fb (windowWeight a.win.winType l)
      (emphasised a.preEmph a.preEmphCoeff (sig.map (g * ·))) l s a.nfft := by
    funext i n
    rw [emphasised_gain, bandPower_gain, hP]
  obtain ⟨m, hm, hms, hmv⟩ := C106_pncc_meaning a power hp fb sig l s h hf hd hl hn R hR P hP hpos
  obtain ⟨m', hm', hms', hmv'⟩ := C106_pncc_meaning a power hp fb (sig.map (g * ·)) l s (h.gain g) hf hd hl hn R
    (by rw [List.length_map]; exact hR) _ hPg (fun i n h1 h2 h3 => by
      rw [mediumTime_gain (|g| ^ power) R fun j => P j n]
      exact mul_pos hG (hpos i n h1 h2 h3))
  obtain ⟨S, hS⟩ : ∃ S, S = meanFromSignal fb.length (weighted R fb.length P) := ⟨_, rfl⟩
  have hs0 : ∀ i, 0 ≤ S i := fun i => by rw [hS]; exact meanFromSignal_nonneg hwn i
  have hpow : ∀ i, (levelRatio (|g| ^ power) S i ^ (1 / 15 : ℝ)) ^ 15 = levelRatio (|g| ^ power) S i := by
    intro i
    rw [← Real.rpow_natCast, ← Real.rpow_mul (levelRatio_pos hG hs0 i).le]
    norm_num
  refine ⟨m, m', fun i => levelRatio (|g| ^ power) S i ^ (1 / 15 : ℝ), hm, hm', hms, hms', ?_, ?_, ?_, ?_, ?_, ?_, ?_⟩
  · intro i k hi hk
    refine ⟨_, hmv i k hi hk, ?_⟩
    rw [hmv' i k hi hk, ← dctII_smul, hS]
    congr 2
    funext n
    exact pnccBand_gain hG R fb.length hnn i n
  · simp only
    rw [levelRatio_zero (by rw [hS, meanFromSignal]), ← Real.rpow_mul (abs_nonneg g)]
    congr 1
    ring
  · exact fun i => Real.rpow_pos_of_pos (levelRatio_pos hG hs0 i) _
  · intro h1 i
    have hG1 : 1 ≤ |g| ^ power := Real.one_le_rpow h1 hp.le
    refine Real.one_le_rpow ?_ (by norm_num)
    have := levelRatio_sub hG hs0 i
    have h2 := start_pos i
    have h3 := hs0 i
    have h4 : 0 ≤ (|g| ^ power - 1) * (0.0001 * 0.999 ^ i) / (0.0001 * 0.999 ^ i + |g| ^ power * S i) :=
      div_nonneg (mul_nonneg (by linarith) h2.le) (by positivity)
    linarith
  · intro h1 i
    have hG1 : |g| ^ power ≤ 1 := Real.rpow_le_one (abs_nonneg g) h1 hp.le
    refine Real.rpow_le_one (levelRatio_pos hG hs0 i).le ?_ (by norm_num)
    have := levelRatio_sub hG hs0 i
    have h2 := start_pos i
    have h3 := hs0 i
    have h4 : (|g| ^ power - 1) * (0.0001 * 0.999 ^ i) / (0.0001 * 0.999 ^ i + |g| ^ power * S i) ≤ 0 :=
      div_nonpos_of_nonpos_of_nonneg (mul_nonpos_of_nonpos_of_nonneg (by linarith) h2.le) (by positivity)
    linarith
  · intro i
    simp only [hpow]
    refine levelRatio_step hG hs0 (fun j => ?_) i
    rw [hS, meanFromSignal]
    have : 0 ≤ (∑ n ∈ Finset.range fb.length, weighted R fb.length P (j + 1) n) / (fb.length : ℝ) :=
      div_nonneg (Finset.sum_nonneg fun n _ => hwn _ _) (by positivity)
    linarith
  · intro i p hi hp0 hg1 hmean
    simp only [hpow]
    rw [levelRatio_sub hG hs0]
    have hG1 : 1 ≤ |g| ^ power := Real.one_le_rpow hg1 hp.le
    have h2 := start_pos i
    have h3 : p * (1 - 0.999 ^ i) ≤ S i := by rw [hS]; exact meanFromSignal_ge i hmean
    have h4 : (0 : ℝ) < 1 - 0.999 ^ i := by
      have : (0.999 : ℝ) ^ i < 1 := pow_lt_one₀ (by norm_num) (by norm_num) (by omega)
      linarith
    have h5 : 0 < p * (1 - 0.999 ^ i) := mul_pos hp0 h4
    have h6 := hs0 i
    rw [div_le_div_iff₀ (by positivity) h5]
    have h7 : (|g| ^ power - 1) * (p * (1 - 0.999 ^ i)) ≤ 0.0001 * 0.999 ^ i + |g| ^ power * S i := by
      have := mul_le_mul_of_nonneg_left h3 (by linarith : 0 ≤ |g| ^ power - 1)
      linarith
    have := mul_le_mul_of_nonneg_left h7 h2.le
    linarith

/-- With at least two frames and two channels, the first frame keeps a positive weight in every band. -/
theorem weighted_first_pos {T L : ℕ} (hT : 2 ≤ T) (hL : 2 ≤ L) {P : ℕ → ℕ → ℝ} (hP : ∀ i n, 0 ≤ P i n)
    (hpos : ∀ n, 1 ≤ n → n < L → 0 < mediumTime T (fun j => P j n) 0) {l : ℕ} (hl : l < L) (h0 : 0 < P 0 l) :
    0 < weighted T L P 0 l := by
  unfold weighted smoothWeight
  refine mul_pos h0 (div_pos (Finset.sum_pos (fun k hk => ?_) ?_) (by positivity))
  · rw [weightChannels, Finset.mem_Ico] at hk
    have hq := hpos k (by omega) (by omega)
    refine div_pos ?_ hq
    generalize mediumTime T (fun i => P i k) = q at hq
    have henv : envelope T q 0 = 0.001 * q 0 := by
      rw [envelope, if_neg (by omega), follow, if_pos hq.le]; ring
    have hexc : excess T 0 q 0 = 0.999 * q 0 := by
      rw [excess, henv, if_neg (by linarith)]; ring
    rw [suppressed, if_pos (by rw [henv]; linarith), masked, hexc]
    positivity
  · exact ⟨max (l - 4) 1, by rw [weightChannels, Finset.mem_Ico]; omega⟩

/-- C133: `pncc` is never level independent: with any signal of at least two frames whose first frame is not silent in
every band, changing the level changes the output. -/
theorem C133_level_dependent (a : Args) (power : ℝ) (hp : 0 < power) (fb : List (List ℝ)) (sig : List ℝ) (l s : ℕ)
    (h : Setup a fb sig l s) (hf : fb.length = a.nfilts)
    (hd : a.dctType = 2) (hl : a.lifter = none) (hn : a.normalize = none) (R : ℕ) (hR : R = (sig.length - l) / s + 1)
    (P : ℕ → ℕ → ℝ) (hP : P = bandPower power fb (windowWeight a.win.winType l)
      (emphasised a.preEmph a.preEmphCoeff sig) l s a.nfft)
    (hpos : ∀ i n, i < R → 1 ≤ n → n < fb.length → 0 < mediumTime R (fun j => P j n) i)
    (hR2 : 2 ≤ R) (hc : 1 ≤ a.numCeps) (h2 : 2 ≤ fb.length) (n : ℕ) (hnl : n < fb.length) (hfirst : 0 < P 0 n) (g : ℝ)
    (hg : g ≠ 0) (hg1 : |g| ≠ 1) : pncc a power (sig.map (g * ·)) ≠ pncc a power sig := by
  obtain ⟨m, m', κ, hm, hm', -, -, hv, h0, -⟩ := C133_gain a power hp fb sig l s h hf hd hl hn R hR P hP hpos g hg
  obtain ⟨m2, hm2, -, hv2⟩ := C106_pncc_meaning a power hp fb sig l s h hf hd hl hn R hR P hP hpos
  have hnn : ∀ i n, 0 ≤ P i n := fun i n => by rw [hP]; exact bandPower_nonneg h.nonneg ..
  rw [hm, hm']
  intro heq
  injection heq with heq
  rw [hm] at hm2
  injection hm2 with hm2
  subst hm2 heq
  have hk : 0 < min a.numCeps fb.length := by omega
  obtain ⟨v, e1, e2⟩ := hv 0 0 (by omega) hk
  rw [e1] at e2
  rw [hv2 0 0 (by omega) hk] at e1
  injection e1 with e1
  injection e2 with e2
  have hmean : 0 < runningMean fb.length (weighted R fb.length P) 0 := by rw [runningMean]; norm_num
  have hwn := weighted_nonneg (T := R) (L := fb.length) hnn
  have hvpos : 0 < v := by
    rw [← e1, dctII]
    have hN : (0 : ℝ) < fb.length := by exact_mod_cast (by omega : 0 < fb.length)
    refine mul_pos (mul_pos (Real.sqrt_pos.mpr (by positivity)) (by rw [if_pos rfl]; positivity)) ?_
    refine Finset.sum_pos' (fun j _ => ?_) ⟨n, Finset.mem_range.mpr hnl, ?_⟩
    · simp only [Nat.cast_zero, mul_zero, zero_mul, zero_div, Real.cos_zero, mul_one]
      exact Real.rpow_nonneg (div_nonneg (hwn _ _) hmean.le) _
    · simp only [Nat.cast_zero, mul_zero, zero_mul, zero_div, Real.cos_zero, mul_one]
      exact Real.rpow_pos_of_pos (div_pos (weighted_first_pos hR2 h2 hnn (fun k h1 h3 => hpos 0 k (by omega) h1 h3) hnl
        hfirst) hmean) _
  have hκ : κ 0 = 1 := by
    have : (κ 0 - 1) * v = 0 := by linarith
    rcases mul_eq_zero.mp this with h | h
    · linarith
    · exact absurd h hvpos.ne'
  rw [h0] at hκ
  have hq : (0 : ℝ) < power / 15 := by positivity
  rcases lt_or_gt_of_ne hg1 with hlt | hgt
  · exact absurd hκ (Real.rpow_lt_one (abs_nonneg g) hlt hq).ne
  · exact absurd hκ (Real.one_lt_rpow hgt hq).ne'

/-- Doubling the three samples 5, 1, 4 changes the output. -/
example : pncc demo2 2 ([5, 1, 4].map (2 * ·)) ≠ pncc demo2 2 [5, 1, 4] := by
  refine C133_level_dependent demo2 2 (by norm_num) _ _ 2 1 demo2_setup rfl rfl rfl rfl 2 rfl _ rfl demo2_pos le_rfl
    (by decide) le_rfl 1 (by decide) demo2_first 2 (by norm_num) (by norm_num)

end Props
end Spafe
