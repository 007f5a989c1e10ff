import Verif.Props.RoundingPncc
import Verif.Props.PnccContinuous
import Verif.Props.RoundingRoot
import Verif.Model.RoundingPnccAll

/-! C203: `pncc` in floating point, from the signal to the coefficients. -/

set_option linter.unusedSectionVars false

namespace Spafe
namespace Props
open Model XF Spec

variable {u v ω δ : ℝ} {fl : ℝ → ℝ} {fft : (ℕ → ℝ) → ℕ → ℂ} {abs : ℂ → ℝ} {wv : ℕ → ℝ}

/-! ### The recursions look only at the past -/

theorem flEnvelope_congr {T : ℕ} {q q' : ℕ → ℝ} : ∀ {m : ℕ}, (∀ i ≤ m, q i = q' i) → flEnvelope fl T q m = flEnvelope fl T q' m
  | 0, h => by rw [flEnvelope, flEnvelope, h 0 le_rfl]
  | m + 1, h => by
    rw [flEnvelope, flEnvelope, flEnvelope_congr (fun i hi => h i (by omega)), h (m + 1) le_rfl]

theorem flExcess_congr {T : ℕ} {q q' : ℕ → ℝ} {m : ℕ} (h : ∀ i ≤ m, q i = q' i) : flExcess fl T q m = flExcess fl T q' m := by
  unfold flExcess
  rw [flEnvelope_congr h, h m le_rfl]

theorem flPeak_congr {q q' : ℕ → ℝ} : ∀ {m : ℕ}, (∀ i ≤ m, q i = q' i) → flPeak fl q m = flPeak fl q' m
  | 0, h => by rw [flPeak, flPeak, h 0 le_rfl]
  | m + 1, h => by rw [flPeak, flPeak, flPeak_congr (fun i hi => h i (by omega)), h (m + 1) le_rfl]

theorem flMasked_congr {q q' : ℕ → ℝ} {m : ℕ} (h : ∀ i ≤ m, q i = q' i) : flMasked fl q m = flMasked fl q' m := by
  cases m with
  | zero => rw [flMasked, flMasked, h 0 le_rfl]
  | succ m => rw [flMasked, flMasked, flPeak_congr (fun i hi => h i (by omega)), h (m + 1) le_rfl]

theorem flSuppressed_congr {T : ℕ} {q q' : ℕ → ℝ} {m : ℕ} (h : ∀ i ≤ m, q i = q' i) :
    flSuppressed fl T q m = flSuppressed fl T q' m := by
  have he : ∀ i ≤ m, flExcess fl T q i = flExcess fl T q' i := fun i hi => flExcess_congr fun j hj => h j (by omega)
  unfold flSuppressed
  rw [flEnvelope_congr h, h m le_rfl, flMasked_congr he, flEnvelope_congr he]

/-! ### The exact weights are positive -/

theorem follow_pos {e x : ℝ} (he : 0 < e) (hx : 0 ≤ x) : 0 < follow e x := by
  unfold follow
  split_ifs <;> nlinarith

theorem excess_zero_pos {T : ℕ} {q : ℕ → ℝ} (h : 0 < q 0) : 0 < excess T 0 q 0 := by
  have h1 : envelope T q 0 < q 0 := by
    rw [envelope, follow]
    split_ifs <;> linarith
  rw [excess, if_neg (by linarith)]
  linarith

theorem envelope_pos {T : ℕ} {q : ℕ → ℝ} (h0 : 0 < q 0) (h : ∀ i, 0 ≤ q i) : ∀ m, 0 < envelope T q m
  | 0 => by
    rw [envelope, follow]
    split_ifs <;> linarith
  | m + 1 => follow_pos (envelope_pos h0 h m) (h _)

theorem decayingPeak_pos {q : ℕ → ℝ} (h0 : 0 < q 0) : ∀ m, 0 < decayingPeak q m
  | 0 => h0
  | m + 1 => lt_max_of_lt_left (mul_pos (by norm_num) (decayingPeak_pos h0 m))

theorem masked_pos {q : ℕ → ℝ} (h0 : 0 < q 0) (m : ℕ) : 0 < masked q m := by
  cases m with
  | zero => exact h0
  | succ m =>
    have := decayingPeak_pos h0 m
    rw [masked]
    split_ifs <;> linarith

/-- The suppression never returns 0 once the first frame has power. -/
theorem suppressed_pos {T : ℕ} {q : ℕ → ℝ} (h0 : 0 < q 0) (m : ℕ) : 0 < suppressed T 0 q m := by
  unfold suppressed
  split_ifs
  · exact masked_pos (excess_zero_pos h0) m
  · exact envelope_pos (excess_zero_pos h0) (excess_nonneg T q) m

/-! ### The smoothed weights -/

theorem weightChannels_eq (L l : ℕ) (f : ℕ → ℝ) : ∑ k ∈ weightChannels L l, f k =
    ∑ k ∈ Finset.range (min (l + 4) L - max (l - 4) 1), f (max (l - 4) 1 + k) := by
  rw [weightChannels, Finset.sum_Ico_eq_sum_range]

/-- **C203**, the smoothed weights: at most ten more roundings, so quotients known to a relative precision give weights known to
practically the same precision. -/
theorem C203_weight (h : Rounding u fl) {L l : ℕ} {ρ ρ' : ℕ → ℝ} {g r : ℝ} (hg : 1 ≤ g) (h0 : ∀ k, 1 ≤ k → k < L → 0 ≤ ρ k)
    (hρ : ∀ k, 1 ≤ k → k < L → Near g (ρ' k) (ρ k)) (hr : FlWeight fl L ρ' l r) :
    Near ((1 + u) ^ 11 * g) r (smoothWeight L ρ l) := by
  have hu0 := h.nonneg
  have h1u : 1 ≤ 1 + u := by linarith
  obtain ⟨s, hs, rfl⟩ := hr
  obtain ⟨N, hN⟩ : ∃ N, N = min (l + 4) L - max (l - 4) 1 := ⟨_, rfl⟩
  obtain ⟨b, hb⟩ : ∃ b, b = max (l - 4) 1 := ⟨_, rfl⟩
  rw [← hN, ← hb] at hs
  rw [← hN]
  have e1 : (0 : ℝ) :: (List.range N).map (fun (k : ℕ) => ρ' (b + k)) =
      (List.range (N + 1)).map (fun (k : ℕ) => if k = 0 then 0 else ρ' (b + (k - 1))) := by
    rw [List.range_succ_eq_map, List.map_cons, List.map_map]
    simp [Function.comp_def]
  rw [e1] at hs
  have a1 := near_sum h hg (t := fun (k : ℕ) => if k = 0 then 0 else ρ (b + (k - 1))) (fun k hk => by
      beta_reduce
      split_ifs with hk0
      · exact le_rfl
      · exact h0 _ (by omega) (by omega)) (fun k hk => by
      split_ifs with hk0
      · exact (Near.refl 0).mono hg
      · exact hρ _ (by omega) (by omega)) hs
  have e2 : ∑ k ∈ Finset.range (N + 1), (if k = 0 then 0 else ρ (b + (k - 1))) = ∑ k ∈ weightChannels L l, ρ k := by
    rw [Finset.sum_range_succ', weightChannels_eq, ← hN, ← hb]
    simp
  rw [e2] at a1
  have a2 : Near (1 + u) (fl (1 / ((N + 1 : ℕ) : ℝ))) (1 / ((N + 1 : ℕ) : ℝ)) := by
    simpa using near_round h (Near.refl (1 / ((N + 1 : ℕ) : ℝ)))
  have a3 := near_round h (Near.mul h1u (one_le_mul_of_one_le_of_one_le (one_le_pow₀ h1u) hg) a2 a1)
  have e3 : smoothWeight L ρ l = 1 / ((N + 1 : ℕ) : ℝ) * ∑ k ∈ weightChannels L l, ρ k := by
    unfold smoothWeight
    rw [show (weightChannels L l).card = N by rw [weightChannels, Nat.card_Ico, hN]]
    push_cast
    ring
  rw [e3]
  refine Near.mono ?_ a3
  have a4 : (1 + u) ^ (N + 1) ≤ (1 + u) ^ 9 := pow_le_pow_right₀ h1u (by omega)
  calc (1 + u) * ((1 + u) * ((1 + u) ^ (N + 1) * g)) = (1 + u) ^ 2 * g * (1 + u) ^ (N + 1) := by ring
    _ ≤ (1 + u) ^ 2 * g * (1 + u) ^ 9 := mul_le_mul_of_nonneg_left a4 (by positivity)
    _ = (1 + u) ^ 11 * g := by ring

/-! ### From the band powers to the normalised powers -/

theorem mediumTime_le {T : ℕ} {p : ℕ → ℝ} {B : ℝ} (hB : 0 ≤ B) (h : ∀ i < T, p i ≤ B) (m : ℕ) : mediumTime T p m ≤ B := by
  unfold mediumTime
  rw [div_le_iff₀ (by norm_num)]
  calc ∑ i ∈ Finset.Ico (m - 2) (min T (m + 3)), p i ≤ ∑ _i ∈ Finset.Ico (m - 2) (min T (m + 3)), B :=
        Finset.sum_le_sum fun i hi => h i (by rw [Finset.mem_Ico] at hi; omega)
    _ = ((min T (m + 3) - (m - 2) : ℕ) : ℝ) * B := by rw [Finset.sum_const, Nat.card_Ico, nsmul_eq_mul]
    _ ≤ 5 * B := mul_le_mul_of_nonneg_right (by exact_mod_cast (by omega : min T (m + 3) - (m - 2) ≤ 5)) hB
    _ = B * 5 := by ring

theorem mediumTime_pos {T : ℕ} {p : ℕ → ℝ} (h : ∀ i, 0 ≤ p i) {m : ℕ} (hm : m < T) (h0 : 0 < p m) : 0 < mediumTime T p m :=
  div_pos (Finset.sum_pos' (fun i _ => h i) ⟨m, by rw [Finset.mem_Ico]; omega, h0⟩) (by norm_num)

/-- What has to be known of the exact band powers `P` (frames `i < R`, channels `l < L`) for the decisions of the noise suppression
to be the same in floating point: `B k` bounds the powers of channel `k`; in every frame the two comparisons are decided by more than
the rounding errors, and the suppressed power is not below the rounding errors of its channel (to a relative precision `δ`). `g` is
the relative precision of the computed band powers. -/
structure ResolvedPowers (u g δ : ℝ) (R L : ℕ) (P : ℕ → ℕ → ℝ) (B : ℕ → ℝ) : Prop where
  pos : ∀ i < R, ∀ k < L, 0 < P i k
  bound : ∀ k, 1 ≤ k → k < L → ∀ i < R, P i k ≤ B k
  switch : ∀ k, 1 ≤ k → k < L → ∀ m < R, 3.1 * (((1 + u) ^ 7 * g - 1) * B k) + 16410 * u * B k <
    |mediumTime R (fun i => P i k) m - 2 * envelope R (mediumTime R fun i => P i k) m|
  mask : ∀ k, 1 ≤ k → k < L → ∀ m, m + 1 < R →
    2 * envelope R (mediumTime R fun i => P i k) (m + 1) ≤ mediumTime R (fun i => P i k) (m + 1) →
    3.76 * (((1 + u) ^ 7 * g - 1) * B k) + 15280 * u * B k <
      |excess R 0 (mediumTime R fun i => P i k) (m + 1) - 0.85 * decayingPeak (excess R 0 (mediumTime R fun i => P i k)) m|
  heard : ∀ k, 1 ≤ k → k < L → ∀ m < R, 2.05 * (((1 + u) ^ 7 * g - 1) * B k) + 16490 * u * B k ≤
    δ * suppressed R 0 (mediumTime R fun i => P i k) m

/-- The relative precision of power times weight. -/
noncomputable def weightedGrowth (u g δ : ℝ) : ℝ := (1 + u) * (g * ((1 + u) ^ 11 * ((1 + u) * ((1 + δ) / (2 - (1 + u) ^ 7 * g)))))

/-- The relative precision of the normalised power of frame `m`. -/
noncomputable def normalizedGrowth (u G : ℝ) (L m : ℕ) : ℝ :=
  (1 + u) ^ 2 * G / (2 - (1 + u) ^ (3 * m + L + 2) * (1 + 1001 * u) * G)

theorem flMean_extend {L R : ℕ} (hL : 0 < L) {T t : ℕ → ℕ → ℝ} {μ : ℕ → ℝ} (ht : ∀ m < R, ∀ l < L, t m l = T m l)
    (h : FlMeanPowerUpTo fl L R T μ) : ∃ ν, FlMeanPower fl L t ν ∧ ∀ m < R, ν m = μ m := by
  have hs : ∀ m, ∃ s, FlSum fl ((List.range L).map (t m)) s := by
    intro m
    obtain ⟨N, rfl⟩ : ∃ N, L = N + 1 := ⟨L - 1, by omega⟩
    rw [List.range_succ_eq_map, List.map_cons]
    exact flSum_exists ..
  choose s hs using hs
  let ν : ℕ → ℝ := fun m => Nat.rec (μ 0)
    (fun m p => if m + 1 < R then μ (m + 1) else fl (fl (fl 0.999 * p) + fl (fl (fl (1 - fl 0.999) / L) * s (m + 1)))) m
  have hν : ∀ m < R, ν m = μ m := by
    intro m hm
    cases m with
    | zero => rfl
    | succ m => exact if_pos hm
  refine ⟨ν, ⟨h.1, fun m => ?_⟩, hν⟩
  by_cases hm : m + 1 < R
  · obtain ⟨s', h1, h2⟩ := h.2 m hm
    refine ⟨s', ?_, ?_⟩
    · rwa [List.map_congr_left fun l hl => ht (m + 1) hm l (List.mem_range.mp hl)]
    · rw [hν m (by omega), hν (m + 1) hm]
      exact h2
  · exact ⟨s (m + 1), hs _, if_neg hm⟩

section
variable {g : ℝ} {R L : ℕ} {P P' : ℕ → ℕ → ℝ} {B : ℕ → ℝ}

theorem pncc_medium (h : Rounding u fl) (hg : 1 ≤ g) (hP : ∀ i l, 0 ≤ P i l)
    (hP' : ∀ i < R, ∀ l < L, Near g (P' i l) (P i l)) (F : FlPncc fl L R P') {m k : ℕ} (hm : m < R) (hk : k < L) :
    Near ((1 + u) ^ 7 * g) (F.Q m k) (mediumTime R (fun i => P i k) m) := by
  refine C183_medium h hg (p' := fun i => if i < R then P' i k else P i k) (fun i => hP i k) (fun i => ?_) m ?_
  · beta_reduce
    split_ifs with hi
    · exact hP' i hi k hk
    · exact (Near.refl _).mono hg
  · obtain ⟨s, h1, h2⟩ := F.Q_eq m hm k hk
    refine ⟨s, ?_, h2⟩
    rwa [List.map_congr_left (g := fun (j : ℕ) => P' (m - 2 + j) k) fun j hj => by
      rw [List.mem_range] at hj
      exact if_pos (by omega)]

/-- **C203**, the suppressed powers of a whole run. -/
theorem C203_suppressed (h : Rounding u fl) (hu : u ≤ 1 / 10 ^ 7) (hg : 1 ≤ g) (hP : ∀ i l, 0 ≤ P i l)
    (hP' : ∀ i < R, ∀ l < L, Near g (P' i l) (P i l)) (res : ResolvedPowers u g δ R L P B) (F : FlPncc fl L R P') {m k : ℕ}
    (hm : m < R) (h1 : 1 ≤ k) (hk : k < L) :
    Near (1 + δ) (flSuppressed fl R (fun i => F.Q i k) m) (suppressed R 0 (mediumTime R fun i => P i k) m) := by
  have hu0 := h.nonneg
  have hB : 0 ≤ B k := (res.pos m hm k hk).le.trans (res.bound k h1 hk m hm)
  have hq0 : ∀ i, 0 ≤ mediumTime R (fun i => P i k) i := mediumTime_nonneg fun i => hP i k
  have hqB : ∀ i, mediumTime R (fun i => P i k) i ≤ B k := mediumTime_le hB (res.bound k h1 hk)
  have hgQ : 0 ≤ (1 + u) ^ 7 * g - 1 :=
    sub_nonneg.mpr (one_le_mul_of_one_le_of_one_le (one_le_pow₀ (by linarith)) hg)
  rw [flSuppressed_congr (q' := fun i => if i < R then F.Q i k else mediumTime R (fun i => P i k) i) fun i hi =>
    (if_pos (by omega : i < R)).symm]
  have key := C183_channel h hu (q' := fun i => if i < R then F.Q i k else mediumTime R (fun i => P i k) i) hq0 hqB
    (e := ((1 + u) ^ 7 * g - 1) * B k) (fun i => by
      beta_reduce
      split_ifs with hi
      · have := pncc_medium h hg hP hP' F hi hk
        unfold Near at this
        rw [abs_of_nonneg (hq0 i)] at this
        exact this.trans (mul_le_mul_of_nonneg_left (hqB i) hgQ)
      · rw [sub_self, abs_zero]
        exact mul_nonneg hgQ hB) m (res.switch k h1 hk m hm) (fun hsw j hj => by
      subst hj
      exact res.mask k h1 hk j hm hsw)
  unfold Near
  rw [abs_of_nonneg (suppressed_nonneg _ _), add_sub_cancel_left]
  exact key.trans (res.heard k h1 hk m hm)

/-- **C203**, power times weight. -/
theorem C203_weighted (h : Rounding u fl) (hu : u ≤ 1 / 10 ^ 7) (hg : 1 ≤ g) (hg2 : (1 + u) ^ 7 * g < 2) (hδ : 0 ≤ δ)
    (hP : ∀ i l, 0 ≤ P i l)
    (hP' : ∀ i < R, ∀ l < L, Near g (P' i l) (P i l)) (res : ResolvedPowers u g δ R L P B) (F : FlPncc fl L R P') {m l : ℕ}
    (hm : m < R) (hl : l < L) : Near (weightedGrowth u g δ) (F.T m l) (weighted R L P m l) := by
  have hu0 := h.nonneg
  have h1u : 1 ≤ 1 + u := by linarith
  have hgQ : 1 ≤ (1 + u) ^ 7 * g := one_le_mul_of_one_le_of_one_le (one_le_pow₀ h1u) hg
  have hquot : 1 ≤ (1 + δ) / (2 - (1 + u) ^ 7 * g) := by
    rw [le_div_iff₀ (by linarith)]
    linarith
  have hquot' := one_le_mul_of_one_le_of_one_le h1u hquot
  have a1 := C203_weight h hquot' (ρ := fun k => suppressed R 0 (mediumTime R fun i => P i k) m / mediumTime R (fun i => P i k) m)
    (fun k _ _ => div_nonneg (suppressed_nonneg _ _) (mediumTime_nonneg (fun i => hP i k) m))
    (fun k h1 hk => near_round h (Near.div (by linarith) hgQ hg2 (mediumTime_pos (fun i => hP i k) hm (res.pos m hm k hk))
      (C203_suppressed h hu hg hP hP' res F hm h1 hk) (pncc_medium h hg hP hP' F hm hk))) (F.S_eq m hm l hl)
  rw [F.T_eq m hm l hl]
  exact near_round h (Near.mul hg (one_le_mul_of_one_le_of_one_le (one_le_pow₀ h1u) hquot') (hP' m hm l hl) a1)

theorem weightedGrowth_one_le (hu0 : 0 ≤ u) (hg : 1 ≤ g) (hg2 : (1 + u) ^ 7 * g < 2) (hδ : 0 ≤ δ) : 1 ≤ weightedGrowth u g δ := by
  have h1u : 1 ≤ 1 + u := by linarith
  have hgQ : 1 ≤ (1 + u) ^ 7 * g := one_le_mul_of_one_le_of_one_le (one_le_pow₀ h1u) hg
  have hquot : 1 ≤ (1 + δ) / (2 - (1 + u) ^ 7 * g) := by
    rw [le_div_iff₀ (by linarith)]
    linarith
  exact one_le_mul_of_one_le_of_one_le h1u (one_le_mul_of_one_le_of_one_le hg
    (one_le_mul_of_one_le_of_one_le (one_le_pow₀ h1u) (one_le_mul_of_one_le_of_one_le h1u hquot)))

/-- **C203**, from the band powers to the normalised powers. -/
theorem C203_powers (h : Rounding u fl) (hu : u ≤ 1 / 10 ^ 7) (hL : 0 < L) (hg : 1 ≤ g) (hg2 : (1 + u) ^ 7 * g < 2) (hδ : 0 ≤ δ)
    (hP : ∀ i l, 0 ≤ P i l)
    (hP' : ∀ i < R, ∀ l < L, Near g (P' i l) (P i l)) (res : ResolvedPowers u g δ R L P B) (F : FlPncc fl L R P') {m l : ℕ}
    (hm : m < R) (hl : l < L) (hG : (1 + u) ^ (3 * m + L + 2) * (1 + 1001 * u) * weightedGrowth u g δ < 2) :
    Near (normalizedGrowth u (weightedGrowth u g δ) L m) (F.U m l) (weighted R L P m l / runningMean L (weighted R L P) m) := by
  have hG1 := weightedGrowth_one_le h.nonneg hg hg2 hδ
  obtain ⟨ν, h1, h2⟩ := flMean_extend hL (t := fun m l => if m < R ∧ l < L then F.T m l else weighted R L P m l)
    (fun m hm l hl => if_pos ⟨hm, hl⟩) F.μ_eq
  have key := C183_normalized h hu hL hG1 (t := weighted R L P) (weighted_nonneg hP) (fun m l => by
    beta_reduce
    split_ifs with hml
    · exact C203_weighted h hu hg hg2 hδ hP hP' res F hml.1 hml.2
    · exact (Near.refl _).mono hG1) h1 m l hG
  rw [h2 m hm, if_pos ⟨hm, hl⟩] at key
  exact key

end

/-! ### From the signal to the coefficients -/

theorem bandPower_two (fb : List (List ℝ)) (w y : ℕ → ℝ) (l s nfft : ℕ) :
    bandPower 2 fb w y l s nfft = bandEnergy fb w y l s nfft := by
  funext i n
  unfold bandPower bandEnergy framePower
  simp only [Real.rpow_two]

theorem near_of_sqrt {E E' η : ℝ} (h0 : 0 ≤ η) (h1 : η < 1) (hE : 0 < E) (hd : |√E' - √E| ≤ η * √E) : Near ((1 + η) ^ 2) E' E := by
  have hE' : 0 < E' := (rpow_near (γ := 1) h0 h1 hE hd).1
  have hs : 0 ≤ √E := Real.sqrt_nonneg _
  have e1 : E' - E = (√E' - √E) * ((√E' - √E) + 2 * √E) := by
    nlinarith [Real.sq_sqrt hE.le, Real.sq_sqrt hE'.le]
  have e2 : |(√E' - √E) + 2 * √E| ≤ (η + 2) * √E := by
    refine (abs_add_le _ _).trans ?_
    rw [abs_of_nonneg (by positivity : 0 ≤ 2 * √E)]
    linarith
  unfold Near
  rw [abs_of_pos hE, e1, abs_mul]
  calc |√E' - √E| * |√E' - √E + 2 * √E| ≤ (η * √E) * ((η + 2) * √E) :=
        mul_le_mul hd e2 (abs_nonneg _) (by positivity)
    _ = η * (η + 2) * √E ^ 2 := by ring
    _ = ((1 + η) ^ 2 - 1) * E := by rw [Real.sq_sqrt hE.le]; ring

theorem weighted_pos {R L : ℕ} (hL : 2 ≤ L) {P : ℕ → ℕ → ℝ} (hP : ∀ i n, 0 ≤ P i n) (hpos : ∀ i < R, ∀ k < L, 0 < P i k) {m l : ℕ}
    (hm : m < R) (hl : l < L) : 0 < weighted R L P m l := by
  unfold weighted smoothWeight
  refine mul_pos (hpos m hm l hl) (div_pos (Finset.sum_pos (fun k hk => ?_) ?_) (by positivity))
  · rw [weightChannels, Finset.mem_Ico] at hk
    have hq : ∀ i < R, 0 < mediumTime R (fun i => P i k) i := fun i hi =>
      mediumTime_pos (fun i => hP i k) hi (hpos i hi k (by omega))
    exact div_pos (suppressed_pos (hq 0 (by omega)) m) (hq m hm)
  · exact ⟨max (l - 4) 1, by rw [weightChannels, Finset.mem_Ico]; omega⟩

/-- The last two steps of the features: a power and the DCT, of values known to a relative precision. -/
theorem power_dct {N p : ℕ} (hp : p ≤ N) {W W' rt c' : ℕ → ℝ} {ρ γ lam tau : ℝ} (h0 : 0 ≤ ρ) (h1 : ρ < 1) (hlam : 0 ≤ lam)
    (hW : ∀ n < N, 0 < W n) (hW' : ∀ n < N, Near (1 + ρ) (W' n) (W n))
    (hrt : ∀ n < N, |rt n - W' n ^ γ| ≤ lam * W' n ^ γ)
    (hc' : √(∑ k ∈ Finset.range p, (c' k - dctII N rt k) ^ 2) ≤ tau) :
    √(∑ k ∈ Finset.range p, (c' k - dctII N (fun n => W n ^ γ) k) ^ 2) ≤
      tau + ((1 + lam) * (1 / (1 - ρ)) ^ (2 * |γ|) - 1) * √(∑ n ∈ Finset.range N, (W n ^ γ) ^ 2) := by
  have hB1 : 1 ≤ (1 / (1 - ρ)) ^ (2 * |γ|) := by
    apply Real.one_le_rpow _ (by positivity)
    rw [le_div_iff₀ (by linarith)]
    linarith
  set B := (1 / (1 - ρ)) ^ (2 * |γ|) with hB
  have hρ : 0 ≤ (1 + lam) * B - 1 := by nlinarith
  have key := dct_error (B := fun n => ((1 + lam) * B - 1) * W n ^ γ) hp (y := fun n => W n ^ γ) (fun n hn => ?_) hc'
  · refine key.trans (le_of_eq ?_)
    congr 1
    simp only [mul_pow]
    rw [← Finset.mul_sum, Real.sqrt_mul (sq_nonneg _), Real.sqrt_sq hρ]
  · have e0 := hW' n hn
    unfold Near at e0
    rw [abs_of_pos (hW n hn)] at e0
    have e1 := sqrt_near (hW n hn).le e0
    rw [add_sub_cancel_left] at e1
    obtain ⟨e3, e4⟩ := rpow_near (γ := γ) h0 h1 (hW n hn) e1
    rw [← hB] at e4
    have e5 : W' n ^ γ ≤ B * W n ^ γ := by
      have := (abs_le.mp e4).2
      linarith
    have e6 := (abs_sub_le (rt n) (W' n ^ γ) (W n ^ γ)).trans (add_le_add (hrt n hn) e4)
    refine e6.trans ?_
    have e7 := mul_le_mul_of_nonneg_left e5 hlam
    linarith

/-- **C203**: `pncc` with the default exponent 2, from the signal to the coefficients. `E'` are band energies computed in floating
point frame by frame, `G` is a run of the noise suppression and normalisation on them, `rt` the computed powers `1/15` (relative
precision `lam`) and `c'` the computed DCT of them (within `tau`). If the band energies are resolved (`η`), the decisions of the noise
suppression are resolved (`ResolvedPowers`), then the coefficients differ from the exact ones by at most the stated factor of the
norm of the exact powers. -/
theorem C203_pncc (a : Args) (fb : List (List ℝ)) (x : List ℝ) (l s : ℕ) (h : Setup a fb x l s) (hf : fb.length = a.nfilts)
    (h2 : 2 ≤ fb.length) (M : ℝ) (hM : ∀ r ∈ fb, ∀ v ∈ r, v ≤ M) (hd : a.dctType = 2) (hli : a.lifter = none) (hn : a.normalize = none)
    (ar : Arithmetic u v ω δ fl fft abs wv a.win.winType l a.nfft) (hu : u ≤ 1 / 10 ^ 7) (R : ℕ) (hR : R = (x.length - l) / s + 1)
    (η ε : ℝ) (h0 : 0 ≤ η) (h1 : η < 1) (hε : 0 ≤ ε) (hg2 : (1 + u) ^ 7 * (1 + η) ^ 2 < 2)
    (hE : ∀ i < R, ∀ n < fb.length, rootError u v ω δ M (energyOf a a.preEmphCoeff fb x l s i n)
      (frameAmplitude a.preEmph a.preEmphCoeff x l s i) a.nfft ≤ η * √(energyOf a a.preEmphCoeff fb x l s i n))
    (B : ℕ → ℝ) (res : ResolvedPowers u ((1 + η) ^ 2) ε R fb.length (energyOf a a.preEmphCoeff fb x l s) B) :
    ∃ m, pncc a 2 x = .ok m ∧ HasShape m R (min a.numCeps fb.length) ∧
      ∀ (E' : ℕ → ℕ → ℝ), (∀ i < R, ∃ F : FlFrame fl fb wv fft abs a.preEmph a.preEmphCoeff x l s a.nfft i,
          ∀ n < fb.length, E' i n = F.energy n) →
        ∀ (G : FlPncc fl fb.length R E') (i : ℕ), i < R →
        (1 + u) ^ (3 * i + fb.length + 2) * (1 + 1001 * u) * weightedGrowth u ((1 + η) ^ 2) ε < 2 →
        ∀ (ρ : ℝ), normalizedGrowth u (weightedGrowth u ((1 + η) ^ 2) ε) fb.length i ≤ 1 + ρ → 0 ≤ ρ → ρ < 1 →
        ∀ (rt c' : ℕ → ℝ) (lam tau : ℝ), 0 ≤ lam →
        (∀ n < fb.length, |rt n - G.U i n ^ (1 / 15 : ℝ)| ≤ lam * G.U i n ^ (1 / 15 : ℝ)) →
        √(∑ k ∈ Finset.range (min a.numCeps fb.length), (c' k - dctII fb.length rt k) ^ 2) ≤ tau →
        ∃ c : ℕ → ℝ, (∀ k < min a.numCeps fb.length, (m.getD i []).getD k nan = fin (c k)) ∧
          √(∑ k ∈ Finset.range (min a.numCeps fb.length), (c' k - c k) ^ 2) ≤
            tau + ((1 + lam) * (1 / (1 - ρ)) ^ (2 / 15 : ℝ) - 1) *
              √(∑ n ∈ Finset.range fb.length, pnccBand R fb.length (energyOf a a.preEmphCoeff fb x l s) i n ^ 2) := by
  obtain ⟨P, hP⟩ : ∃ P, P = energyOf a a.preEmphCoeff fb x l s := ⟨_, rfl⟩
  have hnn : ∀ i n, 0 ≤ P i n := fun i n => by rw [hP]; exact bandEnergy_nonneg h.nonneg ..
  have hPb : P = bandPower 2 fb (windowWeight a.win.winType l) (emphasised a.preEmph a.preEmphCoeff x) l s a.nfft := by
    rw [hP, bandPower_two]
    rfl
  rw [← hP] at res ⊢
  have hE' : ∀ i < R, ∀ n < fb.length, rootError u v ω δ M (P i n) (frameAmplitude a.preEmph a.preEmphCoeff x l s i) a.nfft ≤
      η * √(P i n) := by rw [hP]; exact hE
  obtain ⟨m, hm, s1, v1⟩ := C106_pncc_meaning a 2 (by norm_num) fb x l s h hf hd hli hn R hR P hPb fun i n hi _ hn' =>
    mediumTime_pos (fun j => hnn j n) hi (res.pos i hi n hn')
  refine ⟨m, hm, s1, fun E' hF G i hi hG ρ hρ hρ0 hρ1 rt c' lam tau hlam hrt hc' => ⟨_, fun k hk => v1 i k hi hk, ?_⟩⟩
  have hnear : ∀ i < R, ∀ n < fb.length, Near ((1 + η) ^ 2) (E' i n) (P i n) := by
    intro i hi n hn'
    obtain ⟨F, hF⟩ := hF i hi
    rw [hF n hn']
    refine near_of_sqrt h0 h1 (res.pos i hi n hn') ?_
    have := root_energy h hM ar (by rw [← hR]; exact hi) F hn'
    rw [← hP] at this
    exact this.trans (hE' i hi n hn')
  have hu0 := ar.round.nonneg
  have hW : ∀ n < fb.length, 0 < weighted R fb.length P i n / runningMean fb.length (weighted R fb.length P) i := fun n hn' =>
    div_pos (weighted_pos h2 hnn res.pos hi hn') (runningMean_pos (weighted_nonneg hnn) i)
  have key := power_dct (γ := 1 / 15) (min_le_right a.numCeps fb.length) hρ0 hρ1 hlam hW
    (fun n hn' => (C203_powers ar.round hu (by omega) (one_le_pow₀ (by linarith)) hg2 hε hnn hnear res G hi hn' hG).mono hρ) hrt hc'
  rw [abs_of_pos (by norm_num : (0 : ℝ) < 1 / 15), show (2 : ℝ) * (1 / 15) = 2 / 15 by norm_num] at key
  exact key

theorem weightedGrowth_double {η ε : ℝ} (h0 : 0 ≤ η) (h1 : η ≤ 1 / 1000) (e0 : 0 ≤ ε) (e1 : ε ≤ 1 / 1000) :
    (1 + 1 / 2 ^ 53) ^ 7 * (1 + η) ^ 2 < 2 ∧
    weightedGrowth (1 / 2 ^ 53) ((1 + η) ^ 2) ε ≤ 1 + (4.1 * η + 1.1 * ε + 1 / 10 ^ 14) := by
  have ha : ((1 : ℝ) + 1 / 2 ^ 53) ^ 7 ≤ 1 + 1 / 10 ^ 15 := by norm_num
  have hb : ((1 : ℝ) + 1 / 2 ^ 53) ^ 13 ≤ 1 + 2 / 10 ^ 15 := by norm_num
  have hw : weightedGrowth (1 / 2 ^ 53) ((1 + η) ^ 2) ε =
      ((1 : ℝ) + 1 / 2 ^ 53) ^ 13 * ((1 + η) ^ 2 * (1 + ε)) / (2 - ((1 : ℝ) + 1 / 2 ^ 53) ^ 7 * (1 + η) ^ 2) := by
    unfold weightedGrowth
    generalize (1 : ℝ) + 1 / 2 ^ 53 = t
    ring
  rw [hw]
  generalize ((1 : ℝ) + 1 / 2 ^ 53) ^ 7 = a at ha ⊢
  generalize ((1 : ℝ) + 1 / 2 ^ 53) ^ 13 = b at hb ⊢
  have hg : (1 + η) ^ 2 ≤ 1 + 2.001 * η := by nlinarith
  have hg0 : 0 ≤ (1 + η) ^ 2 := by positivity
  generalize (1 + η) ^ 2 = g at hg hg0 ⊢
  have hag : a * g ≤ 1 + 2.002 * η + 1 / 10 ^ 15 := by
    refine (mul_le_mul_of_nonneg_right ha hg0).trans ?_
    nlinarith
  have hbg : b * (g * (1 + ε)) ≤ 1 + 2.002 * η + 1.0022 * ε + 3 / 10 ^ 15 := by
    refine (mul_le_mul_of_nonneg_right hb (by positivity)).trans ?_
    have h3 : g * (1 + ε) ≤ 1 + 2.001 * η + 1.0021 * ε := by
      refine (mul_le_mul_of_nonneg_right hg (by linarith)).trans ?_
      nlinarith
    nlinarith
  refine ⟨by linarith, ?_⟩
  rw [div_le_iff₀ (by linarith)]
  refine hbg.trans ?_
  have h4 : (1 + (4.1 * η + 1.1 * ε + 1 / 10 ^ 14)) * (1 - 2.002 * η - 1 / 10 ^ 15) ≤
      (1 + (4.1 * η + 1.1 * ε + 1 / 10 ^ 14)) * (2 - a * g) :=
    mul_le_mul_of_nonneg_left (by linarith) (by positivity)
  refine le_trans ?_ h4
  have h5 : η * η ≤ 1 / 1000 * η := mul_le_mul_of_nonneg_right h1 h0
  have h6 : ε * η ≤ 1 / 1000 * η := mul_le_mul_of_nonneg_right e1 h0
  nlinarith

/-- **C203** in binary64: for band energies resolved to `η` and suppressed powers resolved to `ε`, both at most 1/1000, up to 333000
frames (55 minutes with the default hop) and 1000 channels, the conditions on the growth factors hold, and the factor of `C203_pncc`
is at most `1 + 1.2 η + 0.33 ε + 10⁻⁹`. -/
theorem C203_double {η ε : ℝ} (h0 : 0 ≤ η) (h1 : η ≤ 1 / 1000) (e0 : 0 ≤ ε) (e1 : ε ≤ 1 / 1000) {L i : ℕ} (hL : L ≤ 1000)
    (hi : i ≤ 333000) :
    (1 + 1 / 2 ^ 53) ^ 7 * (1 + η) ^ 2 < 2 ∧
    (1 + 1 / 2 ^ 53) ^ (3 * i + L + 2) * (1 + 1001 * (1 / 2 ^ 53)) * weightedGrowth (1 / 2 ^ 53) ((1 + η) ^ 2) ε < 2 ∧
    normalizedGrowth (1 / 2 ^ 53) (weightedGrowth (1 / 2 ^ 53) ((1 + η) ^ 2) ε) L i ≤ 1 + (8.7 * η + 2.4 * ε + 6 / 10 ^ 9) ∧
    (1 / (1 - (8.7 * η + 2.4 * ε + 6 / 10 ^ 9))) ^ (2 / 15 : ℝ) ≤ 1 + 1.2 * η + 0.33 * ε + 1 / 10 ^ 9 := by
  obtain ⟨k1, k2⟩ := weightedGrowth_double h0 h1 e0 e1
  have k0 := weightedGrowth_one_le (u := 1 / 2 ^ 53) (by positivity) (one_le_pow₀ (by linarith : 1 ≤ 1 + η)) k1 e0
  obtain ⟨d, hd⟩ : ∃ d, d = 4.1 * η + 1.1 * ε + 1 / 10 ^ 14 := ⟨_, rfl⟩
  rw [← hd] at k2
  have hd0 : 0 ≤ d := by rw [hd]; positivity
  have hd1 : d ≤ 1 / 100 := by rw [hd]; linarith
  generalize weightedGrowth (1 / 2 ^ 53) ((1 + η) ^ 2) ε = W at k0 k2 ⊢
  have hgr := growth_double (n := 3 * i + L + 2) (by omega)
  unfold normalizedGrowth
  have e2 : ((1 : ℝ) + 1 / 2 ^ 53) ^ 2 ≤ 1 + 1 / 10 ^ 12 := by norm_num
  have e3 : (1 : ℝ) + 1001 * (1 / 2 ^ 53) ≤ 1 + 1.2 / 10 ^ 13 := by norm_num
  have p0 : 0 ≤ ((1 : ℝ) + 1 / 2 ^ 53) ^ (3 * i + L + 2) := by positivity
  have p1 : (0 : ℝ) ≤ 1 + 1001 * (1 / 2 ^ 53) := by positivity
  generalize ((1 : ℝ) + 1 / 2 ^ 53) ^ (3 * i + L + 2) = X at hgr p0 ⊢
  generalize ((1 : ℝ) + 1 / 2 ^ 53) ^ 2 = Y at e2 ⊢
  generalize (1 : ℝ) + 1001 * (1 / 2 ^ 53) = Z at e3 p1 ⊢
  have hXZ : X * Z ≤ 1 + 1.2 / 10 ^ 9 := by
    refine (mul_le_mul (by linarith : X ≤ 1 + 1 / 10 ^ 9) e3 p1 (by norm_num)).trans ?_
    norm_num
  have hG : X * Z * W ≤ (1 + 1.2 / 10 ^ 9) * (1 + d) := mul_le_mul hXZ k2 (by linarith) (by norm_num)
  have hlt : X * Z * W < 2 := by nlinarith
  obtain ⟨ρ, hρ⟩ : ∃ ρ, ρ = 8.7 * η + 2.4 * ε + 6 / 10 ^ 9 := ⟨_, rfl⟩
  have hρ0 : 0 ≤ ρ := by rw [hρ]; positivity
  have hρ1 : ρ ≤ 0.0112 := by rw [hρ]; linarith
  refine ⟨k1, hlt, ?_, ?_⟩
  · have hdρ : 2.1 * d + 5 / 10 ^ 9 ≤ 8.7 * η + 2.4 * ε + 6 / 10 ^ 9 := by rw [hd]; linarith
    refine le_trans ?_ (add_le_add_right hdρ 1)
    rw [div_le_iff₀ (by linarith)]
    refine (mul_le_mul e2 k2 (by linarith) (by norm_num)).trans ?_
    have e4 : (1 + (2.1 * d + 5 / 10 ^ 9)) * (2 - (1 + 1.2 / 10 ^ 9) * (1 + d)) ≤ (1 + (2.1 * d + 5 / 10 ^ 9)) * (2 - X * Z * W) :=
      mul_le_mul_of_nonneg_left (by linarith) (by positivity)
    refine le_trans ?_ e4
    nlinarith [mul_nonneg hd0 hd0, mul_le_mul_of_nonneg_left hd1 hd0]
  · rw [← hρ]
    have e5 : 1 / (1 - ρ) = 1 + ρ / (1 - ρ) := by
      have : 1 - ρ ≠ 0 := by linarith
      field_simp
      ring
    have e6 : ρ / (1 - ρ) ≤ 1.0115 * ρ := by
      rw [div_le_iff₀ (by linarith)]
      nlinarith
    rw [e5]
    refine (rpow_one_add_le_one_add_mul_self (by have : 0 ≤ ρ / (1 - ρ) := div_nonneg hρ0 (by linarith)
                                                 linarith) (by norm_num) (by norm_num)).trans ?_
    have e7 : (2 / 15 : ℝ) * (ρ / (1 - ρ)) ≤ 0.135 * ρ := by linarith
    rw [hρ] at e7 ⊢
    linarith

/-! ### Non-vacuity -/

/-- Every array of computed powers has a run. -/
theorem flPncc_exists (fl : ℝ → ℝ) {L R : ℕ} (hL : 0 < L) (P : ℕ → ℕ → ℝ) : Nonempty (FlPncc fl L R P) := by
  have hsum : ∀ (N : ℕ), 0 < N → ∀ f : ℕ → ℝ, ∃ r, FlSum fl ((List.range N).map f) r := by
    intro N hN f
    obtain ⟨N, rfl⟩ : ∃ n, N = n + 1 := ⟨N - 1, by omega⟩
    rw [List.range_succ_eq_map, List.map_cons]
    exact flSum_exists ..
  have hQ : ∀ m l, ∃ r, m < R → FlMediumTime fl R (fun i => P i l) m r := by
    intro m l
    by_cases hm : m < R
    · obtain ⟨s, hs⟩ := hsum (min R (m + 3) - (m - 2)) (by omega) (fun (k : ℕ) => P (m - 2 + k) l)
      exact ⟨_, fun _ => ⟨s, hs, rfl⟩⟩
    · exact ⟨0, fun h => absurd h hm⟩
  choose Q hQ using hQ
  have hS : ∀ m l, ∃ r, FlWeight fl L (fun k => fl (flSuppressed fl R (fun i => Q i k) m / Q m k)) l r := by
    intro m l
    obtain ⟨s, hs⟩ := flSum_exists fl 0 ((List.range (min (l + 4) L - max (l - 4) 1)).map fun (k : ℕ) =>
      fl (flSuppressed fl R (fun i => Q i (max (l - 4) 1 + k)) m / Q m (max (l - 4) 1 + k)))
    exact ⟨_, s, hs, rfl⟩
  choose S hS using hS
  have hs : ∀ m, ∃ s, FlSum fl ((List.range L).map fun l => fl (P m l * S m l)) s := fun m => hsum L hL _
  choose s hs using hs
  exact ⟨{
    Q := Q
    Q_eq := fun m hm l _ => hQ m l hm
    S := S
    S_eq := fun m _ l _ => hS m l
    T := fun m l => fl (P m l * S m l)
    T_eq := fun _ _ _ _ => rfl
    μ := fun m => Nat.rec (fl 0.0001) (fun m p => fl (fl (fl 0.999 * p) + fl (fl (fl (1 - fl 0.999) / L) * s (m + 1)))) m
    μ_eq := ⟨rfl, fun m _ => ⟨s (m + 1), hs (m + 1), rfl⟩⟩ }⟩

/-- Two frames of constant power in two channels are resolved. -/
theorem resolved_demo : ResolvedPowers (1 / 2 ^ 53) ((1 + 1 / 10 ^ 6) ^ 2) (1 / 1000) 2 2 (fun _ _ => 1) (fun _ => 1) := by
  have hq : ∀ m < 2, mediumTime 2 (fun _ => 1) m = 0.4 := by
    intro m hm
    unfold mediumTime
    rw [show m - 2 = 0 by omega, show min 2 (m + 3) = 2 by omega]
    norm_num
  have q0 := hq 0 (by norm_num)
  have q1 := hq 1 (by norm_num)
  have n0 : envelope 2 (mediumTime 2 fun _ => 1) 0 = 0.0004 := by
    rw [envelope, q0, follow]
    norm_num
  have n1 : envelope 2 (mediumTime 2 fun _ => 1) 1 = 0.0007996 := by
    rw [envelope, n0, q1, follow]
    norm_num
  have x0 : excess 2 0 (mediumTime 2 fun _ => 1) 0 = 0.3996 := by
    rw [excess, n0, q0]
    norm_num
  have x1 : excess 2 0 (mediumTime 2 fun _ => 1) 1 = 0.3992004 := by
    rw [excess, n1, q1]
    norm_num
  have d0 : decayingPeak (excess 2 0 (mediumTime 2 fun _ => 1)) 0 = 0.3996 := by rw [decayingPeak, x0]
  have hg : ((1 : ℝ) + 1 / 2 ^ 53) ^ 7 * (1 + 1 / 10 ^ 6) ^ 2 - 1 ≤ 3 / 10 ^ 6 := by norm_num
  refine ⟨fun _ _ _ _ => one_pos, fun _ _ _ _ _ => le_rfl, ?_, ?_, ?_⟩
  · intro k _ _ m hm
    obtain rfl | rfl : m = 0 ∨ m = 1 := by omega
    · rw [q0, n0]; norm_num
    · rw [q1, n1]; norm_num
  · intro k _ _ m hm _
    obtain rfl : m = 0 := by omega
    rw [x1, d0]
    norm_num
  · intro k _ _ m hm
    obtain rfl | rfl : m = 0 ∨ m = 1 := by omega
    · rw [suppressed, n0, q0, if_pos (by norm_num), masked, x0]
      norm_num
    · rw [suppressed, n1, q1, if_pos (by norm_num), masked, d0, x1]
      norm_num

/-- Powers computed to six digits: a run exists and the normalised powers are known to `3·10⁻³`. -/
example (P' : ℕ → ℕ → ℝ) (hP' : ∀ i < 2, ∀ l < 2, |P' i l - 1| ≤ 1 / 10 ^ 6) :
    ∃ F : FlPncc fl64 2 2 P', ∀ m < 2, ∀ l < 2, Near (1 + 3 / 10 ^ 3) (F.U m l)
      (weighted 2 2 (fun _ _ => 1) m l / runningMean 2 (weighted 2 2 fun _ _ => 1) m) := by
  obtain ⟨F⟩ := flPncc_exists fl64 (L := 2) (R := 2) (by norm_num) P'
  refine ⟨F, fun m hm l hl => ?_⟩
  obtain ⟨k1, k2, k3, -⟩ := C203_double (η := 1 / 10 ^ 6) (ε := 1 / 1000) (by norm_num) (by norm_num) (by norm_num) (by norm_num)
    (L := 2) (i := m) (by norm_num) (by omega)
  refine (C203_powers C130_binary64.1 (by norm_num) (by norm_num) (by norm_num) k1 (by norm_num) (fun _ _ => zero_le_one)
    (fun i hi l hl => ?_) resolved_demo F hm hl k2).mono (k3.trans (by norm_num))
  unfold Near
  refine (hP' i hi l hl).trans ?_
  norm_num

theorem pnTwo_setup : Setup pnJump [[1], [1]] [1, 1] 1 1 where
  bank := rfl
  cols := by simp [pnJump]
  nonneg := by simp
  rows := by simp
  ceps := by simp [pnJump]
  nfft := by simp [pnJump]
  window := by simp [WindowName, pnJump, Args.win]
  hopLe := le_refl _
  len := (pnJump_setup 0).len
  hop := (pnJump_setup 0).hop
  pos := by norm_num
  long := by simp
  samples := by simp

theorem pnTwo_energy (i n : ℕ) (hi : i < 2) (hn : n < 2) :
    energyOf pnJump pnJump.preEmphCoeff [[1], [1]] [1, 1] 1 1 i n = 1 := by
  unfold energyOf
  rw [← bandPower_two, pnJump_power _ _ _ hn]
  interval_cases i <;> simp

theorem pnTwo_resolved : ResolvedPowers (1 / 2 ^ 53) ((1 + 1 / 10 ^ 6) ^ 2) (1 / 1000) 2 2
    (energyOf pnJump pnJump.preEmphCoeff [[1], [1]] [1, 1] 1 1) (fun _ => 1) := by
  have hm : ∀ k < 2, (mediumTime 2 fun i => energyOf pnJump pnJump.preEmphCoeff [[1], [1]] [1, 1] 1 1 i k) =
      mediumTime 2 fun _ => 1 := by
    intro k hk
    funext m
    unfold mediumTime
    rw [Finset.sum_congr rfl fun i hi => pnTwo_energy i k (by rw [Finset.mem_Ico] at hi; omega) hk]
  have r := resolved_demo
  constructor
  · intro i hi k hk
    rw [pnTwo_energy i k hi hk]
    exact one_pos
  · intro k _ hk i hi
    rw [pnTwo_energy i k hi hk]
  · intro k h1 hk
    rw [hm k hk]
    exact r.switch k h1 hk
  · intro k h1 hk
    rw [hm k hk]
    exact r.mask k h1 hk
  · intro k h1 hk
    rw [hm k hk]
    exact r.heard k h1 hk

/-- Binary64 with an exact window, FFT and absolute value. -/
theorem arithmetic_fl64 (name : String) (l nfft : ℕ) : Arithmetic (1 / 2 ^ 53) 0 0 0 fl64
    (fun z k => frameBin (fun _ => 1) z l 0 nfft 0 k) (fun z => ‖z‖) (windowWeight name l) name l nfft where
  round := C130_binary64.1
  v0 := le_rfl
  ω0 := le_rfl
  δ0 := le_rfl
  abs_err z := by simp
  window_err j _ := by simp
  fft_err z := by simp

/-- The hypotheses of `C203_pncc` are met from the signal on: two samples, two frames, binary64. Runs exist, and in all of them the
coefficient of each frame is the exact one up to the DCT, the accuracy of the power and 0.4 per mille of the norm. -/
example : ∃ m, pncc pnJump 2 [1, 1] = .ok m ∧ HasShape m 2 1 ∧
    ∃ E' : ℕ → ℕ → ℝ, ∃ G : FlPncc fl64 2 2 E', ∀ i < 2, ∃ c, (m.getD i []).getD 0 nan = fin c ∧
      |dctII 2 (fun n => G.U i n ^ (1 / 15 : ℝ)) 0 - c| ≤
        0.0004 * √(∑ n ∈ Finset.range 2, pnccBand 2 2 (energyOf pnJump pnJump.preEmphCoeff [[1], [1]] [1, 1] 1 1) i n ^ 2) := by
  have hA : ∀ i < 2, frameAmplitude pnJump.preEmph pnJump.preEmphCoeff [1, 1] 1 1 i = 1 := by
    intro i hi
    unfold frameAmplitude amplitude
    interval_cases i <;> simp [pnJump]
  obtain ⟨k1, -⟩ := C203_double (η := 1 / 10 ^ 6) (ε := 1 / 1000) (by norm_num) (by norm_num) (by norm_num) (by norm_num)
    (L := 2) (i := 0) (by norm_num) (by norm_num)
  obtain ⟨m, hm, hsh, hv⟩ := C203_pncc pnJump [[1], [1]] [1, 1] 1 1 pnTwo_setup rfl (by simp) 1 (by simp) rfl rfl rfl
    (arithmetic_fl64 pnJump.win.winType 1 pnJump.nfft) (by norm_num) 2 (by simp) (1 / 10 ^ 6) (1 / 1000) (by norm_num) (by norm_num)
    (by norm_num) k1 (fun i hi n hn => by
      rw [pnTwo_energy i n hi (by simpa using hn), hA i hi, show pnJump.nfft = 1 from rfl]
      unfold rootError
      rw [Real.sqrt_one]
      norm_num) (fun _ => 1) pnTwo_resolved
  have F := fun i => Classical.choice <| flFrame_exists fl64 [[1], [1]] (windowWeight pnJump.win.winType 1)
    (fun z k => frameBin (fun _ => 1) z 1 0 pnJump.nfft 0 k) (fun z => ‖z‖) pnJump.preEmph pnJump.preEmphCoeff [1, 1] 1 1 pnJump.nfft i
  obtain ⟨G⟩ := flPncc_exists fl64 (L := 2) (R := 2) (by norm_num) fun i n => (F i).energy n
  refine ⟨m, hm, by simpa [pnJump] using hsh, _, G, fun i hi => ?_⟩
  obtain ⟨-, k2, k3, k4⟩ := C203_double (η := 1 / 10 ^ 6) (ε := 1 / 1000) (by norm_num) (by norm_num) (by norm_num) (by norm_num)
    (L := 2) (i := i) (by norm_num) (by omega)
  obtain ⟨c, hc, hb⟩ := hv _ (fun i _ => ⟨F i, fun _ _ => rfl⟩) G i hi k2 _ k3 (by norm_num) (by norm_num)
    (fun n => G.U i n ^ (1 / 15 : ℝ)) (dctII 2 fun n => G.U i n ^ (1 / 15 : ℝ)) 0 0 le_rfl (fun n _ => by simp) (by simp)
  have hmin : min pnJump.numCeps ([[1], [1]] : List (List ℝ)).length = 1 := by simp [pnJump]
  rw [hmin] at hc hb
  refine ⟨c 0, hc 0 one_pos, ?_⟩
  rw [Finset.sum_range_one, Real.sqrt_sq_eq_abs] at hb
  refine hb.trans ?_
  rw [zero_add, add_zero, one_mul]
  refine mul_le_mul_of_nonneg_right ?_ (Real.sqrt_nonneg _)
  refine (sub_le_sub_right k4 1).trans ?_
  norm_num

end Props
end Spafe
