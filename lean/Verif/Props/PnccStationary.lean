import Verif.Props.PnccMeaning

/-!
C152: the noise suppression of PNCC forgets a stationary background, and how slowly. The public function
`asymmetric_noise_suppression_with_temporal_masking` (`spafe/features/pncc.py:215-271`) is followed on a band whose power is
constant from some frame on: what is left of it decays like `0.999 ^ k`. From the start of a recording the first 692 frames
of a constant band are let through with the gain `0.999 ^ (m + 1)`, at least one half.
-/

set_option linter.unusedSectionVars false

namespace Spafe
namespace Props

open Model XF Spec

/-! ### The scalar recursions -/

theorem follow_le {e x B : ℝ} (he : e ≤ B) (hx : x ≤ B) : follow e x ≤ B := by
  unfold follow; split_ifs <;> linarith

theorem follow_nonneg {e x : ℝ} (he : 0 ≤ e) (hx : 0 ≤ x) : 0 ≤ follow e x := by
  unfold follow; split_ifs <;> nlinarith

theorem envelope_range {T : ℕ} {q : ℕ → ℝ} {B : ℝ} {n : ℕ} (h : ∀ i < n, 0 ≤ q i ∧ q i ≤ B) :
    ∀ m < n, 0 ≤ envelope T q m ∧ envelope T q m ≤ B := by
  intro m
  induction m with
  | zero =>
    intro hm
    obtain ⟨h0, h1⟩ := h 0 hm
    unfold envelope
    constructor
    · apply follow_nonneg _ h0
      split_ifs <;> linarith
    · apply follow_le _ h1
      split_ifs <;> linarith
  | succ m ih =>
    intro hm
    obtain ⟨a, b⟩ := ih (by omega)
    obtain ⟨h0, h1⟩ := h (m + 1) hm
    rw [envelope]
    exact ⟨follow_nonneg a h0, follow_le b h1⟩

theorem excess_range {T : ℕ} {q : ℕ → ℝ} {B : ℝ} {n : ℕ} (h : ∀ i < n, 0 ≤ q i ∧ q i ≤ B) :
    ∀ m < n, 0 ≤ excess T 0 q m ∧ excess T 0 q m ≤ B := by
  intro m hm
  obtain ⟨a, b⟩ := envelope_range (T := T) h m hm
  obtain ⟨h0, h1⟩ := h m hm
  unfold excess
  split_ifs with hc
  · exact ⟨le_rfl, by linarith⟩
  · exact ⟨by linarith, by linarith⟩

theorem peak_range {q : ℕ → ℝ} {B : ℝ} {n : ℕ} (h : ∀ i < n, 0 ≤ q i ∧ q i ≤ B) :
    ∀ m < n, 0 ≤ decayingPeak q m ∧ decayingPeak q m ≤ B := by
  intro m
  induction m with
  | zero => intro hm; rw [decayingPeak]; exact h 0 hm
  | succ m ih =>
    intro hm
    obtain ⟨a, b⟩ := ih (by omega)
    obtain ⟨h0, h1⟩ := h (m + 1) hm
    rw [decayingPeak]
    exact ⟨le_max_of_le_right h0, max_le (by linarith) h1⟩

theorem masked_range {q : ℕ → ℝ} {B : ℝ} {n : ℕ} (h : ∀ i < n, 0 ≤ q i ∧ q i ≤ B) :
    ∀ m < n, 0 ≤ masked q m ∧ masked q m ≤ B := by
  intro m hm
  rcases m with _ | m
  · rw [masked]; exact h 0 hm
  · obtain ⟨a, b⟩ := peak_range h m (by omega)
    obtain ⟨h0, h1⟩ := h (m + 1) hm
    rw [masked]
    split_ifs
    · exact ⟨h0, h1⟩
    · exact ⟨by linarith, by linarith⟩

/-- The distance to the envelope shrinks by at least a thousandth in each frame. -/
theorem follow_gap {e x C : ℝ} (hC : 0 ≤ C) (h : |x - e| ≤ C) : |x - follow e x| ≤ 0.999 * C := by
  rw [abs_le] at h ⊢
  unfold follow
  split_ifs <;> constructor <;> linarith [h.1, h.2]

theorem gap_decays {T n m0 : ℕ} {q : ℕ → ℝ} {B p : ℝ} (h : ∀ i < n, 0 ≤ q i ∧ q i ≤ B)
    (hq : ∀ i, m0 ≤ i → i < n → q i = p) :
    ∀ k, m0 + k < n → |p - envelope T q (m0 + k)| ≤ B * 0.999 ^ k := by
  intro k
  induction k with
  | zero =>
    intro hk
    obtain ⟨a, b⟩ := envelope_range (T := T) h (m0 + 0) hk
    obtain ⟨c, d⟩ := h (m0 + 0) hk
    rw [hq (m0 + 0) (by omega) hk] at c d
    rw [pow_zero, mul_one, abs_le]
    constructor <;> linarith
  | succ k ih =>
    intro hk
    have h1 := ih (by omega)
    have h2 := follow_gap (le_trans (abs_nonneg _) h1) h1
    have h3 : envelope T q (m0 + (k + 1)) = follow (envelope T q (m0 + k)) p := by
      rw [← Nat.add_assoc, envelope, hq (m0 + k + 1) (by omega) (by omega)]
    rw [h3, pow_succ]
    linarith

theorem excess_decays {T n m0 : ℕ} {q : ℕ → ℝ} {B p : ℝ} (h : ∀ i < n, 0 ≤ q i ∧ q i ≤ B)
    (hq : ∀ i, m0 ≤ i → i < n → q i = p) (k : ℕ) (hk : m0 + k < n) :
    excess T 0 q (m0 + k) ≤ B * 0.999 ^ k := by
  have h1 := gap_decays (T := T) h hq k hk
  have h2 := (abs_le.1 h1).2
  unfold excess
  rw [hq (m0 + k) (by omega) hk]
  split_ifs
  · exact le_trans (abs_nonneg _) h1
  · exact h2

theorem floor_decays {T n m0 : ℕ} {s : ℕ → ℝ} {B : ℝ} (h : ∀ i < n, 0 ≤ s i ∧ s i ≤ B)
    (hs : ∀ k, m0 + k < n → s (m0 + k) ≤ B * 0.999 ^ k) :
    ∀ k, m0 + k < n → envelope T s (m0 + k) ≤ 2 * B * 0.999 ^ k := by
  intro k
  induction k with
  | zero =>
    intro hk
    obtain ⟨a, b⟩ := envelope_range (T := T) h (m0 + 0) hk
    linarith
  | succ k ih =>
    intro hk
    have h1 := ih (by omega)
    have h2 := hs (k + 1) hk
    have h3 := (h (m0 + (k + 1)) hk).1
    have hB : 0 ≤ B * 0.999 ^ (k + 1) := le_trans h3 h2
    rw [← Nat.add_assoc] at h2 h3 ⊢
    rw [envelope]
    rw [pow_succ] at h2 hB ⊢
    generalize envelope T s (m0 + k) = f at *
    generalize (0.999 : ℝ) ^ k = z at *
    unfold follow
    split_ifs <;> nlinarith

theorem peak_decays {n m0 : ℕ} {s : ℕ → ℝ} {B : ℝ} (h : ∀ i < n, 0 ≤ s i ∧ s i ≤ B)
    (hs : ∀ k, m0 + k < n → s (m0 + k) ≤ B * 0.999 ^ k) :
    ∀ k, m0 + k < n → decayingPeak s (m0 + k) ≤ B * 0.999 ^ k := by
  intro k
  induction k with
  | zero =>
    intro hk
    obtain ⟨a, b⟩ := peak_range h (m0 + 0) hk
    linarith
  | succ k ih =>
    intro hk
    have h1 := ih (by omega)
    have h2 := hs (k + 1) hk
    have hB : 0 ≤ B * 0.999 ^ (k + 1) := le_trans (h (m0 + (k + 1)) hk).1 h2
    rw [← Nat.add_assoc] at h2 ⊢
    rw [decayingPeak]
    apply max_le _ h2
    rw [pow_succ] at hB ⊢
    nlinarith

theorem masked_decays {n m0 : ℕ} {s : ℕ → ℝ} {B : ℝ} (h : ∀ i < n, 0 ≤ s i ∧ s i ≤ B)
    (hs : ∀ k, m0 + k < n → s (m0 + k) ≤ B * 0.999 ^ k) (k : ℕ) (hk : m0 + k < n) :
    masked s (m0 + k) ≤ 2 * B * 0.999 ^ k := by
  have h2 := hs k hk
  have hB : 0 ≤ B * 0.999 ^ k := le_trans (h (m0 + k) hk).1 h2
  rcases k with _ | k
  · have := (masked_range h (m0 + 0) hk).2
    linarith
  · have h1 := peak_decays h hs k (by omega)
    rw [← Nat.add_assoc] at h2 ⊢
    rw [masked]
    rw [pow_succ] at h2 hB ⊢
    split_ifs <;> nlinarith

/-- **C152** (stationary noise is forgotten). For every non-empty non-negative medium-time power array, the noise
suppression with its default threshold returns an array of the same shape in which the following holds for each band: if the
power of the band never exceeds `B` and is constant from frame `m0` on, then `k` frames later what is left of it lies between
0 and `2 B 0.999 ^ k`. -/
theorem C152_stationary_decays (Q : List (List ℝ)) (r c : ℕ) (hQ : HasShape Q r c) (hr : 0 < r)
    (hpos : ∀ i l, i < r → l < c → 0 ≤ Np.at2 Q i l) :
    ∃ R, noiseSuppression (finMat Q) 0 = .ok (finMat R) ∧ HasShape R r c ∧
      ∀ l m0 : ℕ, ∀ B p : ℝ, l < c → (∀ i < r, Np.at2 Q i l ≤ B) → (∀ i, m0 ≤ i → i < r → Np.at2 Q i l = p) →
        ∀ k, m0 + k < r → 0 ≤ Np.at2 R (m0 + k) l ∧ Np.at2 R (m0 + k) l ≤ 2 * B * 0.999 ^ k := by
  obtain ⟨R, h1, h2, h3⟩ := C58_meaning Q r c hQ hr 0
  refine ⟨R, h1, h2, ?_⟩
  intro l m0 B p hl hB hp k hk
  rw [h3 (m0 + k) l hk hl]
  have hq : ∀ i < r, 0 ≤ Np.at2 Q i l ∧ Np.at2 Q i l ≤ B := fun i hi => ⟨hpos i l hi hl, hB i hi⟩
  have he := excess_range (T := r) hq
  have hd := excess_decays (T := r) hq hp
  unfold suppressed
  split_ifs
  · exact ⟨(masked_range he _ hk).1, masked_decays he hd k hk⟩
  · exact ⟨(envelope_range he _ hk).1, floor_decays he hd k hk⟩

/-! ### A constant band from the first frame on -/

theorem envelope_constant {r : ℕ} (hr : r ≠ 1) {q : ℕ → ℝ} {p : ℝ} (hp : 0 < p) (n : ℕ) (hq : ∀ i < n, q i = p) :
    ∀ m < n, envelope r q m = (1 - 0.999 ^ (m + 1)) * p := by
  intro m
  induction m with
  | zero =>
    intro hm
    rw [envelope, if_neg hr, hq 0 hm, follow, if_pos hp.le]
    ring
  | succ m ih =>
    intro hm
    rw [envelope, ih (by omega), hq _ hm, follow, if_pos]
    · ring
    · have : (0 : ℝ) < 0.999 ^ (m + 1) := by positivity
      nlinarith

theorem excess_constant {r : ℕ} (hr : r ≠ 1) {q : ℕ → ℝ} {p : ℝ} (hp : 0 < p) (n : ℕ) (hq : ∀ i < n, q i = p) (m : ℕ)
    (hm : m < n) : excess r 0 q m = 0.999 ^ (m + 1) * p := by
  have : (0 : ℝ) < 0.999 ^ (m + 1) := by positivity
  unfold excess
  rw [envelope_constant hr hp n hq m hm, hq m hm, if_neg]
  · ring
  · nlinarith

theorem peak_constant {s : ℕ → ℝ} {p : ℝ} (hp : 0 < p) (n : ℕ) (hs : ∀ i < n, s i = 0.999 ^ (i + 1) * p) :
    ∀ m < n, decayingPeak s m = 0.999 ^ (m + 1) * p := by
  intro m
  induction m with
  | zero => intro hm; rw [decayingPeak, hs 0 hm]
  | succ m ih =>
    intro hm
    rw [decayingPeak, ih (by omega), hs _ hm, max_eq_right]
    have : (0 : ℝ) < 0.999 ^ (m + 1) * p := by positivity
    rw [pow_succ _ (m + 1)]
    nlinarith

theorem masked_constant {s : ℕ → ℝ} {p : ℝ} (hp : 0 < p) (n : ℕ) (hs : ∀ i < n, s i = 0.999 ^ (i + 1) * p) (m : ℕ)
    (hm : m < n) : masked s m = 0.999 ^ (m + 1) * p := by
  rcases m with _ | m
  · rw [masked, hs 0 hm]
  · rw [masked, peak_constant hp n hs m (by omega), hs _ hm, if_pos]
    have : (0 : ℝ) < 0.999 ^ (m + 1) * p := by positivity
    rw [pow_succ _ (m + 1)]
    nlinarith

theorem floor_constant {r : ℕ} (hr : r ≠ 1) {s : ℕ → ℝ} {p : ℝ} (hp : 0 < p) (n : ℕ)
    (hs : ∀ i < n, s i = 0.999 ^ (i + 1) * p) :
    ∀ m < n, m < 1000 → envelope r s m = 0.001 * (m + 1) * 0.999 ^ m * 0.999 * p := by
  intro m
  induction m with
  | zero =>
    intro hm _
    rw [envelope, if_neg hr, hs 0 hm, follow, if_pos (by positivity)]
    push_cast; ring
  | succ m ih =>
    intro hm h1
    rw [envelope, ih (by omega) (by omega), hs _ hm, follow, if_pos]
    · push_cast; ring
    · have h2 : ((m : ℝ) + 1) ≤ 999 := by exact_mod_cast Nat.le_of_lt_succ h1
      have h3 : (0 : ℝ) < 0.999 ^ m * 0.999 * p := by positivity
      rw [pow_succ _ (m + 1), pow_succ _ m]
      nlinarith

theorem half_692 : (1 / 2 : ℝ) ≤ 0.999 ^ 692 := by
  have h : (0.84105 : ℝ) ≤ 0.999 ^ 173 := by norm_num
  have h2 := pow_le_pow_left₀ (by norm_num) h 4
  rw [← pow_mul] at h2
  exact le_trans (by norm_num) h2

theorem half_693 : (0.999 : ℝ) ^ 693 < 1 / 2 := by
  have h : (0.999 : ℝ) ^ 231 ≤ 0.79368 := by norm_num
  have h2 := pow_le_pow_left₀ (by positivity) h 3
  rw [← pow_mul] at h2
  exact lt_of_le_of_lt h2 (by norm_num)

/-- **C152** (how long it takes). If a band has the same power `p > 0` in all of at least two frames, frame `m` of the output
is `0.999 ^ (m + 1) p` for the first 692 frames (never less than half of the input: nothing to speak of is suppressed), and
`0.001 (m + 1) 0.999 ^ (m + 1) p` for the frames 692 to 999, which start at less than 35% of the input. -/
theorem C152_onset (Q : List (List ℝ)) (r c : ℕ) (hQ : HasShape Q r c) (hr : 2 ≤ r) :
    ∃ R, noiseSuppression (finMat Q) 0 = .ok (finMat R) ∧ HasShape R r c ∧
      ∀ l : ℕ, ∀ p : ℝ, l < c → 0 < p → (∀ i < r, Np.at2 Q i l = p) → ∀ m < r,
        (m < 692 → Np.at2 R m l = 0.999 ^ (m + 1) * p ∧ p / 2 ≤ Np.at2 R m l) ∧
        (692 ≤ m → m < 1000 → Np.at2 R m l = 0.001 * (m + 1) * 0.999 ^ (m + 1) * p) ∧
        (m = 692 → Np.at2 R m l < 0.35 * p) := by
  obtain ⟨R, h1, h2, h3⟩ := C58_meaning Q r c hQ (by omega) 0
  refine ⟨R, h1, h2, ?_⟩
  intro l p hl hp hq m hm
  have hr1 : r ≠ 1 := by omega
  have hx := excess_constant hr1 hp r hq
  have he := envelope_constant hr1 hp r hq m hm
  have key : 692 ≤ m → m < 1000 → Np.at2 R m l = 0.001 * (m + 1) * 0.999 ^ (m + 1) * p := by
    intro h4 h5
    rw [h3 m l hm hl, suppressed, if_neg, floor_constant hr1 hp r hx m hm h5]
    · ring
    · rw [he, hq m hm, not_le]
      have h6 : (0.999 : ℝ) ^ (m + 1) ≤ 0.999 ^ 693 :=
        pow_le_pow_of_le_one (by norm_num) (by norm_num) (by omega)
      have h7 := lt_of_le_of_lt h6 half_693
      generalize (0.999 : ℝ) ^ (m + 1) = z at *
      nlinarith
  refine ⟨?_, key, ?_⟩
  · intro h4
    have h6 : (0.999 : ℝ) ^ 692 ≤ 0.999 ^ (m + 1) :=
      pow_le_pow_of_le_one (by norm_num) (by norm_num) (by omega)
    have h7 := le_trans half_692 h6
    have h8 : Np.at2 R m l = 0.999 ^ (m + 1) * p := by
      rw [h3 m l hm hl, suppressed, if_pos, masked_constant hp r hx m hm]
      rw [he, hq m hm]
      generalize (0.999 : ℝ) ^ (m + 1) = z at *
      nlinarith
    refine ⟨h8, ?_⟩
    rw [h8]
    generalize (0.999 : ℝ) ^ (m + 1) = z at *
    nlinarith
  · intro h4
    rw [key (by omega) (by omega)]
    subst h4
    have h7 := half_693
    rw [show 692 + 1 = 693 from rfl]
    generalize (0.999 : ℝ) ^ 693 = z at *
    push_cast
    nlinarith

/-- Not vacuous: a recording of 3000 frames whose only band has power 7 in all frames; frame 9 keeps `0.999 ^ 10` of it, and
frame 2900 less than 1. -/
example : ∃ R, noiseSuppression (finMat (List.replicate 3000 [7])) 0 = .ok (finMat R) ∧
    Np.at2 R 9 0 = 0.999 ^ 10 * 7 ∧ Np.at2 R 2900 0 < 1 := by
  have hs : HasShape (List.replicate 3000 [(7 : ℝ)]) 3000 1 :=
    ⟨List.length_replicate, fun r hr => by rw [List.eq_of_mem_replicate hr]; rfl⟩
  have hv : ∀ i < 3000, Np.at2 (List.replicate 3000 [(7 : ℝ)]) i 0 = 7 := by
    intro i hi
    have : (List.replicate 3000 [(7 : ℝ)]).getD i [] = [7] := by
      rw [List.getD_eq_getElem _ _ (by rw [List.length_replicate]; exact hi), List.getElem_replicate]
    rw [Np.at2, this]
    rfl
  obtain ⟨R, h1, -, h3⟩ := C152_onset _ _ _ hs (by norm_num)
  obtain ⟨R', h1', -, h3'⟩ := C152_stationary_decays _ _ _ hs (by norm_num)
    (fun i l hi hl => by rw [Nat.lt_one_iff.1 hl, hv i hi]; norm_num)
  have hR : finMat R = finMat R' := by
    have := h1.symm.trans h1'
    injection this
  have hRR : R = R' := finMat_injective hR
  subst hRR
  refine ⟨R, h1, ((h3 0 7 (by norm_num) (by norm_num) hv 9 (by norm_num)).1 (by norm_num)).1, ?_⟩
  have := (h3' 0 0 7 7 (by norm_num) (fun i hi => (hv i hi).le) (fun i _ hi => hv i hi) 2900 (by norm_num)).2
  rw [Nat.zero_add] at this
  have h4 : (0.999 : ℝ) ^ 2900 ≤ 0.999 ^ (250 * 11) :=
    pow_le_pow_of_le_one (by norm_num) (by norm_num) (by norm_num)
  have h5 : (0.999 : ℝ) ^ 250 ≤ 0.7788 := by norm_num
  have h6 := pow_le_pow_left₀ (by positivity) h5 11
  rw [← pow_mul] at h6
  have h7 := le_trans h4 h6
  generalize (0.999 : ℝ) ^ 2900 = z at *
  norm_num at h7
  linarith

end Props
end Spafe
