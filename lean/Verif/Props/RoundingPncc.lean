import Verif.Model.RoundingPncc
import Verif.Props.RoundingSpfeats
import Verif.Props.RoundingPost
import Verif.Props.PnccGain

/-! C183: the recursions of `pncc` in floating point. -/

set_option linter.unusedSectionVars false

namespace Spafe
namespace Props
open Model XF Spec

variable {u : ℝ} {fl : ℝ → ℝ}

/-! ### One step -/

theorem follow_eq_add (e x : ℝ) : follow e x = x + (if e - x ≤ 0 then 0.999 * (e - x) else 0.5 * (e - x)) := by
  unfold follow
  by_cases h : e ≤ x
  · rw [if_pos h, if_pos (by linarith)]; ring
  · rw [if_neg h, if_neg (by linarith)]; ring

/-- The exact filter forgets at least a thousandth of an error in its state. -/
theorem follow_close {e e' x x' E d : ℝ} (he : |e' - e| ≤ E) (hx : |x' - x| ≤ d) (hd : d ≤ E) :
    |follow e' x' - follow e x| ≤ 0.999 * E + 0.001 * d := by
  rw [follow_eq_add, follow_eq_add]
  obtain ⟨a1, a2⟩ := _root_.abs_le.mp he
  obtain ⟨b1, b2⟩ := _root_.abs_le.mp hx
  rw [_root_.abs_le]
  split_ifs with h1 h2 h2 <;> constructor <;> nlinarith

theorem follow_mem {e x B : ℝ} (he : |e| ≤ B) (hx : |x| ≤ B) : |follow e x| ≤ B := by
  obtain ⟨a1, a2⟩ := _root_.abs_le.mp he
  obtain ⟨b1, b2⟩ := _root_.abs_le.mp hx
  unfold follow
  rw [_root_.abs_le]
  split_ifs <;> constructor <;> linarith

theorem fl_scale (h : Rounding u fl) {a p : ℝ} (ha : 0 ≤ a) : |fl (fl a * p) - a * p| ≤ (2 * u + u ^ 2) * (a * |p|) := by
  have h1 : |fl a * p - a * p| ≤ u * a * |p| := by
    have := h.err a
    rw [abs_of_nonneg ha] at this
    rw [← sub_mul, abs_mul]
    exact mul_le_mul_of_nonneg_right this (abs_nonneg _)
  have h2 := fl_close h h1
  rw [abs_mul, abs_of_nonneg ha] at h2
  linarith [h2, (by ring : u * (a * |p|) + (1 + u) * (u * a * |p|) = (2 * u + u ^ 2) * (a * |p|))]

theorem flBlend_close (h : Rounding u fl) (hu : u ≤ 1 / 10 ^ 7) {lm p x M : ℝ} (h0 : 0 ≤ lm) (h1 : lm ≤ 1) (hp : |p| ≤ M)
    (hx : |x| ≤ M) : |flBlend fl lm p x - (lm * p + (1 - lm) * x)| ≤ 8.1 * u * M := by
  have hu0 := h.nonneg
  have hM : 0 ≤ M := (abs_nonneg _).trans hp
  have a1 : |fl (fl lm * p) - lm * p| ≤ 2.001 * u * M := by
    have e1 := fl_scale h (p := p) h0
    have e2 : lm * |p| ≤ M := by nlinarith [abs_nonneg p]
    have e3 : 2 * u + u ^ 2 ≤ 2.001 * u := by nlinarith
    have e4 : 0 ≤ lm * |p| := mul_nonneg h0 (abs_nonneg _)
    nlinarith [mul_le_mul e3 e2 e4 (by positivity)]
  have a2 : |fl (1 - fl lm) - (1 - lm)| ≤ 1.001 * u := by
    have e1 : |(1 - fl lm) - (1 - lm)| ≤ u * lm := by
      have := h.err lm
      rw [abs_of_nonneg h0] at this
      rw [show (1 - fl lm) - (1 - lm) = -(fl lm - lm) by ring, abs_neg]
      exact this
    have e2 := fl_close h e1
    rw [abs_of_nonneg (by linarith : (0 : ℝ) ≤ 1 - lm)] at e2
    nlinarith [mul_nonneg hu0 hu0, mul_le_mul_of_nonneg_left h1 (mul_nonneg hu0 hu0)]
  have a3 : |fl (fl (1 - fl lm) * x) - (1 - lm) * x| ≤ 2.01 * u * M := by
    have e1 : |fl (1 - fl lm) * x - (1 - lm) * x| ≤ 1.001 * u * M := by
      rw [← sub_mul, abs_mul]
      exact mul_le_mul a2 hx (abs_nonneg _) (by positivity)
    have e2 := fl_close h e1
    rw [abs_mul, abs_of_nonneg (by linarith : (0 : ℝ) ≤ 1 - lm)] at e2
    have e3 : (1 - lm) * |x| ≤ M := by nlinarith [abs_nonneg x]
    have e4 := mul_le_mul_of_nonneg_left e3 hu0
    have e5 : u * (u * M) ≤ 1 / 10 ^ 7 * (u * M) := mul_le_mul_of_nonneg_right hu (by positivity)
    nlinarith
  have a4 : |fl (fl lm * p) + fl (fl (1 - fl lm) * x) - (lm * p + (1 - lm) * x)| ≤ 4.011 * u * M := by
    rw [show fl (fl lm * p) + fl (fl (1 - fl lm) * x) - (lm * p + (1 - lm) * x) =
      (fl (fl lm * p) - lm * p) + (fl (fl (1 - fl lm) * x) - (1 - lm) * x) by ring]
    refine (abs_add_le _ _).trans ?_
    linarith
  have a5 : |lm * p + (1 - lm) * x| ≤ M := by
    obtain ⟨b1, b2⟩ := _root_.abs_le.mp hp
    obtain ⟨c1, c2⟩ := _root_.abs_le.mp hx
    rw [_root_.abs_le]
    constructor <;> nlinarith
  have a6 := fl_close h a4
  have a7 := mul_le_mul_of_nonneg_left a5 hu0
  have a8 : u * (u * M) ≤ 1 / 10 ^ 7 * (u * M) := mul_le_mul_of_nonneg_right hu (by positivity)
  unfold flBlend
  nlinarith [mul_nonneg hu0 hM]

theorem flFollow_close (h : Rounding u fl) (hu : u ≤ 1 / 10 ^ 7) {p x M : ℝ} (hp : |p| ≤ M) (hx : |x| ≤ M) :
    |flFollow fl p x - follow p x| ≤ 8.1 * u * M := by
  unfold flFollow follow
  split_ifs with hc
  · have := flBlend_close h hu (lm := 0.999) (by norm_num) (by norm_num) hp hx
    norm_num at this ⊢
    exact this
  · have := flBlend_close h hu (lm := 0.5) (by norm_num) (by norm_num) hp hx
    norm_num at this ⊢
    exact this

/-! ### The recursions -/

theorem envelope_mem {T : ℕ} {q : ℕ → ℝ} {B : ℝ} (h : ∀ i, |q i| ≤ B) : ∀ m, |envelope T q m| ≤ B
  | 0 => by
    have hB : 0 ≤ B := (abs_nonneg _).trans (h 0)
    refine follow_mem ?_ (h 0)
    split_ifs
    · rw [abs_mul, abs_of_nonneg (by norm_num : (0 : ℝ) ≤ 0.9)]
      linarith [h 0]
    · simpa using hB
  | m + 1 => follow_mem (envelope_mem h m) (h _)

/-- **C183**, the asymmetric filter: if the inputs are off by at most `e`, the outputs are off by at most `1.01 e + 8200 u B`, in
every frame of a recording of any length. -/
theorem C183_envelope (h : Rounding u fl) (hu : u ≤ 1 / 10 ^ 7) {T : ℕ} {q q' : ℕ → ℝ} {B e : ℝ} (hq : ∀ i, |q i| ≤ B)
    (hq' : ∀ i, |q' i - q i| ≤ e) (m : ℕ) :
    |flEnvelope fl T q' m - envelope T q m| ≤ 1.01 * e + 8200 * u * B := by
  have hu0 := h.nonneg
  have hB : 0 ≤ B := (abs_nonneg _).trans (hq 0)
  have he : 0 ≤ e := (abs_nonneg _).trans (hq' 0)
  have huB := mul_nonneg hu0 hB
  obtain ⟨E, hE⟩ : ∃ E, E = 1.01 * e + 8200 * u * B := ⟨_, rfl⟩
  have hEe : e ≤ E := by rw [hE]; nlinarith
  have step : ∀ p p' x x', |p| ≤ B → |p' - p| ≤ E → |x| ≤ B → |x' - x| ≤ e → |flFollow fl p' x' - follow p x| ≤ E := by
    intro p p' x x' h1 h2 h3 h4
    have b1 : |p'| ≤ B + E := by
      have := abs_sub_abs_le_abs_sub p' p
      linarith
    have b2 : |x'| ≤ B + E := by
      have := abs_sub_abs_le_abs_sub x' x
      linarith
    have c1 := flFollow_close h hu b1 b2
    have c2 := follow_close h2 h4 hEe
    have c3 : |flFollow fl p' x' - follow p x| ≤ |flFollow fl p' x' - follow p' x'| + |follow p' x' - follow p x| :=
      abs_sub_le _ _ _
    have c4 : u * E ≤ 1 / 10 ^ 7 * E := mul_le_mul_of_nonneg_right hu (he.trans hEe)
    nlinarith
  rw [← hE]
  induction m with
  | zero =>
    refine step _ _ _ _ ?_ ?_ (hq 0) (hq' 0)
    · split_ifs
      · rw [abs_mul, abs_of_nonneg (by norm_num : (0 : ℝ) ≤ 0.9)]
        linarith [hq 0]
      · simpa using hB
    · split_ifs
      · have a1 := fl_scale h (a := 0.9) (p := q' 0) (by norm_num)
        have a2 : |q' 0| ≤ B + e := by
          have := abs_sub_abs_le_abs_sub (q' 0) (q 0)
          linarith [hq 0, hq' 0]
        have a3 : |0.9 * q' 0 - 0.9 * q 0| ≤ 0.9 * e := by
          rw [← mul_sub, abs_mul, abs_of_nonneg (by norm_num : (0 : ℝ) ≤ 0.9)]
          linarith [hq' 0]
        have a4 : |fl (fl 0.9 * q' 0) - 0.9 * q 0| ≤ |fl (fl 0.9 * q' 0) - 0.9 * q' 0| + |0.9 * q' 0 - 0.9 * q 0| :=
          abs_sub_le _ _ _
        have a5 : 2 * u + u ^ 2 ≤ 2.001 * u := by nlinarith
        have a6 : (2 * u + u ^ 2) * (0.9 * |q' 0|) ≤ 2.001 * u * (0.9 * (B + e)) :=
          mul_le_mul a5 (by linarith) (by positivity) (by positivity)
        have a7 : u * e ≤ 1 / 10 ^ 7 * e := mul_le_mul_of_nonneg_right hu he
        rw [hE]
        nlinarith
      · simpa using he.trans hEe
  | succ m ih => exact step _ _ _ _ (envelope_mem hq m) ih (hq _) (hq' _)

theorem envelope_le {T : ℕ} {q : ℕ → ℝ} {B : ℝ} (h0 : ∀ i, 0 ≤ q i) (h : ∀ i, q i ≤ B) (m : ℕ) : envelope T q m ≤ B :=
  (le_abs_self _).trans (envelope_mem (fun i => by rw [abs_of_nonneg (h0 i)]; exact h i) m)

theorem excess_eq_max (T : ℕ) (q : ℕ → ℝ) (m : ℕ) : excess T 0 q m = max (q m - envelope T q m) 0 := by
  unfold excess
  split_ifs with h
  · rw [max_eq_right h.le]
  · rw [max_eq_left (not_lt.mp h)]

theorem flExcess_eq_max (T : ℕ) (q : ℕ → ℝ) (m : ℕ) : flExcess fl T q m = max (fl (q m - flEnvelope fl T q m)) 0 := by
  unfold flExcess
  split_ifs with h
  · rw [max_eq_right h.le]
  · rw [max_eq_left (not_lt.mp h)]

/-- **C183**, the excess over the envelope, in every frame. -/
theorem C183_excess (h : Rounding u fl) (hu : u ≤ 1 / 10 ^ 7) {T : ℕ} {q q' : ℕ → ℝ} {B e : ℝ} (h0 : ∀ i, 0 ≤ q i)
    (hq : ∀ i, q i ≤ B) (hq' : ∀ i, |q' i - q i| ≤ e) (m : ℕ) :
    |flExcess fl T q' m - excess T 0 q m| ≤ 2.02 * e + 8202 * u * B := by
  have hu0 := h.nonneg
  have hB : 0 ≤ B := (h0 0).trans (hq 0)
  have he : 0 ≤ e := (abs_nonneg _).trans (hq' 0)
  have h1 := C183_envelope h hu (T := T) (fun i => by rw [abs_of_nonneg (h0 i)]; exact hq i) hq' m
  rw [flExcess_eq_max, excess_eq_max]
  refine (abs_max_sub_max_le_abs _ _ _).trans ?_
  have h2 : |q' m - flEnvelope fl T q' m - (q m - envelope T q m)| ≤ 2.01 * e + 8200 * u * B := by
    rw [show q' m - flEnvelope fl T q' m - (q m - envelope T q m) =
      (q' m - q m) - (flEnvelope fl T q' m - envelope T q m) by ring]
    refine (abs_sub _ _).trans ?_
    linarith [hq' m]
  have h3 := fl_close h h2
  have h4 : |q m - envelope T q m| ≤ B := by
    have a1 := envelope_le (T := T) h0 hq m
    have a2 := envelope_nonneg (T := T) h0 m
    rw [_root_.abs_le]
    constructor <;> linarith [h0 m, hq m]
  have h5 := mul_le_mul_of_nonneg_left h4 hu0
  have h6 : u * (2.01 * e + 8200 * u * B) ≤ 1 / 10 ^ 7 * (2.01 * e + 8200 * u * B) :=
    mul_le_mul_of_nonneg_right hu (by positivity)
  have h7 : 0 ≤ u * B := mul_nonneg hu0 hB
  nlinarith

theorem decayingPeak_le {q : ℕ → ℝ} {B : ℝ} (h0 : ∀ i, 0 ≤ q i) (h : ∀ i, q i ≤ B) : ∀ m, decayingPeak q m ≤ B
  | 0 => h 0
  | m + 1 => max_le (by linarith [decayingPeak_le h0 h m, decayingPeak_nonneg h0 m]) (h _)

theorem scale_close (h : Rounding u fl) (hu : u ≤ 1 / 10 ^ 7) {a p p' B E : ℝ} (ha : 0 ≤ a) (hp : |p| ≤ B)
    (hp' : |p' - p| ≤ E) : |fl (fl a * p') - a * p| ≤ a * (1.001 * E + 2.001 * u * B) := by
  have hu0 := h.nonneg
  have hB : 0 ≤ B := (abs_nonneg _).trans hp
  have hE : 0 ≤ E := (abs_nonneg _).trans hp'
  have a1 := fl_scale h (a := a) (p := p') ha
  have a2 : |p'| ≤ B + E := by
    have := abs_sub_abs_le_abs_sub p' p
    linarith
  have a3 : |a * p' - a * p| ≤ a * E := by
    rw [← mul_sub, abs_mul, abs_of_nonneg ha]
    exact mul_le_mul_of_nonneg_left hp' ha
  have a4 : |fl (fl a * p') - a * p| ≤ |fl (fl a * p') - a * p'| + |a * p' - a * p| := abs_sub_le _ _ _
  have a5 : 2 * u + u ^ 2 ≤ 2.001 * u := by nlinarith
  have a6 : (2 * u + u ^ 2) * (a * |p'|) ≤ 2.001 * u * (a * (B + E)) :=
    mul_le_mul a5 (mul_le_mul_of_nonneg_left a2 ha) (by positivity) (by positivity)
  have a7 : u * (a * E) ≤ 1 / 10 ^ 7 * (a * E) := mul_le_mul_of_nonneg_right hu (mul_nonneg ha hE)
  have a8 := mul_nonneg ha hE
  nlinarith

/-- **C183**, the decaying peak, in every frame. -/
theorem C183_peak (h : Rounding u fl) (hu : u ≤ 1 / 10 ^ 7) {s s' : ℕ → ℝ} {B e : ℝ} (h0 : ∀ i, 0 ≤ s i) (hs : ∀ i, s i ≤ B)
    (hs' : ∀ i, |s' i - s i| ≤ e) (m : ℕ) : |flPeak fl s' m - decayingPeak s m| ≤ e + 12 * u * B := by
  have hu0 := h.nonneg
  have hB : 0 ≤ B := (h0 0).trans (hs 0)
  have he : 0 ≤ e := (abs_nonneg _).trans (hs' 0)
  have huB := mul_nonneg hu0 hB
  induction m with
  | zero => exact (hs' 0).trans (by linarith)
  | succ m ih =>
    rw [flPeak, decayingPeak]
    refine (abs_max_sub_max_le_max _ _ _ _).trans (max_le ?_ ((hs' _).trans (by linarith)))
    have := scale_close h hu (a := 0.85) (B := B) (by norm_num)
      (by rw [abs_of_nonneg (decayingPeak_nonneg h0 m)]; exact decayingPeak_le h0 hs m) ih
    nlinarith

/-- **C183**, temporal masking: away from the threshold the output is off by at most `e + 20 u B`. -/
theorem C183_masked (h : Rounding u fl) (hu : u ≤ 1 / 10 ^ 7) {s s' : ℕ → ℝ} {B e : ℝ} (h0 : ∀ i, 0 ≤ s i) (hs : ∀ i, s i ≤ B)
    (hs' : ∀ i, |s' i - s i| ≤ e) (m : ℕ)
    (hm : ∀ k, m = k + 1 → 1.86 * e + 15 * u * B < |s m - 0.85 * decayingPeak s k|) :
    |flMasked fl s' m - masked s m| ≤ e + 20 * u * B := by
  have hu0 := h.nonneg
  have hB : 0 ≤ B := (h0 0).trans (hs 0)
  have he : 0 ≤ e := (abs_nonneg _).trans (hs' 0)
  have huB := mul_nonneg hu0 hB
  cases m with
  | zero => exact (hs' 0).trans (by linarith)
  | succ m =>
    have hk := hm m rfl
    have hp : |decayingPeak s m| ≤ B := by
      rw [abs_of_nonneg (decayingPeak_nonneg h0 m)]; exact decayingPeak_le h0 hs m
    have hc := C183_peak h hu h0 hs hs' m
    have a1 := scale_close h hu (a := 0.85) (by norm_num) hp hc
    have a2 := scale_close h hu (a := 0.2) (by norm_num) hp hc
    have a3 := hs' (m + 1)
    obtain ⟨b1, b2⟩ := _root_.abs_le.mp a1
    obtain ⟨c1, c2⟩ := _root_.abs_le.mp a3
    rw [flMasked, masked]
    by_cases hd : 0.85 * decayingPeak s m ≤ s (m + 1)
    · rw [abs_of_nonneg (by linarith)] at hk
      rw [if_pos hd, if_pos (by nlinarith)]
      linarith
    · rw [abs_of_neg (by linarith)] at hk
      rw [if_neg hd, if_neg (by nlinarith)]
      nlinarith

/-! ### Noise suppression -/

/-- Without rounding the computed values are those of the specification. -/
theorem C183_exact (T : ℕ) (q : ℕ → ℝ) (m : ℕ) : flSuppressed id T q m = suppressed T 0 q m := by
  have hf : ∀ p x, flFollow id p x = follow p x := by
    intro p x
    unfold flFollow flBlend follow
    norm_num
  have he : ∀ (q : ℕ → ℝ) m, flEnvelope id T q m = envelope T q m := by
    intro q m
    induction m with
    | zero => rw [flEnvelope, envelope, hf]; rfl
    | succ m ih => rw [flEnvelope, envelope, hf, ih]
  have hx : flExcess id T q = excess T 0 q := by
    funext i
    rw [flExcess, excess, he]
    rfl
  have hp : ∀ (s : ℕ → ℝ) m, flPeak id s m = decayingPeak s m := by
    intro s m
    induction m with
    | zero => rfl
    | succ m ih => rw [flPeak, decayingPeak, ih]; rfl
  have hm : ∀ (s : ℕ → ℝ) m, flMasked id s m = masked s m := by
    intro s m
    cases m with
    | zero => rfl
    | succ m => rw [flMasked, masked, hp]; rfl
  rw [flSuppressed, suppressed, he, he, hx, hm]
  rfl

theorem excess_le {T : ℕ} {q : ℕ → ℝ} {B : ℝ} (h0 : ∀ i, 0 ≤ q i) (h : ∀ i, q i ≤ B) (m : ℕ) : excess T 0 q m ≤ B := by
  rw [excess_eq_max]
  exact max_le (by linarith [h m, envelope_nonneg (T := T) h0 m]) ((h0 0).trans (h 0))

/-- **C183**, one channel: away from the two thresholds the result is off by at most `2.05 e + 16490 u B`. -/
theorem C183_channel (h : Rounding u fl) (hu : u ≤ 1 / 10 ^ 7) {T : ℕ} {q q' : ℕ → ℝ} {B e : ℝ} (h0 : ∀ i, 0 ≤ q i)
    (hq : ∀ i, q i ≤ B) (hq' : ∀ i, |q' i - q i| ≤ e) (m : ℕ)
    (hs : 3.1 * e + 16410 * u * B < |q m - 2 * envelope T q m|)
    (hm : 2 * envelope T q m ≤ q m → ∀ k, m = k + 1 →
      3.76 * e + 15280 * u * B < |excess T 0 q m - 0.85 * decayingPeak (excess T 0 q) k|) :
    |flSuppressed fl T q' m - suppressed T 0 q m| ≤ 2.05 * e + 16490 * u * B := by
  have hu0 := h.nonneg
  have hB : 0 ≤ B := (h0 0).trans (hq 0)
  have he : 0 ≤ e := (abs_nonneg _).trans (hq' 0)
  have huB := mul_nonneg hu0 hB
  have hE := C183_envelope h hu (T := T) (fun i => by rw [abs_of_nonneg (h0 i)]; exact hq i) hq' m
  have hX := C183_excess h hu (T := T) h0 hq hq'
  have hX0 := excess_nonneg T q
  have hXB := excess_le (T := T) h0 hq
  have hEB : |envelope T q m| ≤ B := envelope_mem (fun i => by rw [abs_of_nonneg (h0 i)]; exact hq i) m
  have h2 : |fl (2 * flEnvelope fl T q' m) - 2 * envelope T q m| ≤ 2.03 * e + 16403 * u * B := by
    have a1 : |2 * flEnvelope fl T q' m - 2 * envelope T q m| ≤ 2 * (1.01 * e + 8200 * u * B) := by
      rw [← mul_sub, abs_mul, abs_of_nonneg (by norm_num : (0 : ℝ) ≤ 2)]
      linarith
    have a2 := fl_close h a1
    rw [abs_mul, abs_of_nonneg (by norm_num : (0 : ℝ) ≤ 2)] at a2
    have a3 := mul_le_mul_of_nonneg_left hEB hu0
    have a4 : u * (2 * (1.01 * e + 8200 * u * B)) ≤ 1 / 10 ^ 7 * (2 * (1.01 * e + 8200 * u * B)) :=
      mul_le_mul_of_nonneg_right hu (by positivity)
    nlinarith
  obtain ⟨b1, b2⟩ := _root_.abs_le.mp h2
  obtain ⟨c1, c2⟩ := _root_.abs_le.mp (hq' m)
  rw [flSuppressed, suppressed]
  by_cases hc : 2 * envelope T q m ≤ q m
  · rw [abs_of_nonneg (by linarith)] at hs
    rw [if_pos hc, if_pos (by nlinarith)]
    refine (C183_masked h hu hX0 hXB hX m ?_).trans (by nlinarith)
    intro k hk
    refine lt_of_le_of_lt ?_ (hm hc k hk)
    nlinarith
  · rw [abs_of_neg (by linarith)] at hs
    rw [if_neg hc, if_neg (by nlinarith)]
    refine (C183_envelope h hu (fun i => by rw [abs_of_nonneg (hX0 i)]; exact hXB i) hX m).trans ?_
    nlinarith

/-- **C183**, with no condition on the thresholds: the computed value is that close to one of the three exact candidates. -/
theorem C183_candidates (h : Rounding u fl) (hu : u ≤ 1 / 10 ^ 7) {T : ℕ} {q q' : ℕ → ℝ} {B e : ℝ} (h0 : ∀ i, 0 ≤ q i)
    (hq : ∀ i, q i ≤ B) (hq' : ∀ i, |q' i - q i| ≤ e) (m : ℕ) :
    |flSuppressed fl T q' m - excess T 0 q m| ≤ 2.05 * e + 16490 * u * B ∨
    |flSuppressed fl T q' m - envelope T (excess T 0 q) m| ≤ 2.05 * e + 16490 * u * B ∨
    ∃ k, m = k + 1 ∧ |flSuppressed fl T q' m - 0.2 * decayingPeak (excess T 0 q) k| ≤ 2.05 * e + 16490 * u * B := by
  have hu0 := h.nonneg
  have hB : 0 ≤ B := (h0 0).trans (hq 0)
  have he : 0 ≤ e := (abs_nonneg _).trans (hq' 0)
  have huB := mul_nonneg hu0 hB
  have hX := C183_excess h hu (T := T) h0 hq hq'
  have hX0 := excess_nonneg T q
  have hXB := excess_le (T := T) h0 hq
  rw [flSuppressed]
  split_ifs with hc
  · cases m with
    | zero => exact Or.inl ((hX 0).trans (by nlinarith))
    | succ k =>
      rw [flMasked]
      split_ifs with hd
      · exact Or.inl ((hX _).trans (by nlinarith))
      · refine Or.inr (Or.inr ⟨k, rfl, ?_⟩)
        have a1 := scale_close h hu (a := 0.2) (B := B) (by norm_num)
          (by rw [abs_of_nonneg (decayingPeak_nonneg hX0 k)]; exact decayingPeak_le hX0 hXB k) (C183_peak h hu hX0 hXB hX k)
        exact a1.trans (by nlinarith)
  · refine Or.inr (Or.inl ?_)
    refine (C183_envelope h hu (fun i => by rw [abs_of_nonneg (hX0 i)]; exact hXB i) hX m).trans ?_
    nlinarith

theorem at2_out {A : List (List ℝ)} {r c : ℕ} (hA : HasShape A r c) {i l : ℕ} (h : r ≤ i) : Np.at2 A i l = 0 := by
  unfold Np.at2
  rw [List.getD_eq_default A _ (by rw [hA.1]; exact h)]
  rfl

/-- **C183**, `asymmetric_noise_suppression_with_temporal_masking` in binary64: if the entries of `Q` are in `[0, B]` and those of
the computed `Q'` are within `e` of them, then wherever the exact values keep a distance from the two thresholds the computed result
is within `2.05 e + 2·10⁻¹² B` of the exact one. The bound does not depend on the number of frames. -/
theorem C183_suppression (Q Q' : List (List ℝ)) (r c : ℕ) (hQ : HasShape Q r c) (hQ' : HasShape Q' r c) (hr : 0 < r) {B e : ℝ}
    (hB : ∀ i l, i < r → l < c → 0 ≤ Np.at2 Q i l ∧ Np.at2 Q i l ≤ B)
    (he : ∀ i l, i < r → l < c → |Np.at2 Q' i l - Np.at2 Q i l| ≤ e) :
    ∃ R, noiseSuppression (finMat Q) = .ok (finMat R) ∧ HasShape R r c ∧ ∀ m l, m < r → l < c →
      3.1 * e + B / 10 ^ 11 < |Np.at2 Q m l - 2 * envelope r (fun i => Np.at2 Q i l) m| →
      (∀ k, m = k + 1 → 3.76 * e + B / 10 ^ 11 < |excess r 0 (fun i => Np.at2 Q i l) m -
        0.85 * decayingPeak (excess r 0 fun i => Np.at2 Q i l) k|) →
      |flSuppressed fl64 r (fun i => Np.at2 Q' i l) m - Np.at2 R m l| ≤ 2.05 * e + 2 * B / 10 ^ 12 := by
  obtain ⟨R, h1, h2, h3⟩ := C58_meaning Q r c hQ hr 0
  refine ⟨R, h1, h2, fun m l hm hl hs hk => ?_⟩
  have hB0 : 0 ≤ B := (hB m l hm hl).1.trans (hB m l hm hl).2
  have he0 : 0 ≤ e := (abs_nonneg _).trans (he m l hm hl)
  rw [h3 m l hm hl]
  refine (C183_channel C130_binary64.1 (by norm_num) (B := B) (e := e) (q := fun i => Np.at2 Q i l) ?_ ?_ ?_ m ?_ ?_).trans ?_
  · intro i
    by_cases hi : i < r
    · exact (hB i l hi hl).1
    · exact (at2_out hQ (not_lt.mp hi)).ge
  · intro i
    by_cases hi : i < r
    · exact (hB i l hi hl).2
    · exact (at2_out hQ (not_lt.mp hi)).trans_le hB0
  · intro i
    by_cases hi : i < r
    · exact he i l hi hl
    · beta_reduce
      rw [at2_out hQ (not_lt.mp hi), at2_out hQ' (not_lt.mp hi)]
      simpa using he0
  · refine lt_of_le_of_lt ?_ hs
    have : (16410 : ℝ) * (1 / 2 ^ 53) ≤ 1 / 10 ^ 11 := by norm_num
    nlinarith [mul_le_mul_of_nonneg_right this hB0]
  · intro _ k hmk
    refine lt_of_le_of_lt ?_ (hk k hmk)
    have : (15280 : ℝ) * (1 / 2 ^ 53) ≤ 1 / 10 ^ 11 := by norm_num
    nlinarith [mul_le_mul_of_nonneg_right this hB0]
  · have : (16490 : ℝ) * (1 / 2 ^ 53) ≤ 2 / 10 ^ 12 := by norm_num
    nlinarith [mul_le_mul_of_nonneg_right this hB0]

/-- A power that doubles from one frame to the next is far from both thresholds. -/
example : |flSuppressed fl64 2 (fun i => if i = 0 then 1 else 2) 1 - 1.997001| ≤ 4 / 10 ^ 12 := by
  have e0 : envelope 2 (fun i => if i = 0 then 1 else 2) 0 = 0.001 := by
    rw [envelope, follow]; norm_num
  have e1 : envelope 2 (fun i => if i = 0 then 1 else 2) 1 = 0.002999 := by
    rw [envelope, e0, follow]; norm_num
  have x0 : excess 2 0 (fun i => if i = 0 then 1 else 2) 0 = 0.999 := by
    rw [excess, e0]; norm_num
  have x1 : excess 2 0 (fun i => if i = 0 then 1 else 2) 1 = 1.997001 := by
    rw [excess, e1]; norm_num
  have hs : suppressed 2 0 (fun i => if i = 0 then 1 else 2) 1 = 1.997001 := by
    rw [suppressed, e1, masked, decayingPeak, x0, x1]; norm_num
  have := C183_channel (T := 2) (q := fun i => if i = 0 then 1 else 2) (q' := fun i => if i = 0 then 1 else 2) (B := 2) (e := 0)
    C130_binary64.1 (by norm_num) (fun i => by beta_reduce; split_ifs <;> norm_num) (fun i => by beta_reduce; split_ifs <;> norm_num)
    (fun i => by simp) 1 (by rw [e1]; norm_num [abs_of_pos]) (fun _ k hk => by
      obtain rfl : k = 0 := by omega
      rw [x1, decayingPeak, x0]; norm_num [abs_of_pos])
  rw [hs] at this
  refine this.trans ?_
  norm_num

/-- **C183**, why a distance from the thresholds is needed: two recordings that differ by as little as one likes in one entry can
differ by more than half of their largest entry after noise suppression. -/
theorem C183_jump {ε : ℝ} (h0 : 0 < ε) (h1 : ε < 1 / 2) :
    suppressed 2 0 (fun i => if i = 0 then 1 else 0.851) 1 - suppressed 2 0 (fun i => if i = 0 then 1 else 0.851 - ε) 1 > 0.64 := by
  have key : ∀ b : ℝ, 0.01 ≤ b → suppressed 2 0 (fun i => if i = 0 then 1 else b) 1 =
      if 0.851 ≤ b then 0.999 * b - 0.000999 else 0.1998 := by
    intro b hb
    have e0 : envelope 2 (fun i => if i = 0 then 1 else b) 0 = 0.001 := by
      rw [envelope, follow]; norm_num
    have e1 : envelope 2 (fun i => if i = 0 then 1 else b) 1 = 0.000999 + 0.001 * b := by
      rw [envelope, e0, follow]
      simp only [Nat.add_eq_zero_iff, one_ne_zero, and_false, if_false]
      rw [if_pos (by linarith)]; ring
    have x0 : excess 2 0 (fun i => if i = 0 then 1 else b) 0 = 0.999 := by
      rw [excess, e0]; norm_num
    have x1 : excess 2 0 (fun i => if i = 0 then 1 else b) 1 = 0.999 * b - 0.000999 := by
      rw [excess, e1]
      simp only [one_ne_zero, if_false]
      rw [if_neg (by linarith)]; ring
    rw [suppressed, e1]
    simp only [one_ne_zero, if_false]
    rw [if_pos (by linarith), masked, decayingPeak, x0, x1]
    by_cases hc : (0.851 : ℝ) ≤ b
    · rw [if_pos hc, if_pos (by linarith)]
    · rw [if_neg hc, if_neg (by linarith)]; norm_num
  rw [key _ (by norm_num), key _ (by linarith), if_pos (by norm_num), if_neg (by linarith)]
  norm_num

/-! ### Mean power normalisation -/

theorem Near.add_nonneg {g r t s v : ℝ} (ht : 0 ≤ t) (hv : 0 ≤ v) (a : Near g r t) (b : Near g s v) : Near g (r + s) (t + v) := by
  unfold Near at *
  rw [abs_of_nonneg ht] at a
  rw [abs_of_nonneg hv] at b
  rw [abs_of_nonneg (_root_.add_nonneg ht hv), show r + s - (t + v) = (r - t) + (s - v) by ring]
  refine (abs_add_le _ _).trans ?_
  linarith

theorem near_round (h : Rounding u fl) {g r t : ℝ} (a : Near g r t) : Near ((1 + u) * g) (fl r) t := by
  refine Near.trans (by linarith [h.nonneg]) ?_ a
  unfold Near
  rw [show 1 + u - 1 = u by ring]
  exact h.err r

theorem runningMean_pos {L : ℕ} {t : ℕ → ℕ → ℝ} (ht : ∀ m l, 0 ≤ t m l) : ∀ m, 0 < runningMean L t m
  | 0 => by rw [runningMean]; norm_num
  | m + 1 => by
    rw [runningMean]
    have := runningMean_pos (L := L) ht m
    have h2 : 0 ≤ (∑ l ∈ Finset.range L, t (m + 1) l) / L :=
      div_nonneg (Finset.sum_nonneg fun l _ => ht _ l) (Nat.cast_nonneg _)
    positivity

/-- **C183**, the running mean of the power: the relative error grows by three roundings per frame. -/
theorem C183_mean (h : Rounding u fl) (hu : u ≤ 1 / 10 ^ 7) {L : ℕ} (hL : 0 < L) {t t' : ℕ → ℕ → ℝ} {μ : ℕ → ℝ} {g : ℝ}
    (hg : 1 ≤ g) (ht : ∀ m l, 0 ≤ t m l) (ht' : ∀ m l, Near g (t' m l) (t m l)) (hμ : FlMeanPower fl L t' μ) (m : ℕ) :
    Near ((1 + u) ^ (3 * m + L + 2) * (1 + 1001 * u) * g) (μ m) (runningMean L t m) := by
  have hu0 := h.nonneg
  have h1u : 1 ≤ 1 + u := by linarith
  have h1001 : 1 ≤ 1 + 1001 * u := by linarith
  have hLr : (0 : ℝ) < L := Nat.cast_pos.mpr hL
  obtain ⟨hμ0, hμs⟩ := hμ
  have mono : ∀ a b : ℕ, a ≤ b → (1 + u) ^ a * (1 + 1001 * u) * g ≤ (1 + u) ^ b * (1 + 1001 * u) * g := by
    intro a b hab
    have := pow_le_pow_right₀ h1u hab
    have h2 : 0 ≤ (1 + 1001 * u) * g := by positivity
    nlinarith
  induction m with
  | zero =>
    rw [hμ0, runningMean]
    refine Near.mono ?_ (near_round h (Near.refl 0.0001))
    have a1 : (1 + u) ^ 1 ≤ (1 + u) ^ (3 * 0 + L + 2) := pow_le_pow_right₀ h1u (by omega)
    have a2 : 1 ≤ (1 + 1001 * u) * g := one_le_mul_of_one_le_of_one_le h1001 hg
    have a3 : 0 ≤ (1 + u) ^ (3 * 0 + L + 2) := by positivity
    nlinarith
  | succ m ih =>
    obtain ⟨s, hs, e⟩ := hμs m
    rw [e, runningMean]
    have hpos := runningMean_pos (L := L) ht m
    have hS0 : 0 ≤ ∑ l ∈ Finset.range L, t (m + 1) l := Finset.sum_nonneg fun l _ => ht _ l
    have hsum := near_sum h hg (fun k _ => ht (m + 1) k) (fun k _ => ht' (m + 1) k) hs
    have hG1 : ∀ n, 1 ≤ (1 + u) ^ n * (1 + 1001 * u) * g := fun n =>
      one_le_mul_of_one_le_of_one_le (one_le_mul_of_one_le_of_one_le (one_le_pow₀ h1u) h1001) hg
    -- the part carried over
    have c1 : Near ((1 + u) ^ (3 * m + L + 4) * (1 + 1001 * u) * g) (fl (fl 0.999 * μ m)) (0.999 * runningMean L t m) := by
      have a1 : Near (1 + u) (fl 0.999) 0.999 := by simpa using near_round h (Near.refl 0.999)
      have a2 := near_round h (Near.mul h1u (hG1 _) a1 ih)
      refine Near.mono (le_of_eq ?_) a2
      ring
    -- the part of this frame
    have c2 : Near ((1 + u) ^ (L + 2) * (1 + 1001 * u) * g) (fl (fl (fl (1 - fl 0.999) / L) * s))
        (0.001 * ((∑ l ∈ Finset.range L, t (m + 1) l) / L)) := by
      have a1 : Near (1 + 1001 * u) (fl (1 - fl 0.999)) 0.001 := by
        have e1 : |(1 - fl 0.999) - 0.001| ≤ u * 0.999 := by
          have := h.err 0.999
          rw [abs_of_nonneg (by norm_num : (0 : ℝ) ≤ 0.999)] at this
          rw [show (1 - fl 0.999) - 0.001 = -(fl 0.999 - 0.999) by ring, abs_neg]
          exact this
        have e2 := fl_close h e1
        unfold Near
        rw [abs_of_nonneg (by norm_num : (0 : ℝ) ≤ 0.001)] at *
        nlinarith
      have a2 : Near (1 + 1001 * u) (fl (1 - fl 0.999) / L) (0.001 / L) := by
        have := Near.mul h1001 le_rfl a1 (Near.refl (1 / (L : ℝ)))
        rwa [mul_one, mul_one_div, mul_one_div] at this
      have a3 := near_round h a2
      have a4 := near_round h (Near.mul (one_le_mul_of_one_le_of_one_le h1u h1001)
        (one_le_mul_of_one_le_of_one_le (one_le_pow₀ h1u) hg) a3 hsum)
      rw [show 0.001 / (L : ℝ) * ∑ l ∈ Finset.range L, t (m + 1) l = 0.001 * ((∑ l ∈ Finset.range L, t (m + 1) l) / L) by ring]
        at a4
      refine Near.mono (le_of_eq ?_) a4
      ring
    have c3 := near_round h (Near.add_nonneg (by positivity) (by positivity) c1 (c2.mono (mono _ _ (by omega))))
    refine Near.mono (le_of_eq ?_) c3
    ring

/-- **C183**, the medium-time power: at most seven roundings. -/
theorem C183_medium (h : Rounding u fl) {T : ℕ} {p p' : ℕ → ℝ} {g : ℝ} (hg : 1 ≤ g) (hp : ∀ i, 0 ≤ p i)
    (hp' : ∀ i, Near g (p' i) (p i)) (m : ℕ) {r : ℝ} (hr : FlMediumTime fl T p' m r) :
    Near ((1 + u) ^ 7 * g) r (mediumTime T p m) := by
  have hu0 := h.nonneg
  have h1u : 1 ≤ 1 + u := by linarith
  obtain ⟨s, hs, rfl⟩ := hr
  have a1 := near_sum h hg (fun k _ => hp (m - 2 + k)) (fun k _ => hp' (m - 2 + k)) hs
  have a2 : Near (1 + u) (fl (1 / 5)) (1 / 5) := by simpa using near_round h (Near.refl (1 / 5))
  have a3 := near_round h (Near.mul h1u (one_le_mul_of_one_le_of_one_le (one_le_pow₀ h1u) hg) a2 a1)
  unfold mediumTime
  rw [one_div_mul_eq_div] at a3
  rw [Finset.sum_Ico_eq_sum_range]
  refine Near.mono ?_ a3
  have a4 : (1 + u) ^ (min T (m + 3) - (m - 2)) ≤ (1 + u) ^ 5 := pow_le_pow_right₀ h1u (by omega)
  calc (1 + u) * ((1 + u) * ((1 + u) ^ (min T (m + 3) - (m - 2)) * g))
      = (1 + u) ^ 2 * g * (1 + u) ^ (min T (m + 3) - (m - 2)) := by ring
    _ ≤ (1 + u) ^ 2 * g * (1 + u) ^ 5 := mul_le_mul_of_nonneg_left a4 (by positivity)
    _ = (1 + u) ^ 7 * g := by ring

/-- **C183**, the normalised power. -/
theorem C183_normalized (h : Rounding u fl) (hu : u ≤ 1 / 10 ^ 7) {L : ℕ} (hL : 0 < L) {t t' : ℕ → ℕ → ℝ} {μ : ℕ → ℝ} {g : ℝ}
    (hg : 1 ≤ g) (ht : ∀ m l, 0 ≤ t m l) (ht' : ∀ m l, Near g (t' m l) (t m l)) (hμ : FlMeanPower fl L t' μ) (m l : ℕ)
    (hG : (1 + u) ^ (3 * m + L + 2) * (1 + 1001 * u) * g < 2) :
    Near ((1 + u) ^ 2 * g / (2 - (1 + u) ^ (3 * m + L + 2) * (1 + 1001 * u) * g)) (flNormalized fl (t' m l) (μ m))
      (t m l / runningMean L t m) := by
  have hu0 := h.nonneg
  have h1u : 1 ≤ 1 + u := by linarith
  have h1001 : 1 ≤ 1 + 1001 * u := by linarith
  have a1 := C183_mean h hu hL hg ht ht' hμ m
  have a2 : Near ((1 + u) * g) (fl (1 * t' m l)) (t m l) := by
    rw [one_mul]; exact near_round h (ht' m l)
  have a3 := near_round h (Near.div (one_le_mul_of_one_le_of_one_le h1u hg)
    (one_le_mul_of_one_le_of_one_le (one_le_mul_of_one_le_of_one_le (one_le_pow₀ h1u) h1001) hg) hG
    (runningMean_pos ht m) a2 a1)
  refine Near.mono (le_of_eq ?_) a3
  ring

/-- **C183**, `mean_power_normalization` in binary64: for up to 333000 frames (55 minutes with the default hop) and 1000 channels,
powers known to a relative precision of `δ` are normalised to a relative precision of `2.1 δ + 5·10⁻⁹`. -/
theorem C183_normalization (A : List (List ℝ)) (r c L : ℕ) (hA : HasShape A r c) (hr : 0 < r) (hL : 0 < L) (hLc : L ≤ c)
    (hn : NonnegMat A) (t' : ℕ → ℕ → ℝ) (μ : ℕ → ℝ) {δ : ℝ} (h0 : 0 ≤ δ) (h1 : δ ≤ 1 / 100)
    (ht' : ∀ m l, |t' m l - Np.at2 A m l| ≤ δ * Np.at2 A m l) (hμ : FlMeanPower fl64 L t' μ) (hr' : r ≤ 333000)
    (hL' : L ≤ 1000) :
    ∃ U, meanPowerNormalization (finMat A) (nfilts := L) = .ok (finMat U) ∧ HasShape U r c ∧ ∀ m l, m < r → l < c →
      |flNormalized fl64 (t' m l) (μ m) - Np.at2 U m l| ≤ (2.1 * δ + 5 / 10 ^ 9) * Np.at2 U m l := by
  have hA0 : A ≠ [] := by intro h; rw [h] at hA; have := hA.1; simp at this; omega
  have hmean : ∀ m < A.length, rMyu 0.999 L A m = runningMean L (fun m l => Np.at2 A m l) m :=
    mean_eq (fun _ _ _ _ => rfl)
  have hnn : ∀ m l, 0 ≤ Np.at2 A m l := fun m l => nonneg_at2 hn m l
  refine ⟨_, meanPower_fin 1 hA.2 hA0 hLc (Or.inl hL) ?_, ⟨by simp [hA.1], matOf_rect _ _ _⟩, ?_⟩
  · intro m hm
    rw [hmean m hm]
    exact (runningMean_pos hnn m).ne'
  intro m l hm hl
  rw [at2_matOf _ (by rw [hA.1]; exact hm) hl, hmean m (by rw [hA.1]; exact hm), one_mul]
  have hpos := runningMean_pos (L := L) hnn m
  obtain ⟨W, hW⟩ : ∃ W, W = Np.at2 A m l / runningMean L (fun m l => Np.at2 A m l) m := ⟨_, rfl⟩
  have hW0 : 0 ≤ W := by rw [hW]; exact div_nonneg (hnn m l) hpos.le
  have hgr := growth_double (n := 3 * m + L + 2) (by omega)
  obtain ⟨G, hG⟩ : ∃ G : ℝ, G = (1 + 1 / 2 ^ 53) ^ (3 * m + L + 2) * (1 + 1001 * (1 / 2 ^ 53)) * (1 + δ) := ⟨_, rfl⟩
  have hG2 : G ≤ (1 + 1.2 / 10 ^ 9) * (1 + δ) := by
    rw [hG]
    refine mul_le_mul_of_nonneg_right ?_ (by linarith)
    refine (mul_le_mul_of_nonneg_right (by linarith : ((1 : ℝ) + 1 / 2 ^ 53) ^ (3 * m + L + 2) ≤ 1 + 1 / 10 ^ 9)
      (by norm_num)).trans ?_
    norm_num
  have hlt : G < 2 := by nlinarith
  have key := C183_normalized C130_binary64.1 (by norm_num) hL (by linarith : (1 : ℝ) ≤ 1 + δ) hnn
    (fun m l => by unfold Near; rw [abs_of_nonneg (hnn m l)]; simpa using ht' m l) hμ m l (by rw [← hG]; exact hlt)
  rw [← hG, ← hW] at key
  rw [← hW]
  unfold Near at key
  rw [abs_of_nonneg hW0] at key
  refine key.trans (mul_le_mul_of_nonneg_right ?_ hW0)
  rw [tsub_le_iff_right, div_le_iff₀ (by linarith)]
  have e1 : ((1 : ℝ) + 1 / 2 ^ 53) ^ 2 ≤ 1 + 1 / 10 ^ 12 := by norm_num
  have e2 := mul_le_mul_of_nonneg_right e1 (by linarith : (0 : ℝ) ≤ 1 + δ)
  refine e2.trans ?_
  have e3 : (2.1 * δ + 5 / 10 ^ 9 + 1) * (2 - (1 + 1.2 / 10 ^ 9) * (1 + δ)) ≤ (2.1 * δ + 5 / 10 ^ 9 + 1) * (2 - G) :=
    mul_le_mul_of_nonneg_left (by linarith) (by positivity)
  refine le_trans ?_ e3
  nlinarith [mul_nonneg h0 h0, mul_le_mul_of_nonneg_left h1 h0]

/-- A possible running mean exists: one channel of constant power. -/
example : ∃ μ, FlMeanPower fl64 1 (fun _ _ => 1) μ ∧
    ∀ m ≤ 1000, Near ((1 + 1 / 2 ^ 53) ^ (3 * m + 1 + 2) * (1 + 1001 * (1 / 2 ^ 53)) * 1) (μ m) (runningMean 1 (fun _ _ => 1) m) := by
  have hμ : FlMeanPower fl64 1 (fun _ _ => 1) (fun m => Nat.rec (fl64 0.0001)
      (fun _ p => fl64 (fl64 (fl64 0.999 * p) + fl64 (fl64 (fl64 (1 - fl64 0.999) / (1 : ℕ)) * 1))) m) :=
    ⟨rfl, fun m => ⟨1, FlSum.one 1, rfl⟩⟩
  exact ⟨_, hμ, fun m _ => C183_mean C130_binary64.1 (by norm_num) one_pos le_rfl (fun _ _ => zero_le_one)
    (fun _ _ => Near.refl 1) hμ m⟩

end Props
end Spafe
