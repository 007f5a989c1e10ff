import Verif.Model.RoundingRasta
import Verif.Props.RoundingPncc
import Verif.Props.Filters

/-! C197: `rasta_filter` in floating point. -/

set_option linter.unusedSectionVars false

namespace Spafe
namespace Props
open Model XF Spec

variable {u : ℝ} {fl : ℝ → ℝ}

theorem fl_zero (h : Rounding u fl) : fl 0 = 0 := by
  have := h.err 0
  rw [abs_zero, mul_zero, sub_zero] at this
  exact abs_nonpos_iff.mp this

/-- A product with a rounded constant of any sign. -/
theorem tap_close (h : Rounding u fl) (hu : u ≤ 1 / 10 ^ 7) {a p p' B E : ℝ} (hp : |p| ≤ B) (hp' : |p' - p| ≤ E) :
    |fl (fl a * p') - a * p| ≤ |a| * (1.001 * E + 2.001 * (u * B)) := by
  have hu0 := h.nonneg
  have hB : 0 ≤ B := (abs_nonneg _).trans hp
  have hE : 0 ≤ E := (abs_nonneg _).trans hp'
  have a2 : |p'| ≤ B + E := by
    have := abs_sub_abs_le_abs_sub p' p
    linarith
  have a3 : |fl a * p' - a * p| ≤ |a| * (u * (B + E) + E) := by
    have e1 : fl a * p' - a * p = (fl a - a) * p' + a * (p' - p) := by ring
    have e2 : |(fl a - a) * p'| ≤ u * |a| * (B + E) := by
      rw [abs_mul]
      exact mul_le_mul (h.err a) a2 (abs_nonneg _) (by positivity)
    have e3 : |a * (p' - p)| ≤ |a| * E := by
      rw [abs_mul]
      exact mul_le_mul_of_nonneg_left hp' (abs_nonneg _)
    have e4 := abs_add_le ((fl a - a) * p') (a * (p' - p))
    rw [e1]
    linarith [(by ring : u * |a| * (B + E) + |a| * E = |a| * (u * (B + E) + E))]
  have a4 := fl_close h a3
  have a5 : |a * p| ≤ |a| * B := by
    rw [abs_mul]
    exact mul_le_mul_of_nonneg_left hp (abs_nonneg _)
  have a6 := mul_le_mul_of_nonneg_left a5 hu0
  refine a4.trans (le_trans (add_le_add_left a6 _) ?_)
  have a7 : u * B + (1 + u) * (u * (B + E) + E) ≤ 1.001 * E + 2.001 * (u * B) := by
    have b1 : u * (u * B) ≤ 1 / 10 ^ 7 * (u * B) := mul_le_mul_of_nonneg_right hu (by positivity)
    have b2 : u * E ≤ 1 / 10 ^ 7 * E := mul_le_mul_of_nonneg_right hu hE
    have b3 : u * (u * E) ≤ 1 / 10 ^ 7 * (1 / 10 ^ 7 * E) :=
      mul_le_mul hu b2 (by positivity) (by norm_num)
    nlinarith
  calc u * (|a| * B) + (1 + u) * (|a| * (u * (B + E) + E)) = |a| * (u * B + (1 + u) * (u * (B + E) + E)) := by ring
    _ ≤ _ := mul_le_mul_of_nonneg_left a7 (abs_nonneg _)

theorem sum_close (h : Rounding u fl) (hu : u ≤ 1 / 10 ^ 7) {s s' t t' d d' B : ℝ} (hs : |s' - s| ≤ d) (ht : |t' - t| ≤ d')
    (hB : |s + t| ≤ B) : |fl (s' + t') - (s + t)| ≤ 1.001 * (d + d') + u * B := by
  have h1 : |s' + t' - (s + t)| ≤ d + d' := by
    have := abs_add_le (s' - s) (t' - t)
    rw [show s' + t' - (s + t) = s' - s + (t' - t) by ring]
    linarith
  have h2 := fl_close h h1
  have h3 := mul_le_mul_of_nonneg_left hB h.nonneg
  have h4 : 0 ≤ d + d' := (abs_nonneg _).trans h1
  have h5 : u * (d + d') ≤ 1 / 10 ^ 7 * (d + d') := mul_le_mul_of_nonneg_right hu h4
  linarith

theorem keep_close (h : Rounding u fl) (hu : u ≤ 1 / 10 ^ 7) {s s' y d B : ℝ} (hs : |s' - s| ≤ d) (hB : |s| ≤ B) :
    |fl (s' - fl (0 * y)) - s| ≤ 1.001 * d + u * B := by
  rw [zero_mul, fl_zero h]
  have := sum_close h hu (s := s) (s' := s') (t := 0) (t' := -0) (d' := 0) hs (by simp) (by simpa using hB)
  rw [← sub_eq_add_neg, add_zero, add_zero] at this
  exact this

theorem flNumer_close (h : Rounding u fl) (hu : u ≤ 1 / 10 ^ 7) (k : ℕ) {p p' X e : ℝ} (hp : |p| ≤ X) (hp' : |p' - p| ≤ e) :
    |fl (flNumer fl k * p') - (2 - (k : ℝ)) / 10 * p| ≤ |(2 - (k : ℝ)) / 10| * (1.001 * e + 2.001 * (u * X)) :=
  tap_close h hu hp hp'

/-- One sample of the recursion: the state errors are reproduced. -/
theorem rasta_step (h : Rounding u fl) (hu : u ≤ 1 / 10 ^ 7) {X e x x' h1 h2 h3 h4 p z0 z1 z2 z3 : ℝ}
    (hx : |x| ≤ X) (hx' : |x' - x| ≤ e) (b1 : |h1| ≤ X) (b2 : |h2| ≤ X) (b3 : |h3| ≤ X) (b4 : |h4| ≤ X) (bp : |p| ≤ 9.4 * X)
    (c0 : |z0 - (1 / 10 * h1 - 1 / 10 * h3 - 1 / 5 * h4 + p)| ≤ 10.77 * e + 738 * (u * X))
    (c1 : |z1 - (-(1 / 10) * h2 - 1 / 5 * h3)| ≤ 0.305 * e + 2.03 * (u * X))
    (c2 : |z2 - (-(1 / 10) * h1 - 1 / 5 * h2)| ≤ 0.303 * e + 1.42 * (u * X))
    (c3 : |z3 - -(1 / 5) * h1| ≤ 0.201 * e + 0.61 * (u * X)) :
    let y := 1 / 5 * x + 1 / 10 * h1 - 1 / 10 * h3 - 1 / 5 * h4 + p
    let y' := fl (z0 + fl (flNumer fl 0 * x'))
    |y| ≤ 10 * X ∧ |y' - y| ≤ 11 * e + 750 * (u * X) ∧
    |fl (fl (z1 + fl (flNumer fl 1 * x')) - fl (fl (-0.94) * y')) - (1 / 10 * x - 1 / 10 * h2 - 1 / 5 * h3 + 94 / 100 * y)| ≤
      10.77 * e + 738 * (u * X) ∧
    |fl (fl (z2 + fl (flNumer fl 2 * x')) - fl (0 * y')) - (-(1 / 10) * h1 - 1 / 5 * h2)| ≤ 0.305 * e + 2.03 * (u * X) ∧
    |fl (fl (z3 + fl (flNumer fl 3 * x')) - fl (0 * y')) - (-(1 / 10) * x - 1 / 5 * h1)| ≤ 0.303 * e + 1.42 * (u * X) ∧
    |fl (fl (flNumer fl 4 * x') - fl (0 * y')) - -(1 / 5) * x| ≤ 0.201 * e + 0.61 * (u * X) := by
  intro y y'
  have hX : 0 ≤ X := (abs_nonneg _).trans hx
  have he : 0 ≤ e := (abs_nonneg _).trans hx'
  have hW : 0 ≤ u * X := mul_nonneg h.nonneg hX
  have x1 := abs_le.mp hx
  have q1 := abs_le.mp b1
  have q2 := abs_le.mp b2
  have q3 := abs_le.mp b3
  have q4 := abs_le.mp b4
  have qp := abs_le.mp bp
  have hy : |y| ≤ 10 * X := abs_le.mpr ⟨by simp only [y]; linarith, by simp only [y]; linarith⟩
  have t0 := flNumer_close h hu 0 hx hx'
  have t1 := flNumer_close h hu 1 hx hx'
  have t2 := flNumer_close h hu 2 hx hx'
  have t3 := flNumer_close h hu 3 hx hx'
  have t4 := flNumer_close h hu 4 hx hx'
  norm_num at t0 t1 t2 t3 t4
  rw [← sub_neg_eq_add] at t3 t4
  have hy' : |y' - y| ≤ 11 * e + 750 * (u * X) := by
    have := sum_close h hu c0 t0 (B := 10 * X) (by
      rw [show 1 / 10 * h1 - 1 / 10 * h3 - 1 / 5 * h4 + p + 1 / 5 * x = y by simp only [y]; ring]; exact hy)
    rw [show 1 / 10 * h1 - 1 / 10 * h3 - 1 / 5 * h4 + p + 1 / 5 * x = y by simp only [y]; ring] at this
    refine this.trans ?_
    linarith
  refine ⟨hy, hy', ?_, ?_, ?_, ?_⟩
  · have s1 := sum_close h hu c1 t1 (B := 0.4 * X) (abs_le.mpr ⟨by linarith, by linarith⟩)
    have s2 := tap_close h hu (a := -0.94) hy hy'
    rw [abs_neg, abs_of_pos (by norm_num : (0 : ℝ) < 0.94)] at s2
    have s3 : |-fl (fl (-0.94) * y') - 94 / 100 * y| ≤ 0.94 * (1.001 * (11 * e + 750 * (u * X)) + 2.001 * (u * (10 * X))) := by
      rw [show -fl (fl (-0.94) * y') - 94 / 100 * y = -(fl (fl (-0.94) * y') - -0.94 * y) by ring, abs_neg]
      exact s2
    have yy := abs_le.mp hy
    have := sum_close h hu s1 s3 (B := 9.8 * X) (abs_le.mpr ⟨by linarith, by linarith⟩)
    rw [← sub_eq_add_neg, show -(1 / 10) * h2 - 1 / 5 * h3 + 1 / 10 * x + 94 / 100 * y =
      1 / 10 * x - 1 / 10 * h2 - 1 / 5 * h3 + 94 / 100 * y by ring] at this
    refine this.trans ?_
    linarith
  · have s1 := sum_close h hu (t := 0) (t' := fl (flNumer fl 2 * x')) (d' := 0) c2 (by rw [sub_zero, t2, abs_zero]) (B := 0.3 * X) (abs_le.mpr ⟨by linarith, by linarith⟩)
    rw [add_zero] at s1
    refine (keep_close h hu s1 (B := 0.3 * X) (abs_le.mpr ⟨by linarith, by linarith⟩)).trans ?_
    linarith
  · have s1 := sum_close h hu c3 t3 (B := 0.3 * X) (abs_le.mpr ⟨by linarith, by linarith⟩)
    rw [show -(1 / 5) * h1 + -(1 / 10 * x) = -(1 / 10) * x - 1 / 5 * h1 by ring] at s1
    refine (keep_close h hu s1 (B := 0.3 * X) (abs_le.mpr ⟨by linarith, by linarith⟩)).trans ?_
    linarith
  · rw [show -(1 / 5) * x = -(1 / 5 * x) by ring]
    refine (keep_close h hu t4 (B := 0.2 * X) (abs_le.mpr ⟨by linarith, by linarith⟩)).trans ?_
    linarith

/-- The recursion: an error bound for all samples, whatever their number. -/
theorem flIir_close (h : Rounding u fl) (hu : u ≤ 1 / 10 ^ 7) {X e : ℝ} : ∀ (xs xs' : List ℝ) (h1 h2 h3 h4 p z0 z1 z2 z3 : ℝ),
    xs'.length = xs.length → (∀ n < xs.length, |xs.getD n 0| ≤ X ∧ |xs'.getD n 0 - xs.getD n 0| ≤ e) →
    |h1| ≤ X → |h2| ≤ X → |h3| ≤ X → |h4| ≤ X → |p| ≤ 9.4 * X →
    |z0 - (1 / 10 * h1 - 1 / 10 * h3 - 1 / 5 * h4 + p)| ≤ 10.77 * e + 738 * (u * X) →
    |z1 - (-(1 / 10) * h2 - 1 / 5 * h3)| ≤ 0.305 * e + 2.03 * (u * X) →
    |z2 - (-(1 / 10) * h1 - 1 / 5 * h2)| ≤ 0.303 * e + 1.42 * (u * X) →
    |z3 - -(1 / 5) * h1| ≤ 0.201 * e + 0.61 * (u * X) → ∀ n < xs.length,
    |(flIir fl (z0, z1, z2, z3) xs').getD n 0 - (df2t rastaNumer [1, -(94 / 100)] (rastaState h1 h2 h3 h4 p) xs).1.getD n 0| ≤
      11 * e + 750 * (u * X)
  | [], _, _, _, _, _, _, _, _, _, _, _, _, _, _, _, _, _, _, _, _, _, n, hn => by simp at hn
  | _ :: _, [], _, _, _, _, _, _, _, _, _, hl, _, _, _, _, _, _, _, _, _, _, _, _ => by simp at hl
  | x :: xs, x' :: xs', h1, h2, h3, h4, p, z0, z1, z2, z3, hl, hx, b1, b2, b3, b4, bp, c0, c1, c2, c3, n, hn => by
    obtain ⟨x1, x2⟩ := hx 0 (by simp)
    simp only [List.getD_cons_zero] at x1 x2
    obtain ⟨s0, s1, s2, s3, s4, s5⟩ := rasta_step h hu x1 x2 b1 b2 b3 b4 bp c0 c1 c2 c3
    rw [df2t_cons, iir_step, flIir]
    cases n with
    | zero => simpa using s1
    | succ n =>
      simp only [List.getD_cons_succ]
      refine flIir_close h hu xs xs' x h1 h2 h3 _ _ _ _ _ (by simpa using hl) (fun m hm => by simpa using hx (m + 1) (by simpa using hm))
        x1 b1 b2 b3 ?_ s2 s3 s4 s5 n (by simpa using hn)
      rw [abs_mul, abs_of_pos (by norm_num : (0 : ℝ) < 94 / 100)]
      linarith

/-- The state after the first four samples. -/
theorem flState_close (h : Rounding u fl) (hu : u ≤ 1 / 10 ^ 7) {X e : ℝ} {x x' : ℕ → ℝ} (hx : ∀ i < 4, |x i| ≤ X ∧ |x' i - x i| ≤ e)
    (k n : ℕ) (hn : n ≤ 4) {z : ℝ} (hz : FlDot fl (fun i => flNumer fl (k + i)) (fun i => x' (3 - i)) n z) :
    |z - ∑ i ∈ Finset.range n, (2 - ((k + i : ℕ) : ℝ)) / 10 * x (3 - i)| ≤
      ∑ i ∈ Finset.range n, |(2 - ((k + i : ℕ) : ℝ)) / 10| * (1.001 * e + (n + 1.001) * (u * X)) := by
  have hu0 := h.nonneg
  obtain ⟨hX, he⟩ : 0 ≤ X ∧ 0 ≤ e := ⟨(abs_nonneg _).trans (hx 0 (by norm_num)).1, (abs_nonneg _).trans (hx 0 (by norm_num)).2⟩
  have h1 := C120_dot h (g := 1 + u) (by linarith) (a := fun i => (2 - ((k + i : ℕ) : ℝ)) / 10)
    (fun i _ => h.near _) hz
  have h2 : |∑ i ∈ Finset.range n, (2 - ((k + i : ℕ) : ℝ)) / 10 * x' (3 - i) - ∑ i ∈ Finset.range n, (2 - ((k + i : ℕ) : ℝ)) / 10 * x (3 - i)| ≤
      ∑ i ∈ Finset.range n, |(2 - ((k + i : ℕ) : ℝ)) / 10| * e := by
    rw [← Finset.sum_sub_distrib]
    refine (Finset.abs_sum_le_sum_abs _ _).trans (Finset.sum_le_sum fun i _ => ?_)
    rw [← mul_sub, abs_mul]
    exact mul_le_mul_of_nonneg_left (hx (3 - i) (by omega)).2 (abs_nonneg _)
  have h3 : ∑ i ∈ Finset.range n, |(2 - ((k + i : ℕ) : ℝ)) / 10 * x' (3 - i)| ≤
      ∑ i ∈ Finset.range n, |(2 - ((k + i : ℕ) : ℝ)) / 10| * (X + e) := by
    refine Finset.sum_le_sum fun i _ => ?_
    rw [abs_mul]
    refine mul_le_mul_of_nonneg_left ?_ (abs_nonneg _)
    obtain ⟨p1, p2⟩ := hx (3 - i) (by omega)
    have := abs_sub_abs_le_abs_sub (x' (3 - i)) (x (3 - i))
    linarith
  have h4 : (1 + u) ^ n * (1 + u) - 1 ≤ (n + 1.0009) * u := by
    have hu2 : u ^ 2 ≤ 1 / 10 ^ 7 * u := by nlinarith
    interval_cases n <;> norm_num <;> nlinarith [pow_nonneg hu0 2, pow_nonneg hu0 3, pow_nonneg hu0 4]
  have h5 : 0 ≤ (1 + u) ^ n * (1 + u) - 1 := by
    have := one_le_pow₀ (n := n + 1) (by linarith : 1 ≤ 1 + u)
    rw [pow_succ] at this
    linarith
  have h6 := abs_sub_le z (∑ i ∈ Finset.range n, (2 - ((k + i : ℕ) : ℝ)) / 10 * x' (3 - i))
    (∑ i ∈ Finset.range n, (2 - ((k + i : ℕ) : ℝ)) / 10 * x (3 - i))
  rw [← Finset.sum_mul] at h2 h3 ⊢
  have hS : 0 ≤ ∑ i ∈ Finset.range n, |(2 - ((k + i : ℕ) : ℝ)) / 10| := Finset.sum_nonneg fun i _ => abs_nonneg _
  have h7 : |z - ∑ i ∈ Finset.range n, (2 - ((k + i : ℕ) : ℝ)) / 10 * x' (3 - i)| ≤
      (n + 1.0009) * u * ((∑ i ∈ Finset.range n, |(2 - ((k + i : ℕ) : ℝ)) / 10|) * (X + e)) :=
    h1.trans (mul_le_mul h4 h3 (Finset.sum_nonneg fun i _ => abs_nonneg _) (by positivity))
  have hn' : (n : ℝ) ≤ 4 := by exact_mod_cast hn
  have h8 : (n + 1.0009) * u * (X + e) + e ≤ 1.001 * e + (n + 1.001) * (u * X) := by
    have q1 : u * e ≤ 1 / 10 ^ 7 * e := mul_le_mul_of_nonneg_right hu he
    have q2 : (n + 1.0009) * (u * e) ≤ 5.0009 * (1 / 10 ^ 7 * e) :=
      mul_le_mul (by linarith) q1 (by positivity) (by norm_num)
    have q3 : 0 ≤ u * X := by positivity
    nlinarith
  have h9 := mul_le_mul_of_nonneg_left h8 hS
  nlinarith

/-- C197: one row of `rasta_filter`. -/
theorem C197_row (h : Rounding u fl) (hu : u ≤ 1 / 10 ^ 7) {X e : ℝ} (r r' o out : List ℝ) (ho : Spec.Rasta r o) (hr : r ≠ [])
    (hl : r'.length = r.length) (hx : ∀ n < r.length, |r.getD n 0| ≤ X ∧ |r'.getD n 0 - r.getD n 0| ≤ e) (hout : FlRasta fl r' out) :
    out.length = o.length ∧ ∀ n < o.length, |out.getD n 0 - o.getD n 0| ≤ 11 * e + 750 * (u * X) := by
  obtain ⟨z0, z1, z2, z3, d0, d1, d2, d3, rfl⟩ := hout
  have h0 : 0 < r.length := List.length_pos_iff.mpr hr
  obtain ⟨hX, he⟩ : 0 ≤ X ∧ 0 ≤ e := ⟨(abs_nonneg _).trans (hx 0 h0).1, (abs_nonneg _).trans (hx 0 h0).2⟩
  have hW : 0 ≤ u * X := mul_nonneg h.nonneg hX
  obtain ⟨y, hy, hy'⟩ := C07_rasta_rows [r] (by simpa using hr)
  have : y = [rastaRowOut r] := by
    have := rastaRows_eq [r] (by simpa using hr) (lfilterZiFir rastaNumer) rasta_zi_length
    rw [rastaFilter, this] at hy
    simpa using hy.symm
  subst this
  have hR : Spec.Rasta r (rastaRowOut r) := by simpa using hy'
  obtain rfl := C07_rasta_unique r o _ ho hR
  have hlen : ∀ (z : ℝ × ℝ × ℝ × ℝ) (xs : List ℝ), (flIir fl z xs).length = xs.length := by
    intro z xs
    induction xs generalizing z with
    | nil => rw [flIir]
    | cons x xs ih => rw [flIir]; simp [ih]
  refine ⟨?_, fun n hn => ?_⟩
  · rw [hR.length, List.length_append, List.length_replicate, hlen, List.length_drop]
    omega
  rw [hR.length] at hn
  rcases Nat.lt_or_ge n 4 with h4 | h4
  · rw [hR.startup n h4 hn, List.getD_append _ _ _ _ (by simp; omega), List.getD_replicate _ (by omega), sub_zero, abs_zero]
    positivity
  · obtain ⟨m, rfl⟩ : ∃ m, n = 4 + m := ⟨n - 4, by omega⟩
    have e4 : min 4 r.length = 4 := by omega
    rw [rastaRowOut, hl, e4, List.getD_append_right _ _ _ _ (by simp), List.getD_append_right _ _ _ _ (by simp),
      List.length_replicate, Nat.add_sub_cancel_left]
    have hx4 : ∀ i < 4, |r.getD i 0| ≤ X ∧ |r'.getD i 0 - r.getD i 0| ≤ e := fun i hi => hx i (by omega)
    have c0 := flState_close h hu hx4 1 4 (by norm_num) d0
    have c1 := flState_close h hu hx4 2 3 (by norm_num) d1
    have c2 := flState_close h hu hx4 3 2 (by norm_num) d2
    have c3 := flState_close h hu hx4 4 1 (by norm_num) d3
    simp only [Finset.sum_range_succ, Finset.sum_range_zero] at c0 c1 c2 c3
    norm_num at c0 c1 c2 c3
    refine flIir_close h hu _ _ _ _ _ _ _ _ _ _ _ (by simp [hl]) (fun k hk => ?_) (hx4 3 (by norm_num)).1 (hx4 2 (by norm_num)).1
      (hx4 1 (by norm_num)).1 (hx4 0 (by norm_num)).1 (by rw [abs_zero]; positivity) ?_ ?_ ?_ ?_ m (by simp; omega)
    · have := hx (4 + k) (by simp at hk; omega)
      simpa [List.getD_eq_getElem?_getD, List.getElem?_drop] using this
    · refine le_trans (le_of_eq ?_) (c0.trans (by linarith))
      congr 1; simp only [List.getD_eq_getElem?_getD]; ring
    · refine le_trans (le_of_eq ?_) (c1.trans (by linarith))
      congr 1; simp only [List.getD_eq_getElem?_getD]; ring
    · refine le_trans (le_of_eq ?_) (c2.trans (by linarith))
      congr 1; simp only [List.getD_eq_getElem?_getD]; ring
    · refine le_trans (le_of_eq ?_) (c3.trans (by linarith))
      congr 1; simp only [List.getD_eq_getElem?_getD]; ring

/-- C197: `rasta_filter` of a matrix in floating point. The bound does not depend on the number of columns or rows. -/
theorem C197_rasta (h : Rounding u fl) (hu : u ≤ 1 / 10 ^ 7) {X e : ℝ} (x : List (List ℝ)) (hne : ∀ r ∈ x, r ≠ []) :
    ∃ y, rastaFilter x = .ok y ∧ y.length = x.length ∧ ∀ i < x.length, ∀ r' out : List ℝ, r'.length = (x.getD i []).length →
      (∀ n < (x.getD i []).length, |Np.at2 x i n| ≤ X ∧ |r'.getD n 0 - Np.at2 x i n| ≤ e) → FlRasta fl r' out →
      out.length = (x.getD i []).length ∧ ∀ n < (x.getD i []).length, |out.getD n 0 - Np.at2 y i n| ≤ 11 * e + 750 * u * X := by
  obtain ⟨y, hy, hf⟩ := C07_rasta_rows x hne
  refine ⟨y, hy, hf.length_eq.symm, fun i hi r' out hl hx hout => ?_⟩
  have hR : Spec.Rasta (x.getD i []) (y.getD i []) := by
    have hi' : i < y.length := by rw [← hf.length_eq]; exact hi
    rw [List.getD_eq_getElem _ _ hi, List.getD_eq_getElem _ _ hi']
    exact (List.forall₂_iff_get.mp hf).2 i hi hi'
  have hr : x.getD i [] ≠ [] := by
    rw [List.getD_eq_getElem _ _ hi]
    exact hne _ (List.getElem_mem hi)
  obtain ⟨h1, h2⟩ := C197_row h hu _ r' _ out hR hr hl hx hout
  rw [hR.length] at h1 h2
  refine ⟨h1, fun n hn => ?_⟩
  have := h2 n hn
  rw [mul_assoc]
  exact this

/-- C197: in double precision. (Logarithms of band energies between `1e-300` and `1e300` are below `X = 700`.) -/
theorem C197_double (h : Rounding (1 / 2 ^ 53) fl) {X e : ℝ} (x : List (List ℝ)) (hne : ∀ r ∈ x, r ≠ []) :
    ∃ y, rastaFilter x = .ok y ∧ y.length = x.length ∧ ∀ i < x.length, ∀ r' out : List ℝ, r'.length = (x.getD i []).length →
      (∀ n < (x.getD i []).length, |Np.at2 x i n| ≤ X ∧ |r'.getD n 0 - Np.at2 x i n| ≤ e) → FlRasta fl r' out →
      ∀ n < (x.getD i []).length, |out.getD n 0 - Np.at2 y i n| ≤ 11 * e + X / 10 ^ 13 := by
  obtain ⟨y, hy, hl, hb⟩ := C197_rasta h (by norm_num) (X := X) (e := e) x hne
  refine ⟨y, hy, hl, fun i hi r' out h1 h2 h3 n hn => ((hb i hi r' out h1 h2 h3).2 n hn).trans ?_⟩
  have hX : 0 ≤ X := (abs_nonneg _).trans (h2 n hn).1
  norm_num
  linarith

/-- C197: the factor `np.exp(rasta_filter(np.log(E)))` of `rplp` (`rplp.py:142-148`), with logarithms within `e` and an exponential
function within `v` relative. -/
theorem C197_exponential (h : Rounding u fl) (hu : u ≤ 1 / 10 ^ 7) {X e v : ℝ} (hv : 0 ≤ v) (E o r' out : List ℝ) (hE : E ≠ [])
    (ho : Spec.Rasta (E.map Real.log) o) (hl : r'.length = E.length)
    (hX : ∀ n < E.length, |Real.log (E.getD n 0)| ≤ X ∧ |r'.getD n 0 - Real.log (E.getD n 0)| ≤ e) (hout : FlRasta fl r' out)
    (w : ℕ → ℝ) (hw : ∀ n < E.length, |w n - Real.exp (out.getD n 0)| ≤ v * Real.exp (out.getD n 0)) (n : ℕ) (hn : n < E.length) :
    |w n - Real.exp (o.getD n 0)| ≤ ((1 + v) * Real.exp (11 * e + 750 * u * X) - 1) * Real.exp (o.getD n 0) := by
  have hg : ∀ n < E.length, (E.map Real.log).getD n 0 = Real.log (E.getD n 0) := fun n hn => getD_map_lt _ _ _ _ hn
  obtain ⟨-, h2⟩ := C197_row h hu (E.map Real.log) r' o out ho (by simpa using hE) (by simpa using hl)
    (fun n hn => by rw [List.length_map] at hn; rw [hg n hn]; exact hX n hn) hout
  have h3 := h2 n (by rw [ho.length, List.length_map]; exact hn)
  obtain ⟨D, hD⟩ : ∃ D, D = 11 * e + 750 * u * X := ⟨_, rfl⟩
  rw [← mul_assoc, ← hD] at h3
  rw [← hD]
  have h4 := abs_le.mp h3
  have h5 := abs_le.mp (hw n hn)
  have hD0 : 0 ≤ D := (abs_nonneg _).trans h3
  have a1 : Real.exp (out.getD n 0) ≤ Real.exp D * Real.exp (o.getD n 0) := by
    rw [← Real.exp_add]; exact Real.exp_le_exp.mpr (by linarith)
  have a2 : Real.exp (o.getD n 0) ≤ Real.exp D * Real.exp (out.getD n 0) := by
    rw [← Real.exp_add]; exact Real.exp_le_exp.mpr (by linarith)
  have p1 := Real.exp_pos (out.getD n 0)
  have p2 := Real.exp_pos (o.getD n 0)
  have p3 := Real.one_le_exp hD0
  rw [abs_le]
  constructor
  · -- `2 - (1 + v) exp D ≤ (1 - v) exp (-D)`
    have b1 : (2 - Real.exp D) * Real.exp (o.getD n 0) ≤ Real.exp (out.getD n 0) := by
      rcases le_or_gt (Real.exp D) 2 with hh | hh
      · have c1 : (2 - Real.exp D) * Real.exp D ≤ 1 := by nlinarith [sq_nonneg (Real.exp D - 1)]
        calc (2 - Real.exp D) * Real.exp (o.getD n 0) ≤ (2 - Real.exp D) * (Real.exp D * Real.exp (out.getD n 0)) :=
              mul_le_mul_of_nonneg_left a2 (by linarith)
          _ = (2 - Real.exp D) * Real.exp D * Real.exp (out.getD n 0) := by ring
          _ ≤ 1 * Real.exp (out.getD n 0) := mul_le_mul_of_nonneg_right c1 p1.le
          _ = _ := one_mul _
      · nlinarith
    have b2 := mul_le_mul_of_nonneg_left a1 hv
    nlinarith
  · have b2 := mul_le_mul_of_nonneg_left a1 (by linarith : 0 ≤ 1 + v)
    nlinarith

/-- Without rounding the model of this file is the exact filter. -/
theorem C197_exact (r o out : List ℝ) (hr : r ≠ []) (ho : Spec.Rasta r o) (hout : FlRasta id r out) : out = o := by
  have hid : Rounding 0 id := ⟨le_refl _, fun t => by simp⟩
  obtain ⟨h1, h2⟩ := C197_row hid (by norm_num) (X := (r.map fun v => |v|).sum) (e := 0) r r o out ho hr rfl (fun n hn => by
    rw [sub_self, abs_zero]
    refine ⟨?_, le_refl _⟩
    rw [List.getD_eq_getElem _ _ hn]
    refine List.single_le_sum (fun v hv => ?_) _ (List.mem_map_of_mem (List.getElem_mem hn))
    obtain ⟨w, -, rfl⟩ := List.mem_map.mp hv
    exact abs_nonneg w) hout
  refine ext_getD 0 h1 fun n hn => ?_
  have := h2 n (h1 ▸ hn)
  rw [zero_mul, mul_zero, mul_zero, add_zero] at this
  exact sub_eq_zero.mp (abs_nonpos_iff.mp this)

/-- Five bands, the last one louder by 10: the fifth output is 2, in double precision up to `1e-12`. -/
example : ∃ out, FlRasta fl64 [0, 0, 0, 0, 10] out ∧ |out.getD 4 0 - 2| ≤ 1 / 10 ^ 12 := by
  obtain ⟨z0, d0⟩ := flDot_exists fl64 (fun i => flNumer fl64 (1 + i)) (fun i => ([0, 0, 0, 0, 10] : List ℝ).getD (3 - i) 0) 3
  obtain ⟨z1, d1⟩ := flDot_exists fl64 (fun i => flNumer fl64 (2 + i)) (fun i => ([0, 0, 0, 0, 10] : List ℝ).getD (3 - i) 0) 2
  obtain ⟨z2, d2⟩ := flDot_exists fl64 (fun i => flNumer fl64 (3 + i)) (fun i => ([0, 0, 0, 0, 10] : List ℝ).getD (3 - i) 0) 1
  obtain ⟨z3, d3⟩ := flDot_exists fl64 (fun i => flNumer fl64 (4 + i)) (fun i => ([0, 0, 0, 0, 10] : List ℝ).getD (3 - i) 0) 0
  refine ⟨_, ⟨z0, z1, z2, z3, d0, d1, d2, d3, rfl⟩, ?_⟩
  have ho : Spec.Rasta ([0, 0, 0, 0, 10] : List ℝ) [0, 0, 0, 0, 2] := by
    refine ⟨rfl, fun n h1 _ => by interval_cases n <;> rfl, fun n h1 h2 => ?_⟩
    obtain rfl : n = 4 := by simp at h2; omega
    norm_num
  have := (C197_row C130_binary64.1 (by norm_num) (X := 10) (e := 0) _ _ _ _ ho (by simp) rfl (fun n hn => by
    simp only [List.length_cons, List.length_nil] at hn
    interval_cases n <;> norm_num) ⟨z0, z1, z2, z3, d0, d1, d2, d3, rfl⟩).2 4 (by simp)
  refine this.trans ?_
  norm_num

end Props
end Spafe
