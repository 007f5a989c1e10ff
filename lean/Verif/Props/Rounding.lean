import Verif.Model.Rounding
import Verif.Props.SpecMeaning
import Verif.Props.Stability

/-! C120: what rounding does to the spectrograms and to the logarithms of the energies. -/

set_option linter.unusedSectionVars false

namespace Spafe
namespace Props
open Model XF Spec

/-- `r` is `t` up to a relative error `g - 1`. -/
def Near (g r t : ℝ) : Prop := |r - t| ≤ (g - 1) * |t|

theorem Near.refl (t : ℝ) : Near 1 t t := by simp [Near]

theorem Near.mono {g h r t : ℝ} (hgh : g ≤ h) (a : Near g r t) : Near h r t :=
  le_trans a (mul_le_mul_of_nonneg_right (by linarith) (abs_nonneg _))

theorem Near.abs_le {g r t : ℝ} (a : Near g r t) : |r| ≤ g * |t| := by
  have := abs_sub_abs_le_abs_sub r t
  unfold Near at a
  linarith

theorem Near.trans {g h s r t : ℝ} (hh : 1 ≤ h) (b : Near h s r) (a : Near g r t) : Near (h * g) s t := by
  have h1 := a.abs_le
  have h2 : |s - t| ≤ |s - r| + |r - t| := abs_sub_le _ _ _
  have h3 := mul_le_mul_of_nonneg_left h1 (sub_nonneg.mpr hh)
  unfold Near at *
  nlinarith

theorem Near.mul {g h r t s v : ℝ} (hg : 1 ≤ g) (hh : 1 ≤ h) (a : Near g r t) (b : Near h s v) :
    Near (g * h) (r * s) (t * v) := by
  have h1 := b.abs_le
  unfold Near at *
  have e : r * s - t * v = (r - t) * s + t * (s - v) := by ring
  rw [e, abs_mul t v]
  refine (abs_add_le _ _).trans ?_
  rw [abs_mul, abs_mul]
  have i1 : |r - t| * |s| ≤ ((g - 1) * |t|) * (h * |v|) :=
    mul_le_mul a h1 (abs_nonneg _) (mul_nonneg (by linarith) (abs_nonneg _))
  have i2 : |t| * |s - v| ≤ |t| * ((h - 1) * |v|) := mul_le_mul_of_nonneg_left b (abs_nonneg _)
  nlinarith

theorem _root_.Spafe.Model.Rounding.near {u : ℝ} {fl : ℝ → ℝ} (h : Rounding u fl) (t : ℝ) : Near (1 + u) (fl t) t := by
  have := h.err t
  simpa [Near] using this

theorem _root_.Spafe.Model.Rounding.zero {u : ℝ} {fl : ℝ → ℝ} (h : Rounding u fl) : fl 0 = 0 := by
  have := h.err 0
  simpa using this

theorem _root_.Spafe.Model.FlSum.length_pos {fl : ℝ → ℝ} {l : List ℝ} {v : ℝ} (h : FlSum fl l v) : 0 < l.length := by
  induction h with
  | one => simp
  | add _ _ ih _ => simp; omega
  | perm p _ ih => rw [← p.length_eq]; exact ih

theorem abs_sum_le_list (l : List ℝ) : |l.sum| ≤ (l.map fun x => |x|).sum := by
  induction l with
  | nil => simp
  | cons a l ih => simp only [List.sum_cons, List.map_cons]; exact (abs_add_le _ _).trans (by linarith)

/-- C120, sums: whatever the order and the bracketing, adding up `n` numbers in floating point is off by at most
`(1 + u)^(n-1) - 1` times the sum of their absolute values. -/
theorem C120_sum {u : ℝ} {fl : ℝ → ℝ} (h : Rounding u fl) {l : List ℝ} {v : ℝ} (hs : FlSum fl l v) :
    |v - l.sum| ≤ ((1 + u) ^ (l.length - 1) - 1) * (l.map fun x => |x|).sum := by
  have hu := h.nonneg
  induction hs with
  | one x => simp
  | @add a b v w ha hb iha ihb =>
    have la := ha.length_pos
    have lb := hb.length_pos
    have nn : ∀ l : List ℝ, 0 ≤ (l.map fun x => |x|).sum := fun l =>
      List.sum_nonneg (by simp only [List.mem_map]; rintro x ⟨y, -, rfl⟩; exact abs_nonneg _)
    rw [List.sum_append, List.map_append, List.sum_append, List.length_append]
    set SA := (a.map fun x => |x|).sum
    set SB := (b.map fun x => |x|).sum
    obtain ⟨m, hm⟩ : ∃ m, a.length + b.length - 1 = m + 1 := ⟨a.length + b.length - 2, by omega⟩
    rw [hm]
    have ea : |v - a.sum| ≤ ((1 + u) ^ m - 1) * SA := iha.trans (mul_le_mul_of_nonneg_right
      (sub_le_sub_right (pow_le_pow_right₀ (by linarith) (by omega)) 1) (nn a))
    have eb : |w - b.sum| ≤ ((1 + u) ^ m - 1) * SB := ihb.trans (mul_le_mul_of_nonneg_right
      (sub_le_sub_right (pow_le_pow_right₀ (by linarith) (by omega)) 1) (nn b))
    have hab : |a.sum + b.sum| ≤ SA + SB :=
      (abs_add_le _ _).trans (add_le_add (abs_sum_le_list a) (abs_sum_le_list b))
    have hsum : |v + w - (a.sum + b.sum)| ≤ ((1 + u) ^ m - 1) * (SA + SB) := by
      have : v + w - (a.sum + b.sum) = (v - a.sum) + (w - b.sum) := by ring
      rw [this]
      refine (abs_add_le _ _).trans ?_
      linarith
    have hvw : |v + w| ≤ (1 + u) ^ m * (SA + SB) := by
      have := abs_sub_abs_le_abs_sub (v + w) (a.sum + b.sum)
      linarith
    have hf := h.err (v + w)
    have ht := abs_sub_le (fl (v + w)) (v + w) (a.sum + b.sum)
    have := mul_le_mul_of_nonneg_left hvw hu
    rw [pow_succ]
    nlinarith
  | @perm a b v p _ ih => rw [← p.sum_eq, ← p.length_eq, ← (p.map fun x => |x|).sum_eq]; exact ih

theorem list_sum_range (n : ℕ) (f : ℕ → ℝ) : ((List.range n).map f).sum = ∑ k ∈ Finset.range n, f k := by
  induction n with
  | zero => simp
  | succ n ih => rw [List.range_succ, List.map_append, List.sum_append, ih, Finset.sum_range_succ]; simp

/-- C120, dot products. The first factors may carry a relative error `g - 1` of their own. -/
theorem C120_dot {u g : ℝ} {fl : ℝ → ℝ} (h : Rounding u fl) (hg : 1 ≤ g) {a a' b : ℕ → ℝ} {n : ℕ} {r : ℝ}
    (ha : ∀ k < n, Near g (a' k) (a k)) (hd : FlDot fl a' b n r) :
    |r - ∑ k ∈ Finset.range n, a k * b k| ≤ ((1 + u) ^ n * g - 1) * ∑ k ∈ Finset.range n, |a k * b k| := by
  obtain ⟨p, hp, hs⟩ := hd
  have hu := h.nonneg
  have hn : 0 < n := by simpa using hs.length_pos
  have h1 := C120_sum h hs
  simp only [List.map_map, List.length_map, List.length_range, list_sum_range, Function.comp_def] at h1
  have g1 : 1 ≤ (1 + u) * g := by nlinarith
  have hpn : ∀ k < n, Near ((1 + u) * g) (p k) (a k * b k) := by
    intro k hk
    have hm := (ha k hk).mul hg le_rfl (Near.refl (b k))
    rw [mul_one] at hm
    rcases hp k hk with e | e
    · rw [e]; exact hm.mono (by nlinarith)
    · rw [e]; exact (h.near _).trans (by linarith) hm
  have h2 : |∑ k ∈ Finset.range n, p k - ∑ k ∈ Finset.range n, a k * b k| ≤
      ((1 + u) * g - 1) * ∑ k ∈ Finset.range n, |a k * b k| := by
    rw [← Finset.sum_sub_distrib, Finset.mul_sum]
    exact (Finset.abs_sum_le_sum_abs _ _).trans (Finset.sum_le_sum fun k hk => hpn k (Finset.mem_range.mp hk))
  have h3 : ∑ k ∈ Finset.range n, |p k| ≤ (1 + u) * g * ∑ k ∈ Finset.range n, |a k * b k| := by
    rw [Finset.mul_sum]
    exact Finset.sum_le_sum fun k hk => (hpn k (Finset.mem_range.mp hk)).abs_le
  obtain ⟨m, rfl⟩ : ∃ m, n = m + 1 := ⟨n - 1, by omega⟩
  rw [Nat.add_sub_cancel] at h1
  have hpow : 1 ≤ (1 + u) ^ m := one_le_pow₀ (by linarith)
  have h4 := mul_le_mul_of_nonneg_left h3 (sub_nonneg.mpr hpow)
  have ht := abs_sub_le r (∑ k ∈ Finset.range (m + 1), p k) (∑ k ∈ Finset.range (m + 1), a k * b k)
  rw [pow_succ]
  nlinarith

/-- The amplitude that bounds the emphasised sample `t`: `|x t| + |c x (t-1)|`, or `|x t|` without pre-emphasis. -/
noncomputable def amplitude (on : Bool) (c : ℝ) (x : List ℝ) (t : ℕ) : ℝ :=
  |x.getD t 0| + if on ∧ t ≠ 0 then |c * x.getD (t - 1) 0| else 0

theorem amplitude_nonneg (on : Bool) (c : ℝ) (x : List ℝ) (t : ℕ) : 0 ≤ amplitude on c x t := by
  unfold amplitude; split_ifs <;> positivity

theorem abs_emphasised_le (on : Bool) (c : ℝ) (x : List ℝ) (t : ℕ) : |emphasised on c x t| ≤ amplitude on c x t := by
  unfold emphasised amplitude
  by_cases h : on = true
  · by_cases h0 : t = 0
    · simp [h, h0]
    · rw [if_pos h, if_neg h0, if_pos ⟨h, h0⟩]
      exact abs_sub _ _
  · simp [h]

/-- C120, pre-emphasis: each sample is off by at most `(1 + u)² - 1` times its amplitude. -/
theorem C120_pre_emphasis {u : ℝ} {fl : ℝ → ℝ} (h : Rounding u fl) {on : Bool} {c : ℝ} {x : List ℝ} {y : ℕ → ℝ}
    (hy : FlEmphasised fl on c x y) {t : ℕ} (ht : t < x.length) :
    |y t - emphasised on c x t| ≤ ((1 + u) ^ 2 - 1) * amplitude on c x t := by
  have hu := h.nonneg
  have h' := hy t ht
  have ha := amplitude_nonneg on c x t
  by_cases hon : on = true
  · rw [if_pos hon] at h'
    by_cases h0 : t = 0
    · subst h0
      rw [if_pos rfl] at h'
      have := C120_dot h le_rfl (fun k _ => Near.refl _) h'
      simp only [Finset.sum_range_one, one_mul, pow_one, mul_one] at this
      simp only [emphasised, amplitude, hon, if_true, sub_zero, ne_eq, not_true, and_false, if_false, add_zero]
      exact this.trans (mul_le_mul_of_nonneg_right (by nlinarith) (abs_nonneg _))
    · rw [if_neg h0] at h'
      have := C120_dot h le_rfl (fun k _ => Near.refl _) h'
      simp only [Finset.sum_range_succ, Finset.sum_range_zero, zero_add, if_true, one_ne_zero, if_false, one_mul,
        mul_one, tsub_zero] at this
      simp only [emphasised, amplitude, hon, if_true, if_neg h0, ne_eq, h0, not_false_eq_true, and_self]
      rwa [neg_mul, abs_neg, ← sub_eq_add_neg] at this
  · rw [if_neg hon] at h'
    have : emphasised on c x t = x.getD t 0 := by simp [emphasised, hon]
    rw [h', this, sub_self, abs_zero]
    exact mul_nonneg (by nlinarith) ha

/-- C120, windowing: with window values within `ω` of weights in `[0, 1]`. -/
theorem C120_windowing {u ω : ℝ} {fl : ℝ → ℝ} (h : Rounding u fl) {on : Bool} {c : ℝ} {x : List ℝ} {y : ℕ → ℝ}
    (hy : FlEmphasised fl on c x y) {t : ℕ} (ht : t < x.length) {w w' : ℝ} (h0 : 0 ≤ w) (h1 : w ≤ 1)
    (hw : |w' - w| ≤ ω) :
    |fl (y t * w') - w * emphasised on c x t| ≤ ((1 + ω) * (1 + u) ^ 3 - 1) * amplitude on c x t := by
  have hu := h.nonneg
  have hω : 0 ≤ ω := (abs_nonneg _).trans hw
  have A0 := amplitude_nonneg on c x t
  have e1 := C120_pre_emphasis h hy ht
  have e2 := abs_emphasised_le on c x t
  set A := amplitude on c x t
  set z := emphasised on c x t
  have hw' : |w'| ≤ 1 + ω := by
    have := abs_sub_abs_le_abs_sub w' w
    rw [abs_of_nonneg h0] at this
    linarith
  have hyt : |y t| ≤ (1 + u) ^ 2 * A := by
    have := abs_sub_abs_le_abs_sub (y t) z
    linarith
  have p1 : |y t * w'| ≤ (1 + u) ^ 2 * A * (1 + ω) := by
    rw [abs_mul]; exact mul_le_mul hyt hw' (abs_nonneg _) (by positivity)
  have p2 : |y t * w' - w * z| ≤ ((1 + u) ^ 2 - 1) * A * (1 + ω) + A * ω := by
    have : y t * w' - w * z = (y t - z) * w' + z * (w' - w) := by ring
    rw [this]
    refine (abs_add_le _ _).trans (add_le_add ?_ ?_)
    · rw [abs_mul]
      exact mul_le_mul e1 hw' (abs_nonneg _) (mul_nonneg (by nlinarith) A0)
    · rw [abs_mul]; exact mul_le_mul e2 hw (abs_nonneg _) A0
  have p3 := h.err (y t * w')
  have p4 := abs_sub_le (fl (y t * w')) (y t * w') (w * z)
  have p5 := mul_le_mul_of_nonneg_left p1 hu
  nlinarith

theorem frameBin_one (w y : ℕ → ℝ) (l s nfft i k : ℕ) :
    frameBin w y l s nfft i k = frameBin (fun _ => 1) (fun j => w j * y (i * s + j)) l 0 nfft 0 k := by
  unfold frameBin
  simp

/-- Minkowski's inequality for weighted sums of squares. -/
theorem sqrt_weighted_add {n : ℕ} {W : ℕ → ℝ} (hW : ∀ k < n, 0 ≤ W k) (f g : ℕ → ℂ) :
    √(∑ k ∈ Finset.range n, W k * ‖f k + g k‖ ^ 2) ≤
      √(∑ k ∈ Finset.range n, W k * ‖f k‖ ^ 2) + √(∑ k ∈ Finset.range n, W k * ‖g k‖ ^ 2) := by
  have e : ∀ f : ℕ → ℂ, ∑ k ∈ Finset.range n, W k * ‖f k‖ ^ 2 = ∑ k ∈ Finset.range n, (√(W k) * ‖f k‖) ^ 2 := by
    intro f
    refine Finset.sum_congr rfl fun k hk => ?_
    rw [mul_pow, Real.sq_sqrt (hW k (Finset.mem_range.mp hk))]
  rw [e, e f, e g]
  set p : ℕ → ℝ := fun k => √(W k) * ‖f k‖
  set q : ℕ → ℝ := fun k => √(W k) * ‖g k‖
  have hcs := Real.sum_mul_le_sqrt_mul_sqrt (Finset.range n) p q
  rw [Real.sqrt_le_left (by positivity)]
  have h1 : ∑ k ∈ Finset.range n, (√(W k) * ‖f k + g k‖) ^ 2 ≤ ∑ k ∈ Finset.range n, (p k + q k) ^ 2 := by
    refine Finset.sum_le_sum fun k _ => pow_le_pow_left₀ (by positivity) ?_ 2
    rw [← mul_add]
    exact mul_le_mul_of_nonneg_left (norm_add_le _ _) (Real.sqrt_nonneg _)
  refine h1.trans ?_
  rw [add_sq, Real.sq_sqrt (by positivity), Real.sq_sqrt (by positivity)]
  simp only [add_sq, Finset.sum_add_distrib, mul_assoc]
  rw [← Finset.mul_sum]
  linarith

theorem sqrt_weighted_sub {n : ℕ} {W : ℕ → ℝ} (hW : ∀ k < n, 0 ≤ W k) (f g : ℕ → ℂ) :
    |√(∑ k ∈ Finset.range n, W k * ‖f k‖ ^ 2) - √(∑ k ∈ Finset.range n, W k * ‖g k‖ ^ 2)| ≤
      √(∑ k ∈ Finset.range n, W k * ‖f k - g k‖ ^ 2) := by
  have h1 := sqrt_weighted_add hW (fun k => f k - g k) g
  have h2 := sqrt_weighted_add hW (fun k => g k - f k) f
  simp only [sub_add_cancel] at h1 h2
  have : ∀ k, ‖g k - f k‖ = ‖f k - g k‖ := fun k => norm_sub_rev _ _
  simp only [this] at h2
  rw [abs_le]
  constructor <;> linarith

theorem sqrt_near {g r t : ℝ} (ht : 0 ≤ t) (h : |r - t| ≤ (g - 1) * t) : |√r - √t| ≤ (g - 1) * √t := by
  rcases eq_or_lt_of_le ht with rfl | ht
  · have : r = 0 := by simpa using h
    simp [this]
  have st := Real.sqrt_pos.mpr ht
  obtain ⟨h1, h2⟩ := abs_le.mp h
  have hg : 0 ≤ g - 1 := by
    by_contra hc
    have := abs_nonneg (r - t)
    nlinarith
  have e : √t * √t = t := Real.mul_self_sqrt ht.le
  rcases le_or_gt 0 r with hr | hr
  · have er : √r * √r = r := Real.mul_self_sqrt hr
    have sr := Real.sqrt_nonneg r
    have k : |√r - √t| * √t ≤ (g - 1) * √t * √t := by
      calc |√r - √t| * √t ≤ |√r - √t| * (√r + √t) := mul_le_mul_of_nonneg_left (by linarith) (abs_nonneg _)
        _ = |r - t| := by rw [← abs_of_nonneg (a := √r + √t) (by positivity), ← abs_mul]; congr 1; linarith
        _ ≤ (g - 1) * √t * √t := by rw [mul_assoc, e]; exact h
    exact le_of_mul_le_mul_right k st
  · rw [Real.sqrt_eq_zero_of_nonpos hr.le, zero_sub, abs_neg, abs_of_pos st]
    have : t ≤ (g - 1) * t := by linarith
    have : 1 ≤ g - 1 := by
      by_contra hc
      push Not at hc
      nlinarith
    nlinarith

/-- The norm of the amplitudes of frame `i`. -/
noncomputable def frameAmplitude (on : Bool) (c : ℝ) (x : List ℝ) (l s i : ℕ) : ℝ :=
  √(∑ j ∈ Finset.range l, amplitude on c x (i * s + j) ^ 2)

/-- The band energy of the float run, relative to the exact energy of the spectrum that the FFT returned. -/
theorem energy_near {u v : ℝ} {fl : ℝ → ℝ} (h : Rounding u fl) (hv : 0 ≤ v) {fb : List (List ℝ)}
    (hfb : ∀ r ∈ fb, ∀ a ∈ r, 0 ≤ a) {wv : ℕ → ℝ} {fft : (ℕ → ℝ) → ℕ → ℂ} {abs : ℂ → ℝ}
    (habs : ∀ z, |abs z - ‖z‖| ≤ v * ‖z‖) {on : Bool} {c : ℝ} {x : List ℝ} {l s nfft i : ℕ}
    (F : FlFrame fl fb wv fft abs on c x l s nfft i) {n : ℕ} (hn : n < fb.length) :
    |F.energy n - ∑ k ∈ Finset.range (nfft / 2 + 1), (fb.getD n []).getD k 0 / nfft *
        ‖fft (fun j => fl (F.y (i * s + j) * wv j)) k‖ ^ 2| ≤
      ((1 + u) ^ (nfft / 2 + 4) * (1 + v) ^ 2 - 1) * ∑ k ∈ Finset.range (nfft / 2 + 1),
        (fb.getD n []).getD k 0 / nfft * ‖fft (fun j => fl (F.y (i * s + j) * wv j)) k‖ ^ 2 := by
  have hu := h.nonneg
  set X := fft (fun j => fl (F.y (i * s + j) * wv j))
  have hp : ∀ k < nfft / 2 + 1, Near ((1 + u) ^ 3 * (1 + v) ^ 2) (F.power k) (1 / (nfft : ℝ) * (‖X k‖ * ‖X k‖)) := by
    intro k hk
    have ha : Near (1 + v) (abs (X k)) ‖X k‖ := by
      have := habs (X k)
      simpa [Near] using this
    have hv1 : 1 ≤ 1 + v := by linarith
    have hu1 : 1 ≤ 1 + u := by linarith
    have hsq := (h.near _).trans hu1 (ha.mul hv1 hv1 ha)
    have hm := (h.near _).trans hu1 ((h.near (1 / (nfft : ℝ))).mul hu1 (by nlinarith) hsq)
    rw [F.power_eq k hk]
    convert hm using 1
    ring
  have hd := C120_dot h (one_le_mul_of_one_le_of_one_le (one_le_pow₀ (by linarith)) (one_le_pow₀ (by linarith))) hp
    (F.energy_dot n hn)
  have e1 : ∀ k, 1 / (nfft : ℝ) * (‖X k‖ * ‖X k‖) * (fb.getD n []).getD k 0 =
      (fb.getD n []).getD k 0 / nfft * ‖X k‖ ^ 2 := fun k => by ring
  have e2 : ∀ k, |(fb.getD n []).getD k 0 / (nfft : ℝ) * ‖X k‖ ^ 2| = (fb.getD n []).getD k 0 / nfft * ‖X k‖ ^ 2 :=
    fun k => abs_of_nonneg (mul_nonneg (div_nonneg (weight_nonneg hfb n k) (Nat.cast_nonneg _)) (sq_nonneg _))
  simp only [e1, e2] at hd
  rwa [← mul_assoc, ← pow_add] at hd

/-- C120, the band energies: the root of every energy of the float run is within
`(G - 1) √E + G √M (δ (1 + ε) + ε) A` of the root of the exact energy `E` of the specification. `G` and `ε` collect the
roundings, `M` bounds the weights of the bank, `A` is the norm of the amplitudes of the frame. -/
theorem C120_energy {u v ω δ M : ℝ} {fl : ℝ → ℝ} (h : Rounding u fl) (hv : 0 ≤ v) (hδ : 0 ≤ δ)
    {fb : List (List ℝ)} (hfb : ∀ r ∈ fb, ∀ a ∈ r, 0 ≤ a ∧ a ≤ M) (hM : 0 ≤ M) {w wv : ℕ → ℝ}
    {fft : (ℕ → ℝ) → ℕ → ℂ} {abs : ℂ → ℝ} {on : Bool} {c : ℝ} {x : List ℝ} {l s nfft i : ℕ}
    (hw : ∀ j < l, 0 ≤ w j ∧ w j ≤ 1 ∧ |wv j - w j| ≤ ω) (hω : 0 ≤ ω) (hfft : AccurateFft δ fft l nfft) (hnf : nfft ≠ 0)
    (habs : ∀ z, |abs z - ‖z‖| ≤ v * ‖z‖) (hlen : i * s + l ≤ x.length)
    (F : FlFrame fl fb wv fft abs on c x l s nfft i) {n : ℕ} (hn : n < fb.length) :
    |√(F.energy n) - √(bandEnergy fb w (emphasised on c x) l s nfft i n)| ≤
      ((1 + u) ^ (nfft / 2 + 4) * (1 + v) ^ 2 - 1) * √(bandEnergy fb w (emphasised on c x) l s nfft i n) +
      (1 + u) ^ (nfft / 2 + 4) * (1 + v) ^ 2 * (√M * ((δ * ((1 + ω) * (1 + u) ^ 3) + ((1 + ω) * (1 + u) ^ 3 - 1)) *
        frameAmplitude on c x l s i)) := by
  have hu := h.nonneg
  have hfb0 : ∀ r ∈ fb, ∀ a ∈ r, 0 ≤ a := fun r hr a ha => (hfb r hr a ha).1
  have hWM : ∀ k, (fb.getD n []).getD k 0 ≤ M := by
    intro k
    by_cases hk : k < (fb.getD n []).length
    · exact (hfb _ (getD_mem _ hn) _ (getD_mem _ hk)).2
    · rw [List.getD_eq_default _ _ (by omega)]; exact hM
  have hnf' : (0 : ℝ) < nfft := by exact_mod_cast Nat.pos_of_ne_zero hnf
  set ε := (1 + ω) * (1 + u) ^ 3 - 1 with hε
  have hε1 : (1 + ω) * (1 + u) ^ 3 = 1 + ε := by rw [hε]; ring
  have hε0 : 0 ≤ ε := by
    have : 1 ≤ (1 + ω) * (1 + u) ^ 3 :=
      one_le_mul_of_one_le_of_one_le (by linarith) (one_le_pow₀ (by linarith))
    rw [hε]; linarith
  rw [hε1]
  set G := (1 + u) ^ (nfft / 2 + 4) * (1 + v) ^ 2 with hG
  have hG1 : 1 ≤ G := one_le_mul_of_one_le_of_one_le (one_le_pow₀ (by linarith)) (one_le_pow₀ (by linarith))
  set A := frameAmplitude on c x l s i with hA
  set W : ℕ → ℝ := fun k => (fb.getD n []).getD k 0 / nfft with hW
  have hW0 : ∀ k < nfft / 2 + 1, 0 ≤ W k := fun k _ => div_nonneg (weight_nonneg hfb0 n k) hnf'.le
  have hW1 : ∀ k, W k ≤ M / nfft := fun k => div_le_div_of_nonneg_right (hWM k) hnf'.le
  set z : ℕ → ℝ := fun j => w j * emphasised on c x (i * s + j) with hz
  set z' : ℕ → ℝ := fun j => fl (F.y (i * s + j) * wv j) with hz'
  set X := fft z' with hX
  set Y : ℕ → ℂ := frameBin (fun _ => 1) z' l 0 nfft 0 with hY
  set Z : ℕ → ℂ := frameBin w (emphasised on c x) l s nfft i with hZ
  have hamp : ∀ j, 0 ≤ amplitude on c x (i * s + j) := fun j => amplitude_nonneg _ _ _ _
  have hdz : ∀ j < l, |z' j - z j| ≤ ε * amplitude on c x (i * s + j) := fun j hj =>
    C120_windowing h F.emph (by omega) (hw j hj).1 (hw j hj).2.1 (hw j hj).2.2
  have hz'b : ∀ j < l, |z' j| ≤ (1 + ε) * amplitude on c x (i * s + j) := by
    intro j hj
    have h1 := abs_sub_abs_le_abs_sub (z' j) (z j)
    have h2 : |z j| ≤ amplitude on c x (i * s + j) := by
      rw [hz, abs_mul, abs_of_nonneg (hw j hj).1]
      have := abs_emphasised_le on c x (i * s + j)
      have := mul_le_mul (hw j hj).2.1 this (abs_nonneg _) zero_le_one
      linarith
    have := hdz j hj
    linarith
  have hAsq : ∑ j ∈ Finset.range l, amplitude on c x (i * s + j) ^ 2 = A ^ 2 :=
    (Real.sq_sqrt (Finset.sum_nonneg fun _ _ => sq_nonneg _)).symm
  have hA0 : 0 ≤ A := Real.sqrt_nonneg _
  have sumsq : ∀ (f : ℕ → ℝ) (b : ℝ), 0 ≤ b → (∀ j < l, |f j| ≤ b * amplitude on c x (i * s + j)) →
      ∑ j ∈ Finset.range l, f j ^ 2 ≤ (b * A) ^ 2 := by
    intro f b hb hf
    rw [mul_pow, ← hAsq, Finset.mul_sum]
    refine Finset.sum_le_sum fun j hj => ?_
    rw [← mul_pow, ← sq_abs]
    exact pow_le_pow_left₀ (abs_nonneg _) (hf j (Finset.mem_range.mp hj)) 2
  -- the FFT
  have hd1 : √(∑ k ∈ Finset.range (nfft / 2 + 1), W k * ‖X k - Y k‖ ^ 2) ≤ √M * (δ * (1 + ε) * A) := by
    rw [← Real.sqrt_sq (x := δ * (1 + ε) * A) (by positivity), ← Real.sqrt_mul hM]
    apply Real.sqrt_le_sqrt
    have h1 := hfft z'
    have h2 := sumsq z' (1 + ε) (by linarith) hz'b
    calc ∑ k ∈ Finset.range (nfft / 2 + 1), W k * ‖X k - Y k‖ ^ 2
        ≤ ∑ k ∈ Finset.range (nfft / 2 + 1), M / nfft * ‖X k - Y k‖ ^ 2 :=
          Finset.sum_le_sum fun k _ => mul_le_mul_of_nonneg_right (hW1 k) (sq_nonneg _)
      _ = M / nfft * ∑ k ∈ Finset.range (nfft / 2 + 1), ‖X k - Y k‖ ^ 2 := by rw [Finset.mul_sum]
      _ ≤ M / nfft * (δ ^ 2 * (nfft * ((1 + ε) * A) ^ 2)) := by
          refine mul_le_mul_of_nonneg_left (h1.trans ?_) (by positivity)
          exact mul_le_mul_of_nonneg_left (mul_le_mul_of_nonneg_left h2 hnf'.le) (sq_nonneg _)
      _ = M * (δ * (1 + ε) * A) ^ 2 := by field_simp
  -- the samples
  have hd2 : √(∑ k ∈ Finset.range (nfft / 2 + 1), W k * ‖Y k - Z k‖ ^ 2) ≤ √M * (ε * A) := by
    rw [← Real.sqrt_sq (x := ε * A) (by positivity), ← Real.sqrt_mul hM]
    apply Real.sqrt_le_sqrt
    have h1 : ∀ k, Y k - Z k = frameBin (fun _ => 1) (fun j => z' j - z j) l 0 nfft 0 k := by
      intro k
      have := frameBin_add (fun _ => 1) (fun j => z' j - z j) z l 0 nfft 0 k
      simp only [sub_add_cancel] at this
      rw [hY, hZ, this, frameBin_one w]
      ring
    have h2 := sumsq (fun j => z' j - z j) ε hε0 hdz
    have h3 := sum_framePower_le (fun _ => 1) (fun j => z' j - z j) l 0 nfft 0 hnf
    simp only [one_mul, zero_mul, zero_add] at h3
    calc ∑ k ∈ Finset.range (nfft / 2 + 1), W k * ‖Y k - Z k‖ ^ 2
        ≤ ∑ k ∈ Finset.range (nfft / 2 + 1), M * framePower (fun _ => 1) (fun j => z' j - z j) l 0 nfft 0 k := by
          refine Finset.sum_le_sum fun k _ => ?_
          rw [framePower, ← h1, mul_div_assoc', ← div_mul_eq_mul_div]
          exact mul_le_mul_of_nonneg_right (hW1 k) (sq_nonneg _)
      _ = M * ∑ k ∈ Finset.range (nfft / 2 + 1), framePower (fun _ => 1) (fun j => z' j - z j) l 0 nfft 0 k := by
          rw [Finset.mul_sum]
      _ ≤ M * (ε * A) ^ 2 := mul_le_mul_of_nonneg_left (h3.trans h2) hM
  have hE : bandEnergy fb w (emphasised on c x) l s nfft i n =
      ∑ k ∈ Finset.range (nfft / 2 + 1), W k * ‖Z k‖ ^ 2 := by
    unfold bandEnergy framePower
    refine Finset.sum_congr rfl fun k _ => ?_
    rw [hW, hZ]; ring
  have h3 := sqrt_weighted_sub hW0 X Z
  have h4 := sqrt_weighted_add hW0 (fun k => X k - Y k) (fun k => Y k - Z k)
  simp only [sub_add_sub_cancel] at h4
  have h5 := sqrt_near (Finset.sum_nonneg fun k hk => mul_nonneg (hW0 k (Finset.mem_range.mp hk)) (sq_nonneg ‖X k‖))
    (energy_near h hv hfb0 habs F hn)
  rw [← hG] at h5
  rw [hE]
  set e := √(∑ k ∈ Finset.range (nfft / 2 + 1), W k * ‖Z k‖ ^ 2)
  set e' := √(∑ k ∈ Finset.range (nfft / 2 + 1), W k * ‖X k‖ ^ 2)
  have h6 : |e' - e| ≤ √M * ((δ * (1 + ε) + ε) * A) := by
    refine h3.trans (h4.trans ((add_le_add hd1 hd2).trans (le_of_eq ?_)))
    ring
  have h7 := abs_sub_le (√(F.energy n)) e' e
  have h8 := (abs_le.mp h6).2
  have h9 := mul_le_mul_of_nonneg_left h8 (sub_nonneg.mpr hG1)
  nlinarith

/-- The bound of C120 for a band of exact energy `E`, weights at most `M` and frame amplitude `A`. -/
noncomputable def rootError (u v ω δ M E A : ℝ) (nfft : ℕ) : ℝ :=
  ((1 + u) ^ (nfft / 2 + 4) * (1 + v) ^ 2 - 1) * √E +
    (1 + u) ^ (nfft / 2 + 4) * (1 + v) ^ 2 * (√M * ((δ * ((1 + ω) * (1 + u) ^ 3) + ((1 + ω) * (1 + u) ^ 3 - 1)) * A))

/-- C120 for the four spectrogram functions with a given bank: the exact call succeeds, and in every float run of it the
root of each energy is within `rootError` of the root of the exact energy. -/
theorem C120_spectrograms (a : Args) (f : Args → List ℝ → Py (XMat × List (List ℝ))) (coeff : ℝ)
    (hf : (f, coeff) ∈ [(melSpectrogram, a.preEmphCoeff), (linearSpectrogram, (0.97 : ℝ)), (barkSpectrogram, (0.97 : ℝ)),
      (erbSpectrogram, (0.97 : ℝ))])
    (fb : List (List ℝ)) (x : List ℝ) (l s : ℕ) (h : Setup a fb x l s) (M : ℝ) (hM : ∀ r ∈ fb, ∀ v ∈ r, v ≤ M)
    {u v ω δ : ℝ} {fl : ℝ → ℝ} {fft : (ℕ → ℝ) → ℕ → ℂ} {abs : ℂ → ℝ} {wv : ℕ → ℝ}
    (ar : Arithmetic u v ω δ fl fft abs wv a.win.winType l a.nfft) :
    ∃ out, f a x = .ok out ∧ ∀ i < (x.length - l) / s + 1, ∀ n < fb.length, ∃ E, 0 ≤ E ∧
      (out.1.getD i []).getD n nan = fin E ∧ ∀ F : FlFrame fl fb wv fft abs a.preEmph coeff x l s a.nfft i,
        |√(F.energy n) - √E| ≤ rootError u v ω δ M E (frameAmplitude a.preEmph coeff x l s i) a.nfft := by
  have hs : f a x = spectrogram a coeff (finMat fb) x := by
    simp only [List.mem_cons, Prod.mk.injEq, List.not_mem_nil, or_false] at hf
    rcases hf with ⟨rfl, rfl⟩ | ⟨rfl, rfl⟩ | ⟨rfl, rfl⟩ | ⟨rfl, rfl⟩ <;>
      simp only [melSpectrogram, linearSpectrogram, barkSpectrogram, erbSpectrogram, melBankOf, gammaBankOf, h.bank,
        getFbanks, ok_bind]
  rw [hs, spectrogram_meaning h coeff]
  refine ⟨_, rfl, fun i hi n hn => ⟨energyOf a coeff fb x l s i n, bandEnergy_nonneg h.nonneg .., ?_, fun F => ?_⟩⟩
  · rw [getD_map_range_lt _ _ hi, getD_map_lt fin _ 0 _ (by simpa using hn), getD_map_range_lt _ _ hn]
  · have hM0 : 0 ≤ M := by
      have h1 := getD_mem [] (show 0 < fb.length by omega)
      have h2 := h.cols _ h1
      have h3 := getD_mem 0 (show 0 < (fb.getD 0 []).length by omega)
      exact (h.nonneg _ h1 _ h3).trans (hM _ h1 _ h3)
    have hlen : i * s + l ≤ x.length := by
      have h1 : i ≤ (x.length - l) / s := by omega
      have h2 := (Nat.le_div_iff_mul_le h.pos).mp h1
      have := h.long
      omega
    exact C120_energy ar.round ar.v0 ar.δ0 (fun r hr v hv => ⟨h.nonneg r hr v hv, hM r hr v hv⟩) hM0
      (fun j hj => ⟨(windowWeight_range h.window hj).1, (windowWeight_range h.window hj).2, ar.window_err j hj⟩) ar.ω0
      ar.fft_err h.nfft ar.abs_err hlen F hn

theorem log_near {E E' η : ℝ} (h0 : 0 ≤ η) (h1 : η < 1) (hE : 0 < E) (hd : |√E' - √E| ≤ η * √E) :
    |logFloor E' - logFloor E| ≤ 2 * Real.log (1 / (1 - η)) := by
  have hE0 : 0 < √E := Real.sqrt_pos.mpr hE
  have hE' : 0 ≤ E' := by
    by_contra hc
    rw [Real.sqrt_eq_zero_of_nonpos (le_of_lt (not_le.mp hc)), zero_sub, abs_neg, abs_of_pos hE0] at hd
    nlinarith
  rw [one_div, Real.log_inv]
  refine log_ratio h0 h1 hE hE' le_rfl (hd.trans (le_of_eq ?_))
  rw [Real.sqrt_mul (sq_nonneg _), Real.sqrt_sq h0]

/-- C120 for the logarithmic features (`lifter` and `normalize` off): if in every band `rootError ≤ η √E` with `η < 1`,
the float logarithms are within `lam` of the logarithms of the float energies, and the float DCT is within `tau` of the
DCT of the float logarithms (Euclidean norm), then every float row is within `tau + √N (lam + 2 log (1 / (1 - η)))` of the
row that the exact function returns, `N` filters. -/
theorem C120_log_features (a : Args) (f : Feature) (coeff : ℝ)
    (hf : (f, coeff) ∈ [(mfcc, a.preEmphCoeff), (imfcc, a.preEmphCoeff), (ngcc, a.preEmphCoeff), (lfcc, (0.97 : ℝ))])
    (fb : List (List ℝ)) (x : List ℝ) (l s : ℕ) (h : Setup a fb x l s) (M : ℝ) (hM : ∀ r ∈ fb, ∀ v ∈ r, v ≤ M)
    (hd : a.dctType = 2) (hu : a.useEnergy = false) (hli : a.lifter = none) (hn : a.normalize = none)
    {u v ω δ : ℝ} {fl : ℝ → ℝ} {fft : (ℕ → ℝ) → ℕ → ℂ} {abs : ℂ → ℝ} {wv : ℕ → ℝ}
    (ar : Arithmetic u v ω δ fl fft abs wv a.win.winType l a.nfft) (η : ℝ) (h0 : 0 ≤ η) (h1 : η < 1)
    (hE : ∀ i < (x.length - l) / s + 1, ∀ n < fb.length, 0 < energyOf a coeff fb x l s i n ∧
      rootError u v ω δ M (energyOf a coeff fb x l s i n) (frameAmplitude a.preEmph coeff x l s i) a.nfft ≤
        η * √(energyOf a coeff fb x l s i n)) :
    ∃ m, f a x = .ok m ∧ HasShape m ((x.length - l) / s + 1) (min a.numCeps fb.length) ∧
      ∀ i < (x.length - l) / s + 1, ∀ (F : FlFrame fl fb wv fft abs a.preEmph coeff x l s a.nfft i)
        (lg c' : ℕ → ℝ) (lam tau : ℝ), (∀ n < fb.length, |lg n - logFloor (F.energy n)| ≤ lam) →
        √(∑ k ∈ Finset.range (min a.numCeps fb.length), (c' k - dctII fb.length lg k) ^ 2) ≤ tau →
        ∃ c : ℕ → ℝ, (∀ k < min a.numCeps fb.length, (m.getD i []).getD k nan = fin (c k)) ∧
          √(∑ k ∈ Finset.range (min a.numCeps fb.length), (c' k - c k) ^ 2) ≤
            tau + √fb.length * (lam + 2 * Real.log (1 / (1 - η))) := by
  have hc : (f, coeff, logFloor) ∈ compressions a := by
    simp only [List.mem_cons, Prod.mk.injEq, List.not_mem_nil, or_false] at hf
    rcases hf with ⟨rfl, rfl⟩ | ⟨rfl, rfl⟩ | ⟨rfl, rfl⟩ | ⟨rfl, rfl⟩ <;> simp [compressions]
  obtain ⟨m, hm, s1, v1⟩ := C101_meaning a f coeff logFloor hc fb x l s h hd hu hli hn
  refine ⟨m, hm, s1, fun i hi F lg c' lam tau hlg hc' => ⟨_, fun k hk => v1 i k hi hk, ?_⟩⟩
  have hM0 : 0 ≤ M := by
    have h1 := getD_mem [] (show 0 < fb.length from h.rows)
    have h2 := h.cols _ h1
    have h3 := getD_mem 0 (show 0 < (fb.getD 0 []).length by omega)
    exact (h.nonneg _ h1 _ h3).trans (hM _ h1 _ h3)
  have hlen : i * s + l ≤ x.length := by
    have h1 : i ≤ (x.length - l) / s := by omega
    have h2 := (Nat.le_div_iff_mul_le h.pos).mp h1
    have := h.long
    omega
  set N := fb.length with hN
  set p := min a.numCeps N with hp
  set y : ℕ → ℝ := fun n => logFloor (bandEnergy fb (windowWeight a.win.winType l) (emphasised a.preEmph coeff x) l s
    a.nfft i n) with hy
  have key : ∀ n < N, |lg n - y n| ≤ lam + 2 * Real.log (1 / (1 - η)) := by
    intro n hn
    obtain ⟨e1, e2⟩ := hE i hi n hn
    have e3 := (C120_energy ar.round ar.v0 ar.δ0 (fun r hr v hv => ⟨h.nonneg r hr v hv, hM r hr v hv⟩) hM0
      (fun j hj => ⟨(windowWeight_range h.window hj).1, (windowWeight_range h.window hj).2, ar.window_err j hj⟩) ar.ω0
      ar.fft_err h.nfft ar.abs_err hlen F hn).trans e2
    have e4 := log_near h0 h1 e1 e3
    exact (abs_sub_le _ (logFloor (F.energy n)) _).trans (add_le_add (hlg n hn) e4)
  have hb : 0 ≤ lam + 2 * Real.log (1 / (1 - η)) := (abs_nonneg _).trans (key 0 h.rows)
  have hsq : √(∑ k ∈ Finset.range p, (dctII N lg k - dctII N y k) ^ 2) ≤ √N * (lam + 2 * Real.log (1 / (1 - η))) := by
    rw [← Real.sqrt_sq hb, ← Real.sqrt_mul (Nat.cast_nonneg _)]
    apply Real.sqrt_le_sqrt
    refine (dctII_contracts N p (min_le_right _ _) lg y).trans ?_
    have : ∀ n ∈ Finset.range N, (lg n - y n) ^ 2 ≤ (lam + 2 * Real.log (1 / (1 - η))) ^ 2 := fun n hn => by
      rw [← sq_abs]
      exact pow_le_pow_left₀ (abs_nonneg _) (key n (Finset.mem_range.mp hn)) 2
    refine (Finset.sum_le_sum this).trans ?_
    simp
  have hmin := sqrt_weighted_add (n := p) (W := fun _ => 1) (fun _ _ => zero_le_one)
    (fun k => ((c' k - dctII N lg k : ℝ) : ℂ)) (fun k => ((dctII N lg k - dctII N y k : ℝ) : ℂ))
  simp only [← Complex.ofReal_add, Complex.norm_real, Real.norm_eq_abs, sq_abs, one_mul, sub_add_sub_cancel] at hmin
  exact hmin.trans (add_le_add hc' hsq)

/-- C120, digital silence is exact: if the samples under the window (and the one before it, with pre-emphasis) are zero,
every energy of every float run is exactly zero, whatever the rounding. -/
theorem C120_silence {u v ω δ : ℝ} {fl : ℝ → ℝ} {fft : (ℕ → ℝ) → ℕ → ℂ} {abs : ℂ → ℝ} {wv : ℕ → ℝ} {name : String}
    {l nfft : ℕ} (ar : Arithmetic u v ω δ fl fft abs wv name l nfft) {fb : List (List ℝ)}
    (hfb : ∀ r ∈ fb, ∀ a ∈ r, 0 ≤ a) {on : Bool} {c : ℝ} {x : List ℝ} {s i : ℕ} (hlen : i * s + l ≤ x.length)
    (hx : ∀ j < l, x.getD (i * s + j) 0 = 0) (hx' : on = true → i * s ≠ 0 → x.getD (i * s - 1) 0 = 0)
    (F : FlFrame fl fb wv fft abs on c x l s nfft i) {n : ℕ} (hn : n < fb.length) : F.energy n = 0 := by
  have hamp : ∀ j < l, amplitude on c x (i * s + j) = 0 := by
    intro j hj
    unfold amplitude
    rw [hx j hj]
    split_ifs with hc
    · have : x.getD (i * s + j - 1) 0 = 0 := by
        rcases Nat.eq_zero_or_pos j with rfl | hj0
        · exact hx' hc.1 (by simpa using hc.2)
        · have := hx (j - 1) (by omega)
          rwa [← Nat.add_sub_assoc (by omega)] at this
      rw [this]; simp
    · simp
  have hz : ∀ j < l, fl (F.y (i * s + j) * wv j) = 0 := by
    intro j hj
    have h1 := C120_pre_emphasis ar.round F.emph (t := i * s + j) (by omega)
    have h2 := abs_emphasised_le on c x (i * s + j)
    rw [hamp j hj, mul_zero] at h1
    rw [hamp j hj] at h2
    have h3 : emphasised on c x (i * s + j) = 0 := by simpa using h2
    rw [h3, sub_zero] at h1
    have h4 : F.y (i * s + j) = 0 := by simpa using h1
    rw [h4, zero_mul, ar.round.zero]
  set z : ℕ → ℝ := fun j => fl (F.y (i * s + j) * wv j) with hzd
  have hz : ∀ j < l, z j = 0 := hz
  have hY : ∀ k, frameBin (fun _ => 1) z l 0 nfft 0 k = 0 := by
    intro k
    unfold frameBin
    refine Finset.sum_eq_zero fun j hj => ?_
    have hj : j < l := lt_of_lt_of_le (Finset.mem_range.mp hj) (min_le_left _ _)
    simp only [zero_mul, zero_add]
    rw [hz j hj]; simp
  have hsum := ar.fft_err z
  have hz0 : ∑ j ∈ Finset.range l, z j ^ 2 = 0 := Finset.sum_eq_zero fun j hj => by
    rw [hz j (Finset.mem_range.mp hj)]; simp
  rw [hz0, mul_zero, mul_zero] at hsum
  have hX : ∀ k ∈ Finset.range (nfft / 2 + 1), fft z k = 0 := by
    intro k hk
    have := (Finset.sum_eq_zero_iff_of_nonneg fun k _ => sq_nonneg _).mp
      (le_antisymm hsum (Finset.sum_nonneg fun k _ => sq_nonneg _)) k hk
    rw [hY, sub_zero] at this
    simpa using this
  have hn' := energy_near ar.round ar.v0 hfb ar.abs_err F hn
  have : ∑ k ∈ Finset.range (nfft / 2 + 1), (fb.getD n []).getD k 0 / nfft * ‖fft z k‖ ^ 2 = 0 :=
    Finset.sum_eq_zero fun k hk => by rw [hX k hk]; simp
  rw [this, mul_zero, sub_zero] at hn'
  simpa using hn'

/-! ### Examples -/

/-- A sum of three numbers, rounded to multiples of 1/1000 relative precision, in two different orders. -/
example {u : ℝ} {fl : ℝ → ℝ} (h : Rounding u fl) : |fl (fl (1 + 2) + 3) - 6| ≤ ((1 + u) ^ 2 - 1) * 6 ∧
    |fl (1 + fl (3 + 2)) - 6| ≤ ((1 + u) ^ 2 - 1) * 6 := by
  have h1 := C120_sum h (l := [1, 2, 3]) (.add (a := [1, 2]) (b := [3]) (.add (a := [1]) (b := [2]) (.one 1) (.one 2)) (.one 3))
  have h2 := C120_sum h (l := [1, 3, 2]) (.add (a := [1]) (b := [3, 2]) (.one 1) (.add (a := [3]) (b := [2]) (.one 3) (.one 2)))
  norm_num at h1 h2 ⊢
  exact ⟨h1, h2⟩

/-- A rounding that is not exact: everything is enlarged by 1/1000. -/
theorem rounding_demo : Rounding 0.001 (fun t => 1.001 * t) :=
  ⟨by norm_num, fun t => by
    have : 1.001 * t - t = 0.001 * t := by ring
    rw [this, abs_mul, abs_of_pos (by norm_num : (0 : ℝ) < 0.001)]⟩

/-- An inexact arithmetic meeting the assumptions. -/
theorem arithmetic_demo (name : String) (l nfft : ℕ) : Arithmetic 0.001 0.002 0.01 0 (fun t => 1.001 * t)
    (fun z k => frameBin (fun _ => 1) z l 0 nfft 0 k) (fun z => 1.002 * ‖z‖) (fun j => windowWeight name l j + 0.01)
    name l nfft where
  round := rounding_demo
  v0 := by norm_num
  ω0 := by norm_num
  δ0 := le_rfl
  abs_err z := by
    have : 1.002 * ‖z‖ - ‖z‖ = 0.002 * ‖z‖ := by ring
    rw [this, abs_of_nonneg (by positivity)]
  window_err j _ := by rw [add_sub_cancel_left, abs_of_pos (by norm_num)]
  fft_err z := by simp

/-- With double precision (`u = 2^-53`, `np.absolute` within `2u`, window values within `10^-15`, an FFT accurate to
`10^-14`), `nfft = 512`, weights at most 1 and a band that holds at least the fraction `10^-12` of the squared amplitude of
the frame, the root of the energy is accurate to eight digits. -/
theorem C120_double {E A : ℝ} (hA : 0 ≤ A) (hEA : A ≤ 10 ^ 6 * √E) :
    rootError (1 / 2 ^ 53) (2 / 2 ^ 53) (1 / 10 ^ 15) (1 / 10 ^ 14) 1 E A 512 ≤ 1 / 10 ^ 7 * √E := by
  have hs := Real.sqrt_nonneg E
  unfold rootError
  rw [Real.sqrt_one, one_mul]
  have h1 : ((1 : ℝ) + 1 / 2 ^ 53) ^ (512 / 2 + 4) * (1 + 2 / 2 ^ 53) ^ 2 ≤ 1 + 1 / 10 ^ 13 := by
    have h130 : ((1 : ℝ) + 1 / 2 ^ 53) ^ 130 ≤ 1 + 2 / 10 ^ 14 := by norm_num
    have h260 : ((1 : ℝ) + 1 / 2 ^ 53) ^ (512 / 2 + 4) ≤ (1 + 2 / 10 ^ 14) ^ 2 := by
      rw [show 512 / 2 + 4 = 130 * 2 by norm_num, pow_mul]
      exact pow_le_pow_left₀ (by positivity) h130 2
    refine (mul_le_mul_of_nonneg_right h260 (by positivity)).trans (by norm_num)
  have h2 : (1 / 10 ^ 14 * ((1 + 1 / 10 ^ 15) * (1 + 1 / 2 ^ 53) ^ 3) +
      ((1 + 1 / 10 ^ 15) * (1 + 1 / 2 ^ 53) ^ 3 - 1) : ℝ) ≤ 2 / 10 ^ 14 := by norm_num
  have h0 : (0 : ℝ) ≤ 1 / 10 ^ 14 * ((1 + 1 / 10 ^ 15) * (1 + 1 / 2 ^ 53) ^ 3) +
      ((1 + 1 / 10 ^ 15) * (1 + 1 / 2 ^ 53) ^ 3 - 1) := by norm_num
  generalize ((1 : ℝ) + 1 / 2 ^ 53) ^ (512 / 2 + 4) * (1 + 2 / 2 ^ 53) ^ 2 = G at *
  generalize (1 / 10 ^ 14 * ((1 + 1 / 10 ^ 15) * (1 + 1 / 2 ^ 53) ^ 3) +
      ((1 + 1 / 10 ^ 15) * (1 + 1 / 2 ^ 53) ^ 3 - 1) : ℝ) = κ at *
  have h3 : κ * A ≤ 2 / 10 ^ 14 * (10 ^ 6 * √E) := mul_le_mul h2 hEA hA (by norm_num)
  have h4 : G * (κ * A) ≤ (1 + 1 / 10 ^ 13) * (2 / 10 ^ 14 * (10 ^ 6 * √E)) :=
    mul_le_mul h1 h3 (mul_nonneg h0 hA) (by norm_num)
  have h5 : (G - 1) * √E ≤ 1 / 10 ^ 13 * √E := mul_le_mul_of_nonneg_right (by linarith) hs
  nlinarith

/-- Adding up from left to right is one of the runs. -/
theorem flSum_exists (fl : ℝ → ℝ) (x : ℝ) (l : List ℝ) : ∃ r, FlSum fl (x :: l) r := by
  induction l using List.reverseRecOn with
  | nil => exact ⟨x, .one x⟩
  | append_singleton l a ih =>
    obtain ⟨r, hr⟩ := ih
    exact ⟨_, .add (b := [a]) hr (.one a)⟩

theorem flDot_exists (fl : ℝ → ℝ) (a b : ℕ → ℝ) (n : ℕ) : ∃ r, FlDot fl a b (n + 1) r := by
  obtain ⟨r, hr⟩ := flSum_exists fl (fl (a 0 * b 0)) ((List.range n).map fun k => fl (a (k + 1) * b (k + 1)))
  refine ⟨r, fun k => fl (a k * b k), fun k _ => .inr rfl, ?_⟩
  rwa [List.range_succ_eq_map, List.map_cons, List.map_map]

/-- Every call has a float run. -/
theorem flFrame_exists (fl : ℝ → ℝ) (fb : List (List ℝ)) (wv : ℕ → ℝ) (fft : (ℕ → ℝ) → ℕ → ℂ) (abs : ℂ → ℝ) (on : Bool)
    (c : ℝ) (x : List ℝ) (l s nfft i : ℕ) : Nonempty (FlFrame fl fb wv fft abs on c x l s nfft i) := by
  classical
  choose y0 hy0 using fun t : ℕ => flDot_exists fl (fun _ => 1) (fun _ => x.getD t 0) 0
  choose y1 hy1 using fun t : ℕ => flDot_exists fl (fun i => if i = 0 then 1 else -c) (fun i => x.getD (t - i) 0) 1
  let y : ℕ → ℝ := fun t => if on then if t = 0 then y0 0 else y1 t else x.getD t 0
  let p : ℕ → ℝ := fun k => fl (fl (1 / (nfft : ℝ)) * fl (abs (fft (fun j => fl (y (i * s + j) * wv j)) k) *
    abs (fft (fun j => fl (y (i * s + j) * wv j)) k)))
  choose e he using fun n : ℕ => flDot_exists fl p (fun k => (fb.getD n []).getD k 0) (nfft / 2)
  refine ⟨⟨y, fun t _ => ?_, p, fun k _ => rfl, e, fun n _ => he n⟩⟩
  by_cases ho : on = true
  · by_cases h0 : t = 0
    · subst h0
      simp only [y, ho, if_true]
      exact hy0 0
    · simp only [y, ho, if_true, if_neg h0]
      exact hy1 t
  · simp [y, ho]

/-- A call with inexact arithmetic: there is a float run, and its energies are near the exact ones. -/
example : ∃ out, melSpectrogram demo2 [5, 1, 4] = .ok out ∧ ∀ i < 2, ∀ n < 2, ∃ E, 0 ≤ E ∧
    (out.1.getD i []).getD n nan = fin E ∧ ∃ r : ℝ, |√r - √E| ≤
      rootError 0.001 0.002 0.01 0 3 E (frameAmplitude true 0.97 [5, 1, 4] 2 1 i) 2 := by
  obtain ⟨out, h1, h2⟩ := C120_spectrograms demo2 melSpectrogram 0.97 (by simp [demo2]) _ _ 2 1 demo2_setup 3
    (by norm_num) (arithmetic_demo demo2.win.winType 2 demo2.nfft)
  refine ⟨out, h1, fun i hi n hn => ?_⟩
  obtain ⟨E, e1, e2, e3⟩ := h2 i hi n hn
  obtain ⟨F⟩ := flFrame_exists (fun t => 1.001 * t) [[1, 2], [3, 1]] (fun j => windowWeight demo2.win.winType 2 j + 0.01)
    (fun z k => frameBin (fun _ => 1) z 2 0 demo2.nfft 0 k) (fun z => 1.002 * ‖z‖) demo2.preEmph 0.97 [5, 1, 4] 2 1
    demo2.nfft i
  exact ⟨E, e1, e2, F.energy n, e3 F⟩

end Props
end Spafe
