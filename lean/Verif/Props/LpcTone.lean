import Verif.Props.Tone
import Verif.Props.LpMeaning
import Mathlib.Analysis.SpecialFunctions.Trigonometric.Inverse

/-! C185: the coefficients that `lpc` finds for a pure tone. -/

set_option linter.unusedSectionVars false

namespace Spafe
namespace Props
open Model XF Spec Real

/-- A sum of equidistant samples of a cosine stays bounded. -/
theorem cos_sum_le (θ β : ℝ) (hs : sin θ ≠ 0) (M : ℕ) :
    |∑ n ∈ Finset.range M, cos (2 * θ * (n : ℝ) + β)| ≤ 1 / |sin θ| := by
  have h : ∀ M : ℕ, 2 * sin θ * ∑ n ∈ Finset.range M, cos (2 * θ * (n : ℝ) + β) = sin (2 * θ * (M : ℝ) + β - θ) - sin (β - θ) := by
    intro M
    induction M with
    | zero => simp
    | succ M ih =>
      rw [Finset.sum_range_succ, mul_add, ih]
      have e1 : sin (2 * θ * ((M + 1 : ℕ) : ℝ) + β - θ) = sin (2 * θ * (M : ℝ) + β + θ) := by
        congr 1; push_cast; ring
      rw [e1, sin_add (2 * θ * (M : ℝ) + β) θ, sin_sub (2 * θ * (M : ℝ) + β) θ]
      ring
  have h1 : |2 * sin θ * ∑ n ∈ Finset.range M, cos (2 * θ * (n : ℝ) + β)| ≤ 2 := by
    rw [h M]
    refine (abs_sub _ _).trans ?_
    linarith [abs_sin_le_one (2 * θ * (M : ℝ) + β - θ), abs_sin_le_one (β - θ)]
  rw [abs_mul, abs_mul, abs_two] at h1
  rw [le_div_iff₀ (abs_pos.mpr hs)]
  nlinarith

/-- The autocorrelation of a frame of a tone. -/
theorem autoCorr_tone {x : List ℝ} {B θ β : ℝ} (hx : ∀ n < x.length, x.getD n 0 = B * cos (θ * n + β)) (hs : sin θ ≠ 0) {k : ℕ}
    (hk : k ≤ x.length) :
    |2 * autoCorr x k - B ^ 2 * x.length * cos (k * θ)| ≤ B ^ 2 * (k + 1 / |sin θ|) := by
  have e1 : autoCorr x k = ∑ n ∈ Finset.range (x.length - k), B ^ 2 / 2 * (cos (k * θ) + cos (2 * θ * (n : ℝ) + (k * θ + 2 * β))) := by
    unfold autoCorr
    rw [← Finset.sum_subset (Finset.range_mono (Nat.sub_le x.length k))]
    · apply Finset.sum_congr rfl
      intro n hn
      have hn := Finset.mem_range.mp hn
      have a1 : ext x (n : ℤ) = B * cos (θ * n + β) := by
        unfold ext; rw [if_pos (by omega)]; simpa using hx n (by omega)
      have a2 : ext x ((n : ℤ) + (k : ℤ)) = B * cos (θ * (n + k : ℕ) + β) := by
        unfold ext; rw [if_pos (by omega), show ((n : ℤ) + (k : ℤ)).toNat = n + k by omega]; exact hx _ (by omega)
      rw [a1, a2]
      have c1 : cos (k * θ) = cos ((θ * (n + k : ℕ) + β) - (θ * n + β)) := by congr 1; push_cast; ring
      have c2 : cos (2 * θ * (n : ℝ) + (k * θ + 2 * β)) = cos ((θ * (n + k : ℕ) + β) + (θ * n + β)) := by
        congr 1; push_cast; ring
      rw [c1, c2]
      generalize θ * ((n + k : ℕ) : ℝ) + β = p
      generalize θ * (n : ℝ) + β = q
      rw [cos_sub, cos_add]
      ring
    · intro n _ hn
      have hn : x.length - k ≤ n := by simpa using hn
      have : ext x ((n : ℤ) + (k : ℤ)) = 0 := by
        unfold ext
        rw [if_pos (by omega), List.getD_eq_default _ _ (by omega)]
      rw [this, mul_zero]
  have hb := cos_sum_le θ (k * θ + 2 * β) hs (x.length - k)
  rw [e1, ← Finset.mul_sum, Finset.sum_add_distrib, Finset.sum_const, Finset.card_range, nsmul_eq_mul, Nat.cast_sub hk]
  generalize (∑ n ∈ Finset.range (x.length - k), cos (2 * θ * (n : ℝ) + (k * θ + 2 * β))) = σ at *
  have e2 : 2 * (B ^ 2 / 2 * (((x.length : ℝ) - k) * cos (k * θ) + σ)) - B ^ 2 * x.length * cos (k * θ) =
      B ^ 2 * (σ - k * cos (k * θ)) := by ring
  rw [e2, abs_mul, abs_of_nonneg (sq_nonneg B)]
  refine mul_le_mul_of_nonneg_left ?_ (sq_nonneg B)
  refine (abs_sub _ _).trans ?_
  rw [abs_mul, Nat.abs_cast]
  have := mul_le_mul_of_nonneg_left (abs_cos_le_one (k * θ)) (Nat.cast_nonneg (α := ℝ) k)
  linarith

/-- Solving two normal equations whose autocorrelations are nearly those of a tone. -/
theorem two_equations {θ η r0 r1 r2 a1 a2 : ℝ} (hη : 0 ≤ η) (hb : η ≤ sin θ ^ 2 / 10) (hs : sin θ ≠ 0) (h0 : |r0 - 1| ≤ η)
    (h1 : |r1 - cos θ| ≤ η) (h2 : |r2 - cos (2 * θ)| ≤ η) (e1 : a1 * r0 + a2 * r1 = -r1) (e2 : a1 * r1 + a2 * r0 = -r2) :
    |a1 + 2 * cos θ| ≤ 26 * η / sin θ ^ 2 ∧ |a2 - 1| ≤ 17 * η / sin θ ^ 2 := by
  have hS0 : 0 < sin θ ^ 2 := by positivity
  have hsc := sin_sq_add_cos_sq θ
  have hS1 : sin θ ^ 2 ≤ 1 := by nlinarith [sq_nonneg (cos θ)]
  have hc := abs_cos_le_one θ
  have hc2 := abs_cos_le_one (2 * θ)
  have h22 : cos (2 * θ) = 1 - 2 * sin θ ^ 2 := by rw [cos_two_mul]; linarith
  have hη1 : η ≤ 1 / 10 := by linarith
  obtain ⟨u, rfl⟩ : ∃ u, r0 = 1 + u := ⟨r0 - 1, by ring⟩
  obtain ⟨v, rfl⟩ : ∃ v, r1 = cos θ + v := ⟨r1 - cos θ, by ring⟩
  obtain ⟨w, rfl⟩ : ∃ w, r2 = cos (2 * θ) + w := ⟨r2 - cos (2 * θ), by ring⟩
  rw [add_sub_cancel_left] at h0 h1 h2
  generalize hcc : cos θ = c at *
  generalize hSS : sin θ ^ 2 = S at *
  rw [h22] at hc2 e2
  have hprod : ∀ p q P Q : ℝ, |p| ≤ P → |q| ≤ Q → |p * q| ≤ P * Q := fun p q P Q hp hq => by
    rw [abs_mul]; exact mul_le_mul hp hq (abs_nonneg _) ((abs_nonneg _).trans hp)
  have huu : |u * u| ≤ η / 10 := (hprod _ _ _ _ h0 h0).trans (by nlinarith)
  have hvv : |v * v| ≤ η / 10 := (hprod _ _ _ _ h1 h1).trans (by nlinarith)
  have huv : |u * v| ≤ η / 10 := (hprod _ _ _ _ h0 h1).trans (by nlinarith)
  have huw : |u * w| ≤ η / 10 := (hprod _ _ _ _ h0 h2).trans (by nlinarith)
  have hvw : |v * w| ≤ η / 10 := (hprod _ _ _ _ h1 h2).trans (by nlinarith)
  have hcv : |c * v| ≤ η := (hprod _ _ _ _ hc h1).trans (by linarith)
  have hcu : |c * u| ≤ η := (hprod _ _ _ _ hc h0).trans (by linarith)
  have hcw : |c * w| ≤ η := (hprod _ _ _ _ hc h2).trans (by linarith)
  have hCu : |(1 - 2 * S) * u| ≤ η := (hprod _ _ _ _ hc2 h0).trans (by linarith)
  have hSv : |S * v| ≤ η := (hprod _ _ _ _ (abs_le.mpr ⟨by linarith, hS1⟩) h1).trans (by linarith)
  have hcc2 : c ^ 2 = 1 - S := by linarith
  obtain ⟨D, hD⟩ : ∃ D, D = (1 + u) ^ 2 - (c + v) ^ 2 := ⟨_, rfl⟩
  have hDe : D = S + (2 * u + u * u - 2 * (c * v) - v * v) := by rw [hD]; linear_combination (-1) * hcc2
  simp only [abs_le] at *
  have hF : -(4.2 * η) ≤ 2 * u + u * u - 2 * (c * v) - v * v ∧ 2 * u + u * u - 2 * (c * v) - v * v ≤ 4.2 * η :=
    ⟨by linarith [h0.1, huu.1, hcv.2, hvv.2], by linarith [h0.2, huu.2, hcv.1, hvv.1]⟩
  have hcF := hprod _ _ _ _ hc hF
  have hDl : S / 2 ≤ D := by linarith [h0.1, huu.1, hcv.2, hvv.2]
  have hD0 : 0 < D := by linarith
  have f1 : a1 * D = -(c + v) * (1 + u) + (c + v) * (1 - 2 * S + w) := by rw [hD]; linear_combination (1 + u) * e1 - (c + v) * e2
  have f2 : a2 * D = (c + v) ^ 2 - (1 + u) * (1 - 2 * S + w) := by rw [hD]; linear_combination (1 + u) * e2 - (c + v) * e1
  have g1 : (a1 + 2 * c) * D = -(2 * (S * v)) - c * u - u * v + c * w + v * w + 2 * (c * (2 * u + u * u - 2 * (c * v) - v * v)) := by
    rw [add_mul, f1, hDe]; ring
  have g2 : (a2 - 1) * D = 4 * (c * v) + 2 * (v * v) - w - u * w - (1 - 2 * S) * u - 2 * u - u * u := by
    rw [sub_mul, f2, hD]; linear_combination 2 * hcc2
  obtain ⟨p0, q0⟩ := h0
  obtain ⟨p1, q1⟩ := h1
  obtain ⟨p2, q2⟩ := h2
  obtain ⟨p3, q3⟩ := hcF
  obtain ⟨p4, q4⟩ := huu
  obtain ⟨p5, q5⟩ := hvv
  obtain ⟨p6, q6⟩ := huv
  obtain ⟨p7, q7⟩ := huw
  obtain ⟨p8, q8⟩ := hvw
  obtain ⟨p9, q9⟩ := hcv
  obtain ⟨p10, q10⟩ := hcu
  obtain ⟨p11, q11⟩ := hcw
  obtain ⟨p12, q12⟩ := hCu
  obtain ⟨p13, q13⟩ := hSv
  have hfin : ∀ y K : ℝ, 0 ≤ K → |y * D| ≤ K / 2 * η → |y| ≤ K * η / S := by
    intro y K hK h
    rw [abs_mul, abs_of_pos hD0] at h
    rw [le_div_iff₀ hS0]
    have := mul_le_mul_of_nonneg_left hDl (abs_nonneg y)
    linarith only [this, h]
  constructor
  · refine abs_le.mp (hfin _ 26 (by norm_num) ?_)
    rw [g1, abs_le]
    constructor <;> linarith only [p3, q3, p6, q6, p8, q8, p10, q10, p11, q11, p13, q13, hη]
  · refine abs_le.mp (hfin _ 17 (by norm_num) ?_)
    rw [g2, abs_le]
    constructor <;> linarith only [p0, q0, p2, q2, p4, q4, p5, q5, p7, q7, p9, q9, p12, q12, hη]

/-- The two coefficients of order-two linear prediction of a frame of a tone. -/
theorem predictor_tone {x : List ℝ} {B θ β : ℝ} (hx : ∀ n < x.length, x.getD n 0 = B * cos (θ * n + β)) (hB : B ≠ 0)
    (hs : sin θ ≠ 0) (hl : 2 ≤ x.length) (hb : (2 + 1 / |sin θ|) / x.length ≤ sin θ ^ 2 / 10) {a : ℕ → ℝ} (ha : IsPredictor x 2 a) :
    |a 1 + 2 * cos θ| ≤ 26 * ((2 + 1 / |sin θ|) / x.length) / sin θ ^ 2 ∧
      |a 2 - 1| ≤ 17 * ((2 + 1 / |sin θ|) / x.length) / sin θ ^ 2 := by
  have hl0 : (0 : ℝ) < x.length := by exact_mod_cast (by omega : 0 < x.length)
  have hB2 : 0 < B ^ 2 * x.length := by positivity
  have hsp : 0 < 1 / |sin θ| := by positivity
  have key : ∀ k : ℕ, k ≤ 2 → |2 * autoCorr x k / (B ^ 2 * x.length) - cos (k * θ)| ≤ (2 + 1 / |sin θ|) / x.length := by
    intro k hk
    have h := autoCorr_tone hx hs (k := k) (by omega)
    have hk2 : (k : ℝ) ≤ 2 := by exact_mod_cast hk
    rw [show 2 * autoCorr x k / (B ^ 2 * x.length) - cos (k * θ) =
      (2 * autoCorr x k - B ^ 2 * x.length * cos (k * θ)) / (B ^ 2 * x.length) by field_simp, abs_div, abs_of_pos hB2,
      div_le_div_iff₀ hB2 hl0]
    have h3 : B ^ 2 * (k + 1 / |sin θ|) ≤ B ^ 2 * (2 + 1 / |sin θ|) := mul_le_mul_of_nonneg_left (by linarith) (sq_nonneg B)
    calc _ ≤ B ^ 2 * (2 + 1 / |sin θ|) * x.length := mul_le_mul_of_nonneg_right (h.trans h3) hl0.le
      _ = _ := by ring
  have k0 := key 0 (by omega)
  have k1 := key 1 (by omega)
  have k2 := key 2 (by omega)
  have n1 := ha.normal 1 le_rfl (by omega)
  have n2 := ha.normal 2 (by omega) le_rfl
  rw [show Finset.Icc 1 2 = {1, 2} by rfl, Finset.sum_pair (by omega)] at n1 n2
  norm_num at n1 n2
  rw [Nat.cast_zero, zero_mul, cos_zero] at k0
  rw [Nat.cast_one, one_mul] at k1
  refine two_equations (by positivity) hb hs k0 k1 (by exact_mod_cast k2) ?_ ?_
  · field_simp
    linarith
  · field_simp
    linarith

/-- A tone does not vanish at two neighbouring samples. -/
theorem tone_not_silent {x : List ℝ} {B θ β : ℝ} (hB : B ≠ 0) (hs : sin θ ≠ 0) {n : ℕ} (hn : n + 1 < x.length)
    (h0 : x.getD n 0 = B * cos (θ * n + β)) (h1 : x.getD (n + 1) 0 = B * cos (θ * (n + 1 : ℕ) + β)) : NotSilent x := by
  by_contra h
  have hz : ∀ m < x.length, x.getD m 0 = 0 := fun m hm => by
    by_contra hne
    exact h ⟨_, getD_mem 0 hm, hne⟩
  rw [hz n (by omega)] at h0
  rw [hz (n + 1) hn] at h1
  have c0 : cos (θ * n + β) = 0 := (mul_eq_zero.mp h0.symm).resolve_left hB
  have c1 : cos (θ * (n + 1 : ℕ) + β) = 0 := (mul_eq_zero.mp h1.symm).resolve_left hB
  rw [show θ * ((n + 1 : ℕ) : ℝ) + β = (θ * n + β) + θ by push_cast; ring, cos_add, c0] at c1
  have c2 := sin_sq_add_cos_sq (θ * n + β)
  rw [c0] at c2
  have : sin (θ * n + β) * sin θ = 0 := by linarith
  rcases mul_eq_zero.mp this with h | h
  · rw [h] at c2; norm_num at c2
  · exact hs h

/-- The radian frequency of `f` Hz at the sampling rate `fs`. -/
noncomputable def radian (fs f : ℝ) : ℝ := 2 * π * f / fs

/-- The distance of the autocorrelations of `l` samples of a tone of radian frequency `θ` from those of an endless tone. -/
noncomputable def toneGap (θ : ℝ) (l : ℕ) : ℝ := (2 + 1 / |sin θ|) / l

/-- C185: a tone, order 3. `lpc` succeeds, and except for the frame that contains the first sample of a pre-emphasised signal, its rows
are `1, a, b` with `a` near `-2 cos θ` and `b` near 1: the polynomial of a resonance at the frequency of the tone. -/
theorem C185_tone (a : LpcArgs) (sig : List ℝ) (l s : ℕ) (hl : pyInt (a.win.winLen * a.fs) = l) (hs : pyInt (a.win.winHop * a.fs) = s)
    (hs0 : 0 < s) (hhop : a.win.winHop ≤ a.win.winLen) (hname : WindowName a.win.winType) (ho : a.order = 3) (hl3 : 3 ≤ l)
    (hlen : l ≤ sig.length) {f A φ : ℝ} (hA : A ≠ 0) (hf0 : 0 < f) (hf1 : f < a.fs / 2)
    (ht : ∀ t < sig.length, sig.getD t 0 = A * cos (2 * π * f * t / a.fs + φ)) :
    ∃ M E, lpc a sig = .ok (M, E) ∧ HasShape M ((sig.length - l) / s + 1) 3 ∧
      ∀ i, (a.preEmph = true → 1 ≤ i) → i < (sig.length - l) / s + 1 →
        (M.getD i []).getD 0 0 = 1 ∧
        (toneGap (radian a.fs f) l ≤ sin (radian a.fs f) ^ 2 / 10 →
          |(M.getD i []).getD 1 0 + 2 * cos (radian a.fs f)| ≤ 26 * toneGap (radian a.fs f) l / sin (radian a.fs f) ^ 2 ∧
          |(M.getD i []).getD 2 0 - 1| ≤ 17 * toneGap (radian a.fs f) l / sin (radian a.fs f) ^ 2) := by
  have hfs : 0 < a.fs := by linarith
  have hsin : 0 < sin (radian a.fs f) := by
    refine sin_pos_of_pos_of_lt_pi (by unfold radian; positivity) ?_
    unfold radian
    rw [div_lt_iff₀ hfs]
    nlinarith [pi_pos]
  obtain ⟨ψ, hψ⟩ := emphasised_tone a.preEmph 0.97 (fs := a.fs) (f := f) (A := A) (φ := φ) (sig := sig) fun t _ h => ht t h
  obtain ⟨B, hBd⟩ : ∃ B, B = A * emphGain a.preEmph 0.97 a.fs f := ⟨_, rfl⟩
  have hB : B ≠ 0 := by rw [hBd]; exact mul_ne_zero hA (emphGain_pos _ _ hf0 hf1).ne'
  rw [← hBd] at hψ
  have hS : 0 < pyInt (a.win.winHop * a.fs) := by rw [hs]; exact_mod_cast hs0
  obtain ⟨wv, hw, -⟩ := (C14_window_vector a.win.winType l).1 hname
  have hF := (lpcFrames_ok_iff a sig _ hS).mpr ⟨fun h => by rw [h.2] at hlen; simp at hlen; omega, hhop, l, s, hl, hs, hs0, hlen,
    ⟨wv, hw⟩, rfl⟩
  obtain ⟨-, hFe⟩ := lpcFrames_meaning hl hs hs0 hF
  have hval : ∀ i < (sig.length - l) / s + 1, ∀ j < l, (if a.preEmph then 1 else 0) ≤ i * s + j →
      emphasised a.preEmph 0.97 sig (i * s + j) = B * cos (radian a.fs f * j + (radian a.fs f * ((i * s : ℕ) : ℝ) + ψ)) := by
    intro i hi j hj h1
    have h5 := (Nat.le_div_iff_mul_le hs0).mp (Nat.lt_succ_iff.mp hi)
    rw [hψ (i * s + j) h1 (by omega)]
    congr 2
    unfold radian
    push_cast
    ring
  obtain ⟨⟨M, E⟩, hq⟩ := (C61_lpc_defined_iff a sig _ hF hS (by rw [hl]; omega) (by omega)).1.mpr (by
    rw [hFe]
    intro g hg
    obtain ⟨i, hi, rfl⟩ := List.mem_map.mp hg
    have hi := List.mem_range.mp hi
    refine tone_not_silent (n := 1) (β := radian a.fs f * ((i * s : ℕ) : ℝ) + ψ) hB hsin.ne' (by simp; omega) ?_ ?_
    · rw [getD_map_range_lt _ _ (by omega)]
      exact hval i hi 1 (by omega) (by split_ifs <;> omega)
    · rw [getD_map_range_lt _ _ (by omega)]
      exact hval i hi 2 (by omega) (by split_ifs <;> omega))
  obtain ⟨hsh, -, hrow⟩ := C107_lpc_meaning a sig l s hl hs hs0 M E hq
  rw [ho] at hsh hrow
  refine ⟨M, E, hq, hsh, fun i h1 hi => ?_⟩
  obtain ⟨hp, -⟩ := hrow i hi _ rfl
  refine ⟨hp.one, fun hb => ?_⟩
  have := predictor_tone (x := (List.range l).map fun (j : ℕ) => emphasised a.preEmph 0.97 sig (i * s + j)) (B := B)
    (θ := radian a.fs f) (β := radian a.fs f * ((i * s : ℕ) : ℝ) + ψ) (fun n hn => by
      have hn : n < l := by simpa using hn
      rw [getD_map_range_lt _ _ hn]
      refine hval i hi n hn ?_
      split_ifs with h
      · have := Nat.mul_le_mul (h1 h) hs0
        omega
      · omega) hB hsin.ne' (by simp; omega) (by simpa [toneGap] using hb) hp
  simpa [toneGap] using this

/-- C185, the limit: long frames of a tone below half the sampling rate `fs` determine its frequency. For every tolerance there is a
frame length from which on the frequency read off the second coefficient is within that tolerance. -/
theorem C185_frequency (fs f δ : ℝ) (hf0 : 0 < f) (hf1 : f < fs / 2) (hδ : 0 < δ) :
    ∃ L : ℕ, ∀ (a : LpcArgs) (sig : List ℝ) (l s : ℕ), a.fs = fs → pyInt (a.win.winLen * fs) = l → pyInt (a.win.winHop * fs) = s →
      0 < s → a.win.winHop ≤ a.win.winLen → WindowName a.win.winType → a.order = 3 → L ≤ l → l ≤ sig.length →
      ∀ A φ : ℝ, A ≠ 0 → (∀ t < sig.length, sig.getD t 0 = A * cos (2 * π * f * t / fs + φ)) →
        ∃ M E, lpc a sig = .ok (M, E) ∧ ∀ i, (a.preEmph = true → 1 ≤ i) → i < (sig.length - l) / s + 1 →
          |fs / (2 * π) * arccos (-(M.getD i []).getD 1 0 / 2) - f| < δ ∧ |(M.getD i []).getD 2 0 - 1| < δ := by
  have hfs : 0 < fs := by linarith
  have hr0 : 0 < radian fs f := by unfold radian; positivity
  have hrpi : radian fs f < π := by
    unfold radian
    rw [div_lt_iff₀ hfs]
    nlinarith [pi_pos]
  have hsin : 0 < sin (radian fs f) := sin_pos_of_pos_of_lt_pi hr0 hrpi
  have hcont : ContinuousAt arccos (cos (radian fs f)) := continuous_arccos.continuousAt
  rw [Metric.continuousAt_iff] at hcont
  obtain ⟨ε, hε, hac⟩ := hcont (δ * (2 * π) / fs) (by positivity)
  rw [arccos_cos hr0.le hrpi.le] at hac
  obtain ⟨m, hm⟩ : ∃ m, m = min (sin (radian fs f) ^ 2 / 10) (min (ε * sin (radian fs f) ^ 2 / 26) (δ * sin (radian fs f) ^ 2 / 26)) :=
    ⟨_, rfl⟩
  have hm0 : 0 < m := by rw [hm]; refine lt_min (by positivity) (lt_min (by positivity) (by positivity))
  obtain ⟨L, hL⟩ := exists_nat_gt ((2 + 1 / |sin (radian fs f)|) / m)
  refine ⟨max L 3, fun a sig l s ha hl hs hs0 hhop hname ho hLl hlen A φ hA ht => ?_⟩
  subst ha
  have hl3 : 3 ≤ l := (le_max_right _ _).trans hLl
  obtain ⟨M, E, hq, -, hrow⟩ := C185_tone a sig l s hl hs hs0 hhop hname ho hl3 hlen hA hf0 hf1 ht
  refine ⟨M, E, hq, fun i h1 hi => ?_⟩
  have hgap : toneGap (radian a.fs f) l < m := by
    have h2 : (L : ℝ) ≤ l := by exact_mod_cast (le_max_left _ _).trans hLl
    have h3 : (0 : ℝ) < l := by exact_mod_cast (by omega : 0 < l)
    unfold toneGap
    rw [div_lt_iff₀ h3]
    rw [div_lt_iff₀ hm0] at hL
    nlinarith
  have hg0 : 0 ≤ toneGap (radian a.fs f) l := by unfold toneGap; positivity
  have b1 : toneGap (radian a.fs f) l < sin (radian a.fs f) ^ 2 / 10 := hgap.trans_le (by rw [hm]; exact min_le_left _ _)
  have b2 : toneGap (radian a.fs f) l < ε * sin (radian a.fs f) ^ 2 / 26 :=
    hgap.trans_le (by rw [hm]; exact (min_le_right _ _).trans (min_le_left _ _))
  have b3 : toneGap (radian a.fs f) l < δ * sin (radian a.fs f) ^ 2 / 26 :=
    hgap.trans_le (by rw [hm]; exact (min_le_right _ _).trans (min_le_right _ _))
  obtain ⟨-, h2⟩ := hrow i h1 hi
  obtain ⟨h3, h4⟩ := h2 b1.le
  have hS2 : 0 < sin (radian a.fs f) ^ 2 := by positivity
  constructor
  · have d1 : |(M.getD i []).getD 1 0 + 2 * cos (radian a.fs f)| < ε := by
      refine h3.trans_lt ?_
      rw [div_lt_iff₀ hS2]
      linarith
    have d2 : dist (-(M.getD i []).getD 1 0 / 2) (cos (radian a.fs f)) < ε := by
      rw [Real.dist_eq, show -(M.getD i []).getD 1 0 / 2 - cos (radian a.fs f) =
        -(((M.getD i []).getD 1 0 + 2 * cos (radian a.fs f)) / 2) by ring, abs_neg, abs_div, abs_two]
      linarith [abs_nonneg ((M.getD i []).getD 1 0 + 2 * cos (radian a.fs f))]
    have d3 := hac d2
    rw [Real.dist_eq] at d3
    have e : a.fs / (2 * π) * arccos (-(M.getD i []).getD 1 0 / 2) - f =
        a.fs / (2 * π) * (arccos (-(M.getD i []).getD 1 0 / 2) - radian a.fs f) := by
      unfold radian
      field_simp
    rw [e, abs_mul, abs_of_pos (by positivity)]
    calc _ < a.fs / (2 * π) * (δ * (2 * π) / a.fs) := mul_lt_mul_of_pos_left d3 (by positivity)
      _ = δ := by field_simp
  · refine h4.trans_lt ?_
    rw [div_lt_iff₀ hS2]
    linarith

/-- The default arguments with order 3 and a tone of 4 kHz, a quarter of the sampling rate: from the second frame on the rows are
`1, a, b` with `a` within 0.2 of 0 and `b` within 0.13 of 1. -/
theorem C185_default (sig : List ℝ) (hlen : 400 ≤ sig.length) {A φ : ℝ} (hA : A ≠ 0)
    (ht : ∀ t < sig.length, sig.getD t 0 = A * cos (2 * π * 4000 * t / 16000 + φ)) :
    ∃ M E, lpc { order := 3 } sig = .ok (M, E) ∧ ∀ i, 1 ≤ i → i < (sig.length - 400) / 160 + 1 →
      (M.getD i []).getD 0 0 = 1 ∧ |(M.getD i []).getD 1 0| ≤ 0.2 ∧ |(M.getD i []).getD 2 0 - 1| ≤ 0.13 := by
  obtain ⟨M, E, h1, -, h2⟩ := C185_tone { order := 3 } sig 400 160 (by norm_num [LpcArgs.win, pyInt])
    (by norm_num [LpcArgs.win, pyInt]) (by norm_num) (by norm_num [LpcArgs.win]) (by simp [LpcArgs.win, WindowName]) rfl (by norm_num)
    hlen (f := 4000) hA (by norm_num) (by norm_num) ht
  have hr : radian (16000 : ℝ) 4000 = π / 2 := by unfold radian; ring
  refine ⟨M, E, h1, fun i hi1 hi2 => ?_⟩
  obtain ⟨h3, h4⟩ := h2 i (fun _ => hi1) hi2
  refine ⟨h3, ?_⟩
  rw [hr, sin_pi_div_two, cos_pi_div_two] at h4
  obtain ⟨h5, h6⟩ := h4 (by rw [toneGap, sin_pi_div_two]; norm_num)
  rw [toneGap, sin_pi_div_two] at h5 h6
  rw [mul_zero, add_zero] at h5
  exact ⟨h5.trans (by norm_num), h6.trans (by norm_num)⟩

/-- A second of such a tone: the frames 1 to 97 exist. -/
example : ∃ M E, lpc { order := 3 } ((List.range 16000).map fun (t : ℕ) => 2 * cos (2 * π * 4000 * (t : ℝ) / 16000 + 1)) = .ok (M, E) ∧
    ∀ i, 1 ≤ i → i < 98 → |(M.getD i []).getD 1 0| ≤ 0.2 := by
  obtain ⟨M, E, h1, h2⟩ := C185_default ((List.range 16000).map fun (t : ℕ) => 2 * cos (2 * π * 4000 * (t : ℝ) / 16000 + 1))
    (by simp) (A := 2) (φ := 1) (by norm_num) (fun t ht => getD_map_range_lt _ _ (by simpa using ht))
  exact ⟨M, E, h1, fun i a b => (h2 i a (by simpa using b)).2.1⟩

end Props
end Spafe
