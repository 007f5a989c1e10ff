import Verif.Props.Float64
import Verif.Props.Cqt
import Verif.Model.Float64Int

/-! C132: numbers of samples and rows computed in `binary64`: which window lengths and resampling ratios are safe. -/

set_option linter.unusedSectionVars false

namespace Spafe
namespace Props
open Model XF Spec

theorem isFloat64_norm {x : ℝ} (h : IsFloat64 x) : ∃ m e : ℤ, |m| < 2 ^ 53 ∧ x = m * (2 : ℝ) ^ e := by
  obtain ⟨m, e, hm, rfl⟩ := h
  rcases hm.lt_or_eq with h | h
  · exact ⟨m, e, h, rfl⟩
  · rcases abs_eq (by norm_num : (0 : ℤ) ≤ 2 ^ 53) |>.mp h with rfl | rfl
    · refine ⟨2 ^ 52, e + 1, by norm_num, ?_⟩
      rw [zpow_add_one₀ (by norm_num)]; push_cast; ring
    · refine ⟨-2 ^ 52, e + 1, by norm_num, ?_⟩
      rw [zpow_add_one₀ (by norm_num)]; push_cast; ring

/-- Two different `binary64` numbers are at least a relative `2^-53` apart. -/
theorem float_gap {g h : ℝ} (hg : IsFloat64 g) (hh : IsFloat64 h) (h0 : 0 ≤ g) (hlt : g < h) : h / 2 ^ 53 ≤ h - g := by
  obtain ⟨m, e, hm, rfl⟩ := isFloat64_norm hg
  obtain ⟨m', e', hm', rfl⟩ := isFloat64_norm hh
  have key : ∀ (A B f : ℤ), (A : ℝ) * (2 : ℝ) ^ f < B * (2 : ℝ) ^ f → (A < 2 ^ 53 ∨ B < 2 ^ 53) →
      (B : ℝ) * (2 : ℝ) ^ f / 2 ^ 53 ≤ B * (2 : ℝ) ^ f - A * (2 : ℝ) ^ f := by
    intro A B f hAB hor
    have hP : (0 : ℝ) < (2 : ℝ) ^ f := zpow_pos (by norm_num) f
    have h1 : (A : ℝ) < B := lt_of_mul_lt_mul_right hAB hP.le
    have h2 : A + 1 ≤ B := by exact_mod_cast h1
    have h2' : (A : ℝ) + 1 ≤ B := by exact_mod_cast h2
    have h3 : (B : ℝ) / 2 ^ 53 ≤ B - A := by
      rcases lt_or_ge B (2 ^ 53) with hB | hB
      · have : (B : ℝ) < 2 ^ 53 := by exact_mod_cast hB
        linarith
      · have hA : A + 1 ≤ 2 ^ 53 := by omega
        have hA' : (A : ℝ) + 1 ≤ 2 ^ 53 := by exact_mod_cast hA
        have hB' : (2 : ℝ) ^ 53 ≤ B := by exact_mod_cast hB
        linarith
    calc (B : ℝ) * (2 : ℝ) ^ f / 2 ^ 53 = B / 2 ^ 53 * (2 : ℝ) ^ f := by ring
      _ ≤ (B - A) * (2 : ℝ) ^ f := mul_le_mul_of_nonneg_right h3 hP.le
      _ = _ := by ring
  rcases le_total e e' with he | he
  · have e1 : (m' : ℝ) * (2 : ℝ) ^ e' = ((m' * 2 ^ (e' - e).toNat : ℤ) : ℝ) * (2 : ℝ) ^ e := by
      push_cast
      rw [mul_assoc, ← zpow_natCast, ← zpow_add₀ (by norm_num)]
      congr 2; omega
    rw [e1] at hlt ⊢
    exact key m _ e hlt (Or.inl (lt_of_abs_lt hm))
  · have e1 : (m : ℝ) * (2 : ℝ) ^ e = ((m * 2 ^ (e - e').toNat : ℤ) : ℝ) * (2 : ℝ) ^ e' := by
      push_cast
      rw [mul_assoc, ← zpow_natCast, ← zpow_add₀ (by norm_num)]
      congr 2; omega
    rw [e1] at hlt ⊢
    exact key _ m' e' hlt (Or.inr (lt_of_abs_lt hm'))

/-- The float next to the ratio `w` is close enough for `int(w * n)` to be exact: not below `w` by more than a quarter of
the worst case. -/
def SafeRatio (w : ℝ) : Prop := w - w / 2 ^ 54 < fl64 w

/-- C132: `int(w * n)` in `binary64` for a safe ratio `w = p / q` and a number `n`: the exact `⌊p n / q⌋`. -/
theorem C132_safe {w : ℝ} {p q : ℕ} (hp : 0 < p) (hq : 0 < q) (hw : w = p / q) (hs : SafeRatio w) (n : ℕ)
    (hn : p * n < 2 ^ 51) : pyInt (fl64 (fl64 w * n)) = ((p * n / q : ℕ) : ℤ) := by
  obtain ⟨N, hN⟩ : ∃ N, N = p * n / q := ⟨_, rfl⟩
  rw [← hN]
  have hq' : (0 : ℝ) < q := by exact_mod_cast hq
  have hw0 : 0 < w := by rw [hw]; positivity
  have h1 : (N : ℝ) * q ≤ p * n := by rw [hN]; exact_mod_cast Nat.div_mul_le_self (p * n) q
  have h2 : (p : ℝ) * n + 1 ≤ (N + 1) * q := by
    have : p * n + 1 ≤ (N + 1) * q := by
      rw [hN]
      exact Nat.lt_of_lt_of_le (Nat.lt_div_mul_add hq) (by ring_nf; exact le_rfl)
    exact_mod_cast this
  have hNb : N < 2 ^ 51 := lt_of_le_of_lt (by rw [hN]; exact Nat.div_le_self _ _) hn
  have hpn : (p : ℝ) * n < 2 ^ 51 := by exact_mod_cast hn
  have hn0 : (0 : ℝ) ≤ n := Nat.cast_nonneg _
  obtain ⟨x, hx⟩ : ∃ x, x = w * n := ⟨_, rfl⟩
  have hxq : x * q = p * n := by rw [hx, hw]; field_simp
  have hx0 : 0 ≤ x := by rw [hx]; positivity
  obtain ⟨y, hy⟩ : ∃ y, y = fl64 w * n := ⟨_, rfl⟩
  have herr := abs_le.mp (fl64_err w)
  rw [abs_of_pos hw0] at herr
  have y1 : x - x / 2 ^ 54 ≤ y := by
    calc x - x / 2 ^ 54 = (w - w / 2 ^ 54) * n := by rw [hx]; ring
      _ ≤ _ := by rw [hy]; exact mul_le_mul_of_nonneg_right hs.le hn0
  have y2 : y ≤ x + x / 2 ^ 53 := by
    calc y ≤ (w + w / 2 ^ 53) * n := by rw [hy]; exact mul_le_mul_of_nonneg_right (by linarith [herr.2]) hn0
      _ = _ := by rw [hx]; ring
  have hy0 : 0 ≤ y := by linarith
  rw [← hy]
  have hfN : IsFloat64 (N : ℝ) := ⟨N, 0, by rw [abs_of_nonneg (by omega)]; norm_cast; omega, by simp⟩
  have hNN : fl64 (N : ℝ) = N := fl64_fixed hfN
  have hlo : (N : ℝ) ≤ fl64 y := by
    by_cases hint : x = N
    · by_contra hcon
      push Not at hcon
      have hpos : (0 : ℝ) < N := by
        rcases Nat.eq_zero_or_pos N with h | h
        · rw [h] at hcon
          have := fl64_mono hy0
          rw [fl64_zero] at this
          push_cast at hcon
          linarith
        · exact_mod_cast h
      have hn1 : (0 : ℝ) < n := by
        rcases hn0.eq_or_lt with h | h
        · rw [← hint, hx, ← h] at hpos; simp at hpos
        · exact h
      have ys : x - x / 2 ^ 54 < y := by
        calc x - x / 2 ^ 54 = (w - w / 2 ^ 54) * n := by rw [hx]; ring
          _ < _ := by rw [hy]; exact mul_lt_mul_of_pos_right hs hn1
      have hf0 : 0 ≤ fl64 y := by
        have := fl64_mono hy0
        rwa [fl64_zero] at this
      have hgap := float_gap (fl64_isFloat y) hfN hf0 hcon
      have hyN : y < N := by
        by_contra h
        push Not at h
        have := fl64_mono h
        rw [hNN] at this
        linarith
      have hnear := fl64_nearest y hfN
      rw [abs_of_pos (by linarith : (0 : ℝ) < N - y)] at hnear
      have := (abs_le.mp hnear).1
      rw [hint] at ys
      linarith
    · have hlt : (N : ℝ) * q + 1 ≤ p * n := by
        have : N * q ≠ p * n := fun h => hint (by
          have : (N : ℝ) * q = p * n := by exact_mod_cast h
          rw [← hxq] at this
          exact (mul_right_cancel₀ hq'.ne' this).symm)
        have h1' : N * q ≤ p * n := by rw [hN]; exact Nat.div_mul_le_self (p * n) q
        have : N * q + 1 ≤ p * n := by omega
        exact_mod_cast this
      rw [← hNN]
      refine fl64_mono ?_
      have : (N : ℝ) * q ≤ y * q := by
        have h3 := mul_le_mul_of_nonneg_right y1 hq'.le
        have h4 : (x - x / 2 ^ 54) * q = p * n - p * n / 2 ^ 54 := by rw [← hxq]; ring
        rw [h4] at h3
        linarith
      exact le_of_mul_le_mul_right this hq'
  have hhi : fl64 y < N + 1 := by
    have h3 := (abs_le.mp (fl64_err y)).2
    rw [abs_of_nonneg hy0] at h3
    have h4 : fl64 y * q ≤ (p * n) * (1 + 1 / 2 ^ 53) * (1 + 1 / 2 ^ 53) := by
      have : fl64 y ≤ x * (1 + 1 / 2 ^ 53) * (1 + 1 / 2 ^ 53) := by
        have := mul_le_mul_of_nonneg_right y2 (by norm_num : (0 : ℝ) ≤ 1 + 1 / 2 ^ 53)
        linarith
      calc fl64 y * q ≤ x * (1 + 1 / 2 ^ 53) * (1 + 1 / 2 ^ 53) * q := mul_le_mul_of_nonneg_right this hq'.le
        _ = _ := by rw [← hxq]; ring
    have h5 : fl64 y * q < (N + 1) * q := by linarith
    exact lt_of_mul_lt_mul_right h5 hq'.le
  have hf0 : 0 ≤ fl64 y := le_trans (Nat.cast_nonneg _) hlo
  rw [pyInt, if_pos hf0, Int.floor_eq_iff]
  exact ⟨by exact_mod_cast hlo, by push_cast; exact hhi⟩

/-! ### Windows of a whole number of milliseconds -/

/-- `binary64` value of `k / 1000` by integers: `r / 2^(52 + E)`. -/
def msFloat (k E r : ℕ) : Bool :=
  decide (1000 ≤ k * 2 ^ E) && decide (k * 2 ^ E < 2000) && decide (2 * (k * 2 ^ (52 + E)) < 2 * (1000 * r) + 1000) &&
    decide (2 * (1000 * r) < 2 * (k * 2 ^ (52 + E)) + 1000)

theorem msFloat_spec {k E r : ℕ} (h : msFloat k E r = true) : fl64 ((k : ℝ) / 1000) = r / 2 ^ (52 + E) := by
  simp only [msFloat, Bool.and_eq_true, decide_eq_true_eq] at h
  obtain ⟨⟨⟨h1, h2⟩, h3⟩, h4⟩ := h
  have h1' : (1000 : ℝ) ≤ k * 2 ^ E := by exact_mod_cast h1
  have h2' : (k : ℝ) * 2 ^ E < 2000 := by exact_mod_cast h2
  have h3' : 2 * ((k : ℝ) * 2 ^ (52 + E)) < 2 * (1000 * r) + 1000 := by exact_mod_cast h3
  have h4' : 2 * (1000 * (r : ℝ)) < 2 * (k * 2 ^ (52 + E)) + 1000 := by exact_mod_cast h4
  have hE : (0 : ℝ) < 2 ^ E := by positivity
  have z1 : (2 : ℝ) ^ (-(E : ℤ)) = 1 / 2 ^ E := by rw [zpow_neg, zpow_natCast, one_div]
  have z2 : (2 : ℝ) ^ (-(E : ℤ) + 1) = 2 / 2 ^ E := by rw [zpow_add_one₀ (by norm_num), z1]; ring
  have z3 : (2 : ℝ) ^ (-(E : ℤ) - 52) = 1 / 2 ^ (52 + E) := by
    rw [show (-(E : ℤ) - 52) = -((52 + E : ℕ) : ℤ) by push_cast; ring, zpow_neg, zpow_natCast, one_div]
  have := fl64_eq (x := (k : ℝ) / 1000) (e := -(E : ℤ)) (r := (r : ℤ)) ?_ ?_ ?_
  · rw [this, z3]; push_cast; ring
  · rw [z1, div_le_div_iff₀ hE (by norm_num)]; linarith
  · rw [z2, div_lt_div_iff₀ (by norm_num) hE]; linarith
  · rw [z3]
    have : (k : ℝ) / 1000 / (1 / 2 ^ (52 + E)) = k * 2 ^ (52 + E) / 1000 := by field_simp
    rw [this, abs_lt]
    push_cast
    constructor <;> linarith

/-- The float nearest to `k / 1000`, with the exponent, for the windows of at most 100 ms that are always exact. -/
def safeMs : List (ℕ × ℕ × ℕ) :=
  [(1, 10, 4611686018427388), (2, 9, 4611686018427388), (3, 9, 6917529027641082),
  (4, 8, 4611686018427388), (5, 8, 5764607523034235), (6, 8, 6917529027641082),
  (7, 8, 8070450532247929), (8, 7, 4611686018427388), (10, 7, 5764607523034235),
  (12, 7, 6917529027641082), (13, 7, 7493989779944505), (14, 7, 8070450532247929),
  (15, 7, 8646911284551352), (16, 6, 4611686018427388), (17, 6, 4899916394579100),
  (19, 6, 5476377146882523), (20, 6, 5764607523034235), (21, 6, 6052837899185947),
  (23, 6, 6629298651489370), (24, 6, 6917529027641082), (25, 6, 7205759403792794),
  (26, 6, 7493989779944505), (27, 6, 7782220156096217), (28, 6, 8070450532247929),
  (29, 6, 8358680908399641), (30, 6, 8646911284551352), (31, 6, 8935141660703064),
  (32, 5, 4611686018427388), (33, 5, 4755801206503244), (34, 5, 4899916394579100),
  (35, 5, 5044031582654956), (37, 5, 5332261958806667), (38, 5, 5476377146882523),
  (39, 5, 5620492334958379), (40, 5, 5764607523034235), (41, 5, 5908722711110091),
  (42, 5, 6052837899185947), (45, 5, 6485183463413514), (46, 5, 6629298651489370),
  (47, 5, 6773413839565226), (48, 5, 6917529027641082), (49, 5, 7061644215716938),
  (50, 5, 7205759403792794), (52, 5, 7493989779944505), (53, 5, 7638104968020361),
  (54, 5, 7782220156096217), (55, 5, 7926335344172073), (56, 5, 8070450532247929),
  (57, 5, 8214565720323785), (58, 5, 8358680908399641), (59, 5, 8502796096475496),
  (60, 5, 8646911284551352), (61, 5, 8791026472627208), (62, 5, 8935141660703064),
  (63, 4, 4539628424389460), (64, 4, 4611686018427388), (65, 4, 4683743612465316),
  (66, 4, 4755801206503244), (67, 4, 4827858800541172), (68, 4, 4899916394579100),
  (69, 4, 4971973988617028), (70, 4, 5044031582654956), (74, 4, 5332261958806667),
  (75, 4, 5404319552844595), (76, 4, 5476377146882523), (77, 4, 5548434740920451),
  (78, 4, 5620492334958379), (79, 4, 5692549928996307), (80, 4, 5764607523034235),
  (81, 4, 5836665117072163), (82, 4, 5908722711110091), (83, 4, 5980780305148019),
  (84, 4, 6052837899185947), (85, 4, 6124895493223875), (89, 4, 6413125869375586),
  (90, 4, 6485183463413514), (91, 4, 6557241057451442), (92, 4, 6629298651489370),
  (93, 4, 6701356245527298), (94, 4, 6773413839565226), (95, 4, 6845471433603154),
  (96, 4, 6917529027641082), (97, 4, 6989586621679010), (98, 4, 7061644215716938),
  (99, 4, 7133701809754866), (100, 4, 7205759403792794)]

/-- The other windows of at most 100 ms: milliseconds, exponent and significand of the float, a sampling rate, exponent
and significand of the product. -/
def unsafeMs : List (ℕ × ℕ × ℕ × ℕ × ℕ × ℕ) :=
  [(9, 7, 5188146770730811, 3000, 4, 7599824371187711), (11, 7, 6341068275337658, 23000, 7, 8901646138474495), (18, 6, 5188146770730811, 1500, 4, 7599824371187711),
  (22, 6, 6341068275337658, 11500, 7, 8901646138474495), (36, 5, 5188146770730811, 750, 4, 7599824371187711), (43, 5, 6196953087261802, 5000, 7, 7564639999098879),
  (44, 5, 6341068275337658, 5750, 7, 8901646138474495), (51, 5, 7349874591868649, 5000, 7, 8972014882652159), (71, 4, 5116089176692883, 3000, 7, 7494271254921215),
  (72, 4, 5188146770730811, 375, 4, 7599824371187711), (73, 4, 5260204364768739, 7000, 8, 8989607068696575), (86, 4, 6196953087261802, 2500, 7, 7564639999098879),
  (87, 4, 6269010681299730, 5000, 8, 7652600929320959), (88, 4, 6341068275337658, 2875, 7, 8901646138474495)]

theorem safeMs_check : ∀ t ∈ safeMs, msFloat t.1 t.2.1 t.2.2 = true ∧ 0 < t.1 ∧
    t.1 * (2 ^ 54 - 1) * 2 ^ (52 + t.2.1) < 1000 * 2 ^ 54 * t.2.2 := by
  decide +kernel

theorem unsafeMs_check : ∀ t ∈ unsafeMs, msFloat t.1 t.2.1 t.2.2.1 = true ∧ 0 < t.2.2.2.1 ∧ t.2.2.2.1 < 2 ^ 15 ∧
    t.1 * t.2.2.2.1 % 1000 = 0 ∧
    2 ^ (52 + t.2.1 + t.2.2.2.2.1) ≤ t.2.2.1 * t.2.2.2.1 ∧ t.2.2.1 * t.2.2.2.1 < 2 ^ (52 + t.2.1 + t.2.2.2.2.1 + 1) ∧
    2 * (t.2.2.1 * t.2.2.2.1) < 2 * (t.2.2.2.2.2 * 2 ^ (t.2.1 + t.2.2.2.2.1)) + 2 ^ (t.2.1 + t.2.2.2.2.1) ∧
    2 * (t.2.2.2.2.2 * 2 ^ (t.2.1 + t.2.2.2.2.1)) < 2 * (t.2.2.1 * t.2.2.2.1) + 2 ^ (t.2.1 + t.2.2.2.2.1) ∧
    t.2.2.2.2.2 * 2 ^ t.2.2.2.2.1 < t.1 * t.2.2.2.1 / 1000 * 2 ^ 52 := by
  decide +kernel

theorem ms_cover : ∀ k ∈ Finset.Icc 1 100, (∃ t ∈ safeMs, t.1 = k) ∨ ∃ t ∈ unsafeMs, t.1 = k := by
  decide +kernel

theorem safeMs_ratio {t : ℕ × ℕ × ℕ} (ht : t ∈ safeMs) : SafeRatio ((t.1 : ℝ) / 1000) := by
  obtain ⟨h1, -, h3⟩ := safeMs_check t ht
  rw [SafeRatio, msFloat_spec h1, lt_div_iff₀ (by positivity)]
  have h3' : (t.1 : ℝ) * (2 ^ 54 - 1) * 2 ^ (52 + t.2.1) < 1000 * 2 ^ 54 * t.2.2 := by
    have h := h3
    rw [show (2 ^ 54 - 1 : ℕ) = 18014398509481983 by norm_num, show (2 ^ 54 : ℕ) = 18014398509481984 by norm_num] at h
    have : (t.1 : ℝ) * 18014398509481983 * 2 ^ (52 + t.2.1) < 1000 * 18014398509481984 * t.2.2 := by exact_mod_cast h
    linarith
  generalize (2 : ℝ) ^ (52 + t.2.1) = P at *
  have : ((t.1 : ℝ) / 1000 - t.1 / 1000 / 2 ^ 54) * P = t.1 * (2 ^ 54 - 1) * P / (1000 * 2 ^ 54) := by ring
  rw [this, div_lt_iff₀ (by norm_num)]
  linarith

theorem unsafeMs_wrong {t : ℕ × ℕ × ℕ × ℕ × ℕ × ℕ} (ht : t ∈ unsafeMs) :
    pyInt (fl64 (fl64 ((t.1 : ℝ) / 1000) * t.2.2.2.1)) < ((t.1 * t.2.2.2.1 / 1000 : ℕ) : ℤ) := by
  obtain ⟨h1, h2, -, -, h4, h5, h6, h7, h8⟩ := unsafeMs_check t ht
  obtain ⟨k, E, r, fs, e, s⟩ := t
  simp only at h1 h2 h4 h5 h6 h7 h8 ⊢
  rw [msFloat_spec h1]
  have h4' : (2 : ℝ) ^ (52 + E + e) ≤ r * fs := by exact_mod_cast h4
  have h5' : (r : ℝ) * fs < 2 ^ (52 + E + e + 1) := by exact_mod_cast h5
  have h6' : 2 * ((r : ℝ) * fs) < 2 * (s * 2 ^ (E + e)) + 2 ^ (E + e) := by exact_mod_cast h6
  have h7' : 2 * ((s : ℝ) * 2 ^ (E + e)) < 2 * (r * fs) + 2 ^ (E + e) := by exact_mod_cast h7
  have h8' : (s : ℝ) * 2 ^ e < ((k * fs / 1000 : ℕ) : ℝ) * 2 ^ 52 := by
    have := h8
    rw [show (2 ^ 52 : ℕ) = 4503599627370496 by norm_num] at this
    have : (s : ℝ) * 2 ^ e < ((k * fs / 1000 : ℕ) : ℝ) * 4503599627370496 := by exact_mod_cast this
    linarith
  have hP : (0 : ℝ) < 2 ^ (52 + E) := by positivity
  have z3 : (2 : ℝ) ^ ((e : ℤ) - 52) = 2 ^ e / 2 ^ 52 := by
    rw [zpow_sub₀ (by norm_num), zpow_natCast]; rfl
  have := fl64_eq (x := (r : ℝ) / 2 ^ (52 + E) * fs) (e := (e : ℤ)) (r := (s : ℤ)) ?_ ?_ ?_
  · rw [this, z3]
    have h0 : (0 : ℝ) ≤ ((s : ℤ) : ℝ) * (2 ^ e / 2 ^ 52) := by positivity
    rw [pyInt, if_pos h0, Int.floor_lt]
    push_cast
    rw [mul_div_assoc', div_lt_iff₀ (by norm_num)]
    exact_mod_cast h8'
  · rw [zpow_natCast, div_mul_eq_mul_div, le_div_iff₀ hP, ← pow_add, add_comm e]; exact h4'
  · rw [show ((e : ℤ) + 1) = ((e + 1 : ℕ) : ℤ) by push_cast; ring, zpow_natCast, div_mul_eq_mul_div, div_lt_iff₀ hP, ← pow_add,
      show e + 1 + (52 + E) = 52 + E + e + 1 by ring]; exact h5'
  · rw [z3]
    have hQ : (0 : ℝ) < 2 ^ (E + e) := by positivity
    have : (r : ℝ) / 2 ^ (52 + E) * fs / (2 ^ e / 2 ^ 52) = r * fs / 2 ^ (E + e) := by
      rw [pow_add, pow_add]; field_simp
    rw [this]
    push_cast
    have : (r : ℝ) * fs / 2 ^ (E + e) - s = (r * fs - s * 2 ^ (E + e)) / 2 ^ (E + e) := by field_simp
    rw [this, abs_div, abs_of_pos hQ, div_lt_iff₀ hQ, abs_lt]
    constructor <;> linarith

/-- The windows of at most 100 ms for which `int(win_len * fs)` is wrong at some sampling rate. -/
def wrongMs : List ℕ := [9, 11, 18, 22, 36, 43, 44, 51, 71, 72, 73, 86, 87, 88]

theorem wrongMs_iff : (∀ t ∈ safeMs, t.1 ∉ wrongMs) ∧ ∀ t ∈ unsafeMs, t.1 ∈ wrongMs := by decide +kernel

/-- C132: a window of `k` milliseconds, `1 ≤ k ≤ 100`, gets `⌊k fs / 1000⌋` samples at every sampling rate, except for the
fourteen lengths in `wrongMs`, which get too few samples at some rate below 32768 Hz although `k fs / 1000` is an integer. -/
theorem C132_milliseconds (k : ℕ) (h1 : 1 ≤ k) (h2 : k ≤ 100) :
    (k ∉ wrongMs → ∀ fs : ℕ, fs < 2 ^ 44 → pyInt (fl64 (fl64 ((k : ℝ) / 1000) * fs)) = ((k * fs / 1000 : ℕ) : ℤ)) ∧
    (k ∈ wrongMs → ∃ fs : ℕ, 0 < fs ∧ fs < 2 ^ 15 ∧ k * fs % 1000 = 0 ∧
      pyInt (fl64 (fl64 ((k : ℝ) / 1000) * fs)) < ((k * fs / 1000 : ℕ) : ℤ)) := by
  rcases ms_cover k (Finset.mem_Icc.mpr ⟨h1, h2⟩) with ⟨t, ht, rfl⟩ | ⟨t, ht, rfl⟩
  · refine ⟨fun _ fs hfs => ?_, fun h => absurd h (wrongMs_iff.1 t ht)⟩
    refine C132_safe (safeMs_check t ht).2.1 (by norm_num) (by norm_num) (safeMs_ratio ht) fs ?_
    calc t.1 * fs ≤ 100 * fs := Nat.mul_le_mul_right _ h2
      _ < 2 ^ 51 := by omega
  · refine ⟨fun h => absurd (wrongMs_iff.2 t ht) h, fun _ => ?_⟩
    obtain ⟨-, h3, h4, h5, -⟩ := unsafeMs_check t ht
    exact ⟨t.2.2.2.1, h3, h4, h5, unsafeMs_wrong ht⟩

theorem msSafe {k : ℕ} (h1 : 1 ≤ k) (h2 : k ≤ 100) (h : k ∉ wrongMs) : SafeRatio ((k : ℝ) / 1000) := by
  rcases ms_cover k (Finset.mem_Icc.mpr ⟨h1, h2⟩) with ⟨t, ht, rfl⟩ | ⟨t, ht, rfl⟩
  · exact safeMs_ratio ht
  · exact absurd (wrongMs_iff.2 t ht) h

/-! ### The functions -/

theorem pyInt_quot (a b : ℕ) : pyInt ((a : ℝ) / b) = ((a / b : ℕ) : ℤ) := by
  rw [pyInt, if_pos (by positivity)]
  rw [Int.floor_div_natCast, Int.floor_natCast]
  rfl

theorem safe_exact {w : ℝ} {p q : ℕ} (hp : 0 < p) (hq : 0 < q) (hw : w = p / q) (hs : SafeRatio w) (n : ℕ)
    (hn : p * n < 2 ^ 51) : pyInt (fl64 (fl64 w * n)) = pyInt (w * n) := by
  rw [C132_safe hp hq hw hs n hn, hw, ← pyInt_quot]
  congr 1
  push_cast
  ring

/-- C132: `framing` with windows of safe numbers of milliseconds does in floats what it does in exact arithmetic. -/
theorem C132_framing (sig : List ℝ) (fs k j : ℕ) (hfs : fs < 2 ^ 44) (hk : 1 ≤ k ∧ k ≤ 100 ∧ k ∉ wrongMs)
    (hj : 1 ≤ j ∧ j ≤ 100 ∧ j ∉ wrongMs) :
    framing64 sig fs (k / 1000) (j / 1000) = framing sig fs (k / 1000) (j / 1000) := by
  have a : ∀ k, 1 ≤ k ∧ k ≤ 100 ∧ k ∉ wrongMs → pyInt (fl64 (fl64 ((k : ℝ) / 1000) * fs)) = pyInt ((k : ℝ) / 1000 * fs) := by
    rintro k ⟨h1, h2, h3⟩
    refine safe_exact (p := k) (q := 1000) h1 (by norm_num) (by norm_num) (msSafe h1 h2 h3) fs ?_
    calc k * fs ≤ 100 * fs := Nat.mul_le_mul_right _ h2
      _ < 2 ^ 51 := by omega
  have hlt : fl64 ((k : ℝ) / 1000) < fl64 ((j : ℝ) / 1000) ↔ (k : ℝ) / 1000 < (j : ℝ) / 1000 := by
    constructor
    · intro h
      by_contra hc
      exact absurd (fl64_mono (not_lt.mp hc)) (not_le.mpr h)
    · intro h
      have h' : (k : ℝ) + 1 ≤ j := by
        have : (k : ℝ) < j := by linarith
        exact_mod_cast this
      have hj' : (j : ℝ) ≤ 100 := by exact_mod_cast hj.2.1
      have e1 := (abs_le.mp (fl64_err ((k : ℝ) / 1000))).2
      have e2 := (abs_le.mp (fl64_err ((j : ℝ) / 1000))).1
      rw [abs_of_nonneg (by positivity)] at e1 e2
      linarith
  rw [framing64, framing, framingR, framingR]
  simp only [id, a k hk, a j hj, hlt]

/-- C132: `compute_yin` with windows of safe numbers of milliseconds and integer frequency limits does in floats what it
does in exact arithmetic; so with its default windows (30 ms, 15 ms) and limits (50 Hz, 3000 Hz) at every rate. -/
theorem C132_yin (sig : List ℝ) (fs k j low high : ℕ) (thr : ℝ) (hfs : fs < 2 ^ 44) (hk : 1 ≤ k ∧ k ≤ 100 ∧ k ∉ wrongMs)
    (hj : 1 ≤ j ∧ j ≤ 100 ∧ j ∉ wrongMs) :
    computeYin64 sig fs (k / 1000) (j / 1000) low high thr = computeYin sig fs (k / 1000) (j / 1000) low high thr := by
  have a : ∀ k, 1 ≤ k ∧ k ≤ 100 ∧ k ∉ wrongMs → pyInt (fl64 (fl64 ((k : ℝ) / 1000) * fs)) = pyInt ((k : ℝ) / 1000 * fs) := by
    rintro k ⟨h1, h2, h3⟩
    refine safe_exact (p := k) (q := 1000) h1 (by norm_num) (by norm_num) (msSafe h1 h2 h3) fs ?_
    calc k * fs ≤ 100 * fs := Nat.mul_le_mul_right _ h2
      _ < 2 ^ 51 := by omega
  rw [computeYin64, computeYinR, computeYin]
  by_cases h0 : (high : ℝ) = 0 ∨ (low : ℝ) = 0
  · rw [if_pos h0, if_pos h0]
  rw [if_neg h0, if_neg h0]
  push Not at h0
  have b : ∀ f : ℕ, (f : ℝ) ≠ 0 → pyInt (fl64 ((fs : ℝ) / f)) = pyInt ((fs : ℝ) / f) := by
    intro f hf
    rw [C130_int_division fs f (by omega) (Nat.pos_of_ne_zero (by exact_mod_cast hf)), pyInt_quot]
  rw [a k hk, a j hj, b high h0.1, b low h0.2]

theorem cqccR_eq (rnd : ℝ → ℝ) (a : CqtArgs) (r' : ℝ) (sig : List ℝ)
    (h : ∀ q, cqtSpectrogram a sig = .ok q → pyInt (rnd ((Np.ncols q : ℝ) * a.ratio)) = pyInt ((Np.ncols q : ℝ) * r')) :
    cqccR rnd a sig = cqcc { a with ratio := r' } sig := by
  rw [cqccR, cqcc]
  have e : cqtSpectrogram { a with ratio := r' } sig = cqtSpectrogram a sig := rfl
  rw [e]
  cases hq : cqtSpectrogram a sig with
  | error e => rw [error_bind, error_bind]
  | ok q =>
    have hcols : Np.ncols (q.map fun r => r.map cqtLog) = Np.ncols q := by
      cases q with
      | nil => rfl
      | cons r q => simp [Np.ncols]
    rw [ok_bind, ok_bind]
    simp only [hcols]
    rw [h q hq]

theorem cqt_cols {a : CqtArgs} {sig : List ℝ} {q : List (List ℂ)} (hS : 0 < pyInt (a.win.winHop * a.fs))
    (hq : cqtSpectrogram a sig = .ok q) : Np.ncols q ≤ sig.length + 1 := by
  obtain ⟨-, W, hW, hc, hrows⟩ := cqtSpectrogram_ok hq
  obtain ⟨l, s, h1, h2, h3, h4⟩ := frontEnd_length hS hW
  cases q with
  | nil => simp [Np.ncols]
  | cons r q =>
    have : Np.ncols (r :: q) = W.length := by simpa [Np.ncols] using hrows r (by simp)
    rw [this, h4]
    have := Nat.div_le_self (sig.length - l) s
    omega

/-- C132: `cqcc` with a safe resampling ratio `p / q` does in floats what it does in exact arithmetic. -/
theorem C132_cqcc (a : CqtArgs) (p q : ℕ) (hp : 0 < p) (hq : 0 < q) (hr : a.ratio = p / q) (hs : SafeRatio a.ratio)
    (hS : 0 < pyInt (a.win.winHop * a.fs)) (sig : List ℝ) (hn : p * (sig.length + 1) < 2 ^ 51) : cqcc64 a sig = cqcc a sig := by
  rw [cqcc64, cqccR_eq fl64 _ a.ratio sig]
  intro Q hQ
  have hcol : Np.ncols Q ≤ sig.length + 1 := cqt_cols (a := a) hS hQ
  have := safe_exact hp hq hr hs (Np.ncols Q) (lt_of_le_of_lt (Nat.mul_le_mul_left p hcol) hn)
  rwa [mul_comm, mul_comm a.ratio] at this

theorem fl64_29 : fl64 (29 / 100) = 5224175567749775 / 2 ^ 54 := by
  have := fl64_eq (x := 29 / 100) (e := -2) (r := 5224175567749775) (by norm_num) (by norm_num)
    (by rw [abs_lt]; constructor <;> norm_num)
  rw [this]; norm_num

theorem rows_29 : pyInt (fl64 (((100 : ℕ) : ℝ) * fl64 (29 / 100))) = 28 := by
  rw [fl64_29]
  have := fl64_eq (x := ((100 : ℕ) : ℝ) * (5224175567749775 / 2 ^ 54)) (e := 4) (r := 8162774324609023) (by norm_num) (by norm_num)
    (by rw [abs_lt]; constructor <;> norm_num)
  rw [this, pyInt, if_pos (by norm_num), Int.floor_eq_iff]
  constructor <;> norm_num

/-- C132: a ratio that is not safe: 100 frames resampled with the ratio 0.29 give 28 rows instead of 29. -/
theorem C132_cqcc_violated (sig : List ℝ) (hl : sig.length = 100) :
    (∃ m, cqcc64 { tinyCqt with ratio := 29 / 100 } sig = .ok m ∧ m.length = 28) ∧
    ∃ m, cqcc { tinyCqt with ratio := 29 / 100 } sig = .ok m ∧ m.length = 29 := by
  have hne : sig ≠ [] := by rintro rfl; simp at hl
  have hS : pyInt (tinyCqt.win.winHop * tinyCqt.fs) = ((1 : ℕ) : ℤ) := by
    have : tinyCqt.win.winHop * tinyCqt.fs = 1 := by norm_num [Args.win, tinyCqt]
    rw [this]; norm_num [pyInt]
  have hL : pyInt (tinyCqt.win.winLen * tinyCqt.fs) = ((1 : ℕ) : ℤ) := hS
  have hadm : admissible 1 1 1 0 1 2 0.5 1 = [1] := by
    unfold admissible inBand grid winLen qFactor
    norm_num
  have key : ∀ (r : ℝ) (n : ℕ), 0 < n → (100 : ℝ) * r = n → ∃ m, cqcc { tinyCqt with ratio := r } sig = .ok m ∧ m.length = n := by
    intro r n hn hr
    have hr' : (((sig.length - 1) / (pyInt (tinyCqt.win.winHop * tinyCqt.fs)).toNat + 1 : ℕ) : ℝ) * r = n := by
      rw [hS, hl]; norm_num; exact hr
    obtain ⟨m, hm, -⟩ := C93_defined { tinyCqt with ratio := r } (by norm_num [tinyCqt]) (by norm_num [tinyCqt])
      (by norm_num [tinyCqt]) (by norm_num [tinyCqt]) (by norm_num [tinyCqt, effHigh]) (by
        have he : effHigh tinyCqt.high tinyCqt.fs = 1 := by norm_num [effHigh, tinyCqt]
        show admissible tinyCqt.f0 tinyCqt.octaves tinyCqt.bins tinyCqt.low (effHigh tinyCqt.high tinyCqt.fs) tinyCqt.fs
          tinyCqt.qRate tinyCqt.nfft ≠ []
        rw [he]
        change admissible 1 1 1 0 1 2 0.5 1 ≠ []
        rw [hadm]; simp)
      (by simp [WindowName, Args.win, tinyCqt]) (le_refl _) (show 0 < pyInt (tinyCqt.win.winHop * tinyCqt.fs) by rw [hS]; norm_num)
      (l := 1) hS rfl rfl rfl sig (List.length_pos_iff.mpr hne) (by
        refine le_trans ?_ hr'.ge
        exact_mod_cast hn)
    refine ⟨m, hm, ?_⟩
    obtain ⟨l, s, h1, h2, -, h4, -⟩ := C71_shape { tinyCqt with ratio := r } sig m (by norm_num [tinyCqt]) (by norm_num [tinyCqt])
      (by norm_num [tinyCqt]) (by norm_num [tinyCqt]) (show 0 < pyInt (tinyCqt.win.winHop * tinyCqt.fs) by rw [hS]; norm_num) hm
    have e1 : (l : ℤ) = 1 := h1.symm.trans hL
    have e2 : (s : ℤ) = 1 := h2.symm.trans hS
    have e1 : l = 1 := by exact_mod_cast e1
    have e2 : s = 1 := by exact_mod_cast e2
    subst e1 e2
    rw [hS] at hr'
    have h5 : (((sig.length - 1) / 1 + 1 : ℕ) : ℝ) * r = n := hr'
    have h4' : (m.length : ℤ) = pyInt ((((sig.length - 1) / 1 + 1 : ℕ) : ℝ) * r) := h4
    rw [h5, pyInt, if_pos (by positivity), Int.floor_natCast] at h4'
    exact_mod_cast h4'
  refine ⟨?_, key (29 / 100) 29 (by norm_num) (by norm_num)⟩
  obtain ⟨m, hm, hml⟩ := key (28 / 100) 28 (by norm_num) (by norm_num)
  refine ⟨m, ?_, hml⟩
  rw [cqcc64, cqccR_eq fl64 _ (28 / 100) sig]
  · exact hm
  · intro q hq
    have hq' : cqtSpectrogram tinyCqt sig = .ok q := hq
    rw [tinyCqt_spec sig hne] at hq'
    injection hq' with hq'
    have hc : Np.ncols q = 100 := by rw [← hq']; simp [Np.ncols, hl]
    rw [hc, rows_29]
    norm_num [pyInt]

/-! ### Examples -/

/-- The default windows of `compute_yin` at 44100 Hz. -/
example (sig : List ℝ) : computeYin64 sig 44100 0.03 0.015 50 3000 0.1 = computeYin sig 44100 0.03 0.015 50 3000 0.1 := by
  have := C132_yin sig 44100 30 15 50 3000 0.1 (by norm_num) (by decide) (by decide)
  norm_num at this ⊢
  exact this

/-- 20 ms windows with a hop of 10 ms at 22050 Hz. -/
example (sig : List ℝ) : framing64 sig (22050 : ℕ) ((20 : ℕ) / 1000) ((10 : ℕ) / 1000) =
    framing sig (22050 : ℕ) ((20 : ℕ) / 1000) ((10 : ℕ) / 1000) :=
  C132_framing sig 22050 20 10 (by norm_num) (by decide) (by decide)

/-- The default resampling ratio is safe. -/
example : SafeRatio 1 := by
  have := fl64_int (n := 1) (by norm_num)
  rw [SafeRatio, show (1 : ℝ) = ((1 : ℤ) : ℝ) by norm_num, this]
  norm_num

end Props
end Spafe
