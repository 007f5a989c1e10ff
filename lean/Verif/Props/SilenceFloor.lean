import Verif.Props.Loudness
import Verif.Props.SpecMeaning
import Mathlib.Analysis.SpecialFunctions.Log.Basic
import Mathlib.Analysis.SpecialFunctions.Pow.Real
import Mathlib.Topology.Algebra.Order.Field

/-!
C162: is silence the quietest signal? `zero_handling` (`spafe/utils/preprocessing.py:41-52`) replaces energies that are exactly 0 by
2^-52 before the logarithm, but leaves smaller positive energies alone.
-/

set_option linter.unusedSectionVars false

namespace Spafe
namespace Spec

/-- The first coefficient of a silent frame (C114). -/
noncomputable def silentLevel (N : ℕ) : ℝ := √N * Real.log (1 / 2 ^ 52)

end Spec

namespace Props

open Model XF Spec Real Filter

theorem emphasised_amplify (on : Bool) (c g : ℝ) (x : List ℝ) (t : ℕ) :
    emphasised on c (x.map (g * ·)) t = g * emphasised on c x t := by
  have hg : ∀ t, (x.map (g * ·)).getD t 0 = g * x.getD t 0 := by
    intro t
    by_cases h : t < x.length
    · rw [List.getD_eq_getElem _ _ (by simpa using h), List.getD_eq_getElem _ _ h, List.getElem_map]
    · rw [List.getD_eq_default _ _ (by simpa using not_lt.1 h), List.getD_eq_default _ _ (not_lt.1 h), mul_zero]
  unfold emphasised
  rw [hg, hg]
  split_ifs <;> ring

theorem frameBin_amplify (w y : ℕ → ℝ) (g : ℝ) (l s nfft i k : ℕ) :
    frameBin w (fun t => g * y t) l s nfft i k = g * frameBin w y l s nfft i k := by
  unfold frameBin
  rw [Finset.mul_sum]
  refine Finset.sum_congr rfl fun j _ => ?_
  push_cast
  ring

theorem bandEnergy_gain (fb : List (List ℝ)) (w y : ℕ → ℝ) (g : ℝ) (l s nfft i n : ℕ) :
    bandEnergy fb w (fun t => g * y t) l s nfft i n = g ^ 2 * bandEnergy fb w y l s nfft i n := by
  unfold bandEnergy framePower
  rw [Finset.mul_sum]
  refine Finset.sum_congr rfl fun k _ => ?_
  rw [frameBin_amplify, norm_mul, Complex.norm_real, mul_pow, Real.norm_eq_abs, sq_abs]
  ring

theorem bandEnergy_amplify (fb : List (List ℝ)) (w : ℕ → ℝ) (on : Bool) (c g : ℝ) (x : List ℝ) (l s nfft i n : ℕ) :
    bandEnergy fb w (emphasised on c (x.map (g * ·))) l s nfft i n = g ^ 2 * bandEnergy fb w (emphasised on c x) l s nfft i n := by
  rw [← bandEnergy_gain]
  congr 1
  funext t
  exact emphasised_amplify on c g x t

theorem dctII_zero (N : ℕ) (x : ℕ → ℝ) : dctII N x 0 = (∑ n ∈ Finset.range N, x n) / √N := by
  rcases Nat.eq_zero_or_pos N with rfl | hN
  · simp [dctII]
  have hN : (0 : ℝ) < N := by exact_mod_cast hN
  have h2 : √(2 : ℝ) ≠ 0 := by positivity
  have hs : √(N : ℝ) ≠ 0 := by positivity
  unfold dctII
  simp only [if_true, Nat.cast_zero, mul_zero, zero_mul, zero_div, cos_zero, mul_one]
  rw [Real.sqrt_div (by norm_num)]
  field_simp

theorem silentLevel_eq {N : ℕ} (hN : 0 < N) : silentLevel N = (∑ _n ∈ Finset.range N, Real.log (1 / 2 ^ 52)) / √N := by
  have hN : (0 : ℝ) < N := by exact_mod_cast hN
  have hs : √(N : ℝ) ≠ 0 := by positivity
  have e : √(N : ℝ) * √N = N := Real.mul_self_sqrt hN.le
  unfold silentLevel
  rw [Finset.sum_const, Finset.card_range, nsmul_eq_mul, eq_div_iff hs]
  calc _ = (√(N : ℝ) * √N) * Real.log (1 / 2 ^ 52) := by ring
    _ = _ := by rw [e]

/-- What each of the logarithmic features passes to `zero_handling`, as a function of the band energy. -/
noncomputable def beforeLog (a : Args) : List (Feature × ℝ × (ℝ → ℝ)) :=
  [(mfcc, a.preEmphCoeff, id), (imfcc, a.preEmphCoeff, id), (ngcc, a.preEmphCoeff, id), (lfcc, 0.97, id), (bfcc, 0.97, intensity)]

theorem beforeLog_compressions {a : Args} {f : Feature} {coeff : ℝ} {I : ℝ → ℝ} (h : (f, coeff, I) ∈ beforeLog a) :
    (f, coeff, fun e => logFloor (I e)) ∈ compressions a ∧ (I = id ∨ I = intensity) := by
  simp only [beforeLog, List.mem_cons, List.not_mem_nil, or_false, Prod.mk.injEq] at h
  rcases h with ⟨rfl, rfl, rfl⟩ | ⟨rfl, rfl, rfl⟩ | ⟨rfl, rfl, rfl⟩ | ⟨rfl, rfl, rfl⟩ | ⟨rfl, rfl, rfl⟩ <;>
    simp [compressions]

/-- **C162**: if no band energy (for `bfcc`: loudness) lies strictly between 0 and 2^-52, the first coefficient is at least that of a
silent frame. The full claim has no condition on the energies. -/
theorem C162_floor_partial (a : Args) (f : Feature) (coeff : ℝ) (I : ℝ → ℝ) (hf : (f, coeff, I) ∈ beforeLog a)
    (fb : List (List ℝ)) (sig : List ℝ) (l s : ℕ) (h : Setup a fb sig l s)
    (hd : a.dctType = 2) (hu : a.useEnergy = false) (hl : a.lifter = none) (hn : a.normalize = none) (hc : 1 ≤ a.numCeps)
    (hb : 1 ≤ fb.length) :
    ∃ m, f a sig = .ok m ∧ ∀ i < (sig.length - l) / s + 1,
      (∀ n < fb.length, I (bandEnergy fb (windowWeight a.win.winType l) (emphasised a.preEmph coeff sig) l s a.nfft i n) = 0 ∨
        1 / 2 ^ 52 ≤ I (bandEnergy fb (windowWeight a.win.winType l) (emphasised a.preEmph coeff sig) l s a.nfft i n)) →
      ∃ c0, (m.getD i []).getD 0 nan = fin c0 ∧ silentLevel fb.length ≤ c0 := by
  obtain ⟨m, hm, -, hv⟩ := C101_meaning a f coeff _ (beforeLog_compressions hf).1 fb sig l s h hd hu hl hn
  refine ⟨m, hm, fun i hi he => ⟨_, hv i 0 hi (lt_min (by omega) (by omega)), ?_⟩⟩
  rw [dctII_zero, silentLevel_eq (by omega)]
  refine div_le_div_of_nonneg_right (Finset.sum_le_sum fun n hn => ?_) (Real.sqrt_nonneg _)
  unfold logFloor
  rcases he n (Finset.mem_range.1 hn) with h0 | h0
  · rw [if_pos h0]
  · have hp : 0 < I (bandEnergy fb (windowWeight a.win.winType l) (emphasised a.preEmph coeff sig) l s a.nfft i n) :=
      lt_of_lt_of_le (by positivity) h0
    rw [if_neg hp.ne']
    exact Real.log_le_log (by positivity) h0

/-- `intensity` vanishes at least like the 4/3-th power. -/
theorem intensity_small {e : ℝ} (h0 : 0 < e) (h1 : e ≤ 1) : 0 < intensity e ∧ intensity e ≤ e := by
  have hp : 0 < (e ^ 2 + 56.8 * 10 ^ 6) * e ^ 4 / ((e ^ 2 + 6.3 * 10 ^ 6) * (e ^ 2 + 0.38 * 10 ^ 9) * (e ^ 6 + 9.58 * 10 ^ 26)) := by
    positivity
  refine ⟨Real.rpow_pos_of_pos hp _, ?_⟩
  have e3 : e = (e ^ 3) ^ (1 / 3 : ℝ) := by
    rw [← Real.rpow_natCast, ← Real.rpow_mul h0.le]; norm_num
  unfold intensity
  conv_rhs => rw [e3]
  refine Real.rpow_le_rpow hp.le ?_ (by norm_num)
  rw [div_le_iff₀ (by positivity)]
  have a1 : e ^ 4 ≤ e ^ 3 := pow_le_pow_of_le_one h0.le h1 (by norm_num)
  have a2 : e ^ 2 + 56.8 * 10 ^ 6 ≤ 10 ^ 9 := by
    have : e ^ 2 ≤ 1 := pow_le_one₀ h0.le h1
    norm_num; linarith
  have a3 : (10 : ℝ) ^ 9 ≤ (e ^ 2 + 6.3 * 10 ^ 6) * (e ^ 2 + 0.38 * 10 ^ 9) * (e ^ 6 + 9.58 * 10 ^ 26) := by
    have b1 : (1 : ℝ) ≤ e ^ 2 + 6.3 * 10 ^ 6 := by nlinarith [sq_nonneg e]
    have b2 : (1 : ℝ) ≤ e ^ 2 + 0.38 * 10 ^ 9 := by nlinarith [sq_nonneg e]
    have b3 : (10 : ℝ) ^ 9 ≤ e ^ 6 + 9.58 * 10 ^ 26 := by nlinarith [sq_nonneg (e ^ 3), pow_mul e 3 2]
    have b4 : 1 ≤ (e ^ 2 + 6.3 * 10 ^ 6) * (e ^ 2 + 0.38 * 10 ^ 9) := one_le_mul_of_one_le_of_one_le b1 b2
    calc (10 : ℝ) ^ 9 = 1 * 10 ^ 9 := by ring
      _ ≤ _ := mul_le_mul b4 b3 (by norm_num) (by linarith)
  have q1 : 0 < e ^ 3 := by positivity
  have q4 : 0 < e ^ 4 := by positivity
  calc _ ≤ (10 : ℝ) ^ 9 * e ^ 3 := mul_le_mul a2 a1 q4.le (by norm_num)
    _ = e ^ 3 * 10 ^ 9 := by ring
    _ ≤ _ := mul_le_mul_of_nonneg_left a3 q1.le

theorem logFloor_small {I : ℝ → ℝ} (hI : I = id ∨ I = intensity) {e g : ℝ} (he : 0 < e) (hg : 0 < g) (hge : g ^ 2 * e ≤ 1) :
    logFloor (I (g ^ 2 * e)) ≤ 2 * Real.log g + Real.log e := by
  have hp : 0 < g ^ 2 * e := by positivity
  have e1 : Real.log (g ^ 2 * e) = 2 * Real.log g + Real.log e := by
    rw [Real.log_mul (by positivity) he.ne', Real.log_pow]; push_cast; ring
  rw [← e1]
  unfold logFloor
  rcases hI with rfl | rfl
  · rw [if_neg (by simpa using hp.ne')]
    exact le_refl _
  · obtain ⟨i1, i2⟩ := intensity_small hp hge
    rw [if_neg i1.ne']
    exact Real.log_le_log i1 i2

/-- **C162**, violated by all five features and every bank: scale any signal in which frame `i` has energy in every band down, and the
first coefficient of that frame falls below every bound - in particular below that of a silent frame. -/
theorem C162_below_silence (a : Args) (f : Feature) (coeff : ℝ) (I : ℝ → ℝ) (hf : (f, coeff, I) ∈ beforeLog a)
    (fb : List (List ℝ)) (sig : List ℝ) (l s : ℕ) (h : Setup a fb sig l s)
    (hd : a.dctType = 2) (hu : a.useEnergy = false) (hl : a.lifter = none) (hn : a.normalize = none) (hc : 1 ≤ a.numCeps)
    (hb : 1 ≤ fb.length) (i : ℕ) (hi : i < (sig.length - l) / s + 1)
    (he : ∀ n < fb.length, 0 < bandEnergy fb (windowWeight a.win.winType l) (emphasised a.preEmph coeff sig) l s a.nfft i n)
    (B : ℝ) : ∃ g0 > 0, ∀ g, 0 < g → g < g0 →
      ∃ m c0, f a (sig.map (g * ·)) = .ok m ∧ (m.getD i []).getD 0 nan = fin c0 ∧ c0 < B := by
  obtain ⟨N, hN⟩ : ∃ N, N = fb.length := ⟨_, rfl⟩
  obtain ⟨E, hE⟩ : ∃ E : ℕ → ℝ, E = fun n => bandEnergy fb (windowWeight a.win.winType l) (emphasised a.preEmph coeff sig) l s a.nfft i n :=
    ⟨_, rfl⟩
  have he' : ∀ n < N, 0 < E n := by rw [hE, hN]; exact he
  rw [← hN] at hb
  have hNp : (0 : ℝ) < N := by exact_mod_cast hb
  have hs : 0 < √(N : ℝ) := by positivity
  obtain ⟨S, hS⟩ : ∃ S, S = ∑ n ∈ Finset.range N, E n := ⟨_, rfl⟩
  have hES : ∀ n < N, E n ≤ S := fun n hn => by
    rw [hS]
    exact Finset.single_le_sum (fun k hk => (he' k (Finset.mem_range.1 hk)).le) (Finset.mem_range.2 hn)
  have hS0 : 0 < S := (he' 0 (by omega)).trans_le (hES 0 (by omega))
  obtain ⟨T, hT⟩ : ∃ T, T = ∑ n ∈ Finset.range N, Real.log (E n) := ⟨_, rfl⟩
  refine ⟨min (1 / √S) (Real.exp ((√N * B - T) / (2 * N))), lt_min (by positivity) (Real.exp_pos _), fun g hg hg0 => ?_⟩
  have h' : Setup a fb (sig.map (g * ·)) l s :=
    ⟨h.bank, h.cols, h.nonneg, h.rows, h.ceps, h.nfft, h.window, h.hopLe, h.len, h.hop, h.pos, by simpa using h.long,
      fun hp h0 => h.samples hp (by simpa using h0)⟩
  obtain ⟨m, hm, -, hv⟩ := C101_meaning a f coeff _ (beforeLog_compressions hf).1 fb _ l s h' hd hu hl hn
  refine ⟨m, _, hm, hv i 0 (by simpa using hi) (lt_min (by omega) (by omega)), ?_⟩
  rw [dctII_zero, ← hN, div_lt_iff₀ hs]
  have hgS : g ^ 2 * S ≤ 1 := by
    have h1 : g < 1 / √S := lt_of_lt_of_le hg0 (min_le_left _ _)
    rw [lt_div_iff₀ (by positivity)] at h1
    have h2 : (g * √S) ^ 2 ≤ 1 := pow_le_one₀ (by positivity) h1.le
    rwa [mul_pow, Real.sq_sqrt hS0.le] at h2
  have hlog : 2 * N * Real.log g < √N * B - T := by
    have h1 : g < Real.exp ((√N * B - T) / (2 * N)) := lt_of_lt_of_le hg0 (min_le_right _ _)
    have h2 : Real.log g < (√N * B - T) / (2 * N) := by
      rw [← Real.log_exp ((√N * B - T) / (2 * N))]
      exact Real.log_lt_log hg h1
    rw [lt_div_iff₀ (by positivity)] at h2
    linarith
  have hsum : ∑ n ∈ Finset.range N, logFloor (I (bandEnergy fb (windowWeight a.win.winType l)
      (emphasised a.preEmph coeff (sig.map (g * ·))) l s a.nfft i n)) ≤ ∑ n ∈ Finset.range N, (2 * Real.log g + Real.log (E n)) := by
    refine Finset.sum_le_sum fun n hn => ?_
    rw [bandEnergy_amplify]
    have hn := Finset.mem_range.1 hn
    have hEn : bandEnergy fb (windowWeight a.win.winType l) (emphasised a.preEmph coeff sig) l s a.nfft i n = E n := by rw [hE]
    rw [hEn]
    refine logFloor_small (beforeLog_compressions hf).2 (he' n hn) hg (le_trans ?_ hgS)
    exact mul_le_mul_of_nonneg_left (hES n hn) (by positivity)
  rw [Finset.sum_add_distrib, Finset.sum_const, Finset.card_range, nsmul_eq_mul, ← hT] at hsum
  refine lt_of_le_of_lt hsum ?_
  linarith

theorem intensity_quiet {e : ℝ} (h0 : 0 < e) (h1 : e ≤ 1 / 10 ^ 4) : 0 < intensity e ∧ intensity e < 1 / 2 ^ 52 := by
  have hp : 0 < (e ^ 2 + 56.8 * 10 ^ 6) * e ^ 4 / ((e ^ 2 + 6.3 * 10 ^ 6) * (e ^ 2 + 0.38 * 10 ^ 9) * (e ^ 6 + 9.58 * 10 ^ 26)) := by
    positivity
  refine ⟨Real.rpow_pos_of_pos hp _, ?_⟩
  have e3 : (1 / 2 ^ 52 : ℝ) = ((1 / 2 ^ 52) ^ 3) ^ (1 / 3 : ℝ) := by
    generalize hq : (1 / 2 ^ 52 : ℝ) = q
    have hq0 : 0 ≤ q := by rw [← hq]; positivity
    rw [← Real.rpow_natCast, ← Real.rpow_mul hq0]; norm_num
  unfold intensity
  rw [e3]
  refine Real.rpow_lt_rpow hp.le ?_ (by norm_num)
  rw [div_lt_iff₀ (by positivity)]
  have s1 : e ^ 4 ≤ (1 / 10 ^ 4) ^ 4 := pow_le_pow_left₀ h0.le h1 4
  have s2 : e ^ 2 ≤ (1 / 10 ^ 4) ^ 2 := pow_le_pow_left₀ h0.le h1 2
  have s3 : (6.3 * 10 ^ 6) * (0.38 * 10 ^ 9) * (9.58 * 10 ^ 26) ≤
      (e ^ 2 + 6.3 * 10 ^ 6) * (e ^ 2 + 0.38 * 10 ^ 9) * (e ^ 6 + 9.58 * 10 ^ 26) := by
    have b1 : (6.3 * 10 ^ 6 : ℝ) ≤ e ^ 2 + 6.3 * 10 ^ 6 := le_add_of_nonneg_left (by positivity)
    have b2 : (0.38 * 10 ^ 9 : ℝ) ≤ e ^ 2 + 0.38 * 10 ^ 9 := le_add_of_nonneg_left (by positivity)
    have b3 : (9.58 * 10 ^ 26 : ℝ) ≤ e ^ 6 + 9.58 * 10 ^ 26 := le_add_of_nonneg_left (by positivity)
    exact mul_le_mul (mul_le_mul b1 b2 (by positivity) (by positivity)) b3 (by positivity) (by positivity)
  have s4 : (e ^ 2 + 56.8 * 10 ^ 6) * e ^ 4 ≤ ((1 / 10 ^ 4) ^ 2 + 56.8 * 10 ^ 6) * (1 / 10 ^ 4) ^ 4 :=
    mul_le_mul (by linarith) s1 (by positivity) (by positivity)
  have s5 := mul_le_mul_of_nonneg_left s3 (show (0 : ℝ) ≤ (1 / 2 ^ 52) ^ 3 by positivity)
  refine lt_of_le_of_lt s4 (lt_of_lt_of_le ?_ s5)
  norm_num

/-- **C162** for `bfcc`, whose loudness law moves the problem to ordinary levels: a frame that is not silent and has at most 10^-4 of
energy in every band gets a first coefficient below that of a silent frame. -/
theorem C162_bfcc_quiet (a : Args) (fb : List (List ℝ)) (sig : List ℝ) (l s : ℕ) (h : Setup a fb sig l s)
    (hd : a.dctType = 2) (hu : a.useEnergy = false) (hl : a.lifter = none) (hn : a.normalize = none) (hc : 1 ≤ a.numCeps) :
    ∃ m, bfcc a sig = .ok m ∧ ∀ i < (sig.length - l) / s + 1,
      (∀ n < fb.length, bandEnergy fb (windowWeight a.win.winType l) (emphasised a.preEmph 0.97 sig) l s a.nfft i n ≤ 1 / 10 ^ 4) →
      (∃ n < fb.length, 0 < bandEnergy fb (windowWeight a.win.winType l) (emphasised a.preEmph 0.97 sig) l s a.nfft i n) →
      ∃ c0, (m.getD i []).getD 0 nan = fin c0 ∧ c0 < silentLevel fb.length := by
  obtain ⟨m, hm, -, hv⟩ := C101_meaning a bfcc 0.97 (fun e => logFloor (intensity e)) (by simp [compressions]) fb sig l s h hd hu hl hn
  refine ⟨m, hm, fun i hi hle ⟨n0, hn0, hp⟩ => ⟨_, hv i 0 hi (lt_min (by omega) (by omega)), ?_⟩⟩
  have hNp : (0 : ℝ) < fb.length := by exact_mod_cast (show 0 < fb.length by omega)
  rw [dctII_zero, silentLevel_eq (by omega)]
  have hlow : ∀ e : ℝ, 0 < e → e ≤ 1 / 10 ^ 4 → logFloor (intensity e) < Real.log (1 / 2 ^ 52) := by
    intro e h0 h1
    obtain ⟨i1, i2⟩ := intensity_quiet h0 h1
    unfold logFloor
    rw [if_neg i1.ne']
    exact Real.log_lt_log i1 i2
  refine (div_lt_div_iff_of_pos_right (by positivity)).2 (Finset.sum_lt_sum (fun n hn => ?_) ⟨n0, Finset.mem_range.2 hn0, ?_⟩)
  · rcases eq_or_lt_of_le (bandEnergy_nonneg h.nonneg (windowWeight a.win.winType l) (emphasised a.preEmph 0.97 sig) l s a.nfft i n)
      with h0 | h0
    · rw [← h0]
      have : intensity 0 = 0 := by unfold intensity; norm_num
      simp [logFloor, this]
    · exact (hlow _ h0 (hle n (Finset.mem_range.1 hn))).le
  · exact hlow _ hp (hle n0 hn0)

/-- A signal of one sample: below the level of silence for every amplitude from 0 (exclusive) to 0.01. -/
example (x : ℝ) (h0 : 0 < x) (h1 : x ≤ 0.01) : ∃ m c0, bfcc levelDemo [x] = .ok m ∧ (m.getD 0 []).getD 0 nan = fin c0 ∧
    c0 < silentLevel 2 := by
  obtain ⟨m, hm, hv⟩ := C162_bfcc_quiet levelDemo _ _ 1 1 (levelDemo_setup x) rfl rfl rfl rfl (by simp [levelDemo])
  obtain ⟨c0, h2, h3⟩ := hv 0 (by simp) (by
    intro n hn
    have hn : n < 2 := hn
    rw [levelDemo_energy x _ n hn]
    have : x ^ 2 ≤ 0.01 ^ 2 := pow_le_pow_left₀ h0.le h1 2
    obtain rfl | rfl : n = 0 ∨ n = 1 := by omega
    · norm_num at this ⊢; linarith
    · norm_num at this ⊢; linarith) ⟨0, by simp, by rw [levelDemo_energy x _ 0 (by norm_num)]; positivity⟩
  exact ⟨m, c0, hm, h2, h3⟩

/-- The hypotheses of `C162_below_silence` hold for that signal and `mfcc`. -/
example (x : ℝ) (h0 : 0 < x) : ∃ g0 > 0, ∀ g, 0 < g → g < g0 → ∃ m c0, mfcc levelDemo ([x].map (g * ·)) = .ok m ∧
    (m.getD 0 []).getD 0 nan = fin c0 ∧ c0 < silentLevel 2 :=
  C162_below_silence levelDemo mfcc levelDemo.preEmphCoeff id (by simp [beforeLog]) _ _ 1 1 (levelDemo_setup x) rfl rfl rfl rfl
    (by simp [levelDemo]) (by simp) 0 (by simp) (by
      intro n hn
      rw [levelDemo_energy x _ n hn]
      positivity) _

end Props
end Spafe
