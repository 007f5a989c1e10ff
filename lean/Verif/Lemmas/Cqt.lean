import Verif.Model.Cqt
import Verif.Spec.Cqt
import Verif.Lemmas.Fourier
import Verif.Lemmas.FrontEnd
import Verif.Lemmas.Lpc2
import Verif.Lemmas.Psrcc

/-! Helper lemmas for the constant-Q transform. -/

set_option linter.unusedSectionVars false

namespace Spafe
open Model XF Spec

/-- The logarithm of the power with zeros replaced by `eps`, as a real number. -/
noncomputable def cqtLogPower (z : ℂ) : ℝ := Real.log (if ‖z‖ ^ 2 = 0 then eps else ‖z‖ ^ 2)

theorem cqtLog_eq (z : ℂ) : cqtLog z = fin (cqtLogPower z) := by
  unfold cqtLog cqtLogPower
  apply log_pos
  split_ifs with h
  · unfold eps; positivity
  · positivity

theorem resampleX_fin (n : ℕ) (x : List ℝ) : resampleX n (x.map fin) = (resample n x).map fin := by
  have h : (x.map (fin : ℝ → XF ℝ)).mapM finVal? = some x := by
    induction x with
    | nil => rfl
    | cons a x ih => rw [List.map_cons, List.mapM_cons, ih]; rfl
  unfold resampleX
  rw [h]

theorem cqccRows_eq (q : List (List ℂ)) (n : ℕ) :
    ((List.range n).map fun (t : ℕ) => ((q.map fun r => r.map cqtLog).map (resampleX n)).map fun c => c.getD t 0) =
      (List.range n).map fun (t : ℕ) => ((q.map fun r => r.map cqtLogPower).map (resample n)).map fun c => fin (c.getD t 0) := by
  apply List.map_congr_left
  intro t _
  simp only [List.map_map]
  apply List.map_congr_left
  intro r _
  simp only [Function.comp]
  have e : r.map cqtLog = (r.map cqtLogPower).map fin := by
    rw [List.map_map]
    exact List.map_congr_left fun z _ => cqtLog_eq z
  rw [e, resampleX_fin]
  generalize resample n (r.map cqtLogPower) = l
  simp only [List.getD_eq_getElem?_getD, List.getElem?_map]
  cases l[t]? <;> rfl

theorem ncols_logs (q : List (List ℂ)) : Np.ncols (q.map fun r => r.map cqtLog) = Np.ncols (q.map fun r => r.map cqtLogPower) := by
  cases q with
  | nil => rfl
  | cons r q => simp [Np.ncols]

/-- `cqcc` with real logarithms: they are never infinite. -/
theorem cqcc_eq (a : CqtArgs) (sig : List ℝ) : cqcc a sig = (do
    let q ← cqtSpectrogram a sig
    let logs := q.map fun r => r.map cqtLogPower
    let num := pyInt ((Np.ncols logs : ℝ) * a.ratio)
    if q = [] ∨ num ≤ 0 then .error .valueError
    else
      let res := logs.map (resample num.toNat)
      let rows := (List.range num.toNat).map fun (t : ℕ) => res.map fun c => fin (c.getD t 0)
      cepstralTail { a.toArgs with useEnergy := false } [] rows) := by
  unfold cqcc
  simp only [ncols_logs, cqccRows_eq]

theorem filter_suffix {β : Type} {r : β → β → Prop} (l : List β) (p : β → Bool) (hl : l.Pairwise r)
    (hp : ∀ a b, r a b → p a = true → p b = true) : l.drop (l.length - (l.filter p).length) = l.filter p := by
  induction l with
  | nil => rfl
  | cons a t ih =>
    rw [List.pairwise_cons] at hl
    by_cases ha : p a = true
    · have hall : ∀ b ∈ a :: t, p b = true := by
        intro b hb
        rcases List.mem_cons.mp hb with rfl | hb
        · exact ha
        · exact hp a b (hl.1 b hb) ha
      rw [List.filter_eq_self.mpr hall, Nat.sub_self, List.drop_zero]
    · have hk : (t.filter p).length ≤ t.length := List.length_filter_le _ _
      rw [List.filter_cons_of_neg ha, List.length_cons,
        show t.length + 1 - (t.filter p).length = (t.length - (t.filter p).length) + 1 by omega, List.drop_succ_cons]
      exact ih hl.2

theorem cqtTmpFreqs_eq (f0 : ℝ) (O B : ℕ) : cqtTmpFreqs f0 O B = grid f0 O B := by
  unfold cqtTmpFreqs grid
  induction O with
  | zero => simp
  | succ O ih =>
    rw [List.range_succ, List.flatMap_append, ih, Nat.succ_mul, List.range_add, List.map_append]
    simp [List.map_map, Function.comp_def]

theorem two_rpow_gt_one {B : ℕ} (hB : B ≠ 0) : (1 : ℝ) < 2 ^ (1 / (B : ℝ)) := by
  apply Real.one_lt_rpow (by norm_num)
  have : (0 : ℝ) < B := by exact_mod_cast Nat.pos_of_ne_zero hB
  positivity

theorem grid_sorted {f0 : ℝ} (hf : 0 < f0) (O B : ℕ) : (grid f0 O B).Pairwise (· < ·) := by
  unfold grid
  rw [List.pairwise_map]
  refine List.Pairwise.imp_of_mem ?_ (List.pairwise_lt_range (n := O * B))
  intro i j hi hj hij
  have hB : 0 < B := by
    rcases Nat.eq_zero_or_pos B with h | h
    · subst h; simp at hi
    · exact h
  have hB' : (0 : ℝ) < B := by exact_mod_cast hB
  apply mul_lt_mul_of_pos_left _ hf
  apply Real.rpow_lt_rpow_of_exponent_lt (by norm_num)
  apply div_lt_div_of_pos_right _ hB'
  exact_mod_cast hij

theorem grid_pos {f0 : ℝ} (hf : 0 < f0) (O B : ℕ) : ∀ f ∈ grid f0 O B, 0 < f := by
  intro f h
  obtain ⟨i, -, rfl⟩ := List.mem_map.mp h
  positivity

theorem qFactor_nonneg {q : ℝ} (hq : 0 ≤ q) {B : ℕ} (hB : B ≠ 0) : 0 ≤ qFactor q B :=
  div_nonneg hq (by linarith [two_rpow_gt_one hB])

theorem winLen_anti {fs q : ℝ} (hfs : 0 ≤ fs) (hq : 0 ≤ q) {B : ℕ} (hB : B ≠ 0) {f g : ℝ} (hf : 0 < f) (hfg : f ≤ g) :
    winLen fs q B g ≤ winLen fs q B f := by
  apply Int.ceil_le_ceil
  exact div_le_div_of_nonneg_left (mul_nonneg (qFactor_nonneg hq hB) hfs) hf hfg

theorem winLen_pos {fs q : ℝ} (hfs : 0 < fs) (hq : 0 < q) {B : ℕ} (hB : B ≠ 0) {f : ℝ} (hf : 0 < f) :
    0 < winLen fs q B f := by
  apply Int.ceil_pos.mpr
  have : 0 < qFactor q B := div_pos hq (by linarith [two_rpow_gt_one hB])
  positivity

/-- What `cqtSelect` returns. -/
theorem cqtSelect_eq {fs low : ℝ} {high : Option ℝ} {nfft O B : ℕ} {f0 q : ℝ} (hfs : 0 ≤ fs) (hq : 0 ≤ q) (hB : B ≠ 0)
    (hf0 : 0 < f0) :
    cqtSelect fs low high nfft O B f0 q =
      .ok (if admissible f0 O B low (effHigh high fs) fs q nfft = [] then inBand f0 O B low (effHigh high fs)
          else admissible f0 O B low (effHigh high fs) fs q nfft,
        (admissible f0 O B low (effHigh high fs) fs q nfft).map (winLen fs q B)) := by
  simp only [cqtSelect]
  rw [cqtTmpFreqs_eq, if_neg hB]
  have hin : ((grid f0 O B).filter fun f => decide (low ≤ f ∧ f ≤ effHigh high fs)) =
      inBand f0 O B low (effHigh high fs) := by
    unfold inBand; congr
  rw [hin]
  have hpos : ∀ f ∈ inBand f0 O B low (effHigh high fs), 0 < f := fun f hf =>
    grid_pos hf0 O B f (List.mem_of_mem_filter hf)
  rw [if_neg (by
    rintro ⟨f, hf, h0⟩
    exact absurd (hpos f hf) (not_lt.mpr h0))]
  have hw : ((inBand f0 O B low (effHigh high fs)).map (cqtWinLen (q / (2 ^ (1 / (B : ℝ)) - 1)) fs)).filter
      (fun (n : ℤ) => decide (n ≤ nfft)) =
      (admissible f0 O B low (effHigh high fs) fs q nfft).map (winLen fs q B) := by
    rw [List.filter_map]
    rfl
  rw [hw, List.length_map]
  have hsorted : (inBand f0 O B low (effHigh high fs)).Pairwise (fun a b => 0 < a ∧ a ≤ b) := by
    have h1 := (grid_sorted hf0 O B).sublist (List.filter_sublist (p := fun f => decide (low ≤ f ∧ f ≤ effHigh high fs)))
    refine List.Pairwise.imp_of_mem (fun {a b} ha _ hab => ?_) (by rwa [hin] at h1)
    exact ⟨hpos a ha, hab.le⟩
  have hsuf := filter_suffix _ (fun f => decide (winLen fs q B f ≤ nfft)) hsorted (by
    intro a b hab ha
    rw [decide_eq_true_eq] at ha ⊢
    exact (winLen_anti hfs hq hB hab.1 hab.2).trans ha)
  have hle : (admissible f0 O B low (effHigh high fs) fs q nfft).length ≤ (inBand f0 O B low (effHigh high fs)).length :=
    List.length_filter_le _ _
  congr 2
  split_ifs with h
  · rw [h]; simp [pySliceFrom, sliceBound]
  · have hlen : 0 < (admissible f0 O B low (effHigh high fs) fs q nfft).length := List.length_pos_iff.mpr h
    unfold pySliceFrom sliceBound
    rw [if_pos (by omega)]
    rw [show (((inBand f0 O B low (effHigh high fs)).length : ℤ) +
        -1 * ((admissible f0 O B low (effHigh high fs) fs q nfft).length : ℤ)).toNat =
      (inBand f0 O B low (effHigh high fs)).length - (admissible f0 O B low (effHigh high fs) fs q nfft).length by omega]
    convert hsuf using 4 <;> (unfold admissible; congr)

/-! ### Fourier facts -/

/-- Parseval for inner products. -/
theorem parseval_inner (x a : ℕ → ℂ) (n : ℕ) :
    ∑ k ∈ Finset.range n, Np.dftC x n k * (starRingEnd ℂ) (Np.dftC a n k) =
      n * ∑ j ∈ Finset.range n, x j * (starRingEnd ℂ) (a j) := by
  have h1 : ∀ k, Np.dftC x n k * (starRingEnd ℂ) (Np.dftC a n k) =
      ∑ j ∈ Finset.range n, ∑ l ∈ Finset.range n, (x j * (starRingEnd ℂ) (a l)) *
        (Complex.exp (-(2 * Real.pi * Complex.I * (j * k) / n)) *
          (starRingEnd ℂ) (Complex.exp (-(2 * Real.pi * Complex.I * (l * k) / n)))) := by
    intro k
    unfold Np.dftC
    rw [map_sum, Finset.sum_mul_sum]
    apply Finset.sum_congr rfl; intro j _
    apply Finset.sum_congr rfl; intro l _
    rw [map_mul]; ring
  simp_rw [h1]
  rw [Finset.sum_comm]
  rw [Finset.mul_sum]
  apply Finset.sum_congr rfl
  intro j hj
  rw [Finset.sum_comm]
  simp_rw [← Finset.mul_sum]
  have h2 : ∀ l ∈ Finset.range n, (x j * (starRingEnd ℂ) (a l)) * ∑ k ∈ Finset.range n,
      (Complex.exp (-(2 * Real.pi * Complex.I * (j * k) / n)) *
        (starRingEnd ℂ) (Complex.exp (-(2 * Real.pi * Complex.I * (l * k) / n)))) =
      if j = l then n * (x j * (starRingEnd ℂ) (a j)) else 0 := by
    intro l hl
    rw [sum_exp_eq j l (Finset.mem_range.mp hj) (Finset.mem_range.mp hl)]
    split_ifs with h
    · subst h; ring
    · ring
  rw [Finset.sum_congr rfl h2, Finset.sum_ite_eq, if_pos hj]

/-- Inversion of the DFT. -/
theorem dft_inverse (x : ℕ → ℂ) {n t : ℕ} (ht : t < n) :
    ∑ k ∈ Finset.range n, Np.dftC x n k * Complex.exp (2 * Real.pi * Complex.I * (k * t) / n) = n * x t := by
  have h := parseval_inner x (fun j => if j = t then 1 else 0) n
  have h1 : ∀ k, (starRingEnd ℂ) (Np.dftC (fun j => if j = t then 1 else 0) n k) =
      Complex.exp (2 * Real.pi * Complex.I * (k * t) / n) := by
    intro k
    unfold Np.dftC
    beta_reduce
    rw [Finset.sum_eq_single t]
    · rw [if_pos rfl, one_mul, ← Complex.exp_conj]
      congr 1
      simp only [map_neg, map_div₀, map_mul, Complex.conj_I, Complex.conj_ofReal, map_natCast, map_ofNat]
      ring
    · intro j _ hj; rw [if_neg hj, zero_mul]
    · intro h; exact absurd (Finset.mem_range.mpr ht) h
  simp_rw [h1] at h
  rw [h]
  congr 1
  rw [Finset.sum_eq_single t]
  · simp
  · intro j _ hj; simp [hj]
  · intro h; exact absurd (Finset.mem_range.mpr ht) h

theorem dft_norm_le (x : List ℝ) (n k : ℕ) : ‖Np.dft x n k‖ ≤ ∑ j ∈ Finset.range n, |x.getD j 0| := by
  unfold Np.dft Np.dftC
  refine (norm_sum_le _ _).trans (Finset.sum_le_sum fun j _ => ?_)
  rw [norm_mul, Complex.norm_real, Real.norm_eq_abs]
  have : ‖Complex.exp (-(2 * Real.pi * Complex.I * (j * k) / n))‖ = 1 := by
    have e : -(2 * Real.pi * Complex.I * (j * k) / n) = ((-(2 * Real.pi * (j * k) / n) : ℝ) : ℂ) * Complex.I := by
      push_cast; ring
    rw [e, Complex.norm_exp_ofReal_mul_I]
  rw [this, mul_one]

theorem dft_add (x y : List ℝ) (h : x.length = y.length) (n k : ℕ) :
    Np.dft (List.zipWith (· + ·) x y) n k = Np.dft x n k + Np.dft y n k := by
  unfold Np.dft Np.dftC
  rw [← Finset.sum_add_distrib]
  apply Finset.sum_congr rfl
  intro j _
  beta_reduce
  by_cases hj : j < x.length
  · rw [getD_zipWith_lt _ _ _ _ 0 0 hj (h ▸ hj)]; push_cast; ring
  · rw [List.getD_eq_default _ _ (by simp; omega), List.getD_eq_default _ _ (by omega),
      List.getD_eq_default _ _ (by omega)]; simp

/-! ### Resampling -/

/-- Splitting a symmetric sum over a period into its half. -/
theorem sum_symm (f : ℕ → ℝ) {n : ℕ} (hn : n ≠ 0) (hf : ∀ k, 0 < k → k < n → f (n - k) = f k) :
    ∑ k ∈ Finset.range n, f k = f 0 + ∑ k ∈ Finset.Ico 1 (n / 2 + 1), (if 2 * k = n then 1 else 2) * f k := by
  have h0 : ∑ k ∈ Finset.range n, f k = f 0 + ∑ k ∈ Finset.Ico 1 n, f k := by
    rw [Finset.range_eq_Ico, Finset.sum_eq_sum_Ico_succ_bot (a := 0) (b := n) (by omega)]
  rw [h0]
  congr 1
  obtain ⟨h, rfl | rfl⟩ : ∃ h, n = 2 * h ∨ n = 2 * h + 1 := ⟨n / 2, by omega⟩
  · have hh : 1 ≤ h := by omega
    rw [show 2 * h / 2 + 1 = h + 1 by omega, ← Finset.sum_Ico_consecutive f (show 1 ≤ h + 1 by omega) (show h + 1 ≤ 2 * h by omega),
      Finset.sum_Ico_succ_top hh, Finset.sum_Ico_succ_top hh, if_pos rfl, one_mul]
    have h1 : ∑ k ∈ Finset.Ico (h + 1) (2 * h), f k = ∑ k ∈ Finset.Ico 1 h, f k := by
      have := Finset.sum_Ico_reflect f (h + 1) (show 2 * h ≤ 2 * h + 1 by omega)
      rw [show 2 * h + 1 - 2 * h = 1 by omega, show 2 * h + 1 - (h + 1) = h by omega] at this
      rw [← this]
      apply Finset.sum_congr rfl
      intro k hk
      rw [Finset.mem_Ico] at hk
      rw [hf k (by omega) hk.2]
    have h2 : ∑ k ∈ Finset.Ico 1 h, (if 2 * k = 2 * h then (1 : ℝ) else 2) * f k = 2 * ∑ k ∈ Finset.Ico 1 h, f k := by
      rw [Finset.mul_sum]
      apply Finset.sum_congr rfl
      intro k hk
      rw [Finset.mem_Ico] at hk
      rw [if_neg (by omega)]
    rw [h1, h2]; ring
  · rw [show (2 * h + 1) / 2 + 1 = h + 1 by omega,
      ← Finset.sum_Ico_consecutive f (show 1 ≤ h + 1 by omega) (show h + 1 ≤ 2 * h + 1 by omega)]
    have h1 : ∑ k ∈ Finset.Ico (h + 1) (2 * h + 1), f k = ∑ k ∈ Finset.Ico 1 (h + 1), f k := by
      have := Finset.sum_Ico_reflect f (h + 1) (show 2 * h + 1 ≤ 2 * h + 1 + 1 by omega)
      rw [show 2 * h + 1 + 1 - (2 * h + 1) = 1 by omega, show 2 * h + 1 + 1 - (h + 1) = h + 1 by omega] at this
      rw [← this]
      apply Finset.sum_congr rfl
      intro k hk
      rw [Finset.mem_Ico] at hk
      rw [hf k (by omega) hk.2]
    have h2 : ∑ k ∈ Finset.Ico 1 (h + 1), (if 2 * k = 2 * h + 1 then (1 : ℝ) else 2) * f k =
        2 * ∑ k ∈ Finset.Ico 1 (h + 1), f k := by
      rw [Finset.mul_sum]
      apply Finset.sum_congr rfl
      intro k hk
      rw [if_neg (by omega)]
    rw [h1, h2]; ring

theorem exp_conj_nk {n k j : ℕ} (hk : k < n) :
    Complex.exp (-(2 * Real.pi * Complex.I * (j * ((n - k : ℕ) : ℂ)) / n)) =
      (starRingEnd ℂ) (Complex.exp (-(2 * Real.pi * Complex.I * (j * k) / n))) := by
  have hn : (n : ℂ) ≠ 0 := by
    have : n ≠ 0 := by omega
    exact_mod_cast this
  rw [← Complex.exp_conj]
  have e : -(2 * Real.pi * Complex.I * (j * ((n - k : ℕ) : ℂ)) / n) =
      (starRingEnd ℂ) (-(2 * Real.pi * Complex.I * (j * k) / n)) + ((-j : ℤ) : ℂ) * (2 * Real.pi * Complex.I) := by
    simp only [map_neg, map_div₀, map_mul, Complex.conj_I, Complex.conj_ofReal, map_natCast, map_ofNat]
    rw [Nat.cast_sub hk.le]
    push_cast
    field_simp
    ring
  rw [e, Complex.exp_add, Complex.exp_int_mul_two_pi_mul_I, mul_one]

theorem dft_symm' (x : List ℝ) {n k : ℕ} (hk : k < n) : Np.dft x n (n - k) = (starRingEnd ℂ) (Np.dft x n k) := by
  unfold Np.dft Np.dftC
  rw [map_sum]
  apply Finset.sum_congr rfl
  intro j _
  rw [exp_conj_nk hk, map_mul, Complex.conj_ofReal]

/-- Resampling to the same number of samples changes nothing. -/
theorem resample_self (x : List ℝ) : resample x.length x = x := by
  simp only [resample, min_self, lt_irrefl, and_false, if_false]
  apply List.ext_getElem (by simp)
  intro t h1 h2
  rw [List.getElem_map, List.getElem_range]
  have hn : x.length ≠ 0 := by omega
  have hnr : (x.length : ℝ) ≠ 0 := by exact_mod_cast hn
  have hsym := sum_symm (fun k => (Np.dft x x.length k * Complex.exp (2 * Real.pi * Complex.I * (k * t) / x.length)).re) hn
    (by
      intro k hk0 hk
      beta_reduce
      have e := exp_conj_nk (n := x.length) (k := k) (j := t) hk
      have e1 : Complex.exp (2 * Real.pi * Complex.I * (((x.length - k : ℕ) : ℂ) * t) / x.length) =
          (starRingEnd ℂ) (Complex.exp (2 * Real.pi * Complex.I * (k * t) / x.length)) := by
        have a1 : Complex.exp (2 * Real.pi * Complex.I * (((x.length - k : ℕ) : ℂ) * t) / x.length) =
            (Complex.exp (-(2 * Real.pi * Complex.I * (t * ((x.length - k : ℕ) : ℂ)) / x.length)))⁻¹ := by
          rw [← Complex.exp_neg]; congr 1; ring
        have a2 : Complex.exp (2 * Real.pi * Complex.I * (k * t) / x.length) =
            (Complex.exp (-(2 * Real.pi * Complex.I * (t * k) / x.length)))⁻¹ := by
          rw [← Complex.exp_neg]; congr 1; ring
        rw [a1, a2, e, map_inv₀]
      rw [dft_symm' x hk, e1, ← map_mul, Complex.conj_re])
  have hinv := congrArg Complex.re (dft_inverse (fun j => ((x.getD j 0 : ℝ) : ℂ)) h2)
  rw [Complex.re_sum] at hinv
  change ∑ k ∈ Finset.range x.length, (Np.dft x x.length k * _).re = _ at hinv
  rw [hinv] at hsym
  beta_reduce at hsym
  have hY : ∀ k ∈ Finset.Ico 1 (x.length / 2 + 1),
      (if 2 * k = x.length then (1 : ℝ) else 2) * ((if x.length / 2 < k then (0 : ℂ) else Np.dft x x.length k) *
        Complex.exp (2 * Real.pi * Complex.I * (k * t) / x.length)).re =
      (if 2 * k = x.length then 1 else 2) * (Np.dft x x.length k *
        Complex.exp (2 * Real.pi * Complex.I * (k * t) / x.length)).re := by
    intro k hk
    rw [Finset.mem_Ico] at hk
    rw [if_neg (show ¬ x.length / 2 < k by omega)]
  rw [Finset.sum_congr rfl hY, if_neg (by omega)]
  have h0 : (Np.dft x x.length 0).re = (Np.dft x x.length 0 *
      Complex.exp (2 * Real.pi * Complex.I * (((0 : ℕ) : ℂ) * t) / x.length)).re := by simp
  rw [h0, ← hsym, List.getD_eq_getElem x _ h2, ← Complex.ofReal_natCast, ← Complex.ofReal_mul, Complex.ofReal_re]
  field_simp

/-- Resampling keeps constants. -/
theorem dft_const_zero (c : ℝ) {n k : ℕ} (hk0 : 0 < k) (hk : k < n) : Np.dft (List.replicate n c) n k = 0 := by
  have h := sum_exp_eq (n := n) k 0 hk (by omega)
  rw [if_neg (by omega)] at h
  unfold Np.dft Np.dftC
  have : ∀ j ∈ Finset.range n, (((List.replicate n c).getD j 0 : ℝ) : ℂ) *
      Complex.exp (-(2 * Real.pi * Complex.I * (j * k) / n)) =
      c * (Complex.exp (-(2 * Real.pi * Complex.I * (k * j) / n)) *
      (starRingEnd ℂ) (Complex.exp (-(2 * Real.pi * Complex.I * ((0 : ℕ) * j) / n)))) := by
    intro j hj
    rw [getD_replicate', if_pos (Finset.mem_range.mp hj)]
    simp [mul_comm (j : ℂ) k]
  rw [Finset.sum_congr rfl this, ← Finset.mul_sum, h, mul_zero]

theorem dft_add_const (x : List ℝ) (c : ℝ) {k : ℕ} (hk : k < x.length) :
    Np.dft (x.map (· + c)) x.length k = Np.dft x x.length k + if k = 0 then (x.length * c : ℂ) else 0 := by
  have e : x.map (· + c) = List.zipWith (· + ·) x (List.replicate x.length c) := by
    apply List.ext_getElem (by simp)
    intro i h1 h2
    simp
  rw [e, dft_add _ _ (by simp)]
  congr 1
  split_ifs with h
  · subst h
    unfold Np.dft Np.dftC
    rw [Finset.sum_congr rfl (g := fun _ => (c : ℂ))]
    · simp
    · intro j hj
      beta_reduce
      rw [getD_replicate', if_pos (Finset.mem_range.mp hj)]
      simp
  · exact dft_const_zero c (by omega) hk

/-- Resampling commutes with adding a constant. -/
theorem resample_add_const (num : ℕ) (hnum : num ≠ 0) (x : List ℝ) (hx : x ≠ []) (c : ℝ) :
    resample num (x.map (· + c)) = (resample num x).map (· + c) := by
  have hl : 0 < x.length := List.length_pos_iff.mpr hx
  have hl' : (x.length : ℝ) ≠ 0 := by exact_mod_cast hl.ne'
  have hnum' : (num : ℝ) ≠ 0 := by exact_mod_cast hnum
  simp only [resample, List.length_map, List.map_map]
  apply List.map_congr_left
  intro t _
  simp only [Function.comp_apply]
  have h0 : ∀ y : List ℝ, (if min num x.length / 2 < 0 then (0 : ℂ)
      else if min num x.length % 2 = 0 ∧ 0 = min num x.length / 2 ∧ num < x.length then Np.dft y x.length 0 * 2
      else if min num x.length % 2 = 0 ∧ 0 = min num x.length / 2 ∧ x.length < num then Np.dft y x.length 0 * (1 / 2)
      else Np.dft y x.length 0) = Np.dft y x.length 0 := by
    intro y
    rw [if_neg (by omega), if_neg (by omega), if_neg (by omega)]
  rw [h0, h0]
  have hs : ∀ k ∈ Finset.Ico 1 (num / 2 + 1), ∀ hk : ¬ min num x.length / 2 < k,
      Np.dft (x.map (· + c)) x.length k = Np.dft x x.length k := by
    intro k hk hk2
    rw [Finset.mem_Ico] at hk
    rw [dft_add_const x c (by omega), if_neg (by omega), add_zero]
  have hsum : ∀ k ∈ Finset.Ico 1 (num / 2 + 1),
      (if 2 * k = num then (1 : ℝ) else 2) * ((if min num x.length / 2 < k then (0 : ℂ)
      else if min num x.length % 2 = 0 ∧ k = min num x.length / 2 ∧ num < x.length then Np.dft (x.map (· + c)) x.length k * 2
      else if min num x.length % 2 = 0 ∧ k = min num x.length / 2 ∧ x.length < num then
        Np.dft (x.map (· + c)) x.length k * (1 / 2)
      else Np.dft (x.map (· + c)) x.length k) * Complex.exp (2 * Real.pi * Complex.I * (k * t) / num)).re =
      (if 2 * k = num then (1 : ℝ) else 2) * ((if min num x.length / 2 < k then (0 : ℂ)
      else if min num x.length % 2 = 0 ∧ k = min num x.length / 2 ∧ num < x.length then Np.dft x x.length k * 2
      else if min num x.length % 2 = 0 ∧ k = min num x.length / 2 ∧ x.length < num then
        Np.dft x x.length k * (1 / 2)
      else Np.dft x x.length k) * Complex.exp (2 * Real.pi * Complex.I * (k * t) / num)).re := by
    intro k hk
    by_cases hlt : min num x.length / 2 < k
    · rw [if_pos hlt, if_pos hlt]
    · rw [if_neg hlt, if_neg hlt, hs k hk hlt]
  rw [Finset.sum_congr rfl hsum, dft_add_const x c hl, if_pos rfl, Complex.add_re,
    show ((x.length : ℂ) * c).re = x.length * c by
      rw [← Complex.ofReal_natCast, ← Complex.ofReal_mul, Complex.ofReal_re]]
  generalize (∑ k ∈ Finset.Ico 1 (num / 2 + 1), _ : ℝ) = S
  field_simp
  ring

theorem resample_length (num : ℕ) (x : List ℝ) : (resample num x).length = num := by simp [resample]


/-! ### Entries of the transform -/

theorem cqtAtom_sum (nfft : ℕ) (fs f : ℝ) (N : ℕ) (hN : N ≤ nfft) (w : List ℝ) (x : ℕ → ℝ) :
    ∑ j ∈ Finset.range nfft, (x j : ℂ) * (starRingEnd ℂ) (cqtAtom nfft fs f N w j) =
      cqCoeff nfft fs f N (fun m => w.getD m 0) x := by
  have hst : ((nfft : ℤ) - (N : ℤ)).tdiv 2 = (((nfft - N) / 2 : ℕ) : ℤ) := by
    rw [Int.tdiv_eq_ediv_of_nonneg (by omega)]; omega
  have hsub : Finset.Ico ((nfft - N) / 2) ((nfft - N) / 2 + N) ⊆ Finset.range nfft := by
    intro j hj
    rw [Finset.mem_Ico] at hj
    rw [Finset.mem_range]; omega
  rw [← Finset.sum_subset hsub]
  · rw [Finset.sum_Ico_eq_sum_range, Nat.add_sub_cancel_left]
    unfold cqCoeff
    rw [Finset.mul_sum]
    apply Finset.sum_congr rfl
    intro m hm
    rw [Finset.mem_range] at hm
    simp only [cqtAtom, hst]
    rw [if_pos (by omega), Int.toNat_natCast, Nat.add_sub_cancel_left]
    simp only [map_mul, map_div₀, map_one, Complex.conj_ofReal, ← Complex.exp_conj, map_natCast, map_ofNat, Complex.conj_I,
      Int.cast_natCast]
    rw [show 2 * (Real.pi : ℂ) * -Complex.I * (f / fs) * m = -(2 * Real.pi * Complex.I * (f / fs) * m) by ring]
    ring
  · intro j _ hj
    rw [Finset.mem_Ico] at hj
    simp only [cqtAtom, hst]
    rw [if_neg (by omega), map_zero, mul_zero]

/-- The kernel row without the error monad. -/
noncomputable def kernelRow (nfft : ℕ) (thr : ℝ) (a : ℕ → ℂ) : List ℂ :=
  open Classical in
  (List.range nfft).map fun (k : ℕ) => if ‖Np.dftC a nfft k‖ ≤ thr then 0 else Np.dftC a nfft k

theorem cqtKernelRow_ok {nfft : ℕ} (hn : nfft ≠ 0) {fs f : ℝ} {N : ℤ} {t : String} {w : List ℝ} {thr : ℝ}
    (hw : windowVec t N.toNat = .ok w) :
    cqtKernelRow nfft fs f N t thr = .ok (kernelRow nfft thr (cqtAtom nfft fs f N w)) := by
  unfold cqtKernelRow
  rw [hw, ok_bind, if_neg hn]
  rfl

theorem kernelRow_getD (nfft : ℕ) (thr : ℝ) (a : ℕ → ℂ) {k : ℕ} (hk : k < nfft) : (kernelRow nfft thr a).getD k 0 =
    (open Classical in if ‖Np.dftC a nfft k‖ ≤ thr then 0 else Np.dftC a nfft k) := by
  unfold kernelRow
  rw [getD_map_range_lt _ _ hk]

/-- Without thresholding the entry is the inner product. -/
theorem cqtEntry_exact {nfft : ℕ} (hn : nfft ≠ 0) {thr : ℝ} (ht : thr < 0) (a : ℕ → ℂ) (x : List ℝ) :
    cqtEntry nfft (kernelRow nfft thr a) x = ∑ j ∈ Finset.range nfft, ((x.getD j 0 : ℝ) : ℂ) * (starRingEnd ℂ) (a j) := by
  have hn' : (nfft : ℂ) ≠ 0 := by exact_mod_cast hn
  have h := parseval_inner (fun j => ((x.getD j 0 : ℝ) : ℂ)) a nfft
  have h1 : cqtEntry nfft (kernelRow nfft thr a) x = (∑ k ∈ Finset.range nfft,
      Np.dftC (fun j => ((x.getD j 0 : ℝ) : ℂ)) nfft k * (starRingEnd ℂ) (Np.dftC a nfft k)) / nfft := by
    unfold cqtEntry
    rw [Finset.sum_div]
    apply Finset.sum_congr rfl
    intro k hk
    rw [kernelRow_getD _ _ _ (Finset.mem_range.mp hk), if_neg (by linarith [norm_nonneg (Np.dftC a nfft k)])]
    unfold Np.dft
    ring
  rw [h1, h, mul_div_cancel_left₀ _ hn']

/-- Thresholding the kernel at `thr` moves an entry by at most `thr` times the sum of the magnitudes. -/
theorem cqtEntry_near {nfft : ℕ} (hn : nfft ≠ 0) {thr : ℝ} (ht : 0 ≤ thr) (a : ℕ → ℂ) (x : List ℝ) :
    ‖cqtEntry nfft (kernelRow nfft thr a) x - ∑ j ∈ Finset.range nfft, ((x.getD j 0 : ℝ) : ℂ) * (starRingEnd ℂ) (a j)‖ ≤
      thr * ∑ j ∈ Finset.range nfft, |x.getD j 0| := by
  have hn' : (0 : ℝ) < nfft := by exact_mod_cast Nat.pos_of_ne_zero hn
  rw [← cqtEntry_exact hn (show (-1 : ℝ) < 0 by norm_num)]
  unfold cqtEntry
  rw [← Finset.sum_sub_distrib]
  have hterm : ∀ k ∈ Finset.range nfft, ‖Np.dft x nfft k * ((starRingEnd ℂ) ((kernelRow nfft thr a).getD k 0) / nfft) -
      Np.dft x nfft k * ((starRingEnd ℂ) ((kernelRow nfft (-1) a).getD k 0) / nfft)‖ ≤
      (∑ j ∈ Finset.range nfft, |x.getD j 0|) * (thr / nfft) := by
    intro k hk
    have hk := Finset.mem_range.mp hk
    rw [← mul_sub, ← sub_div, ← map_sub, norm_mul, norm_div, Complex.norm_conj, Complex.norm_natCast]
    apply mul_le_mul (dft_norm_le x nfft k) _ (by positivity) (Finset.sum_nonneg fun _ _ => abs_nonneg _)
    apply div_le_div_of_nonneg_right _ hn'.le
    rw [kernelRow_getD _ _ _ hk, kernelRow_getD _ _ _ hk, if_neg (show ¬ ‖Np.dftC a nfft k‖ ≤ -1 by
      linarith [norm_nonneg (Np.dftC a nfft k)])]
    split_ifs with h
    · rwa [zero_sub, norm_neg]
    · rw [sub_self, norm_zero]; exact ht
  refine (norm_sum_le _ _).trans ((Finset.sum_le_sum hterm).trans ?_)
  rw [Finset.sum_const, Finset.card_range, nsmul_eq_mul]
  apply le_of_eq
  field_simp

theorem cqtEntry_smul (nfft : ℕ) (ker : List ℂ) (c : ℝ) (x : List ℝ) :
    cqtEntry nfft ker (x.map (c * ·)) = c * cqtEntry nfft ker x := by
  unfold cqtEntry
  rw [Finset.mul_sum]
  apply Finset.sum_congr rfl
  intro j _
  rw [dft_smul]; ring

theorem cqtEntry_add (nfft : ℕ) (ker : List ℂ) (x y : List ℝ) (h : x.length = y.length) :
    cqtEntry nfft ker (List.zipWith (· + ·) x y) = cqtEntry nfft ker x + cqtEntry nfft ker y := by
  unfold cqtEntry
  rw [← Finset.sum_add_distrib]
  apply Finset.sum_congr rfl
  intro j _
  rw [dft_add x y h]; ring

/-! ### The whole transform -/

theorem mapM_congr' {β γ ε : Type} (f g : β → Except ε γ) (l : List β) (h : ∀ a ∈ l, f a = g a) : l.mapM f = l.mapM g := by
  induction l with
  | nil => rfl
  | cons a l ih =>
    rw [List.mapM_cons, List.mapM_cons, h a (by simp), ih fun b hb => h b (by simp [hb])]

/-- The transform when some frequency is admissible. -/
theorem computeCqt_eq (frames : List (List ℝ)) {fs low : ℝ} {high : Option ℝ} {nfft O B : ℕ} {t : String} {thr f0 q : ℝ}
    (hfs : 0 < fs) (hq : 0 < q) (hB : B ≠ 0) (hf0 : 0 < f0)
    (hne : admissible f0 O B low (effHigh high fs) fs q nfft ≠ []) :
    computeCqt frames fs low high nfft O B t thr f0 q =
      ((admissible f0 O B low (effHigh high fs) fs q nfft).mapM fun f => cqtKernelRow nfft fs f (winLen fs q B f) t thr) >>=
        fun ker => .ok (ker.map fun row => frames.map (cqtEntry nfft row)) := by
  unfold computeCqt
  rw [cqtSelect_eq hfs.le hq.le hB hf0, ok_bind, if_neg hne]
  simp only
  have hn : nfft ≠ 0 := by
    rintro rfl
    obtain ⟨f, hf⟩ := List.exists_mem_of_ne_nil _ hne
    have h1 := (List.mem_filter.mp hf)
    have h2 := winLen_pos hfs hq hB (grid_pos hf0 O B f (List.mem_of_mem_filter h1.1))
    have h3 := of_decide_eq_true h1.2
    push_cast at h3
    omega
  simp only [if_neg hn]
  have hm : ∀ (A : List ℝ), (List.range A.length).mapM (fun (k : ℕ) => do
        let Nk ← pyIdx (A.map (winLen fs q B)) k
        let fk ← pyIdx A k
        cqtKernelRow nfft fs fk Nk t thr) = A.mapM fun f => cqtKernelRow nfft fs f (winLen fs q B f) t thr := by
    intro A
    have hA : A = (List.range A.length).map fun k => A.getD k 0 := by
      apply List.ext_getElem (by simp)
      intro k h1 h2
      rw [List.getElem_map, List.getElem_range, List.getD_eq_getElem A _ h1]
    conv_rhs => rw [hA, List.mapM_map]
    apply mapM_congr'
    intro k hk
    rw [List.mem_range] at hk
    rw [pyIdx_nat _ 0 (by simpa using hk), ok_bind, pyIdx_nat _ 0 hk, ok_bind, getD_map_lt _ A 0 0 hk]
    rfl
  rw [hm]

theorem computeCqt_ok (frames : List (List ℝ)) {fs low : ℝ} {high : Option ℝ} {nfft O B : ℕ} {t : String} {thr f0 q : ℝ}
    (hfs : 0 < fs) (hq : 0 < q) (hB : B ≠ 0) (hf0 : 0 < f0)
    (hne : admissible f0 O B low (effHigh high fs) fs q nfft ≠ []) (w : ℕ → List ℝ) (hw : ∀ n, windowVec t n = .ok (w n)) :
    computeCqt frames fs low high nfft O B t thr f0 q =
      .ok ((admissible f0 O B low (effHigh high fs) fs q nfft).map fun f =>
        frames.map (cqtEntry nfft (kernelRow nfft thr (cqtAtom nfft fs f (winLen fs q B f) (w (winLen fs q B f).toNat))))) := by
  have hn : nfft ≠ 0 := by
    rintro rfl
    obtain ⟨f, hf⟩ := List.exists_mem_of_ne_nil _ hne
    have h1 := (List.mem_filter.mp hf)
    have h2 := winLen_pos hfs hq hB (grid_pos hf0 O B f (List.mem_of_mem_filter h1.1))
    have h3 := of_decide_eq_true h1.2
    push_cast at h3
    omega
  rw [computeCqt_eq frames hfs hq hB hf0 hne,
    mapM_ok _ (fun f => kernelRow nfft thr (cqtAtom nfft fs f (winLen fs q B f) (w (winLen fs q B f).toNat))) _
      (fun f _ => cqtKernelRow_ok hn (hw _)), ok_bind, List.map_map]
  rfl

end Spafe
