import Verif.Props.Cqt

/-! C134: what the uniform resampling of `cqcc` does to the coefficients. -/

set_option linter.unusedSectionVars false

namespace Spafe
namespace Props
open Model XF Spec

theorem exp_sum_zero {n k : ℕ} (hk0 : 0 < k) (hk : k < n) :
    ∑ t ∈ Finset.range n, Complex.exp (2 * Real.pi * Complex.I * (k * t) / n) = 0 := by
  have h := sum_exp_eq (n := n) 0 k (by omega) hk
  rw [if_neg (by omega)] at h
  rw [← h]
  refine Finset.sum_congr rfl fun t _ => ?_
  rw [← Complex.exp_conj, Nat.cast_zero, zero_mul, mul_zero, zero_div, neg_zero, Complex.exp_zero, one_mul]
  congr 1
  simp only [map_neg, map_div₀, map_mul, Complex.conj_I, Complex.conj_ofReal, map_natCast, map_ofNat]
  ring

theorem dft_zero_re (x : List ℝ) : (Np.dft x x.length 0).re = ∑ t ∈ Finset.range x.length, x.getD t 0 := by
  unfold Np.dft Np.dftC
  rw [Complex.re_sum]
  refine Finset.sum_congr rfl fun t _ => ?_
  simp

/-- Resampling keeps the mean. -/
theorem resample_mean (num : ℕ) (hnum : num ≠ 0) (x : List ℝ) (hx : x ≠ []) :
    (∑ t ∈ Finset.range num, (resample num x).getD t 0) / num = (∑ t ∈ Finset.range x.length, x.getD t 0) / x.length := by
  have hl : 0 < x.length := List.length_pos_iff.mpr hx
  have hl' : (x.length : ℝ) ≠ 0 := by exact_mod_cast hl.ne'
  have hnum' : (num : ℝ) ≠ 0 := by exact_mod_cast hnum
  simp only [resample]
  obtain ⟨Y, hY⟩ : ∃ Y : ℕ → ℂ, Y = fun (k : ℕ) =>
    if min num x.length / 2 < k then (0 : ℂ)
    else if min num x.length % 2 = 0 ∧ k = min num x.length / 2 ∧ num < x.length then Np.dft x x.length k * 2
    else if min num x.length % 2 = 0 ∧ k = min num x.length / 2 ∧ x.length < num then Np.dft x x.length k * (1 / 2)
    else Np.dft x x.length k := ⟨_, rfl⟩
  have hY0 : Y 0 = Np.dft x x.length 0 := by
    rw [hY]
    beta_reduce
    rw [if_neg (by omega), if_neg (by omega), if_neg (by omega)]
  have hYk : ∀ k, (if min num x.length / 2 < k then (0 : ℂ)
    else if min num x.length % 2 = 0 ∧ k = min num x.length / 2 ∧ num < x.length then Np.dft x x.length k * 2
    else if min num x.length % 2 = 0 ∧ k = min num x.length / 2 ∧ x.length < num then Np.dft x x.length k * (1 / 2)
    else Np.dft x x.length k) = Y k := fun k => by rw [hY]
  simp only [hYk]
  have hterm : ∀ t ∈ Finset.range num, ((List.range num).map fun (t : ℕ) =>
      (1 / (num : ℝ)) * ((Y 0).re + ∑ k ∈ Finset.Ico 1 (num / 2 + 1), (if 2 * k = num then 1 else 2) *
      (Y k * Complex.exp (2 * Real.pi * Complex.I * (k * t) / num)).re) * ((num : ℝ) / x.length)).getD t 0 =
      (Y 0).re / x.length + ∑ k ∈ Finset.Ico 1 (num / 2 + 1), (if 2 * k = num then 1 else 2) *
      (Y k * Complex.exp (2 * Real.pi * Complex.I * (k * t) / num)).re / x.length := by
    intro t ht
    rw [getD_map_range_lt _ _ (Finset.mem_range.mp ht), ← Finset.sum_div]
    generalize (∑ k ∈ Finset.Ico 1 (num / 2 + 1), _ : ℝ) = S
    field_simp
  rw [Finset.sum_congr rfl hterm, Finset.sum_add_distrib, Finset.sum_comm]
  have hz : ∀ k ∈ Finset.Ico 1 (num / 2 + 1), ∑ t ∈ Finset.range num, (if 2 * k = num then (1 : ℝ) else 2) *
      (Y k * Complex.exp (2 * Real.pi * Complex.I * (k * t) / num)).re / x.length = 0 := by
    intro k hk
    rw [Finset.mem_Ico] at hk
    rw [← Finset.sum_div, ← Finset.mul_sum, ← Complex.re_sum, ← Finset.mul_sum, exp_sum_zero (by omega) (by omega), mul_zero,
      Complex.zero_re, mul_zero, zero_div]
  rw [Finset.sum_eq_zero hz, add_zero, Finset.sum_const, Finset.card_range, nsmul_eq_mul, hY0, dft_zero_re]
  field_simp

/-- The value of a resampled column at the original points, when the number of points is multiplied by `c`. -/
theorem resample_interp (c : ℕ) (hc : c ≠ 0) (x : List ℝ) {t : ℕ} (ht : t < x.length) :
    (resample (c * x.length) x).getD (c * t) 0 = x.getD t 0 := by
  obtain rfl | h2 : c = 1 ∨ 2 ≤ c := by omega
  · rw [one_mul, one_mul, resample_self]
  obtain ⟨n, hn⟩ : ∃ n, n = x.length := ⟨_, rfl⟩
  have hself := congrArg (fun l => l.getD t 0) (resample_self x)
  simp only [resample, min_self, lt_irrefl, and_false, if_false] at hself
  rw [getD_map_range_lt _ _ ht] at hself
  rw [← hself]
  rw [← hn] at ht ⊢
  have hlt : n < c * n := by nlinarith
  have hn' : (n : ℝ) ≠ 0 := by
    have : n ≠ 0 := by omega
    exact_mod_cast this
  have hc' : (c : ℝ) ≠ 0 := by exact_mod_cast hc
  have hcC : (c : ℂ) ≠ 0 := by exact_mod_cast hc
  simp only [resample, ← hn]
  rw [getD_map_range_lt _ _ (by nlinarith), show min (c * n) n = n by omega, if_neg (by omega), if_neg (by omega), if_neg (by omega),
    if_neg (by omega)]
  have hsub : Finset.Ico 1 (n / 2 + 1) ⊆ Finset.Ico 1 (c * n / 2 + 1) := by
    refine Finset.Ico_subset_Ico le_rfl ?_
    have : n / 2 ≤ c * n / 2 := Nat.div_le_div_right (by omega)
    omega
  rw [← Finset.sum_subset hsub (fun k _ hk => by
    rw [Finset.mem_Ico] at *
    rw [if_pos (c := n / 2 < k) (by omega), zero_mul, Complex.zero_re, mul_zero])]
  have hterm : ∀ k ∈ Finset.Ico 1 (n / 2 + 1),
      (if 2 * k = c * n then (1 : ℝ) else 2) * ((if n / 2 < k then (0 : ℂ)
        else if n % 2 = 0 ∧ k = n / 2 ∧ c * n < n then Np.dft x n k * 2
        else if n % 2 = 0 ∧ k = n / 2 ∧ n < c * n then Np.dft x n k * (1 / 2) else Np.dft x n k) *
        Complex.exp (2 * Real.pi * Complex.I * (k * ((c * t : ℕ) : ℂ)) / ((c * n : ℕ) : ℂ))).re =
      (if 2 * k = n then (1 : ℝ) else 2) * ((if n / 2 < k then (0 : ℂ) else Np.dft x n k) *
        Complex.exp (2 * Real.pi * Complex.I * (k * t) / n)).re := by
    intro k hk
    rw [Finset.mem_Ico] at hk
    have he : (2 * Real.pi * Complex.I * (k * ((c * t : ℕ) : ℂ)) / ((c * n : ℕ) : ℂ)) = 2 * Real.pi * Complex.I * (k * t) / n := by
      push_cast
      rw [show 2 * (Real.pi : ℂ) * Complex.I * (k * (c * t)) = c * (2 * Real.pi * Complex.I * (k * t)) by ring,
        mul_div_mul_left _ _ hcC]
    rw [he, if_neg (by omega), if_neg (c := n / 2 < k) (by omega), if_neg (by omega), if_neg (c := n / 2 < k) (by omega)]
    by_cases h : 2 * k = n
    · rw [if_pos (by omega), if_pos h, mul_right_comm, show ((1 : ℂ) / 2) = ((1 / 2 : ℝ) : ℂ) by norm_num, Complex.re_mul_ofReal]
      ring
    · rw [if_neg (by omega), if_neg h]
  rw [Finset.sum_congr rfl hterm]
  generalize (∑ k ∈ Finset.Ico 1 (n / 2 + 1), _ : ℝ) = S
  push_cast
  field_simp

theorem pyInt_natCast (n : ℕ) : pyInt (n : ℝ) = n := by
  rw [pyInt, if_pos (Nat.cast_nonneg n), Int.floor_natCast]

/-- The coefficients of `cqcc` are the DCT of the resampled log-power columns. -/
theorem cqcc_entry (a : CqtArgs) (hd : a.dctType = 2) (hl : a.lifter = none) (hn : a.normalize = none) (sig : List ℝ) (m : XMat)
    (h : cqcc a sig = .ok m) : ∃ q : List (List ℂ), cqtSpectrogram a sig = .ok q ∧ q ≠ [] ∧
      (∀ r ∈ q, r.length = Np.ncols q) ∧ 0 < Np.ncols q ∧ 0 < m.length ∧ (m.length : ℤ) = cqccNum a.ratio (Np.ncols q) ∧
      HasShape m m.length (min a.numCeps q.length) ∧
      ∀ i k, i < m.length → k < min a.numCeps q.length → (m.getD i []).getD k nan =
        fin (dct2 q.length (fun j => (resample m.length ((q.getD j []).map cqtLogPower)).getD i 0) k) := by
  obtain ⟨q, hcq, hne, hnum, ht, hns⟩ := (cqcc_ok_iff a sig m).mp h
  obtain ⟨-, W, hW, -, hrows⟩ := cqtSpectrogram_ok hcq
  have hcols : Np.ncols q = W.length := by
    cases q with
    | nil => exact absurd rfl hne
    | cons r q => simpa [Np.ncols] using hrows r (by simp)
  have hns2 : ∀ (N : ℕ) (x : XMat), normStep { a.toArgs with useEnergy := false } N x = .ok x := by
    intro N x
    unfold normStep
    simp only [hn]
  rw [hns2] at hns
  injection hns with hns
  obtain ⟨n, hnn⟩ : ∃ n, n = (cqccNum a.ratio (Np.ncols q)).toNat := ⟨_, rfl⟩
  rw [← hnn] at hns
  have hlen : m.length = n := by rw [← hns]; simp
  have hentry : ∀ i, tailRow { a.toArgs with useEnergy := false } q.length [] (cqccRow n q i) =
      (((List.range q.length).map fun (k : ℕ) =>
        dct2 q.length (fun j => (resample n ((q.getD j []).map cqtLogPower)).getD i 0) k).map fin).take a.numCeps := by
    intro i
    have hrow : cqccRow n q i = (q.map fun r => (resample n (r.map cqtLogPower)).getD i 0).map fin := by
      unfold cqccRow; rw [List.map_map]; rfl
    unfold tailRow
    simp only [hl, hd, Bool.false_eq_true, if_false]
    rw [hrow, dctRow_fin, List.length_map]
    congr 2
    apply List.map_congr_left
    intro k hk
    unfold dct2
    refine Finset.sum_congr rfl fun j hj => ?_
    rw [getD_map_lt _ q [] _ (Finset.mem_range.mp hj)]
  refine ⟨q, hcq, hne, fun r hr => by rw [hrows r hr, hcols], ?_, by omega, by omega, ?_, ?_⟩
  · rw [hcols]; exact List.length_pos_iff.mpr (frontEnd_ne_nil hW)
  · refine ⟨rfl, fun r hr => ?_⟩
    rw [← hns] at hr
    obtain ⟨i, -, rfl⟩ := List.mem_map.mp hr
    rw [hentry]
    simp
  · intro i k hi hk
    rw [hlen] at hi ⊢
    rw [← hns, getD_map_range_lt _ _ hi, hentry, getD_take_lt _ _ (by omega), getD_map_lt _ _ 0 _ (by simp; omega),
      getD_map_range_lt _ _ (by omega)]

theorem dct2_mean (N n : ℕ) (x : ℕ → ℕ → ℝ) (k : ℕ) :
    (∑ i ∈ Finset.range n, dct2 N (fun j => x j i) k) / n = dct2 N (fun j => (∑ i ∈ Finset.range n, x j i) / n) k := by
  unfold dct2
  rw [Finset.sum_comm, Finset.sum_div]
  refine Finset.sum_congr rfl fun j _ => ?_
  rw [← Finset.mul_sum, mul_div_assoc]

/-- The time average of coefficient `k`. -/
noncomputable def timeMean (m : XMat) (k : ℕ) : ℝ :=
  (∑ i ∈ Finset.range m.length, ((m.getD i []).getD k nan).toNum) / m.length

/-- C134: the time averages of the coefficients do not depend on the resampling ratio: they are the DCT of the time averages
of the log powers. -/
theorem C134_mean (a : CqtArgs) (hd : a.dctType = 2) (hl : a.lifter = none) (hn : a.normalize = none) (sig : List ℝ) (r : ℝ)
    (m m' : XMat) (h : cqcc a sig = .ok m) (h' : cqcc { a with ratio := r } sig = .ok m') :
    ∃ c, HasShape m m.length c ∧ HasShape m' m'.length c ∧ ∀ k < c, timeMean m' k = timeMean m k := by
  obtain ⟨q, hq, hne, hrect, hpos, hm, hnum, hs, hv⟩ := cqcc_entry a hd hl hn sig m h
  obtain ⟨q', hq', -, -, -, hm', hnum', hs', hv'⟩ := cqcc_entry { a with ratio := r } hd hl hn sig m' h'
  obtain rfl : q' = q := by
    have : cqtSpectrogram { a with ratio := r } sig = cqtSpectrogram a sig := rfl
    rw [this, hq] at hq'
    injection hq' with hq'
    exact hq'.symm
  refine ⟨min a.numCeps q'.length, hs, hs', fun k hk => ?_⟩
  have key : ∀ (x : XMat), 0 < x.length → (∀ i k, i < x.length → k < min a.numCeps q'.length → (x.getD i []).getD k nan =
        fin (dct2 q'.length (fun j => (resample x.length ((q'.getD j []).map cqtLogPower)).getD i 0) k)) →
      timeMean x k = dct2 q'.length (fun j => (∑ t ∈ Finset.range ((q'.getD j []).map cqtLogPower).length,
        ((q'.getD j []).map cqtLogPower).getD t 0) / ((q'.getD j []).map cqtLogPower).length) k := by
    intro x hx hxv
    unfold timeMean
    rw [Finset.sum_congr rfl fun i hi => by rw [hxv i k (Finset.mem_range.mp hi) hk]]
    refine (dct2_mean q'.length x.length (fun j i => (resample x.length ((q'.getD j []).map cqtLogPower)).getD i 0) k).trans ?_
    unfold dct2
    refine Finset.sum_congr rfl fun j hj => ?_
    beta_reduce
    rw [resample_mean x.length (by omega)]
    intro h0
    have := hrect _ (getD_mem [] (Finset.mem_range.mp hj))
    rw [List.map_eq_nil_iff] at h0
    rw [h0, List.length_nil] at this
    omega
  rw [key m hm hv, key m' hm' hv']

/-- C134: with an integer ratio `c` the coefficients are interpolated in time: every `c`-th row is a row computed without
resampling. -/
theorem C134_interpolates (a : CqtArgs) (hd : a.dctType = 2) (hl : a.lifter = none) (hn : a.normalize = none) (sig : List ℝ)
    (c : ℕ) (hc : c ≠ 0) (m m' : XMat) (h : cqcc { a with ratio := 1 } sig = .ok m)
    (h' : cqcc { a with ratio := c } sig = .ok m') : m'.length = c * m.length ∧ ∀ i < m.length, m'.getD (c * i) [] = m.getD i [] := by
  obtain ⟨q, hq, hne, hrect, hpos, hm, hnum, hs, hv⟩ := cqcc_entry { a with ratio := 1 } hd hl hn sig m h
  obtain ⟨q', hq', -, -, -, hm', hnum', hs', hv'⟩ := cqcc_entry { a with ratio := c } hd hl hn sig m' h'
  obtain rfl : q' = q := by
    have : cqtSpectrogram { a with ratio := (c : ℝ) } sig = cqtSpectrogram { a with ratio := (1 : ℝ) } sig := rfl
    rw [this, hq] at hq'
    injection hq' with hq'
    exact hq'.symm
  have e1 : m.length = Np.ncols q' := by
    unfold cqccNum at hnum
    simp only [mul_one] at hnum
    rw [pyInt_natCast] at hnum
    exact_mod_cast hnum
  have e2 : m'.length = c * m.length := by
    unfold cqccNum at hnum'
    simp only at hnum'
    rw [show ((Np.ncols q' : ℕ) : ℝ) * (c : ℝ) = ((Np.ncols q' * c : ℕ) : ℝ) by push_cast; ring, pyInt_natCast] at hnum'
    rw [e1, mul_comm]
    exact_mod_cast hnum'
  refine ⟨e2, fun i hi => ?_⟩
  have hci : c * i < m'.length := by rw [e2]; exact Nat.mul_lt_mul_of_pos_left hi (by omega)
  refine ext_getD nan ?_ fun k hk => ?_
  · rw [hs'.2 _ (getD_mem [] hci), hs.2 _ (getD_mem [] hi)]
  · rw [hs'.2 _ (getD_mem [] hci)] at hk
    rw [hv i k hi hk, hv' (c * i) k hci hk]
    congr 1
    unfold dct2
    refine Finset.sum_congr rfl fun j hj => ?_
    have hr := hrect _ (getD_mem [] (Finset.mem_range.mp hj))
    have hlen : ((q'.getD j []).map cqtLogPower).length = m.length := by rw [List.length_map, hr, e1]
    congr 1
    beta_reduce
    have h1 := resample_interp c hc ((q'.getD j []).map cqtLogPower) (t := i) (by omega)
    have h2 := congrArg (fun l => l.getD i 0) (resample_self ((q'.getD j []).map cqtLogPower))
    beta_reduce at h2
    rw [hlen] at h1 h2
    rw [e2, h1, h2]

/-- The hypotheses are met: with the default arguments and any signal of at least 400 samples, doubling the number of rows
keeps the time averages and the original rows. -/
example (sig : List ℝ) (hlen : 400 ≤ sig.length) : ∃ m m', cqcc {} sig = .ok m ∧ cqcc { ratio := 2 } sig = .ok m' ∧
    m'.length = 2 * m.length ∧ (∀ i < m.length, m'.getD (2 * i) [] = m.getD i []) ∧
    ∃ c, HasShape m m.length c ∧ ∀ k < c, timeMean m' k = timeMean m k := by
  have hdef : ∀ c : ℝ, 1 ≤ c → ∃ m, cqcc { ratio := c } sig = .ok m ∧ AllFinite m := by
    intro c hc
    refine C93_defined { ratio := c } (by norm_num) (by norm_num) (by norm_num) (by norm_num) (by norm_num [effHigh])
      default_admissible (by simp [WindowName, Args.win]) (by norm_num [Args.win]) default_hop default_len rfl rfl rfl sig hlen ?_
    have : (1 : ℝ) ≤ (((sig.length - 400) / (pyInt (({} : CqtArgs).win.winHop * ({} : CqtArgs).fs)).toNat + 1 : ℕ) : ℝ) := by
      exact_mod_cast Nat.le_add_left 1 _
    exact one_le_mul_of_one_le_of_one_le this hc
  obtain ⟨m, hm, -⟩ := hdef 1 le_rfl
  obtain ⟨m', hm', -⟩ := hdef 2 (by norm_num)
  obtain ⟨h1, h2⟩ := C134_interpolates {} rfl rfl rfl sig 2 (by norm_num) m m' hm (by exact_mod_cast hm')
  obtain ⟨c, h3, -, h4⟩ := C134_mean {} rfl rfl rfl sig 2 m m' hm hm'
  exact ⟨m, m', hm, hm', h1, h2, c, h3, h4⟩

end Props
end Spafe
