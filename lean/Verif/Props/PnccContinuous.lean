import Verif.Props.PlpContinuous
import Verif.Props.PnccMeaning
import Verif.Props.RoundingPncc

/-! C196: small changes of the signal cause small changes of `pncc`, except at the thresholds of the noise suppression. -/

set_option linter.unusedSectionVars false

namespace Spafe
namespace Props
open Model XF Spec Filter Topology

/-! ### The stages are continuous -/

section
variable {f : Filter (List ℝ)}

theorem tendsto_follow {e x : List ℝ → ℝ} {e0 x0 : ℝ} (he : Tendsto e f (𝓝 e0)) (hx : Tendsto x f (𝓝 x0)) :
    Tendsto (fun z => follow (e z) (x z)) f (𝓝 (follow e0 x0)) := by
  have hc : Continuous fun p : ℝ × ℝ => follow p.1 p.2 := by
    unfold follow
    refine Continuous.if_le (by fun_prop) (by fun_prop) continuous_fst continuous_snd fun p hp => ?_
    rw [hp]; ring
  exact (hc.tendsto (e0, x0)).comp (he.prodMk_nhds hx)

variable {q : List ℝ → ℕ → ℝ} {q0 : ℕ → ℝ} {T : ℕ}

theorem tendsto_envelope (h : ∀ i < T, Tendsto (fun z => q z i) f (𝓝 (q0 i))) :
    ∀ m < T, Tendsto (fun z => envelope T (q z) m) f (𝓝 (envelope T q0 m))
  | 0, hm => by
    unfold envelope
    refine tendsto_follow ?_ (h 0 hm)
    split_ifs
    · exact (h 0 hm).const_mul _
    · exact tendsto_const_nhds
  | m + 1, hm => by
    unfold envelope
    exact tendsto_follow (tendsto_envelope h m (by omega)) (h (m + 1) hm)

theorem tendsto_excess (h : ∀ i < T, Tendsto (fun z => q z i) f (𝓝 (q0 i))) (m : ℕ) (hm : m < T) :
    Tendsto (fun z => excess T 0 (q z) m) f (𝓝 (excess T 0 q0 m)) := by
  simp only [excess_eq_max]
  exact ((h m hm).sub (tendsto_envelope h m hm)).max tendsto_const_nhds

theorem tendsto_peak (h : ∀ i < T, Tendsto (fun z => q z i) f (𝓝 (q0 i))) :
    ∀ m < T, Tendsto (fun z => decayingPeak (q z) m) f (𝓝 (decayingPeak q0 m))
  | 0, hm => by unfold decayingPeak; exact h 0 hm
  | m + 1, hm => by
    unfold decayingPeak
    exact ((tendsto_peak h m (by omega)).const_mul _).max (h (m + 1) hm)

/-- A choice between two continuous values, away from the threshold. -/
theorem tendsto_choice {u v x y : List ℝ → ℝ} {u0 v0 x0 y0 : ℝ} (hu : Tendsto u f (𝓝 u0)) (hv : Tendsto v f (𝓝 v0))
    (hx : Tendsto x f (𝓝 x0)) (hy : Tendsto y f (𝓝 y0)) (hne : u0 ≠ v0) :
    Tendsto (fun z => if u z ≤ v z then x z else y z) f (𝓝 (if u0 ≤ v0 then x0 else y0)) := by
  rcases lt_or_gt_of_ne hne with hlt | hgt
  · rw [if_pos hlt.le]
    refine hx.congr' ?_
    filter_upwards [hu.eventually_lt hv hlt] with z hz
    rw [if_pos hz.le]
  · rw [if_neg (not_le.mpr hgt)]
    refine hy.congr' ?_
    filter_upwards [hv.eventually_lt hu hgt] with z hz
    rw [if_neg (not_le.mpr hz)]

theorem tendsto_masked (h : ∀ i < T, Tendsto (fun z => q z i) f (𝓝 (q0 i))) (m : ℕ) (hm : m < T)
    (hne : ∀ k, m = k + 1 → 0.85 * decayingPeak q0 k ≠ q0 m) :
    Tendsto (fun z => masked (q z) m) f (𝓝 (masked q0 m)) := by
  rcases m with _ | m
  · unfold masked; exact h 0 hm
  · unfold masked
    have hp := tendsto_peak h m (by omega)
    exact tendsto_choice (hp.const_mul _) (h _ hm) (h _ hm) (hp.const_mul _) (hne m rfl)

theorem tendsto_suppressed (h : ∀ i < T, Tendsto (fun z => q z i) f (𝓝 (q0 i))) (m : ℕ) (hm : m < T)
    (hsw : 2 * envelope T q0 m ≠ q0 m)
    (hne : ∀ k, m = k + 1 → 0.85 * decayingPeak (excess T 0 q0) k ≠ excess T 0 q0 m) :
    Tendsto (fun z => suppressed T 0 (q z) m) f (𝓝 (suppressed T 0 q0 m)) := by
  unfold suppressed
  have he : ∀ i < T, Tendsto (fun z => excess T 0 (q z) i) f (𝓝 (excess T 0 q0 i)) := fun i hi => tendsto_excess h i hi
  exact tendsto_choice ((tendsto_envelope h m hm).const_mul _) (h m hm)
    (tendsto_masked (q := fun z => excess T 0 (q z)) he m hm hne)
    (tendsto_envelope (q := fun z => excess T 0 (q z)) he m hm) hsw

variable {P : List ℝ → ℕ → ℕ → ℝ} {P0 : ℕ → ℕ → ℝ}

theorem tendsto_mediumTime (h : ∀ i n, Tendsto (fun z => P z i n) f (𝓝 (P0 i n))) (T m n : ℕ) :
    Tendsto (fun z => mediumTime T (fun i => P z i n) m) f (𝓝 (mediumTime T (fun i => P0 i n) m)) := by
  unfold mediumTime
  exact (tendsto_finsetSum _ fun i _ => h i n).div_const _

/-- The powers of channel `n` are off the two thresholds of the noise suppression in frame `m` of `T`: the power is not twice
its lower envelope, and its excess is not 0.85 times the peak before. -/
def OffThresholds (T : ℕ) (q : ℕ → ℝ) (m : ℕ) : Prop :=
  2 * envelope T q m ≠ q m ∧ ∀ k, m = k + 1 → 0.85 * decayingPeak (excess T 0 q) k ≠ excess T 0 q m

theorem tendsto_weighted {L : ℕ} (h : ∀ i n, Tendsto (fun z => P z i n) f (𝓝 (P0 i n)))
    (hpos : ∀ i n, i < T → 1 ≤ n → n < L → 0 < mediumTime T (fun j => P0 j n) i)
    (hoff : ∀ i n, i < T → 1 ≤ n → n < L → OffThresholds T (mediumTime T fun j => P0 j n) i) (m l : ℕ) (hm : m < T) :
    Tendsto (fun z => weighted T L (P z) m l) f (𝓝 (weighted T L P0 m l)) := by
  unfold weighted smoothWeight
  refine (h m l).mul (Tendsto.div_const (tendsto_finsetSum _ fun k hk => ?_) _)
  unfold weightChannels at hk
  have hk := Finset.mem_Ico.mp hk
  have h1 : 1 ≤ k := (le_max_right _ _).trans hk.1
  have h2 : k < L := lt_of_lt_of_le hk.2 (min_le_right _ _)
  obtain ⟨o1, o2⟩ := hoff m k hm h1 h2
  exact (tendsto_suppressed (q := fun z => mediumTime T fun i => P z i k) (fun i _ => tendsto_mediumTime h T i k) m hm o1 o2).div
    (tendsto_mediumTime h T m k) (hpos m k hm h1 h2).ne'

theorem tendsto_runningMean {L : ℕ} {t : List ℝ → ℕ → ℕ → ℝ} {t0 : ℕ → ℕ → ℝ}
    (h : ∀ m l, m < T → Tendsto (fun z => t z m l) f (𝓝 (t0 m l))) :
    ∀ m < T, Tendsto (fun z => runningMean L (t z) m) f (𝓝 (runningMean L t0 m))
  | 0, _ => by unfold runningMean; exact tendsto_const_nhds
  | m + 1, hm => by
    unfold runningMean
    exact ((tendsto_runningMean h m (by omega)).const_mul _).add
      (((tendsto_finsetSum _ fun l _ => h (m + 1) l hm).div_const _).const_mul _)

theorem tendsto_pnccBand {L : ℕ} (h : ∀ i n, Tendsto (fun z => P z i n) f (𝓝 (P0 i n))) (h0 : ∀ i n, 0 ≤ P0 i n)
    (hpos : ∀ i n, i < T → 1 ≤ n → n < L → 0 < mediumTime T (fun j => P0 j n) i)
    (hoff : ∀ i n, i < T → 1 ≤ n → n < L → OffThresholds T (mediumTime T fun j => P0 j n) i) (m l : ℕ) (hm : m < T) :
    Tendsto (fun z => pnccBand T L (P z) m l) f (𝓝 (pnccBand T L P0 m l)) := by
  unfold pnccBand
  refine Tendsto.rpow_const ((tendsto_weighted h hpos hoff m l hm).div (tendsto_runningMean (t := fun z => weighted T L (P z))
    (fun m l hm => tendsto_weighted h hpos hoff m l hm) m hm)
    (runningMean_pos (weighted_nonneg h0) m).ne') (Or.inr (by norm_num))

end

theorem tendsto_bandPower (sig : List ℝ) (on : Bool) (c : ℝ) {power : ℝ} (hp : 0 < power) (fb : List (List ℝ)) (w : ℕ → ℝ)
    (l s nfft i n : ℕ) :
    Tendsto (fun z => bandPower power fb w (emphasised on c z) l s nfft i n) (around sig)
      (𝓝 (bandPower power fb w (emphasised on c sig) l s nfft i n)) := by
  unfold bandPower frameBin
  refine tendsto_finsetSum _ fun k _ => Tendsto.mul_const _ (Tendsto.div_const (Tendsto.rpow_const (Tendsto.norm
    (tendsto_finsetSum _ fun j _ => Tendsto.mul_const _ ?_)) (Or.inr hp.le)) _)
  exact (Complex.continuous_ofReal.tendsto _).comp ((tendsto_emphasised sig on c (i * s + j)).const_mul (w j))

/-- C196: `pncc` is continuous at every signal all of whose frames and channels (from the second on) have power and are off
the two thresholds. Missing from the property: the signals on a threshold (`C196_violated`). -/
theorem C196_pncc_partial (a : Args) (power : ℝ) (hp : 0 < power) (fb : List (List ℝ)) (sig : List ℝ) (l s : ℕ)
    (h : Setup a fb sig l s) (hf : fb.length = a.nfilts) (hd : a.dctType = 2) (hl : a.lifter = none) (hn : a.normalize = none)
    (R : ℕ) (hR : R = (sig.length - l) / s + 1) (P : ℕ → ℕ → ℝ)
    (hP : P = bandPower power fb (windowWeight a.win.winType l) (emphasised a.preEmph a.preEmphCoeff sig) l s a.nfft)
    (hpos : ∀ i n, i < R → 1 ≤ n → n < fb.length → 0 < mediumTime R (fun j => P j n) i)
    (hoff : ∀ i n, i < R → 1 ≤ n → n < fb.length → OffThresholds R (mediumTime R fun j => P j n) i) :
    ∃ m, pncc a power sig = .ok m ∧ HasShape m R (min a.numCeps fb.length) ∧
      ∀ tol > 0, ∃ η > 0, ∀ sig', NearSignal sig sig' η → ∃ m', pncc a power sig' = .ok m' ∧
        HasShape m' R (min a.numCeps fb.length) ∧ ∀ i k, i < R → k < min a.numCeps fb.length →
          ∃ u v, (m.getD i []).getD k nan = fin u ∧ (m'.getD i []).getD k nan = fin v ∧ |v - u| ≤ tol := by
  subst hP
  obtain ⟨m, hm, hsh, hrow⟩ := C106_pncc_meaning a power hp fb sig l s h hf hd hl hn R hR _ rfl hpos
  refine ⟨m, hm, hsh, fun tol ht => ?_⟩
  have hE := fun i n => tendsto_bandPower sig a.preEmph a.preEmphCoeff hp fb (windowWeight a.win.winType l) l s a.nfft i n
  have hpos' : ∀ᶠ z in around sig, ∀ i ∈ Finset.range R, ∀ n ∈ Finset.Ico 1 fb.length, 0 < mediumTime R (fun j =>
      bandPower power fb (windowWeight a.win.winType l) (emphasised a.preEmph a.preEmphCoeff z) l s a.nfft j n) i := by
    rw [eventually_all_finset]
    intro i hi
    rw [eventually_all_finset]
    intro n hn'
    obtain ⟨n1, n2⟩ := Finset.mem_Ico.mp hn'
    exact (tendsto_mediumTime hE R i n).eventually (lt_mem_nhds (hpos i n (Finset.mem_range.mp hi) n1 n2))
  have hrows : ∀ᶠ z in around sig, ∀ i ∈ Finset.range R, ∀ k ∈ Finset.range (min a.numCeps fb.length),
      dist (dctII fb.length (pnccBand R fb.length (bandPower power fb (windowWeight a.win.winType l)
        (emphasised a.preEmph a.preEmphCoeff z) l s a.nfft) i) k)
        (dctII fb.length (pnccBand R fb.length (bandPower power fb (windowWeight a.win.winType l)
          (emphasised a.preEmph a.preEmphCoeff sig) l s a.nfft) i) k) < tol := by
    rw [eventually_all_finset]
    intro i hi
    rw [eventually_all_finset]
    intro k _
    refine Metric.tendsto_nhds.mp ?_ tol ht
    unfold dctII
    exact (tendsto_finsetSum _ fun n _ => (tendsto_pnccBand hE (fun i n => bandPower_nonneg h.nonneg ..) hpos hoff i n
      (Finset.mem_range.mp hi)).mul_const _).const_mul _
  obtain ⟨η, hη, hall⟩ := eventually_around.mp (hpos'.and hrows)
  refine ⟨η, hη, fun sig' hs => ?_⟩
  obtain ⟨hp', hr'⟩ := hall sig' hs
  obtain ⟨m', hm', hsh', hrow'⟩ := C106_pncc_meaning a power hp fb sig' l s (h.near hs.1) hf hd hl hn R (by rw [hs.1, hR]) _ rfl
    fun i n hi h1 h2 => hp' i (Finset.mem_range.mpr hi) n (Finset.mem_Ico.mpr ⟨h1, h2⟩)
  refine ⟨m', hm', hsh', fun i k hi hk => ⟨_, _, hrow i k hi hk, hrow' i k hi hk, ?_⟩⟩
  have := hr' i (Finset.mem_range.mpr hi) k (Finset.mem_range.mpr hk)
  rw [Real.dist_eq] at this
  exact this.le

/-! ### A signal on the threshold -/

/-- Frames of one sample, one DFT bin, two channels. -/
noncomputable def pnJump : Args :=
  { fs := 1, numCeps := 1, nfilts := 2, nfft := 1, preEmph := false, window := some ⟨1, 1, "hamming"⟩,
    fbanks := some (finMat [[1], [1]]) }

private theorem one_int : pyInt ((1 : ℝ) * 1) = ((1 : ℕ) : ℤ) := by norm_num [pyInt]

theorem pnJump_setup (y : ℝ) : Setup pnJump [[1], [1]] [√5, 0, 0, y] 1 1 where
  bank := rfl
  cols := by simp [pnJump]
  nonneg := by simp
  rows := by simp
  ceps := by simp [pnJump]
  nfft := by simp [pnJump]
  window := by simp [WindowName, pnJump, Args.win]
  hopLe := le_refl _
  len := one_int
  hop := one_int
  pos := by norm_num
  long := by simp
  samples := by simp

theorem pnJump_power (x : List ℝ) (i n : ℕ) (hn : n < 2) :
    bandPower 2 [[1], [1]] (windowWeight pnJump.win.winType 1) (emphasised pnJump.preEmph pnJump.preEmphCoeff x) 1 1 pnJump.nfft i n =
      x.getD i 0 ^ 2 := by
  have e : pnJump.nfft = 1 := rfl
  have hb : (([[1], [1]] : List (List ℝ)).getD n []).getD 0 0 = 1 := by interval_cases n <;> rfl
  unfold bandPower frameBin
  rw [e]
  simp only [Nat.reduceDiv, zero_add, Finset.sum_range_one, hb, mul_one, min_self, Nat.cast_zero, zero_mul, mul_zero, zero_div, neg_zero,
    Complex.exp_zero, add_zero, Nat.cast_one, div_one, Complex.norm_real, Real.norm_eq_abs, Real.rpow_two, sq_abs]
  simp [windowWeight, emphasised, pnJump]

/-- Four frames with a loud first and last one. -/
theorem suppressed_four {q : ℕ → ℝ} {θ : ℝ} (hθ : 5 ≤ θ) (h0 : q 0 = 1) (h1 : q 1 = 1 + θ) (h2 : q 2 = 1 + θ) (h3 : q 3 = θ) :
    suppressed 4 0 q 3 = if 0.85 * (0.997002999 + 0.998001 * θ) ≤ 0.997002999 * θ - 0.002994003999 then
      0.997002999 * θ - 0.002994003999 else 0.2 * (0.997002999 + 0.998001 * θ) := by
  have e0 : envelope 4 q 0 = 0.001 := by
    rw [envelope, if_neg (by norm_num), h0, follow, if_pos (by norm_num)]; norm_num
  have e1 : envelope 4 q 1 = 0.001999 + 0.001 * θ := by
    rw [envelope, e0, h1, follow, if_pos (by linarith)]; ring
  have e2 : envelope 4 q 2 = 0.002997001 + 0.001999 * θ := by
    rw [envelope, e1, h2, follow, if_pos (by linarith)]; ring
  have e3 : envelope 4 q 3 = 0.002994003999 + 0.002997001 * θ := by
    rw [envelope, e2, h3, follow, if_pos (by linarith)]; ring
  have s0 : excess 4 0 q 0 = 0.999 := by rw [excess, e0, h0, if_neg (by norm_num)]; norm_num
  have s1 : excess 4 0 q 1 = 0.998001 + 0.999 * θ := by rw [excess, e1, h1, if_neg (by linarith)]; ring
  have s2 : excess 4 0 q 2 = 0.997002999 + 0.998001 * θ := by rw [excess, e2, h2, if_neg (by linarith)]; ring
  have s3 : excess 4 0 q 3 = 0.997002999 * θ - 0.002994003999 := by rw [excess, e3, h3, if_neg (by linarith)]; ring
  have p0 : decayingPeak (excess 4 0 q) 0 = 0.999 := by rw [decayingPeak, s0]
  have p1 : decayingPeak (excess 4 0 q) 1 = 0.998001 + 0.999 * θ := by
    rw [decayingPeak, p0, s1, max_eq_right (by linarith)]
  have p2 : decayingPeak (excess 4 0 q) 2 = 0.997002999 + 0.998001 * θ := by
    rw [decayingPeak, p1, s2, max_eq_right (by linarith)]
  rw [suppressed, e3, h3, if_pos (by linarith), masked, p2, s3]

/-- What is left of the last frame, as a function of the suppressed power. -/
noncomputable def lastBand (r : ℝ) : ℝ := (2.5 * r / (0.0000997002999 + 0.0025 * r)) ^ (1 / 15 : ℝ)

theorem lastBand_lt {r t : ℝ} (hr : 0 ≤ r) (h : r < t) : lastBand r < lastBand t := by
  unfold lastBand
  refine Real.rpow_lt_rpow (by positivity) ?_ (by norm_num)
  rw [div_lt_div_iff₀ (by positivity) (by nlinarith)]
  nlinarith

theorem lastBand_le {r t : ℝ} (hr : 0 ≤ r) (h : r ≤ t) : lastBand r ≤ lastBand t := by
  rcases h.eq_or_lt with rfl | h
  · exact le_rfl
  · exact (lastBand_lt hr h).le

theorem pnJump_value {y : ℝ} (hy : 25 ≤ y ^ 2) : ∃ m, pncc pnJump 2 [√5, 0, 0, y] = .ok m ∧
    (m.getD 3 []).getD 0 nan = fin (√2 * lastBand (if 0.85 * (0.997002999 + 0.998001 * (y ^ 2 / 5)) ≤
      0.997002999 * (y ^ 2 / 5) - 0.002994003999 then 0.997002999 * (y ^ 2 / 5) - 0.002994003999 else
      0.2 * (0.997002999 + 0.998001 * (y ^ 2 / 5)))) := by
  obtain ⟨P, hP⟩ : ∃ P, P = bandPower 2 [[1], [1]] (windowWeight pnJump.win.winType 1)
    (emphasised pnJump.preEmph pnJump.preEmphCoeff [√5, 0, 0, y]) 1 1 pnJump.nfft := ⟨_, rfl⟩
  have h5 : √(5 : ℝ) ^ 2 = 5 := Real.sq_sqrt (by norm_num)
  have hv : ∀ n < 2, P 0 n = 5 ∧ P 1 n = 0 ∧ P 2 n = 0 ∧ P 3 n = y ^ 2 := by
    intro n hn
    rw [hP]
    refine ⟨?_, ?_, ?_, ?_⟩
    · rw [pnJump_power _ 0 n hn]; exact h5
    · rw [pnJump_power _ 1 n hn]; simp
    · rw [pnJump_power _ 2 n hn]; simp
    · rw [pnJump_power _ 3 n hn]; simp
  obtain ⟨v0, v1, v2, v3⟩ := hv 1 (by norm_num)
  have q0 : mediumTime 4 (fun j => P j 1) 0 = 1 := by
    have : Finset.Ico (0 - 2) (min 4 (0 + 3)) = Finset.range 3 := by decide
    rw [mediumTime, this]; simp only [Finset.sum_range_succ, Finset.sum_range_zero, v0, v1, v2]; norm_num
  have q1 : mediumTime 4 (fun j => P j 1) 1 = 1 + y ^ 2 / 5 := by
    have : Finset.Ico (1 - 2) (min 4 (1 + 3)) = Finset.range 4 := by decide
    rw [mediumTime, this]; simp only [Finset.sum_range_succ, Finset.sum_range_zero, v0, v1, v2, v3]; ring
  have q2 : mediumTime 4 (fun j => P j 1) 2 = 1 + y ^ 2 / 5 := by
    have : Finset.Ico (2 - 2) (min 4 (2 + 3)) = Finset.range 4 := by decide
    rw [mediumTime, this]; simp only [Finset.sum_range_succ, Finset.sum_range_zero, v0, v1, v2, v3]; ring
  have q3 : mediumTime 4 (fun j => P j 1) 3 = y ^ 2 / 5 := by
    have : Finset.Ico (3 - 2) (min 4 (3 + 3)) = {1, 2, 3} := by decide
    rw [mediumTime, this]; simp [v1, v2, v3]
  have hpos : ∀ i n, i < 4 → 1 ≤ n → n < ([[1], [1]] : List (List ℝ)).length → 0 < mediumTime 4 (fun j => P j n) i := by
    intro i n hi h1 h2
    obtain rfl : n = 1 := by simp at h2; omega
    interval_cases i
    · rw [q0]; norm_num
    · rw [q1]; positivity
    · rw [q2]; positivity
    · rw [q3]; linarith
  obtain ⟨m, hm, -, hrow⟩ := C106_pncc_meaning pnJump 2 (by norm_num) _ _ 1 1 (pnJump_setup y) rfl rfl rfl rfl 4 (by simp) P hP hpos
  refine ⟨m, hm, ?_⟩
  rw [hrow 3 0 (by norm_num) (by simp [pnJump])]
  have hs := suppressed_four (q := mediumTime 4 fun j => P j 1) (θ := y ^ 2 / 5) (by linarith) q0 q1 q2 q3
  obtain ⟨r, hr⟩ : ∃ r, r = suppressed 4 0 (mediumTime 4 fun j => P j 1) 3 := ⟨_, rfl⟩
  rw [← hs, ← hr]
  have hch : ∀ l < 2, weightChannels 2 l = {1} := by decide
  have hL : ([[1], [1]] : List (List ℝ)).length = 2 := rfl
  have w3 : ∀ l < 2, weighted 4 2 P 3 l = 2.5 * r := by
    intro l hl
    obtain ⟨-, -, -, vl⟩ := hv l hl
    rw [weighted, smoothWeight, hch l hl, Finset.sum_singleton, Finset.card_singleton, vl, ← hr, q3]
    have : y ≠ 0 := by rintro rfl; norm_num at hy
    field_simp
    ring
  have w1 : ∀ l < 2, weighted 4 2 P 1 l = 0 := fun l hl => by rw [weighted, (hv l hl).2.1, zero_mul]
  have w2 : ∀ l < 2, weighted 4 2 P 2 l = 0 := fun l hl => by rw [weighted, (hv l hl).2.2.1, zero_mul]
  have hμ : runningMean 2 (weighted 4 2 P) 3 = 0.0000997002999 + 0.0025 * r := by
    simp only [runningMean, Finset.sum_range_succ, Finset.sum_range_zero, w1 0 (by norm_num), w1 1 (by norm_num), w2 0 (by norm_num),
      w2 1 (by norm_num), w3 0 (by norm_num), w3 1 (by norm_num)]
    push_cast
    ring
  have hb : ∀ l < 2, pnccBand 4 2 P 3 l = lastBand r := fun l hl => by rw [pnccBand, w3 l hl, hμ, lastBand]
  congr 1
  rw [dctII, hL, Finset.sum_range_succ, Finset.sum_range_one, hb 0 (by norm_num), hb 1 (by norm_num)]
  have h2 : √(2 : ℝ) * √2 = 2 := Real.mul_self_sqrt (by norm_num)
  have h2' : √(2 : ℝ) ≠ 0 := by positivity
  simp only [if_true, Nat.cast_zero, Nat.cast_ofNat, mul_zero, zero_mul, zero_div, Real.cos_zero, mul_one]
  rw [div_self (by norm_num), Real.sqrt_one]
  field_simp
  linear_combination (-lastBand r) * h2

/-- C196 (violated): where the excess of a frame is exactly 0.85 times the decayed peak, coefficient 0 of `pncc` jumps: in every
neighbourhood there are signals for which it is smaller by a fixed amount. -/
theorem C196_violated : ∃ sig m u c, 0 < c ∧ pncc pnJump 2 sig = .ok m ∧ (m.getD 3 []).getD 0 nan = fin u ∧
    ∀ η > 0, ∃ sig' m' v, NearSignal sig sig' η ∧ pncc pnJump 2 sig' = .ok m' ∧ (m'.getD 3 []).getD 0 nan = fin v ∧ v ≤ u - c := by
  obtain ⟨Y, hY0, hY⟩ : ∃ Y : ℝ, 0 ≤ Y ∧ Y ^ 2 = 5 * (0.850446553149 / 0.148702149) :=
    ⟨√(5 * (0.850446553149 / 0.148702149)), Real.sqrt_nonneg _, Real.sq_sqrt (by norm_num)⟩
  have hYl : 5.3 ≤ Y := by
    refine le_of_pow_le_pow_left₀ two_ne_zero hY0 ?_
    rw [hY]; norm_num
  obtain ⟨m, hm, hu⟩ := pnJump_value (y := Y) (by rw [hY]; norm_num)
  have hthr : 0.85 * (0.997002999 + 0.998001 * (Y ^ 2 / 5)) ≤ 0.997002999 * (Y ^ 2 / 5) - 0.002994003999 := by rw [hY]; norm_num
  rw [if_pos hthr] at hu
  have h2 : 0 < √(2 : ℝ) := by positivity
  have hlt : lastBand (0.2 * (0.997002999 + 0.998001 * (Y ^ 2 / 5))) < lastBand (0.997002999 * (Y ^ 2 / 5) - 0.002994003999) :=
    lastBand_lt (by positivity) (by rw [hY]; norm_num)
  refine ⟨_, m, _, √2 * (lastBand (0.997002999 * (Y ^ 2 / 5) - 0.002994003999) -
    lastBand (0.2 * (0.997002999 + 0.998001 * (Y ^ 2 / 5)))), mul_pos h2 (sub_pos.mpr hlt), hm, hu, fun η hη => ?_⟩
  obtain ⟨d, d0, d1, d2⟩ : ∃ d : ℝ, 0 < d ∧ d ≤ η ∧ d ≤ 0.3 := ⟨min η 0.3, by positivity, min_le_left _ _, min_le_right _ _⟩
  have hlo : 25 ≤ (Y - d) ^ 2 := by nlinarith
  have hup : (Y - d) ^ 2 < Y ^ 2 := by nlinarith
  obtain ⟨m', hm', hv⟩ := pnJump_value (y := Y - d) hlo
  have hthr' : ¬ 0.85 * (0.997002999 + 0.998001 * ((Y - d) ^ 2 / 5)) ≤ 0.997002999 * ((Y - d) ^ 2 / 5) - 0.002994003999 := by
    rw [hY] at hup
    intro h
    have h1 : 0.850446553149 ≤ 0.148702149 * ((Y - d) ^ 2 / 5) := by linarith
    have h3 : 0.148702149 * ((Y - d) ^ 2 / 5) < 0.850446553149 := by
      have : (Y - d) ^ 2 / 5 < 0.850446553149 / 0.148702149 := by linarith
      rw [lt_div_iff₀ (by norm_num)] at this
      linarith
    linarith
  rw [if_neg hthr'] at hv
  refine ⟨[√5, 0, 0, Y - d], m', _, ⟨rfl, fun t ht => ?_⟩, hm', hv, ?_⟩
  · simp only [List.length_cons, List.length_nil] at ht
    interval_cases t
    · simpa using hη.le
    · simpa using hη.le
    · simpa using hη.le
    · simpa [abs_of_pos d0] using d1
  · have := lastBand_le (r := 0.2 * (0.997002999 + 0.998001 * ((Y - d) ^ 2 / 5))) (t := 0.2 * (0.997002999 + 0.998001 * (Y ^ 2 / 5)))
      (by positivity) (by linarith)
    have := mul_le_mul_of_nonneg_left this h2.le
    linarith

/-- A signal that is off the thresholds, so that `C196_pncc_partial` applies: the last sample is 5. -/
example : ∃ m, pncc pnJump 2 [√5, 0, 0, 5] = .ok m ∧ ∀ tol > 0, ∃ η > 0, ∀ sig', NearSignal [√5, 0, 0, 5] sig' η →
    ∃ m', pncc pnJump 2 sig' = .ok m' ∧
      ∃ u v, (m.getD 3 []).getD 0 nan = fin u ∧ (m'.getD 3 []).getD 0 nan = fin v ∧ |v - u| ≤ tol := by
  obtain ⟨P, hP⟩ : ∃ P, P = bandPower 2 [[1], [1]] (windowWeight pnJump.win.winType 1)
    (emphasised pnJump.preEmph pnJump.preEmphCoeff [√5, 0, 0, 5]) 1 1 pnJump.nfft := ⟨_, rfl⟩
  have h5 : √(5 : ℝ) ^ 2 = 5 := Real.sq_sqrt (by norm_num)
  have v0 : P 0 1 = 5 := by rw [hP, pnJump_power _ 0 1 (by norm_num)]; exact h5
  have v1 : P 1 1 = 0 := by rw [hP, pnJump_power _ 1 1 (by norm_num)]; simp
  have v2 : P 2 1 = 0 := by rw [hP, pnJump_power _ 2 1 (by norm_num)]; simp
  have v3 : P 3 1 = 25 := by rw [hP, pnJump_power _ 3 1 (by norm_num)]; norm_num
  obtain ⟨q, hq⟩ : ∃ q, q = mediumTime 4 (fun j => P j 1) := ⟨_, rfl⟩
  have q0 : q 0 = 1 := by
    have : Finset.Ico (0 - 2) (min 4 (0 + 3)) = Finset.range 3 := by decide
    rw [hq, mediumTime, this]; simp only [Finset.sum_range_succ, Finset.sum_range_zero, v0, v1, v2]; norm_num
  have q1 : q 1 = 6 := by
    have : Finset.Ico (1 - 2) (min 4 (1 + 3)) = Finset.range 4 := by decide
    rw [hq, mediumTime, this]; simp only [Finset.sum_range_succ, Finset.sum_range_zero, v0, v1, v2, v3]; norm_num
  have q2 : q 2 = 6 := by
    have : Finset.Ico (2 - 2) (min 4 (2 + 3)) = Finset.range 4 := by decide
    rw [hq, mediumTime, this]; simp only [Finset.sum_range_succ, Finset.sum_range_zero, v0, v1, v2, v3]; norm_num
  have q3 : q 3 = 5 := by
    have : Finset.Ico (3 - 2) (min 4 (3 + 3)) = {1, 2, 3} := by decide
    rw [hq, mediumTime, this]; simp [v1, v2, v3]; norm_num
  have e0 : envelope 4 q 0 = 0.001 := by
    rw [envelope, if_neg (by norm_num), q0, follow, if_pos (by norm_num)]; norm_num
  have e1 : envelope 4 q 1 = 0.006999 := by rw [envelope, e0, q1, follow, if_pos (by norm_num)]; norm_num
  have e2 : envelope 4 q 2 = 0.012992001 := by rw [envelope, e1, q2, follow, if_pos (by norm_num)]; norm_num
  have e3 : envelope 4 q 3 = 0.017979008999 := by rw [envelope, e2, q3, follow, if_pos (by norm_num)]; norm_num
  have s0 : excess 4 0 q 0 = 0.999 := by rw [excess, e0, q0, if_neg (by norm_num)]; norm_num
  have s1 : excess 4 0 q 1 = 5.993001 := by rw [excess, e1, q1, if_neg (by norm_num)]; norm_num
  have s2 : excess 4 0 q 2 = 5.987007999 := by rw [excess, e2, q2, if_neg (by norm_num)]; norm_num
  have s3 : excess 4 0 q 3 = 4.982020991001 := by rw [excess, e3, q3, if_neg (by norm_num)]; norm_num
  have p0 : decayingPeak (excess 4 0 q) 0 = 0.999 := by rw [decayingPeak, s0]
  have p1 : decayingPeak (excess 4 0 q) 1 = 5.993001 := by rw [decayingPeak, p0, s1, max_eq_right (by norm_num)]
  have p2 : decayingPeak (excess 4 0 q) 2 = 5.987007999 := by rw [decayingPeak, p1, s2, max_eq_right (by norm_num)]
  obtain ⟨m, hm, -, h⟩ := C196_pncc_partial pnJump 2 (by norm_num) _ _ 1 1 (pnJump_setup 5) rfl rfl rfl rfl 4 (by simp) P hP (by
      intro i n hi h1 h2
      obtain rfl : n = 1 := by simp at h2; omega
      rw [← hq]
      interval_cases i
      · rw [q0]; norm_num
      · rw [q1]; norm_num
      · rw [q2]; norm_num
      · rw [q3]; norm_num) (by
      intro i n hi h1 h2
      obtain rfl : n = 1 := by simp at h2; omega
      rw [← hq]
      unfold OffThresholds
      interval_cases i
      · rw [q0, e0]
        exact ⟨by norm_num, fun k hk => by omega⟩
      · rw [q1, e1]
        refine ⟨by norm_num, fun k hk => ?_⟩
        obtain rfl : k = 0 := by omega
        rw [p0, s1]; norm_num
      · rw [q2, e2]
        refine ⟨by norm_num, fun k hk => ?_⟩
        obtain rfl : k = 1 := by omega
        rw [p1, s2]; norm_num
      · rw [q3, e3]
        refine ⟨by norm_num, fun k hk => ?_⟩
        obtain rfl : k = 2 := by omega
        rw [p2, s3]; norm_num)
  refine ⟨m, hm, fun tol ht => ?_⟩
  obtain ⟨η, hη, h1⟩ := h tol ht
  refine ⟨η, hη, fun sig' hs => ?_⟩
  obtain ⟨m', h2, -, h3⟩ := h1 sig' hs
  exact ⟨m', h2, h3 3 0 (by norm_num) (by simp [pnJump])⟩

end Props
end Spafe
