import Verif.Props.LpcStability
import Verif.Props.Loudness

/-! C195: small changes of the signal cause small changes of `plp` and `rplp`. -/

set_option linter.unusedSectionVars false

namespace Spafe
namespace Props
open Model XF Spec Filter Topology

/-- The neighbourhoods of a signal among the signals of its length. -/
def around (sig : List ℝ) : Filter (List ℝ) := ⨅ η ∈ Set.Ioi (0 : ℝ), 𝓟 {sig' | NearSignal sig sig' η}

theorem eventually_around {sig : List ℝ} {P : List ℝ → Prop} :
    (∀ᶠ z in around sig, P z) ↔ ∃ η > 0, ∀ z, NearSignal sig z η → P z := by
  have hb : (around sig).HasBasis (fun η : ℝ => η ∈ Set.Ioi 0) fun η => {sig' | NearSignal sig sig' η} := by
    refine hasBasis_biInf_principal ?_ ⟨1, Set.mem_Ioi.mpr one_pos⟩
    intro x hx y hy
    refine ⟨min x y, Set.mem_Ioi.mpr (lt_min (Set.mem_Ioi.mp hx) (Set.mem_Ioi.mp hy)), fun z hz => ⟨hz.1, fun t ht => (hz.2 t ht).trans (min_le_left _ _)⟩,
      fun z hz => ⟨hz.1, fun t ht => (hz.2 t ht).trans (min_le_right _ _)⟩⟩
  rw [hb.eventually_iff]
  rfl

theorem around_length (sig : List ℝ) : ∀ᶠ z in around sig, z.length = sig.length :=
  eventually_around.mpr ⟨1, one_pos, fun _ hz => hz.1⟩

theorem tendsto_sample (sig : List ℝ) (t : ℕ) : Tendsto (fun z : List ℝ => z.getD t 0) (around sig) (𝓝 (sig.getD t 0)) := by
  rw [Metric.tendsto_nhds]
  intro ε hε
  refine eventually_around.mpr ⟨ε / 2, by positivity, fun z hz => ?_⟩
  rw [Real.dist_eq]
  by_cases ht : t < sig.length
  · exact (hz.2 t ht).trans_lt (by linarith)
  · rw [List.getD_eq_default _ _ (by rw [hz.1]; omega), List.getD_eq_default _ _ (by omega), sub_self, abs_zero]
    exact hε

theorem tendsto_emphasised (sig : List ℝ) (on : Bool) (c : ℝ) (t : ℕ) :
    Tendsto (fun z => emphasised on c z t) (around sig) (𝓝 (emphasised on c sig t)) := by
  unfold emphasised
  cases on with
  | false => exact tendsto_sample sig t
  | true =>
    simp only [if_true]
    refine (tendsto_sample sig t).sub ?_
    split_ifs
    · exact tendsto_const_nhds
    · exact (tendsto_sample sig (t - 1)).const_mul c

theorem tendsto_bandEnergy (sig : List ℝ) (on : Bool) (c : ℝ) (fb : List (List ℝ)) (w : ℕ → ℝ) (l s nfft i n : ℕ) :
    Tendsto (fun z => bandEnergy fb w (emphasised on c z) l s nfft i n) (around sig)
      (𝓝 (bandEnergy fb w (emphasised on c sig) l s nfft i n)) := by
  unfold bandEnergy framePower frameBin
  refine tendsto_finsetSum _ fun k _ => Tendsto.mul_const _ (Tendsto.div_const (Tendsto.pow (Tendsto.norm
    (tendsto_finsetSum _ fun j _ => Tendsto.mul_const _ ?_)) 2) _)
  exact (Complex.continuous_ofReal.tendsto _).comp ((tendsto_emphasised sig on c (i * s + j)).const_mul (w j))

theorem continuous_intensity : Continuous intensity := by
  unfold intensity
  refine Continuous.rpow_const ?_ fun _ => Or.inr (by norm_num)
  refine Continuous.div (by fun_prop) (by fun_prop) fun e => ?_
  positivity

theorem tendsto_inverseDft {sig : List ℝ} {L : List ℝ → ℕ → ℝ} (n N t : ℕ)
    (h : ∀ j < N, Tendsto (fun z => L z j) (around sig) (𝓝 (L sig j))) :
    Tendsto (fun z => inverseDft n N (L z) t) (around sig) (𝓝 (inverseDft n N (L sig) t)) := by
  unfold inverseDft
  refine Tendsto.div_const (Tendsto.norm (tendsto_finsetSum _ fun j hj => Tendsto.mul_const _ ?_)) _
  exact (Complex.continuous_ofReal.tendsto _).comp (h j (by have := Finset.mem_range.mp hj; omega))

/-- A predictor whose input depends continuously on the signal. -/
theorem predictor_tendsto {sig : List ℝ} {n p : ℕ} (hp : 1 ≤ p) (v : List ℝ → ℕ → ℝ)
    (hv : ∀ t < n, Tendsto (fun z => v z t) (around sig) (𝓝 (v sig t)))
    (hx : NotSilent ((List.range n).map (v sig))) {a : ℕ → ℝ} (ha : IsPredictor ((List.range n).map (v sig)) p a) {tol : ℝ}
    (ht : 0 < tol) : ∀ᶠ z in around sig, ∀ b, IsPredictor ((List.range n).map (v z)) p b → ∀ k ≤ p,
      (1 ≤ k ∨ lpResidual ((List.range n).map (v sig)) p a ≠ 0) →
      |lpCoefficient b (lpResidual ((List.range n).map (v z)) p b) k -
        lpCoefficient a (lpResidual ((List.range n).map (v sig)) p a) k| ≤ tol := by
  obtain ⟨e, he⟩ : ∃ e, e = lpResidual ((List.range n).map (v sig)) p a := ⟨_, rfl⟩
  obtain ⟨τ, hτ, hlog⟩ : ∃ τ > 0, e ≠ 0 → ∀ e', |e' - e| ≤ τ → |logFloor e' - logFloor e| ≤ tol := by
    by_cases h0 : e = 0
    · exact ⟨1, one_pos, fun h => absurd h0 h⟩
    · obtain ⟨τ, h1, h2⟩ := logFloor_near h0 ht
      exact ⟨τ, h1, fun _ => h2⟩
  have hpr : (0 : ℝ) < p := by exact_mod_cast hp
  obtain ⟨δ, hδ, hc⟩ := frame_continuous hx hp ha (show 0 < min τ (tol / p) by positivity)
  have hlen : ∀ z, ((List.range n).map (v z)).length = n := fun z => by simp
  have hsum : Tendsto (fun z => ∑ t ∈ Finset.range n, (v z t - v sig t) ^ 2) (around sig) (𝓝 0) := by
    have : Tendsto (fun z => ∑ t ∈ Finset.range n, (v z t - v sig t) ^ 2) (around sig)
        (𝓝 (∑ t ∈ Finset.range n, (v sig t - v sig t) ^ 2)) :=
      tendsto_finsetSum _ fun t ht => ((hv t (Finset.mem_range.mp ht)).sub_const _).pow 2
    simpa using this
  filter_upwards [hsum.eventually (gt_mem_nhds (show (0 : ℝ) < δ ^ 2 by positivity))] with z hz b hb k hk hcase
  have hd : ∑ t ∈ Finset.range ((List.range n).map (v sig)).length,
      (((List.range n).map (v z)).getD t 0 - ((List.range n).map (v sig)).getD t 0) ^ 2 ≤ δ ^ 2 := by
    rw [hlen]
    refine le_trans (le_of_eq (Finset.sum_congr rfl fun t ht => ?_)) hz.le
    rw [getD_map_range_lt _ _ (Finset.mem_range.mp ht), getD_map_range_lt _ _ (Finset.mem_range.mp ht)]
  obtain ⟨-, h1⟩ := hc _ ((hlen z).trans (hlen sig).symm) δ hδ.le le_rfl hd
  obtain ⟨h2, h3⟩ := h1 b hb
  rw [← he] at h3 hcase ⊢
  rcases Nat.eq_zero_or_pos k with rfl | hk0
  · simp only [lpCoefficient, if_true]
    exact hlog (hcase.resolve_left (by omega)) _ (h3.trans (min_le_left _ _))
  · refine (lpCoefficient_sub_le hk0 fun j hj => (h2 j (by omega)).trans (min_le_right _ _)).trans ?_
    have hk1 : (k : ℝ) ≤ p := by exact_mod_cast hk
    calc (k : ℝ) * (tol / p) ≤ p * (tol / p) := mul_le_mul_of_nonneg_right hk1 (by positivity)
      _ = tol := by field_simp

theorem Setup.near {a : Args} {fb : List (List ℝ)} {sig sig' : List ℝ} {l s : ℕ} (h : Setup a fb sig l s)
    (hl : sig'.length = sig.length) : Setup a fb sig' l s where
  bank := h.bank
  cols := h.cols
  nonneg := h.nonneg
  rows := h.rows
  ceps := h.ceps
  nfft := h.nfft
  window := h.window
  hopLe := h.hopLe
  len := h.len
  hop := h.hop
  pos := h.pos
  long := by rw [hl]; exact h.long
  samples := fun hp h0 => h.samples hp (List.length_eq_zero_iff.mp (by rw [← hl, h0]; rfl))

/-- The inverse transform of a loudness spectrum that is not zero is not zero. -/
theorem inverseDft_notSilent {n N : ℕ} (hn : n ≠ 0) {L : ℕ → ℝ} (h0 : ∀ j, 0 ≤ L j) (h1 : ∃ j < min n N, L j ≠ 0) :
    NotSilent ((List.range n).map (inverseDft n N L)) := by
  refine ⟨inverseDft n N L 0, List.mem_map.mpr ⟨0, List.mem_range.mpr (by omega), rfl⟩, ?_⟩
  unfold inverseDft
  have hs : (0 : ℝ) < ∑ j ∈ Finset.range (min n N), L j := by
    obtain ⟨j, hj, hne⟩ := h1
    exact Finset.sum_pos' (fun j _ => h0 j) ⟨j, Finset.mem_range.mpr hj, lt_of_le_of_ne (h0 j) hne.symm⟩
  have e : ∑ j ∈ Finset.range (min n N), (L j : ℂ) * Complex.exp (2 * Real.pi * Complex.I * (j * (0 : ℕ)) / n) =
      ((∑ j ∈ Finset.range (min n N), L j : ℝ) : ℂ) := by
    push_cast
    exact Finset.sum_congr rfl fun j _ => by simp
  rw [e, Complex.norm_real, Real.norm_eq_abs, abs_of_pos hs]
  have : (0 : ℝ) < n := by exact_mod_cast Nat.pos_of_ne_zero hn
  positivity

/-- The vector that `plp` predicts in frame `i`: the inverse transform of the loudness of the bands. -/
noncomputable def plpVector (a : Args) (fb : List (List ℝ)) (l s i : ℕ) (sig : List ℝ) : List ℝ :=
  (List.range a.nfft).map (inverseDft a.nfft fb.length fun n =>
    intensity (bandEnergy fb (windowWeight a.win.winType l) (emphasised a.preEmph a.preEmphCoeff sig) l s a.nfft i n))

/-- Coefficient `0` is the logarithm of the residual; `C195` excludes it where the residual is zero. -/
def ResidualNonzero (x : List ℝ) (p : ℕ) : Prop := ∀ c, IsPredictor x p c → lpResidual x p c ≠ 0

/-- C195: `plp` is continuous wherever it returns, apart from coefficient `0` of frames with residual zero. -/
theorem C195_plp (a : Args) (fb : List (List ℝ)) (sig : List ℝ) (l s : ℕ) (h : Setup a fb sig l s) (ho : 2 ≤ a.numCeps)
    (hl : a.lifter = none) (hn : a.normalize = none)
    (hpos : ∀ i < (sig.length - l) / s + 1, ∃ n < min a.nfft fb.length,
      bandEnergy fb (windowWeight a.win.winType l) (emphasised a.preEmph a.preEmphCoeff sig) l s a.nfft i n ≠ 0) :
    ∃ m, plp a sig = .ok m ∧ m.length = (sig.length - l) / s + 1 ∧ ∀ tol > 0, ∃ η > 0, ∀ sig', NearSignal sig sig' η →
      ∃ m', plp a sig' = .ok m' ∧ m'.length = m.length ∧ ∀ i < m.length, ∀ k < a.numCeps,
        (1 ≤ k ∨ ResidualNonzero (plpVector a fb l s i sig) (a.numCeps - 1)) →
        ∃ u v, (m.getD i []).getD k nan = fin u ∧ (m'.getD i []).getD k nan = fin v ∧ |v - u| ≤ tol := by
  obtain ⟨m, hm, hsh, hrow⟩ := C107_plp_meaning a fb sig l s h ho hl hn _ rfl hpos
  refine ⟨m, hm, hsh.1, fun tol ht => ?_⟩
  choose! q hq using fun i (hi : i < (sig.length - l) / s + 1) => hrow i hi _ rfl
  have hE := fun i n => tendsto_bandEnergy sig a.preEmph a.preEmphCoeff fb (windowWeight a.win.winType l) l s a.nfft i n
  have hpos' : ∀ᶠ z in around sig, ∀ i < (sig.length - l) / s + 1, ∃ n < min a.nfft fb.length,
      bandEnergy fb (windowWeight a.win.winType l) (emphasised a.preEmph a.preEmphCoeff z) l s a.nfft i n ≠ 0 := by
    have : ∀ᶠ z in around sig, ∀ i ∈ Finset.range ((sig.length - l) / s + 1), ∃ n < min a.nfft fb.length,
        bandEnergy fb (windowWeight a.win.winType l) (emphasised a.preEmph a.preEmphCoeff z) l s a.nfft i n ≠ 0 := by
      rw [eventually_all_finset]
      intro i hi
      obtain ⟨n, h1, h2⟩ := hpos i (Finset.mem_range.mp hi)
      filter_upwards [(hE i n).eventually_ne h2] with z hz
      exact ⟨n, h1, hz⟩
    filter_upwards [this] with z hz i hi using hz i (Finset.mem_range.mpr hi)
  have hrows : ∀ᶠ z in around sig, ∀ i ∈ Finset.range ((sig.length - l) / s + 1), ∀ b,
      IsPredictor (plpVector a fb l s i z) (a.numCeps - 1) b → ∀ k ≤ a.numCeps - 1,
      (1 ≤ k ∨ lpResidual (plpVector a fb l s i sig) (a.numCeps - 1) (q i) ≠ 0) →
      |lpCoefficient b (lpResidual (plpVector a fb l s i z) (a.numCeps - 1) b) k -
        lpCoefficient (q i) (lpResidual (plpVector a fb l s i sig) (a.numCeps - 1) (q i)) k| ≤ tol := by
    rw [eventually_all_finset]
    intro i hi
    have hi := Finset.mem_range.mp hi
    refine predictor_tendsto (by omega) _ (fun t _ => tendsto_inverseDft a.nfft fb.length t fun j _ =>
      (continuous_intensity.tendsto _).comp (hE i j)) ?_ (hq i hi).1 ht
    obtain ⟨n, h1, h2⟩ := hpos i hi
    exact inverseDft_notSilent h.nfft (fun j => intensity_nonneg' _) ⟨n, h1, (intensity_pos' h2).ne'⟩
  obtain ⟨η, hη, hall⟩ := eventually_around.mp (hpos'.and hrows)
  refine ⟨η, hη, fun sig' hs => ?_⟩
  obtain ⟨hp', hr'⟩ := hall sig' hs
  obtain ⟨m', hm', hsh', hrow'⟩ := C107_plp_meaning a fb sig' l s (h.near hs.1) ho hl hn _ rfl (by rw [hs.1]; exact hp')
  rw [hs.1] at hsh' hrow'
  refine ⟨m', hm', by rw [hsh.1, hsh'.1], fun i hi k hk hcase => ?_⟩
  rw [hsh.1] at hi
  obtain ⟨b, hb1, hb2⟩ := hrow' i hi _ rfl
  exact ⟨_, _, (hq i hi).2 k hk, hb2 k hk, hr' i (Finset.mem_range.mpr hi) b hb1 k (by omega)
    (hcase.imp_right fun hc => hc _ (hq i hi).1)⟩

/-- RASTA filtering of the bands is continuous. -/
theorem tendsto_rasta {sig : List ℝ} {N : ℕ} (hN : 1 ≤ N) {X : List ℝ → ℕ → ℝ}
    (h : ∀ n < N, Tendsto (fun z => X z n) (around sig) (𝓝 (X sig n))) (n : ℕ) (hn : n < N) :
    Tendsto (fun z => (rastaRowOut ((List.range N).map (X z))).getD n 0) (around sig)
      (𝓝 ((rastaRowOut ((List.range N).map (X sig))).getD n 0)) := by
  have hR : ∀ z, Rasta ((List.range N).map (X z)) (rastaRowOut ((List.range N).map (X z))) := fun z =>
    rastaRowOut_spec fun h0 => by
      have := congrArg List.length h0
      simp at this
      omega
  have hlen : ∀ z, ((List.range N).map (X z)).length = N := fun z => by simp
  induction n using Nat.strong_induction_on with
  | _ n ih =>
    by_cases h4 : n < 4
    · have e : ∀ z, (rastaRowOut ((List.range N).map (X z))).getD n 0 = 0 := fun z => (hR z).startup n h4 (by rw [hlen]; exact hn)
      simp only [e]
      exact tendsto_const_nhds
    · have e : ∀ z, (rastaRowOut ((List.range N).map (X z))).getD n 0 = 1/5 * X z n + 1/10 * X z (n-1) - 1/10 * X z (n-3)
          - 1/5 * X z (n-4) + 94/100 * (rastaRowOut ((List.range N).map (X z))).getD (n-1) 0 := fun z => by
        rw [(hR z).rec' n (by omega) (by rw [hlen]; exact hn), getD_map_range_lt _ _ hn, getD_map_range_lt _ _ (by omega),
          getD_map_range_lt _ _ (by omega), getD_map_range_lt _ _ (by omega)]
      rw [e sig]
      simp only [e]
      exact (((((h n hn).const_mul _).add ((h (n-1) (by omega)).const_mul _)).sub ((h (n-3) (by omega)).const_mul _)).sub
        ((h (n-4) (by omega)).const_mul _)).add ((ih (n-1) (by omega) (by omega)).const_mul _)

/-- The vector that `rplp` predicts in frame `i`: as `plpVector`, with the log energies of the frame sent through the RASTA
filter (C90). -/
noncomputable def rplpVector (a : Args) (fb : List (List ℝ)) (l s i : ℕ) (sig : List ℝ) : List ℝ :=
  (List.range a.nfft).map (inverseDft a.nfft fb.length fun n => intensity (Real.exp ((rastaRowOut ((List.range fb.length).map
    fun (n : ℕ) => Real.log (bandEnergy fb (windowWeight a.win.winType l) (emphasised a.preEmph a.preEmphCoeff sig) l s
      a.nfft i n))).getD n 0)))

/-- C195: the same for `rplp`, where all bands of all frames have energy. -/
theorem C195_rplp (a : Args) (fb : List (List ℝ)) (sig : List ℝ) (l s : ℕ) (h : Setup a fb sig l s) (ho : 2 ≤ a.numCeps)
    (hl : a.lifter = none) (hn : a.normalize = none)
    (hpos : ∀ i < (sig.length - l) / s + 1, ∀ n < fb.length,
      0 < bandEnergy fb (windowWeight a.win.winType l) (emphasised a.preEmph a.preEmphCoeff sig) l s a.nfft i n) :
    ∃ m, rplp a sig = .ok m ∧ m.length = (sig.length - l) / s + 1 ∧ ∀ tol > 0, ∃ η > 0, ∀ sig', NearSignal sig sig' η →
      ∃ m', rplp a sig' = .ok m' ∧ m'.length = m.length ∧ ∀ i < m.length, ∀ k < a.numCeps,
        (1 ≤ k ∨ ResidualNonzero (rplpVector a fb l s i sig) (a.numCeps - 1)) →
        ∃ u v, (m.getD i []).getD k nan = fin u ∧ (m'.getD i []).getD k nan = fin v ∧ |v - u| ≤ tol := by
  have hR : ∀ z i, Rasta ((List.range fb.length).map fun (n : ℕ) => Real.log (bandEnergy fb (windowWeight a.win.winType l)
      (emphasised a.preEmph a.preEmphCoeff z) l s a.nfft i n)) (rastaRowOut ((List.range fb.length).map fun (n : ℕ) =>
      Real.log (bandEnergy fb (windowWeight a.win.winType l) (emphasised a.preEmph a.preEmphCoeff z) l s a.nfft i n))) :=
    fun z i => rastaRowOut_spec fun h0 => by
      have := congrArg List.length h0
      rw [List.length_map, List.length_range] at this
      have := h.rows
      simp_all
  obtain ⟨m, hm, hsh, hrow⟩ := C107_rplp_meaning a fb sig l s h ho hl hn _ rfl hpos
  refine ⟨m, hm, hsh.1, fun tol ht => ?_⟩
  choose! q hq using fun i (hi : i < (sig.length - l) / s + 1) => hrow i hi _ _ (hR sig i) rfl
  have hE := fun i n => tendsto_bandEnergy sig a.preEmph a.preEmphCoeff fb (windowWeight a.win.winType l) l s a.nfft i n
  have hpos' : ∀ᶠ z in around sig, ∀ i ∈ Finset.range ((sig.length - l) / s + 1), ∀ n ∈ Finset.range fb.length,
      0 < bandEnergy fb (windowWeight a.win.winType l) (emphasised a.preEmph a.preEmphCoeff z) l s a.nfft i n := by
    rw [eventually_all_finset]
    intro i hi
    rw [eventually_all_finset]
    intro n hn'
    exact (hE i n).eventually (lt_mem_nhds (hpos i (Finset.mem_range.mp hi) n (Finset.mem_range.mp hn')))
  have hrows : ∀ᶠ z in around sig, ∀ i ∈ Finset.range ((sig.length - l) / s + 1), ∀ b,
      IsPredictor (rplpVector a fb l s i z) (a.numCeps - 1) b → ∀ k ≤ a.numCeps - 1,
      (1 ≤ k ∨ lpResidual (rplpVector a fb l s i sig) (a.numCeps - 1) (q i) ≠ 0) →
      |lpCoefficient b (lpResidual (rplpVector a fb l s i z) (a.numCeps - 1) b) k -
        lpCoefficient (q i) (lpResidual (rplpVector a fb l s i sig) (a.numCeps - 1) (q i)) k| ≤ tol := by
    rw [eventually_all_finset]
    intro i hi
    have hi := Finset.mem_range.mp hi
    refine predictor_tendsto (by omega) _ (fun t _ => tendsto_inverseDft a.nfft fb.length t fun j hj =>
      (continuous_intensity.tendsto _).comp ((Real.continuous_exp.tendsto _).comp
        (tendsto_rasta (X := fun z n => Real.log (bandEnergy fb (windowWeight a.win.winType l)
          (emphasised a.preEmph a.preEmphCoeff z) l s a.nfft i n)) h.rows (fun n hn' =>
          (Real.continuousAt_log (hpos i hi n hn').ne').tendsto.comp (hE i n)) j hj))) ?_ (hq i hi).1 ht
    have := h.rows
    have := h.nfft
    exact inverseDft_notSilent h.nfft (fun j => intensity_nonneg' _) ⟨0, by omega, (intensity_pos' (Real.exp_pos _).ne').ne'⟩
  obtain ⟨η, hη, hall⟩ := eventually_around.mp (hpos'.and hrows)
  refine ⟨η, hη, fun sig' hs => ?_⟩
  obtain ⟨hp', hr'⟩ := hall sig' hs
  obtain ⟨m', hm', hsh', hrow'⟩ := C107_rplp_meaning a fb sig' l s (h.near hs.1) ho hl hn _ rfl (by
    rw [hs.1]
    exact fun i hi n hn' => hp' i (Finset.mem_range.mpr hi) n (Finset.mem_range.mpr hn'))
  rw [hs.1] at hsh' hrow'
  refine ⟨m', hm', by rw [hsh.1, hsh'.1], fun i hi k hk hcase => ?_⟩
  rw [hsh.1] at hi
  obtain ⟨b, hb1, hb2⟩ := hrow' i hi _ _ (hR sig' i) rfl
  exact ⟨_, _, (hq i hi).2 k hk, hb2 k hk, hr' i (Finset.mem_range.mpr hi) b hb1 k (by omega)
    (hcase.imp_right fun hc => hc _ (hq i hi).1)⟩

/-- The hypotheses are met: two frames, two bands, order 2. -/
example : (∃ m, plp demo2 [5, 1, 4] = .ok m ∧ ∃ η > 0, ∀ sig', NearSignal [5, 1, 4] sig' η → ∃ m', plp demo2 sig' = .ok m' ∧
      ∃ u v, (m.getD 1 []).getD 1 nan = fin u ∧ (m'.getD 1 []).getD 1 nan = fin v ∧ |v - u| ≤ 1 / 1000) ∧
    ∃ m, rplp demo2 [5, 1, 4] = .ok m ∧ ∃ η > 0, ∀ sig', NearSignal [5, 1, 4] sig' η → ∃ m', rplp demo2 sig' = .ok m' ∧
      ∃ u v, (m.getD 1 []).getD 1 nan = fin u ∧ (m'.getD 1 []).getD 1 nan = fin v ∧ |v - u| ≤ 1 / 1000 := by
  constructor
  · obtain ⟨m, h1, h2, h3⟩ := C195_plp demo2 _ _ 2 1 demo2_setup le_rfl rfl rfl
      (fun i hi => ⟨0, by simp [demo2], (demo2_energy i 0 hi (by norm_num)).ne'⟩)
    obtain ⟨η, hη, h4⟩ := h3 (1 / 1000) (by norm_num)
    refine ⟨m, h1, η, hη, fun sig' hs => ?_⟩
    obtain ⟨m', h5, -, h6⟩ := h4 sig' hs
    exact ⟨m', h5, h6 1 (by rw [h2]; simp) 1 (by simp [demo2]) (Or.inl le_rfl)⟩
  · obtain ⟨m, h1, h2, h3⟩ := C195_rplp demo2 _ _ 2 1 demo2_setup le_rfl rfl rfl (fun i hi n hn => demo2_energy i n hi hn)
    obtain ⟨η, hη, h4⟩ := h3 (1 / 1000) (by norm_num)
    refine ⟨m, h1, η, hη, fun sig' hs => ?_⟩
    obtain ⟨m', h5, -, h6⟩ := h4 sig' hs
    exact ⟨m', h5, h6 1 (by rw [h2]; simp) 1 (by simp [demo2]) (Or.inl le_rfl)⟩

end Props
end Spafe
