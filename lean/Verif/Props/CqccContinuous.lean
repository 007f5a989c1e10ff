import Verif.Props.PlpContinuous
import Verif.Props.Resample

/-! C199: small changes of the signal and `cqcc`. -/

set_option linter.unusedSectionVars false

namespace Spafe
namespace Props
open Model XF Spec Filter Topology

theorem tendsto_cqtEntry {sig : List ℝ} {F : List ℝ → List ℝ} (nfft : ℕ) (ker : List ℂ)
    (h : ∀ t, Tendsto (fun z => (F z).getD t 0) (around sig) (𝓝 ((F sig).getD t 0))) :
    Tendsto (fun z => cqtEntry nfft ker (F z)) (around sig) (𝓝 (cqtEntry nfft ker (F sig))) := by
  unfold cqtEntry Np.dft Np.dftC
  exact tendsto_finsetSum _ fun j _ => Tendsto.mul_const _ (tendsto_finsetSum _ fun t _ => Tendsto.mul_const _
    ((Complex.continuous_ofReal.tendsto _).comp (h t)))

/-- A sample of a windowed frame, zero beyond the end of the frame. -/
theorem frame_sample {w y : List ℝ} {l s i : ℕ} (hw : w.length = l) (hi : i * s + l ≤ y.length) (t : ℕ) :
    (List.zipWith (· * ·) w ((y.drop (i * s)).take l)).getD t 0 = if t < l then w.getD t 0 * y.getD (i * s + t) 0 else 0 := by
  split_ifs with ht
  · rw [getD_zipWith_lt _ _ _ 0 0 0 (by omega) (by simp; omega)]
    congr 1
    simp only [List.getD_eq_getElem?_getD, List.getElem?_take, List.getElem?_drop, if_pos ht]
  · rw [List.getD_eq_default _ _ (by simp; omega)]

theorem tendsto_frame (a : Args) (c : ℝ) {sig w : List ℝ} {l s i : ℕ} (hw : w.length = l) (hi : i * s + l ≤ sig.length) (t : ℕ) :
    Tendsto (fun z => (List.zipWith (· * ·) w (((emph a c z).drop (i * s)).take l)).getD t 0) (around sig)
      (𝓝 ((List.zipWith (· * ·) w (((emph a c sig).drop (i * s)).take l)).getD t 0)) := by
  have key : ∀ z : List ℝ, z.length = sig.length → (List.zipWith (· * ·) w (((emph a c z).drop (i * s)).take l)).getD t 0 =
      if t < l then w.getD t 0 * emphasised a.preEmph c z (i * s + t) else 0 := by
    intro z hz
    rw [frame_sample hw (by rw [emph_length, hz]; exact hi)]
    split_ifs with ht
    · rw [emph_getD' a c z (by omega)]
    · rfl
  rw [key sig rfl]
  refine Tendsto.congr' ((around_length sig).mono fun z hz => (key z hz).symm) ?_
  split_ifs
  · exact (tendsto_emphasised sig _ c _).const_mul _
  · exact tendsto_const_nhds

/-- The transforms of the signals of one length have one shape, and their entries depend continuously on the signal. -/
theorem cqtSpectrogram_family (a : CqtArgs) (hS : 0 < pyInt (a.win.winHop * a.fs)) {sig : List ℝ} {q : List (List ℂ)}
    (h : cqtSpectrogram a sig = .ok q) : ∃ (K N : ℕ) (Z : List ℝ → ℕ → ℕ → ℂ),
      (∀ z : List ℝ, z.length = sig.length →
        cqtSpectrogram a z = .ok ((List.range K).map fun (j : ℕ) => (List.range N).map fun (i : ℕ) => Z z j i)) ∧
      ∀ j < K, ∀ i < N, Tendsto (fun z => Z z j i) (around sig) (𝓝 (Z sig j i)) := by
  unfold cqtSpectrogram at h ⊢
  split_ifs at h ⊢ with hh
  rw [bind_ok_iff] at h
  obtain ⟨W, hW, hq⟩ := h
  obtain ⟨hne, hle, l, s, w, hl, hs, hs0, hlen, hw, hwl, -⟩ := (frontEnd_ok_iff _ _ _ _ hS).mp hW
  rcases computeCqt_form a.fs a.low (some (effHigh a.high a.fs)) a.nfft a.octaves a.bins a.win.winType a.thr a.f0 a.qRate with
    ⟨e, he⟩ | ⟨ker, he⟩
  · rw [he] at hq; cases hq
  refine ⟨ker.length, (sig.length - l) / s + 1, fun z j i => cqtEntry a.nfft (ker.getD j [])
    (List.zipWith (· * ·) w (((emph a.toArgs a.preEmphCoeff z).drop (i * s)).take l)), fun z hz => ?_, fun j _ i hi => ?_⟩
  · have hf : frontEnd a.toArgs a.preEmphCoeff z = _ := (frontEnd_ok_iff _ _ _ _ hS).mpr ⟨fun e => hne ⟨e.1, by
      rw [← List.length_eq_zero_iff, ← hz, e.2]; rfl⟩, hle, l, s, w, hl, hs, hs0, by omega, hw, hwl, rfl⟩
    rw [hf, ok_bind, he, hz]
    congr 1
    apply List.ext_getElem (by simp)
    intro j h1 h2
    simp only [List.length_map] at h1
    simp [List.getElem?_eq_getElem h1]
  · refine tendsto_cqtEntry _ _ (tendsto_frame a.toArgs _ hwl ?_)
    have h3 : i * s ≤ sig.length - l := (Nat.le_div_iff_mul_le hs0).mp (by omega)
    omega

theorem tendsto_cqtLogPower {sig : List ℝ} {Z : List ℝ → ℂ} (h : Tendsto Z (around sig) (𝓝 (Z sig))) (h0 : Z sig ≠ 0) :
    Tendsto (fun z => cqtLogPower (Z z)) (around sig) (𝓝 (cqtLogPower (Z sig))) := by
  have e : ∀ x : ℂ, x ≠ 0 → cqtLogPower x = Real.log (‖x‖ ^ 2) := by
    intro x hx
    unfold cqtLogPower
    rw [if_neg (by positivity)]
  rw [e _ h0]
  refine Tendsto.congr' ((h.eventually_ne h0).mono fun z hz => (e _ hz).symm) ?_
  exact (h.norm.pow 2).log (by positivity)

theorem tendsto_resample {sig : List ℝ} {X : List ℝ → ℕ → ℝ} (num N t : ℕ)
    (h : ∀ i < N, Tendsto (fun z => X z i) (around sig) (𝓝 (X sig i))) :
    Tendsto (fun z => (resample num ((List.range N).map (X z))).getD t 0) (around sig)
      (𝓝 ((resample num ((List.range N).map (X sig))).getD t 0)) := by
  have hd : ∀ k, Tendsto (fun z => Np.dft ((List.range N).map (X z)) N k) (around sig) (𝓝 (Np.dft ((List.range N).map (X sig)) N k)) := by
    intro k
    unfold Np.dft Np.dftC
    refine tendsto_finsetSum _ fun j hj => Tendsto.mul_const _ ((Complex.continuous_ofReal.tendsto _).comp ?_)
    have hj := Finset.mem_range.mp hj
    simp only [getD_map_range_lt _ _ hj]
    exact h j hj
  by_cases ht : t < num
  swap
  · have : ∀ z, (resample num ((List.range N).map (X z))).getD t 0 = 0 := fun z => List.getD_eq_default _ _ (by simp [resample]; omega)
    simp only [this]
    exact tendsto_const_nhds
  simp only [resample, List.length_map, List.length_range, getD_map_range_lt _ _ ht]
  have hY : ∀ k, Tendsto (fun z => if min num N / 2 < k then (0 : ℂ)
      else if min num N % 2 = 0 ∧ k = min num N / 2 ∧ num < N then Np.dft ((List.range N).map (X z)) N k * 2
      else if min num N % 2 = 0 ∧ k = min num N / 2 ∧ N < num then Np.dft ((List.range N).map (X z)) N k * (1 / 2)
      else Np.dft ((List.range N).map (X z)) N k) (around sig) (𝓝 (if min num N / 2 < k then (0 : ℂ)
      else if min num N % 2 = 0 ∧ k = min num N / 2 ∧ num < N then Np.dft ((List.range N).map (X sig)) N k * 2
      else if min num N % 2 = 0 ∧ k = min num N / 2 ∧ N < num then Np.dft ((List.range N).map (X sig)) N k * (1 / 2)
      else Np.dft ((List.range N).map (X sig)) N k)) := by
    intro k
    split_ifs
    · exact tendsto_const_nhds
    · exact (hd k).mul_const _
    · exact (hd k).mul_const _
    · exact hd k
  refine Tendsto.mul_const _ (Tendsto.const_mul _ (Tendsto.add ((Complex.continuous_re.tendsto _).comp (hY 0)) ?_))
  exact tendsto_finsetSum _ fun k _ => Tendsto.const_mul _ ((Complex.continuous_re.tendsto _).comp ((hY k).mul_const _))

/-- C199, the transform: `cqt_spectrogram` depends continuously on the signal, without exception. -/
theorem C199_spectrogram (a : CqtArgs) (hS : 0 < pyInt (a.win.winHop * a.fs)) (sig : List ℝ) (q : List (List ℂ))
    (h : cqtSpectrogram a sig = .ok q) {tol : ℝ} (ht : 0 < tol) : ∃ η > 0, ∀ sig', NearSignal sig sig' η →
      ∃ q', cqtSpectrogram a sig' = .ok q' ∧ q'.length = q.length ∧ ∀ j < q.length, (q'.getD j []).length = (q.getD j []).length ∧
        ∀ i < (q.getD j []).length, ‖(q'.getD j []).getD i 0 - (q.getD j []).getD i 0‖ ≤ tol := by
  obtain ⟨K, N, Z, hZ, hc⟩ := cqtSpectrogram_family a hS h
  obtain rfl := Except.ok.inj (h.symm.trans (hZ sig rfl))
  have hev : ∀ᶠ z in around sig, ∀ j ∈ Finset.range K, ∀ i ∈ Finset.range N, ‖Z z j i - Z sig j i‖ ≤ tol := by
    refine (Filter.eventually_all_finset _).mpr fun j hj => (Filter.eventually_all_finset _).mpr fun i hi => ?_
    have := Metric.tendsto_nhds.mp (hc j (Finset.mem_range.mp hj) i (Finset.mem_range.mp hi)) tol ht
    exact this.mono fun z hz => by rw [dist_eq_norm] at hz; exact hz.le
  obtain ⟨η, hη, hz⟩ := eventually_around.mp hev
  refine ⟨η, hη, fun sig' hn => ⟨_, hZ sig' hn.1, by simp, fun j hj => ?_⟩⟩
  simp only [List.length_map, List.length_range] at hj
  rw [getD_map_range_lt _ _ hj, getD_map_range_lt _ _ hj]
  refine ⟨by simp, fun i hi => ?_⟩
  simp only [List.length_map, List.length_range] at hi
  rw [getD_map_range_lt _ _ hi, getD_map_range_lt _ _ hi]
  exact hz sig' hn j (Finset.mem_range.mpr hj) i (Finset.mem_range.mpr hi)

/-- C199 (missing: signals whose transform has a zero entry, see `C199_violated`): `cqcc` depends continuously on the signal
wherever no entry of the transform vanishes, for every resampling ratio. -/
theorem C199_cqcc_partial (a : CqtArgs) (hd : a.dctType = 2) (hl : a.lifter = none) (hn : a.normalize = none)
    (hS : 0 < pyInt (a.win.winHop * a.fs)) (sig : List ℝ) (m : XMat) (hm : cqcc a sig = .ok m)
    (h0 : ∀ q, cqtSpectrogram a sig = .ok q → ∀ r ∈ q, ∀ x ∈ r, x ≠ 0) {tol : ℝ} (ht : 0 < tol) :
    ∃ η > 0, ∀ sig', NearSignal sig sig' η → ∃ m' c, cqcc a sig' = .ok m' ∧ HasShape m m.length c ∧ HasShape m' m.length c ∧
      ∀ i k, i < m.length → k < c → ∃ y y', (m.getD i []).getD k nan = fin y ∧ (m'.getD i []).getD k nan = fin y' ∧ |y' - y| ≤ tol := by
  obtain ⟨q, hq, hqne, -, -, -, hnum, hsh, hv⟩ := cqcc_entry a hd hl hn sig m hm
  obtain ⟨K, N, Z, hZ, hc⟩ := cqtSpectrogram_family a hS hq
  have h0 := h0 q hq
  have hQ := Except.ok.inj (hq.symm.trans (hZ sig rfl))
  have hK : 0 < K := by
    rcases Nat.eq_zero_or_pos K with e | e
    · subst e; exact absurd hQ (by simpa using hqne)
    · exact e
  have hnz : ∀ j < K, ∀ i < N, Z sig j i ≠ 0 := fun j hj i hi => h0 _ (by
    rw [hQ]; exact List.mem_map.mpr ⟨j, List.mem_range.mpr hj, rfl⟩) _ (List.mem_map.mpr ⟨i, List.mem_range.mpr hi, rfl⟩)
  have hcols : ∀ z, Np.ncols ((List.range K).map fun (j : ℕ) => (List.range N).map fun (i : ℕ) => Z z j i) = N := by
    intro z
    obtain ⟨K', rfl⟩ : ∃ K', K = K' + 1 := ⟨K - 1, by omega⟩
    rw [List.range_succ_eq_map]
    simp [Np.ncols]
  set n := m.length with hnl
  have hqK : q.length = K := by rw [hQ]; simp
  have hcol : Np.ncols q = N := by rw [hQ]; exact hcols sig
  let V := fun (z : List ℝ) (i k : ℕ) => dct2 K (fun j => (resample n ((List.range N).map fun (i : ℕ) => cqtLogPower (Z z j i))).getD i 0) k
  have hT : ∀ i k, Tendsto (fun z => V z i k) (around sig) (𝓝 (V sig i k)) := by
    intro i k
    refine tendsto_finsetSum _ fun j hj => Tendsto.const_mul _ (tendsto_resample (X := fun z i => cqtLogPower (Z z j i)) n N i fun i hi => ?_)
    have hj := Finset.mem_range.mp hj
    exact tendsto_cqtLogPower (Z := fun z => Z z j i) (hc j hj i hi) (hnz j hj i hi)
  have hev : ∀ᶠ z in around sig, ∀ i ∈ Finset.range n, ∀ k ∈ Finset.range (min a.numCeps K), |V z i k - V sig i k| ≤ tol := by
    refine (Filter.eventually_all_finset _).mpr fun i _ => (Filter.eventually_all_finset _).mpr fun k _ => ?_
    exact (Metric.tendsto_nhds.mp (hT i k) tol ht).mono fun z hz => by rw [Real.dist_eq] at hz; exact hz.le
  obtain ⟨η, hη, hz⟩ := eventually_around.mp hev
  have hval : ∀ (z : List ℝ) (j : ℕ), j < K →
      (((List.range K).map fun (j : ℕ) => (List.range N).map fun (i : ℕ) => Z z j i).getD j []).map cqtLogPower =
      (List.range N).map fun (i : ℕ) => cqtLogPower (Z z j i) := by
    intro z j hj
    rw [getD_map_range_lt _ _ hj, List.map_map]
    rfl
  have hV : ∀ (z : List ℝ) (i k : ℕ), dct2 K (fun j => (resample n ((((List.range K).map fun (j : ℕ) =>
      (List.range N).map fun (i : ℕ) => Z z j i).getD j []).map cqtLogPower)).getD i 0) k = V z i k := by
    intro z i k
    refine Finset.sum_congr rfl fun j hj => ?_
    beta_reduce
    rw [hval z j (Finset.mem_range.mp hj)]
  refine ⟨η, hη, fun sig' hs => ?_⟩
  obtain ⟨q₀, hq₀, -, hnum₀, htail, -⟩ := (cqcc_ok_iff a sig m).mp hm
  obtain rfl : q₀ = q := by rw [hq₀] at hq; exact Except.ok.inj hq
  have hns : ∀ (N : ℕ) (x : XMat), normStep { a.toArgs with useEnergy := false } N x = .ok x := by
    intro N x
    unfold normStep
    simp only [hn]
  have hex : ∃ m', cqcc a sig' = .ok m' := by
    refine ⟨_, (cqcc_ok_iff a sig' _).mpr ⟨_, hZ sig' hs.1, by simp; omega, by rw [hcols, ← hcol]; exact hnum₀, by
      simpa [hqK] using htail, hns _ _⟩⟩
  obtain ⟨m', hm'⟩ := hex
  obtain ⟨q', hq', -, -, -, -, hnum', hsh', hv'⟩ := cqcc_entry a hd hl hn sig' m' hm'
  have hQ' := Except.ok.inj (hq'.symm.trans (hZ sig' hs.1))
  have hq'K : q'.length = K := by rw [hQ']; simp
  have hm'n : m'.length = n := by
    rw [hcol] at hnum
    rw [hQ', hcols] at hnum'
    omega
  rw [hm'n] at hsh' hv'
  rw [hqK] at hsh hv
  rw [hq'K] at hsh' hv'
  refine ⟨m', _, hm', hsh, hsh', fun i k hi hk => ⟨_, _, hv i k hi hk, hv' i k hi hk, ?_⟩⟩
  rw [hQ, hQ', hV, hV]
  exact hz sig' hs i (Finset.mem_range.mpr hi) k (Finset.mem_range.mpr hk)

/-- For the tiny configuration the coefficients are the log powers of the samples. -/
theorem tinyCqt_cqcc (sig : List ℝ) (hne : sig ≠ []) : ∃ m, cqcc tinyCqt sig = .ok m ∧ HasShape m sig.length 1 ∧
    ∀ i < sig.length, (m.getD i []).getD 0 nan = fin (cqtLogPower (sig.getD i 0 : ℝ)) := by
  have hsp := tinyCqt_spec sig hne
  have hS : pyInt (tinyCqt.win.winHop * tinyCqt.fs) = ((1 : ℕ) : ℤ) := by
    have : tinyCqt.win.winHop * tinyCqt.fs = 1 := by norm_num [Args.win, tinyCqt]
    rw [this]; norm_num [pyInt]
  have hadm : admissible 1 1 1 0 1 2 0.5 1 = [1] := by
    unfold admissible inBand grid winLen qFactor
    norm_num
  obtain ⟨m, hm, -⟩ := C93_defined tinyCqt (by norm_num [tinyCqt]) (by norm_num [tinyCqt]) (by norm_num [tinyCqt])
    (by norm_num [tinyCqt]) (by norm_num [tinyCqt, effHigh]) (by
      have he : effHigh tinyCqt.high tinyCqt.fs = 1 := by norm_num [effHigh, tinyCqt]
      rw [he]
      change admissible 1 1 1 0 1 2 0.5 1 ≠ []
      rw [hadm]; simp)
    (by simp [WindowName, Args.win, tinyCqt]) (le_refl _) (by rw [hS]; norm_num) (l := 1) hS rfl rfl rfl sig
    (List.length_pos_iff.mpr hne) (by
      have : tinyCqt.ratio = 1 := rfl
      rw [this, mul_one]
      exact_mod_cast Nat.le_add_left 1 _)
  obtain ⟨q, hq, -, -, -, -, hnum, hsh, hv⟩ := cqcc_entry tinyCqt rfl rfl rfl sig m hm
  obtain rfl := Except.ok.inj (hq.symm.trans hsp)
  have hlen : m.length = sig.length := by
    have e : cqccNum tinyCqt.ratio (Np.ncols [sig.map fun (x : ℝ) => (x : ℂ)]) = sig.length := by
      have : tinyCqt.ratio = 1 := rfl
      rw [this]
      unfold cqccNum
      simp [Np.ncols, pyInt_natCast]
    rw [e] at hnum
    exact_mod_cast hnum
  have hc : min tinyCqt.numCeps [sig.map fun (x : ℝ) => (x : ℂ)].length = 1 := by simp [tinyCqt]
  rw [hlen, hc] at hsh hv
  refine ⟨m, hm, hsh, fun i hi => ?_⟩
  rw [hv i 0 hi one_pos]
  congr 1
  have hr : resample sig.length ((sig.map fun (x : ℝ) => (x : ℂ)).map cqtLogPower) = (sig.map fun (x : ℝ) => (x : ℂ)).map cqtLogPower := by
    have := resample_self ((sig.map fun (x : ℝ) => (x : ℂ)).map cqtLogPower)
    rwa [List.length_map, List.length_map] at this
  have hk : Np.dctKernel 2 1 0 0 = 1 := by
    have h4 : √(4 : ℝ) = 2 := by rw [show (4 : ℝ) = 2 ^ 2 by norm_num]; exact Real.sqrt_sq (by norm_num)
    simp [Np.dctKernel, h4]
  simp only [dct2, List.length_cons, List.length_nil, zero_add, Finset.sum_range_one, List.getD_cons_zero, hr, hk, one_mul]
  rw [getD_map_lt _ _ 0 _ (by simpa using hi), getD_map_lt _ _ 0 _ hi]

/-- C199 fails where an entry of the transform vanishes: `zero_handling` replaces the zero by `2.22e-16`, but a power that is
merely tiny is kept. In the tiny configuration, for every signal with a zero sample, all `η > 0` and all `B`, some signal within
`η` has a coefficient that is more than `B` away. -/
theorem C199_violated (sig : List ℝ) (t : ℕ) (ht : t < sig.length) (h0 : sig.getD t 0 = 0) (η B : ℝ) (hη : 0 < η) :
    ∃ sig' m m' y y', NearSignal sig sig' η ∧ cqcc tinyCqt sig = .ok m ∧ cqcc tinyCqt sig' = .ok m' ∧
      (m.getD t []).getD 0 nan = fin y ∧ (m'.getD t []).getD 0 nan = fin y' ∧ B < |y' - y| := by
  have hlim : Tendsto (fun x : ℝ => Real.log (x ^ 2)) (𝓝[>] 0) atBot := by
    have h2 : Tendsto (fun x : ℝ => x ^ 2) (𝓝[>] 0) (𝓝[>] 0) := by
      refine tendsto_nhdsWithin_iff.mpr ⟨?_, eventually_nhdsWithin_of_forall fun x hx => Set.mem_Ioi.mpr (pow_pos (Set.mem_Ioi.mp hx) 2)⟩
      have := ((continuous_pow 2).tendsto (0 : ℝ)).mono_left (nhdsWithin_le_nhds (s := Set.Ioi 0))
      simpa using this
    exact Real.tendsto_log_nhdsGT_zero.comp h2
  obtain ⟨x, hx1, hx2, hx3⟩ := ((hlim.eventually_lt_atBot (Real.log eps - |B|)).and
    ((eventually_nhdsWithin_of_forall fun x hx => Set.mem_Ioi.mp hx).and
      (eventually_nhdsWithin_of_eventually_nhds (eventually_le_nhds hη)))).exists
  have hne : sig ≠ [] := by rintro rfl; simp at ht
  have hne' : sig.set t x ≠ [] := by simpa using hne
  obtain ⟨m, hm, -, hv⟩ := tinyCqt_cqcc sig hne
  obtain ⟨m', hm', -, hv'⟩ := tinyCqt_cqcc (sig.set t x) hne'
  refine ⟨sig.set t x, m, m', _, _, ⟨by simp, fun j hj => ?_⟩, hm, hm', hv t ht, hv' t (by simpa using ht), ?_⟩
  · rw [List.getD_eq_getElem?_getD, List.getElem?_set]
    by_cases e : t = j
    · subst e
      rw [if_pos rfl, if_pos ht, h0]
      simpa [abs_of_pos hx2] using hx3
    · rw [if_neg e, ← List.getD_eq_getElem?_getD, sub_self, abs_zero]
      exact hη.le
  · have hg : (sig.set t x).getD t 0 = x := by
      rw [List.getD_eq_getElem?_getD, List.getElem?_set, if_pos rfl, if_pos ht]; rfl
    have e1 : cqtLogPower ((0 : ℝ) : ℂ) = Real.log eps := by simp [cqtLogPower]
    have e2 : cqtLogPower ((x : ℝ) : ℂ) = Real.log (x ^ 2) := by
      unfold cqtLogPower
      rw [Complex.norm_real, Real.norm_eq_abs, sq_abs, if_neg (by positivity)]
    rw [hg, h0, e1, e2, abs_sub_comm]
    refine lt_of_lt_of_le ?_ (le_abs_self _)
    have := le_abs_self B
    linarith

/-- A concrete case of C199: a signal of two samples in the tiny configuration. -/
example : ∃ m, cqcc tinyCqt [1, -2] = .ok m ∧ ∃ η > 0, ∀ sig', NearSignal [1, -2] sig' η → ∃ m' c, cqcc tinyCqt sig' = .ok m' ∧
    HasShape m m.length c ∧ HasShape m' m.length c ∧ ∀ i k, i < m.length → k < c → ∃ y y', (m.getD i []).getD k nan = fin y ∧
      (m'.getD i []).getD k nan = fin y' ∧ |y' - y| ≤ 1 / 1000 := by
  obtain ⟨m, hm, -⟩ := tinyCqt_cqcc [1, -2] (by simp)
  have hS : 0 < pyInt (tinyCqt.win.winHop * tinyCqt.fs) := by
    have : tinyCqt.win.winHop * tinyCqt.fs = 1 := by norm_num [Args.win, tinyCqt]
    rw [this]; norm_num [pyInt]
  refine ⟨m, hm, C199_cqcc_partial tinyCqt rfl rfl rfl hS _ m hm (fun q hq r hr x hx => ?_) (by norm_num)⟩
  obtain rfl := Except.ok.inj (hq.symm.trans (tinyCqt_spec _ (by simp)))
  simp only [List.map_cons, List.map_nil, List.mem_cons, List.not_mem_nil, or_false] at hr
  subst hr
  simp only [List.mem_cons, List.not_mem_nil, or_false] at hx
  rcases hx with rfl | rfl <;> norm_num

end Props
end Spafe
