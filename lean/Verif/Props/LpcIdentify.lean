import Verif.Props.Envelope
import Verif.Spec.AllPole

/-!
C154: linear prediction identifies an all-pole filter from its response to an impulse. The frame consists of the first `N`
samples of the response of `1 / (1 + b_1 z^-1 + ... + b_p z^-p)`; the coefficients computed by `lpc`
(`spafe/features/lpc.py:25-86`) differ from `b` only through what the frame cuts off, and converge to `b`.
-/

set_option linter.unusedSectionVars false

namespace Spafe
namespace Props

open Model XF Spec Filter Topology

/-- The first `N` samples. -/
noncomputable abbrev firstSamples (x : ℕ → ℝ) (N : ℕ) : List ℝ := (List.range N).map x

theorem firstSamples_getD (x : ℕ → ℝ) {N n : ℕ} (h : n < N) : (firstSamples x N).getD n 0 = x n := by
  rw [List.getD_eq_getElem _ _ (by simpa using h)]
  simp

theorem sh_first (x : ℕ → ℝ) {N n k : ℕ} (h : n < N) : sh (firstSamples x N) k n = if k ≤ n then x (n - k) else 0 := by
  unfold sh
  split_ifs
  · exact firstSamples_getD x (by omega)
  · rfl

/-- Sums over the delays `1, ..., p` at time `n < N`. -/
theorem sum_sh_first (x d : ℕ → ℝ) {N n : ℕ} (p : ℕ) (h : n < N) :
    ∑ k ∈ Finset.Icc 1 p, d k * sh (firstSamples x N) k n = ∑ k ∈ Finset.Icc 1 (min n p), d k * x (n - k) := by
  rw [← Finset.sum_subset (s₁ := Finset.Icc 1 (min n p)) (Finset.Icc_subset_Icc le_rfl (min_le_right _ _))]
  · refine Finset.sum_congr rfl fun k hk => ?_
    have := Finset.mem_Icc.mp hk
    rw [sh_first x h, if_pos (by omega)]
  · intro k hk hk'
    have h1 := Finset.mem_Icc.mp hk
    have h2 : ¬ (1 ≤ k ∧ k ≤ min n p) := fun h => hk' (Finset.mem_Icc.mpr h)
    rw [sh_first x h, if_neg (by omega), mul_zero]

theorem errorAt_response {p : ℕ} {b : ℕ → ℝ} {g : ℝ} {x : ℕ → ℝ} (hx : IsImpulseResponse p b g x) {N n : ℕ} (h : n < N) :
    predErrorAt (firstSamples x N) p b n = if n = 0 then g else 0 := by
  rw [predErrorAt_natCast, sum_sh_first x b p h, sh_first x h, if_pos (Nat.zero_le _), Nat.sub_zero]
  split_ifs with h0
  · subst h0
    rw [hx.1]; simp
  · rw [hx.2 n (by omega)]; ring

theorem errorAt_after (x : ℕ → ℝ) (p : ℕ) (b : ℕ → ℝ) (N m : ℕ) :
    predErrorAt (firstSamples x N) p b (N + m : ℕ) =
      ∑ k ∈ Finset.Icc (m + 1) (min p (N + m)), b k * x (N + m - k) := by
  rw [predErrorAt_natCast]
  have h0 : sh (firstSamples x N) 0 (N + m) = 0 := by
    rw [sh, if_pos (Nat.zero_le _), List.getD_eq_default _ _ (by simp)]
  rw [h0, zero_add]
  rw [← Finset.sum_subset (s₁ := Finset.Icc (m + 1) (min p (N + m)))
    (Finset.Icc_subset_Icc (by omega) (min_le_left _ _))]
  · refine Finset.sum_congr rfl fun k hk => ?_
    have := Finset.mem_Icc.mp hk
    rw [sh, if_pos (by omega), firstSamples_getD x (by omega)]
  · intro k hk hk'
    have h1 := Finset.mem_Icc.mp hk
    have h2 : ¬ (m + 1 ≤ k ∧ k ≤ min p (N + m)) := fun h => hk' (Finset.mem_Icc.mpr h)
    rw [sh]
    split_ifs
    · rw [List.getD_eq_default _ _ (by simp; omega), mul_zero]
    · rw [mul_zero]

theorem predError_response {p : ℕ} {b : ℕ → ℝ} {g : ℝ} {x : ℕ → ℝ} (hx : IsImpulseResponse p b g x) {N : ℕ} (hN : 1 ≤ N) :
    predError (firstSamples x N) p b = g ^ 2 + cutOff x p b N := by
  unfold predError
  rw [show (firstSamples x N).length + p = N + p by simp, Finset.sum_range_add]
  congr 1
  · rw [Finset.sum_eq_single_of_mem 0 (Finset.mem_range.mpr hN)]
    · have := errorAt_response hx (N := N) (n := 0) hN
      rw [this, if_pos rfl]
    · intro n hn h0
      rw [errorAt_response hx (Finset.mem_range.mp hn), if_neg h0]
      ring
  · refine Finset.sum_congr rfl fun m _ => ?_
    rw [errorAt_after]

/-- **C154** (finite frames). Let the frame be the first `N` samples of the response of an all-pole filter with the coefficients
`b` to an impulse of height `g`, and `a` the coefficients computed from it with the order of the filter. The difference
`b - a`, filtered by the response, has no more energy within the frame than the prediction error of `b` after the end of the frame,
which involves the last `p` samples only; and the prediction error of `a` lies between `g²` and `g²` plus that energy. -/
theorem C154_bound (p : ℕ) (b : ℕ → ℝ) (g : ℝ) (x : ℕ → ℝ) (hx : IsImpulseResponse p b g x) (N : ℕ) (hN : 1 ≤ N)
    (a : List ℝ) (e : ℝ) (h : lpcHelper ((List.range N).map x) p = .ok (a, e)) :
    ∑ n ∈ Finset.range N, (∑ k ∈ Finset.Icc 1 (min n p), (b k - a.getD k 0) * x (n - k)) ^ 2 ≤ cutOff x p b N ∧
    g ^ 2 ≤ predError ((List.range N).map x) p (fun k => a.getD k 0) ∧
    predError ((List.range N).map x) p (fun k => a.getD k 0) ≤ g ^ 2 + cutOff x p b N := by
  obtain ⟨-, -, hu⟩ := C59_normal_equations _ _ _ _ h
  have h1 := predError_expand (u := fun k => a.getD k 0) hu b
  change predError (firstSamples x N) p b = predError (firstSamples x N) p _ + _ at h1
  rw [predError_response hx hN] at h1
  have h2 : g ^ 2 ≤ predError (firstSamples x N) p (fun k => a.getD k 0) := by
    have h3 : predErrorAt (firstSamples x N) p (fun k => a.getD k 0) (0 : ℕ) = g := by
      rw [predErrorAt_natCast, sum_sh_first x _ p hN, sh_first x hN, if_pos le_rfl]
      simp [hx.1]
    rw [← h3]
    unfold predError
    exact Finset.single_le_sum (f := fun n : ℕ => predErrorAt (firstSamples x N) p (fun k => a.getD k 0) n ^ 2)
      (fun n _ => sq_nonneg _) (Finset.mem_range.mpr (by simp; omega))
  have h4 : ∑ n ∈ Finset.range N, (∑ k ∈ Finset.Icc 1 (min n p), (b k - a.getD k 0) * x (n - k)) ^ 2 ≤
      ∑ n ∈ Finset.range ((firstSamples x N).length + p),
        (∑ k ∈ Finset.Icc 1 p, (b k - a.getD k 0) * sh (firstSamples x N) k n) ^ 2 := by
    rw [show (firstSamples x N).length + p = N + p by simp, Finset.sum_range_add]
    refine le_trans (le_of_eq ?_) (le_add_of_nonneg_right (Finset.sum_nonneg fun _ _ => sq_nonneg _))
    refine Finset.sum_congr rfl fun n hn => ?_
    rw [sum_sh_first x (fun k => b k - a.getD k 0) p (Finset.mem_range.mp hn)]
  have h5 : 0 ≤ ∑ n ∈ Finset.range N, (∑ k ∈ Finset.Icc 1 (min n p), (b k - a.getD k 0) * x (n - k)) ^ 2 :=
    Finset.sum_nonneg fun _ _ => sq_nonneg _
  refine ⟨by linarith, h2, by linarith⟩

/-! ### The limit of long frames -/

/-- The response of a stable filter is absolutely summable. -/
theorem response_summable {p : ℕ} {b : ℕ → ℝ} {g : ℝ} {x : ℕ → ℝ} (hb0 : b 0 = 1)
    (hb : ∀ z : ℂ, ∑ k ∈ Finset.range (p + 1), (b k : ℂ) * z ^ (p - k) = 0 → ‖z‖ < 1)
    (hx : IsImpulseResponse p b g x) : Summable fun n => |x n| := by
  obtain ⟨a, ha⟩ : ∃ a, a = (List.range (p + 1)).map b := ⟨_, rfl⟩
  have hl : a.length = p + 1 := by rw [ha]; simp
  have hak : ∀ k, k ≤ p → a.getD k 0 = b k := by
    intro k hk
    rw [ha, List.getD_eq_getElem _ _ (by simp; omega)]; simp
  have h0 : a.getD 0 0 = 1 := by rw [hak 0 (Nat.zero_le _), hb0]
  have hf := ser_factors hl h0
  obtain ⟨ps, hps⟩ : ∃ ps, ps = ((lpPoly a p).map Complex.ofRealHom).roots.toList := ⟨_, rfl⟩
  rw [← hps] at hf
  have hdisc : ∀ r ∈ ps, ‖r‖ < 1 := fun r hr => by
    rw [hps, Multiset.mem_toList] at hr
    apply hb r
    rw [← lpPoly_root hr]
    refine Finset.sum_congr rfl fun k hk => ?_
    rw [hak k (by have := Finset.mem_range.mp hk; omega)]
  obtain ⟨X, hX⟩ : ∃ X : PowerSeries ℝ, X = PowerSeries.mk x := ⟨_, rfl⟩
  have hXc : ∀ n, PowerSeries.coeff n X = x n := fun n => by rw [hX, PowerSeries.coeff_mk]
  have hga : ser a * X = PowerSeries.C g := by
    ext n
    rw [coeff_ser_mul, PowerSeries.coeff_C]
    split_ifs with hn
    · subst hn
      rw [Finset.sum_range_one, h0, hXc, hx.1]; ring
    · rw [sum_range_Icc n fun k => a.getD k 0 * PowerSeries.coeff (n - k) X, h0, one_mul, Nat.sub_zero, hXc, hx.2 n (by omega)]
      have : ∑ k ∈ Finset.Icc 1 n, a.getD k 0 * PowerSeries.coeff (n - k) X =
          ∑ k ∈ Finset.Icc 1 (min n p), b k * x (n - k) := by
        rw [← Finset.sum_subset (s₁ := Finset.Icc 1 (min n p)) (Finset.Icc_subset_Icc le_rfl (min_le_left _ _))]
        · refine Finset.sum_congr rfl fun k hk => ?_
          have := Finset.mem_Icc.mp hk
          rw [hXc, hak k (by omega)]
        · intro k hk hk'
          have h1 := Finset.mem_Icc.mp hk
          have h2 : ¬ (1 ≤ k ∧ k ≤ min n p) := fun h => hk' (Finset.mem_Icc.mpr h)
          rw [List.getD_eq_default _ _ (by omega), zero_mul]
      rw [this]; ring
  have hgm : PowerSeries.map Complex.ofRealHom X = PowerSeries.C (g : ℂ) * (ps.map geo).prod := by
    have h1 := congrArg (PowerSeries.map Complex.ofRealHom) hga
    rw [map_mul, hf, PowerSeries.map_C] at h1
    calc PowerSeries.map Complex.ofRealHom X =
          ((ps.map fun p => 1 - PowerSeries.C p * PowerSeries.X).prod * (ps.map geo).prod) *
          PowerSeries.map Complex.ofRealHom X := by rw [geo_prod, one_mul]
      _ = ((ps.map fun p => 1 - PowerSeries.C p * PowerSeries.X).prod * PowerSeries.map Complex.ofRealHom X) *
          (ps.map geo).prod := by ring
      _ = _ := by rw [h1]; rfl
  have hL : L1 ((ps.map geo).prod) := by
    refine L1_prod _ fun φ hφ => ?_
    obtain ⟨r, hr, rfl⟩ := List.mem_map.mp hφ
    exact L1_geo (hdisc r hr)
  have hL2 : Summable fun n => ‖(g : ℂ)‖ * ‖PowerSeries.coeff n (ps.map geo).prod‖ := hL.mul_left _
  refine hL2.congr fun n => ?_
  have := congrArg (PowerSeries.coeff n) hgm
  rw [PowerSeries.coeff_map, PowerSeries.coeff_C_mul, hXc] at this
  rw [← norm_mul, ← this]
  simp

theorem cutOff_tendsto {x : ℕ → ℝ} (hx : Tendsto x atTop (𝓝 0)) (p : ℕ) (b : ℕ → ℝ) :
    Tendsto (cutOff x p b) atTop (𝓝 0) := by
  have h1 : ∀ m ∈ Finset.range p, Tendsto (fun N => (∑ k ∈ Finset.Icc (m + 1) p, b k * x (N + m - k)) ^ 2) atTop (𝓝 0) := by
    intro m _
    have : Tendsto (fun N => ∑ k ∈ Finset.Icc (m + 1) p, b k * x (N + m - k)) atTop (𝓝 (∑ k ∈ Finset.Icc (m + 1) p, b k * 0)) := by
      refine tendsto_finset_sum _ fun k _ => (hx.comp ?_).const_mul _
      refine tendsto_atTop_mono (f := fun N => N - k) (fun N => by omega) (tendsto_sub_atTop_nat k)
    simpa using this.pow 2
  have h2 := tendsto_finset_sum _ h1
  rw [Finset.sum_const_zero] at h2
  refine h2.congr' ?_
  filter_upwards [eventually_ge_atTop p] with N hN
  unfold cutOff
  refine Finset.sum_congr rfl fun m _ => ?_
  rw [min_eq_left (by omega)]

/-- **C154** (long frames). If the filter is stable (all zeros of `z^p + b_1 z^(p-1) + ... + b_p` in the open unit disc) and the
impulse is not 0, the coefficients are defined for every number `N ≥ 1` of samples of its response, and converge to those of the
filter; the prediction error converges to the square of the impulse. -/
theorem C154_limit (p : ℕ) (hp : 1 ≤ p) (b : ℕ → ℝ) (hb0 : b 0 = 1)
    (hb : ∀ z : ℂ, ∑ k ∈ Finset.range (p + 1), (b k : ℂ) * z ^ (p - k) = 0 → ‖z‖ < 1)
    (g : ℝ) (hg : g ≠ 0) (x : ℕ → ℝ) (hx : IsImpulseResponse p b g x) :
    ∃ (a : ℕ → List ℝ) (e : ℕ → ℝ), (∀ N, 1 ≤ N → lpcHelper ((List.range N).map x) p = .ok (a N, e N)) ∧
      (∀ k ≤ p, Tendsto (fun N => (a N).getD k 0) atTop (𝓝 (b k))) ∧
      Tendsto (fun N => predError ((List.range N).map x) p (fun k => (a N).getD k 0)) atTop (𝓝 (g ^ 2)) := by
  have hdef : ∀ N, ∃ q : List ℝ × ℝ, 1 ≤ N → lpcHelper ((List.range N).map x) p = .ok q := by
    intro N
    by_cases hN : 1 ≤ N
    · have hns : NotSilent ((List.range N).map x) :=
        ⟨g, List.mem_map.mpr ⟨0, List.mem_range.mpr hN, hx.1⟩, hg⟩
      obtain ⟨q, hq⟩ := ((C61_defined_iff _ p (notSilent_ne_nil hns) hp).1).2 hns
      exact ⟨q, fun _ => hq⟩
    · exact ⟨([], 0), fun h => absurd h hN⟩
  choose q hq using hdef
  have hok : ∀ N, 1 ≤ N → lpcHelper ((List.range N).map x) p = .ok ((q N).1, (q N).2) := hq
  refine ⟨fun N => (q N).1, fun N => (q N).2, hok, ?_, ?_⟩
  all_goals
    have hx0 : Tendsto x atTop (𝓝 0) := by
      have := (response_summable hb0 hb hx).tendsto_atTop_zero
      exact (tendsto_zero_iff_abs_tendsto_zero _).2 this
    have hc := cutOff_tendsto hx0 p b
  · have key : ∀ k ≤ p, 1 ≤ k → Tendsto (fun N => b k - (q N).1.getD k 0) atTop (𝓝 0) := by
      intro k
      induction k using Nat.strong_induction_on with
      | _ k ih =>
        intro hk h1
        have hs : Tendsto (fun N => ∑ j ∈ Finset.Icc 1 k, (b j - (q N).1.getD j 0) * x (k - j)) atTop (𝓝 0) := by
          have hsq : Tendsto (fun N => Real.sqrt (cutOff x p b N)) atTop (𝓝 0) := by
            have := (Real.continuous_sqrt.tendsto 0).comp hc
            rwa [Real.sqrt_zero] at this
          refine squeeze_zero_norm' ?_ hsq
          filter_upwards [eventually_gt_atTop k] with N hN
          rw [Real.norm_eq_abs]
          apply Real.abs_le_sqrt
          have h2 := (C154_bound p b g x hx N (by omega) _ _ (hok N (by omega))).1
          refine le_trans ?_ h2
          have h3 := Finset.single_le_sum
            (f := fun n => (∑ j ∈ Finset.Icc 1 (min n p), (b j - (q N).1.getD j 0) * x (n - j)) ^ 2)
            (fun n _ => sq_nonneg _) (Finset.mem_range.mpr hN)
          simp only [min_eq_left hk] at h3
          exact h3
        have hr : Tendsto (fun N => ∑ j ∈ Finset.Icc 1 (k - 1), (b j - (q N).1.getD j 0) * x (k - j)) atTop (𝓝 0) := by
          have : Tendsto (fun N => ∑ j ∈ Finset.Icc 1 (k - 1), (b j - (q N).1.getD j 0) * x (k - j)) atTop
              (𝓝 (∑ j ∈ Finset.Icc 1 (k - 1), 0 * x (k - j))) := by
            refine tendsto_finset_sum _ fun j hj => ?_
            have := Finset.mem_Icc.mp hj
            exact (ih j (by omega) (by omega) this.1).mul_const _
          simpa using this
        have hd := (hs.sub hr).div_const g
        rw [sub_zero, zero_div] at hd
        refine hd.congr fun N => ?_
        have hsplit : ∑ j ∈ Finset.Icc 1 k, (b j - (q N).1.getD j 0) * x (k - j) =
            ∑ j ∈ Finset.Icc 1 (k - 1), (b j - (q N).1.getD j 0) * x (k - j) + (b k - (q N).1.getD k 0) * g := by
          obtain ⟨k', rfl⟩ : ∃ k', k = k' + 1 := ⟨k - 1, by omega⟩
          rw [Finset.sum_Icc_succ_top (by omega), Nat.sub_self, hx.1, Nat.add_sub_cancel]
        rw [hsplit, add_sub_cancel_left, mul_div_cancel_right₀ _ hg]
    intro k hk
    by_cases h1 : 1 ≤ k
    · have := (key k hk h1).const_sub (b k)
      simpa using this
    · obtain rfl : k = 0 := by omega
      refine tendsto_const_nhds.congr' ?_
      filter_upwards [eventually_ge_atTop 1] with N hN
      rw [(C59_normal_equations _ _ _ _ (hok N hN)).2.1, hb0]
  · have h1 : Tendsto (fun N => g ^ 2 + cutOff x p b N) atTop (𝓝 (g ^ 2)) := by
      have := hc.const_add (g ^ 2)
      rwa [add_zero] at this
    refine tendsto_of_tendsto_of_tendsto_of_le_of_le' tendsto_const_nhds h1 ?_ ?_
    · filter_upwards [eventually_ge_atTop 1] with N hN
      exact (C154_bound p b g x hx N hN _ _ (hok N hN)).2.1
    · filter_upwards [eventually_ge_atTop 1] with N hN
      exact (C154_bound p b g x hx N hN _ _ (hok N hN)).2.2

/-- **C154** for the rows of `lpc` (called with `order = p + 1`, `spafe/features/lpc.py:176`): if the samples under window `i`,
after pre-emphasis, are those of the response, the row satisfies the bound. -/
theorem C154_lpc (a : LpcArgs) (sig : List ℝ) (l s : ℕ) (hl : pyInt (a.win.winLen * a.fs) = l)
    (hs : pyInt (a.win.winHop * a.fs) = s) (hs0 : 0 < s) (hl1 : 1 ≤ l) (A : List (List ℝ)) (Es : List ℝ)
    (h : lpc a sig = .ok (A, Es)) (p : ℕ) (hp : p = a.order - 1) (b : ℕ → ℝ) (g : ℝ) (x : ℕ → ℝ)
    (hx : IsImpulseResponse p b g x) :
    ∀ i < (sig.length - l) / s + 1, (∀ j < l, emphasised a.preEmph 0.97 sig (i * s + j) = x j) →
      ∑ n ∈ Finset.range l, (∑ k ∈ Finset.Icc 1 (min n p), (b k - (A.getD i []).getD k 0) * x (n - k)) ^ 2 ≤
        cutOff x p b l := by
  simp only [lpc, bind_ok_iff] at h
  obtain ⟨F, hF, rows, hrows, h⟩ := h
  injection h with h
  injection h with h1 h2
  subst h1
  obtain ⟨-, hFe⟩ := lpcFrames_meaning hl hs hs0 hF
  have hm := (mapM_ok_iff _ _ _).mp hrows
  have hlen := hm.length_eq
  intro i hi hxi
  have hFl : F.length = (sig.length - l) / s + 1 := by rw [hFe]; simp
  have hi1 : i < F.length := by omega
  have hi2 : i < rows.length := by omega
  have hrow := hm.get hi1 hi2
  have hfx : F[i] = (List.range l).map x := by
    have : F[i] = (List.range l).map fun (j : ℕ) => emphasised a.preEmph 0.97 sig (i * s + j) := by
      simp [hFe]
    rw [this]
    refine List.map_congr_left fun j hj => ?_
    exact hxi j (List.mem_range.mp hj)
  have hA : (rows.map Prod.fst).getD i [] = rows[i].1 := by
    rw [List.getD_eq_getElem _ _ (by simpa using hi2), List.getElem_map]
  have hh : lpcHelper ((List.range l).map x) p = .ok (rows[i].1, rows[i].2) := by
    rw [← hfx, hp]; exact hrow
  rw [hA]
  exact (C154_bound p b g x hx l hl1 _ _ hh).1

/-! ### One pole: the exact value -/

/-- A decaying exponential is the response of the one-pole filter `1 / (1 - ρ z^-1)`. -/
theorem exponential_response (ρ g : ℝ) :
    IsImpulseResponse 1 (fun k => if k = 0 then 1 else -ρ) g (fun n => g * ρ ^ n) := by
  refine ⟨by simp, ?_⟩
  intro n hn
  obtain ⟨m, rfl⟩ : ∃ m, n = m + 1 := ⟨n - 1, by omega⟩
  rw [min_eq_right (by omega)]
  simp [pow_succ]
  ring

theorem autoCorr_exponential (ρ g : ℝ) (N k : ℕ) (hk : k ≤ N) :
    autoCorr ((List.range N).map fun (n : ℕ) => g * ρ ^ n) k = g ^ 2 * ρ ^ k * ∑ n ∈ Finset.range (N - k), (ρ ^ 2) ^ n := by
  have h1 : autoCorr (firstSamples (fun n => g * ρ ^ n) N) k =
      ∑ n ∈ Finset.range (N - k), (g * ρ ^ n) * (g * ρ ^ (n + k)) := by
    unfold autoCorr
    rw [show (firstSamples (fun n => g * ρ ^ n) N).length = N by simp]
    rw [← Finset.sum_subset (s₁ := Finset.range (N - k)) (Finset.range_mono (by omega))]
    · refine Finset.sum_congr rfl fun n hn => ?_
      have := Finset.mem_range.mp hn
      rw [show ((n : ℤ) + (k : ℤ)) = ((n + k : ℕ) : ℤ) by push_cast; rfl, ext_natCast, ext_natCast,
        firstSamples_getD _ (by omega), firstSamples_getD _ (by omega)]
    · intro n hn hn'
      have h2 := Finset.mem_range.mp hn
      have h3 : ¬ n < N - k := fun h => hn' (Finset.mem_range.mpr h)
      rw [show ((n : ℤ) + (k : ℤ)) = ((n + k : ℕ) : ℤ) by push_cast; rfl, ext_natCast (n := n + k),
        List.getD_eq_default _ _ (by simp; omega), mul_zero]
  change autoCorr (firstSamples (fun n => g * ρ ^ n) N) k = _
  rw [h1, Finset.mul_sum]
  refine Finset.sum_congr rfl fun n _ => ?_
  rw [pow_add, ← pow_mul, mul_comm 2 n, pow_mul]
  ring

/-- **C154** (exact bias for one pole). For `N ≥ 1` samples of the exponential `g ρ^n` (`ρ² ≠ 1`, `g ≠ 0`) the coefficient of order
one is `-ρ (1 - ρ^(2N-2)) / (1 - ρ^(2N))`, not quite `-ρ`. -/
theorem C154_exponential (ρ g : ℝ) (hg : g ≠ 0) (hρ : ρ ^ 2 ≠ 1) (N : ℕ) (hN : 1 ≤ N) :
    ∃ e, lpcHelper ((List.range N).map fun (n : ℕ) => g * ρ ^ n) 1 =
      .ok ([1, -ρ * (1 - (ρ ^ 2) ^ (N - 1)) / (1 - (ρ ^ 2) ^ N)], e) := by
  have hns : NotSilent ((List.range N).map fun (n : ℕ) => g * ρ ^ n) :=
    ⟨g, List.mem_map.mpr ⟨0, List.mem_range.mpr hN, by simp⟩, hg⟩
  obtain ⟨⟨a, e⟩, hq⟩ := ((C61_defined_iff _ 1 (notSilent_ne_nil hns) le_rfl).1).2 hns
  refine ⟨e, ?_⟩
  rw [hq]
  obtain ⟨h1, h2, h3⟩ := C59_normal_equations _ _ _ _ hq
  have h4 := h3 1 le_rfl le_rfl
  rw [Finset.Icc_self, Finset.sum_singleton] at h4
  simp only [sub_self, Int.natAbs_zero] at h4
  rw [autoCorr_exponential ρ g N 0 (Nat.zero_le _), autoCorr_exponential ρ g N 1 hN, Nat.sub_zero, geom_sum_eq hρ,
    geom_sum_eq hρ] at h4
  have h5 : ρ ^ 2 - 1 ≠ 0 := sub_ne_zero.2 hρ
  have h6 : (ρ ^ 2) ^ N - 1 ≠ 0 := by
    intro h
    have h7 : |ρ ^ 2| = 1 := by
      have : |ρ ^ 2| ^ N = 1 := by rw [← abs_pow, sub_eq_zero.1 h, abs_one]
      exact (pow_eq_one_iff_of_nonneg (abs_nonneg _) (by omega)).1 this
    rw [abs_of_nonneg (sq_nonneg _)] at h7
    exact hρ h7
  have h7 : (1 : ℝ) - (ρ ^ 2) ^ N ≠ 0 := by
    intro h; apply h6; linarith
  have h8 : a.getD 1 0 = -ρ * (1 - (ρ ^ 2) ^ (N - 1)) / (1 - (ρ ^ 2) ^ N) := by
    rw [eq_div_iff h7]
    have h9 : g ^ 2 ≠ 0 := pow_ne_zero 2 hg
    rw [pow_zero, mul_one, pow_one] at h4
    generalize (ρ ^ 2) ^ N = u at *
    generalize (ρ ^ 2) ^ (N - 1) = v at *
    generalize a.getD 1 0 = c at *
    generalize ρ ^ 2 - 1 = d at *
    field_simp at h4
    linarith
  congr 2
  match a, h1, h2, h8 with
  | [u, v], _, h2, h8 =>
    simp only [List.getD_cons_zero, List.getD_cons_succ] at h2 h8
    rw [h2, h8]

/-- Not vacuous: the response `3, 3/2, 3/4, ...` of `1 / (1 - z^-1 / 2)` with an impulse of height 3. The coefficients converge to
those of the filter; with two samples the coefficient is `-2/5`. -/
example : (∃ (a : ℕ → List ℝ) (e : ℕ → ℝ),
      (∀ N, 1 ≤ N → lpcHelper ((List.range N).map fun (n : ℕ) => 3 * (1 / 2 : ℝ) ^ n) 1 = .ok (a N, e N)) ∧
      Tendsto (fun N => (a N).getD 1 0) atTop (𝓝 (-(1 / 2)))) ∧
    ∃ e, lpcHelper [3, 3 / 2] 1 = .ok ([1, -(2 / 5)], e) := by
  constructor
  · obtain ⟨a, e, h1, h2, -⟩ := C154_limit 1 le_rfl (fun k => if k = 0 then 1 else -(1 / 2)) rfl
      (by
        intro z hz
        rw [Finset.sum_range_succ, Finset.sum_range_one] at hz
        simp at hz
        have : z = 1 / 2 := by linear_combination hz
        rw [this]; norm_num)
      3 (by norm_num) _ (exponential_response (1 / 2) 3)
    exact ⟨a, e, h1, h2 1 le_rfl⟩
  · obtain ⟨e, he⟩ := C154_exponential (1 / 2) 3 (by norm_num) (by norm_num) 2 (by norm_num)
    refine ⟨e, ?_⟩
    norm_num [List.range_succ] at he
    exact he

end Props
end Spafe
