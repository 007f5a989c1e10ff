import Verif.Model.Plp
import Verif.Lemmas.Lpc2
import Verif.Lemmas.Finite
import Verif.Lemmas.Psrcc
import Verif.Lemmas.Filters
import Verif.Spec.Filters
import Verif.Props.Filters

/-! Helper lemmas for perceptual linear prediction. -/

set_option linter.unusedSectionVars false

namespace Spafe
open Model XF

/-! ### RASTA on finite rows -/

theorem firZi_fin (b z x : List ℝ) :
    firZi (b.map fin) (z.map fin) (x.map fin) = ((firZi b z x).1.map fin, (firZi b z x).2.map fin) := by
  have h : ∀ l : List ℝ, ∀ i, (l.map fin).getD i 0 = fin (l.getD i 0) := fun l i => by
    by_cases hi : i < l.length
    · rw [getD_map_lt _ _ 0 _ hi]
    · rw [List.getD_eq_default _ _ (by simpa using hi), List.getD_eq_default _ _ (by simpa using hi)]; rfl
  simp only [firZi, List.map_take, List.map_drop, List.map_map, List.length_map]
  have e : (List.range (x.length + b.length - 1)).map (fun (n : ℕ) =>
      ((List.range b.length).map fun (i : ℕ) =>
        if i ≤ n ∧ n - i < x.length then (b.map fin).getD i 0 * (x.map fin).getD (n - i) 0 else 0).sum
          + (z.map fin).getD n 0) =
      (List.range (x.length + b.length - 1)).map (fin ∘ fun (n : ℕ) =>
      ((List.range b.length).map fun (i : ℕ) =>
        if i ≤ n ∧ n - i < x.length then b.getD i 0 * x.getD (n - i) 0 else 0).sum + z.getD n 0) := by
    apply List.map_congr_left
    intro n _
    simp only [Function.comp]
    rw [h, ← XF.fin_add, ← XF.list_sum_fin, List.map_map]
    congr 2
    apply List.map_congr_left
    intro i _
    simp only [Function.comp]
    split_ifs
    · rw [h, h]; rfl
    · rfl
  rw [e]

theorem df2t_fin (b a x : List ℝ) : ∀ z : List ℝ,
    df2t (b.map fin) (a.map fin) (z.map fin) (x.map fin) = ((df2t b a z x).1.map fin, (df2t b a z x).2.map fin) := by
  have h : ∀ l : List ℝ, ∀ i, (l.map fin).getD i 0 = fin (l.getD i 0) := fun l i => by
    by_cases hi : i < l.length
    · rw [getD_map_lt _ _ 0 _ hi]
    · rw [List.getD_eq_default _ _ (by simpa using hi), List.getD_eq_default _ _ (by simpa using hi)]; rfl
  induction x with
  | nil => intro z; rfl
  | cons x xs ih =>
    intro z
    have hs : df2tStep (b.map fin) (a.map fin) (z.map fin) (fin x) =
        (fin (df2tStep b a z x).1, (df2tStep b a z x).2.map fin) := by
      simp only [df2tStep, h, List.length_map, List.map_map, XF.fin_mul, XF.fin_add, XF.fin_sub]
      rfl
    rw [List.map_cons]
    simp only [df2t, hs, ih]
    rfl

theorem rastaRows_fin (b a : List ℝ) (x : List (List ℝ)) : ∀ z : List ℝ,
    rastaRows (b.map fin) (a.map fin) (z.map fin) (x.map fun r => r.map fin) =
      (rastaRows b a z x).map (List.map (List.map fin)) := by
  induction x with
  | nil => intro z; rfl
  | cons r rs ih =>
    intro z
    cases r with
    | nil => rfl
    | cons x0 t =>
      have h1 := firZi_fin b (z.map (· * x0)) ((x0 :: t).take 4)
      have e1 : (z.map fin).map (· * fin x0) = (z.map (· * x0)).map fin := by simp
      have e2 : ((x0 :: t).map fin).take 4 = ((x0 :: t).take 4).map fin := by rw [List.map_take]
      have e3 : ((x0 :: t).map fin).drop 4 = ((x0 :: t).drop 4).map fin := by rw [List.map_drop]
      rw [List.map_cons, List.map_cons, rastaRows, rastaRows, ← List.map_cons, e1, e2, e3, h1]
      simp only [ih, df2t_fin]
      cases rastaRows b a (firZi b (z.map (· * x0)) ((x0 :: t).take 4)).2 rs with
      | error e => rfl
      | ok rest =>
        simp only [Except.map, List.map_cons, List.map_append, List.map_map]
        congr 3

theorem rastaFilterX_fin (x : List (List ℝ)) (hx : ∀ r ∈ x, r ≠ []) :
    rastaFilterX (x.map fun r => r.map fin) = .ok (x.map fun r => (rastaRowOut r).map fin) := by
  have := rastaRows_fin rastaNumer [1, -(94 / 100)] x (lfilterZiFir rastaNumer)
  rw [rastaFilterX, show [fin 1, fin (-(94 / 100))] = ([1, -(94 / 100)] : List ℝ).map fin from rfl, this,
    rastaRows_eq x hx _ rasta_zi_length]
  simp [Except.map]

/-- A constant added to every channel does not change the response. -/
theorem rasta_offset {r o : List ℝ} (h : Spec.Rasta r o) (k : ℝ) : Spec.Rasta (r.map (k + ·)) o := by
  refine ⟨by simpa using h.length, fun n hn hr => h.startup n hn (by simpa using hr), fun n hn hr => ?_⟩
  rw [List.length_map] at hr
  rw [h.rec' n hn hr, getD_map_lt _ _ 0 _ hr, getD_map_lt _ _ 0 _ (by omega), getD_map_lt _ _ 0 _ (by omega),
    getD_map_lt _ _ 0 _ (by omega)]
  ring

theorem rastaRowOut_spec {r : List ℝ} (hr : r ≠ []) : Spec.Rasta r (rastaRowOut r) := by
  obtain ⟨y, hy, h⟩ := Props.C07_rasta_rows [r] (by simpa using hr)
  have h1 : rastaFilter [r] = .ok ([r].map rastaRowOut) := rastaRows_eq _ (by simpa using hr) _ rasta_zi_length
  rw [h1] at hy
  injection hy with hy
  subst hy
  simpa using h

theorem rastaRowOut_offset {r : List ℝ} (hr : r ≠ []) (k : ℝ) : rastaRowOut (r.map (k + ·)) = rastaRowOut r :=
  Props.C07_rasta_unique _ _ _ (rastaRowOut_spec (by simpa using hr)) (rasta_offset (rastaRowOut_spec hr) k)

/-- RASTA on a matrix whose first row starts with an infinity or NaN. -/
theorem rastaFilterX_head {x0 : XF ℝ} (h : x0.isFinite = false) {t : List (XF ℝ)} {rs y : XMat}
    (hy : rastaFilterX ((x0 :: t) :: rs) = .ok y) : ∃ u us, y = (nan :: u) :: us := by
  unfold rastaFilterX at hy
  rw [rastaRows] at hy
  simp only at hy
  split at hy
  · cases hy
  · rename_i rest _
    injection hy with hy
    subst hy
    have hz : (lfilterZiFir (rastaNumer : List ℝ)).getD 0 0 = -1/5 := by
      rw [rastaNumer_eq]; norm_num [lfilterZiFir]
    obtain ⟨z1, zs, hzs⟩ : ∃ z1 zs, lfilterZiFir (rastaNumer : List ℝ) = z1 :: zs := by
      rw [rastaNumer_eq]; exact ⟨_, _, rfl⟩
    rw [hzs] at hz ⊢
    rw [List.getD_cons_zero] at hz
    subst hz
    have hlen : ((x0 :: t).take 4).length = (t.take 3).length + 1 := rfl
    have hf : ∃ u, (firZi ((rastaNumer : List ℝ).map fin) (((-1/5 :: zs : List ℝ).map fin).map (· * x0)) ((x0 :: t).take 4)).1
        = nan :: u := by
      rw [rastaNumer_eq]
      simp only [firZi]
      rw [show ((x0 :: t).take 4) = x0 :: t.take 3 from rfl]
      simp only [List.length_map, List.length_cons, List.length_nil]
      rw [show (t.take 3).length + 1 + (0 + 1 + 1 + 1 + 1 + 1) - 1 = ((t.take 3).length + 4) + 1 by omega, List.range_succ_eq_map (n := (t.take 3).length + 4),
        List.map_cons (f := fun (n : ℕ) => _), List.take_succ_cons]
      refine ⟨_, congrArg (· :: _) ?_⟩
      simp only [List.range_succ, List.range_zero, List.nil_append, List.cons_append, List.map_cons, List.map_nil,
        List.sum_cons, List.sum_nil, List.getD_cons_zero]
      have hx : fin (1 / 5 : ℝ) * x0 + fin (-1 / 5) * x0 = nan := by
        have p : ∀ z : XF ℝ, z.isFinite = false → fin (1 / 5 : ℝ) * z + fin (-1 / 5) * z = nan := by
          intro z hz
          cases z with
          | nan => simp
          | fin v => simp at hz
          | pinf =>
            have : ¬ ((0 : ℝ) < -1 / 5) := by norm_num
            have h2 : (-1 / 5 : ℝ) < 0 := by norm_num
            have h3 : (0 : ℝ) < 1 / 5 := by norm_num
            simp only [XF.mul_def, XF.mul, XF.infMul]
            norm_num [XF.add_def, XF.add]
          | ninf =>
            simp only [XF.mul_def, XF.mul, XF.infMul]
            norm_num [XF.add_def, XF.add]
        exact p x0 h
      rw [one_div] at hx
      simp [hx]
    obtain ⟨u, hu⟩ := hf
    rw [hu]
    exact ⟨_, _, rfl⟩

/-! ### Equal loudness and compression -/

theorem powNat_fin (x : ℝ) (n : ℕ) : powNat (fin x) n = fin (x ^ n) := by
  induction n with
  | zero => simp [powNat]
  | succ n ih => rw [powNat, ih, XF.fin_mul, pow_succ]

/-- The equal-loudness function on real numbers. -/
noncomputable def loudE (x : ℝ) : ℝ :=
  ((x ^ 2 + 56.8 * 10 ^ 6) * x ^ 4) / ((x ^ 2 + 6.3 * 10 ^ 6) * (x ^ 2 + 0.38 * 10 ^ 9) * (x ^ 6 + 9.58 * 10 ^ 26))

theorem loudE_den_pos (x : ℝ) :
    0 < (x ^ 2 + 6.3 * 10 ^ 6) * (x ^ 2 + 0.38 * 10 ^ 9) * (x ^ 6 + 9.58 * 10 ^ 26) := by
  have h6 : 0 ≤ x ^ 6 := by rw [show x ^ 6 = (x ^ 3) ^ 2 by ring]; positivity
  positivity

theorem loudE_nonneg (x : ℝ) : 0 ≤ loudE x := by
  unfold loudE
  have := loudE_den_pos x
  have h4 : 0 ≤ x ^ 4 := by rw [show x ^ 4 = (x ^ 2) ^ 2 by ring]; positivity
  positivity

theorem loudE_pos {x : ℝ} (hx : x ≠ 0) : 0 < loudE x := by
  unfold loudE
  have := loudE_den_pos x
  have h4 : 0 < x ^ 4 := by rw [show x ^ 4 = (x ^ 2) ^ 2 by ring]; positivity
  positivity

theorem loudness_fin (x : ℝ) : loudness (fin x) = fin (loudE x ^ (1 / 3 : ℝ)) := by
  have h : equalLoudness (fin x) = fin (loudE x) := by
    unfold equalLoudness
    simp only [powNat_fin, XF.fin_add, XF.fin_mul]
    rw [XF.fin_div _ _ (loudE_den_pos x).ne', loudE]
  unfold loudness
  rw [h, XF.abs_fin, abs_of_nonneg (loudE_nonneg x), XF.pow_nonneg' (loudE_nonneg x) (by norm_num)]

theorem loud_zero : loudE 0 ^ (1 / 3 : ℝ) = 0 := by
  have : loudE 0 = 0 := by unfold loudE; norm_num
  rw [this, Real.zero_rpow (by norm_num)]

theorem loudness_nan : loudness nan = nan := by
  have h : equalLoudness nan = nan := by simp [equalLoudness, powNat]
  rw [loudness, h]
  simp [XF.abs, XF.pow]

/-! ### Inverse transform -/

theorem ifftAbs_length (n : ℕ) (r : List ℝ) : (ifftAbs n r).length = n := by simp [ifftAbs]

theorem ifftAbs_notSilent {n : ℕ} {r : List ℝ} (hr : ∀ j, 0 ≤ r.getD j 0) :
    Spec.NotSilent (ifftAbs n r) ↔ ∃ j, j < n ∧ r.getD j 0 ≠ 0 := by
  constructor
  · rintro ⟨v, hv, hne⟩
    by_contra hcon
    push Not at hcon
    obtain ⟨k, -, rfl⟩ := List.mem_map.mp hv
    apply hne
    rw [Finset.sum_eq_zero, mul_zero, norm_zero]
    intro j hj
    rw [hcon j (Finset.mem_range.mp hj)]; simp
  · rintro ⟨j, hj, hne⟩
    have hn : 0 < n := by omega
    refine ⟨_, List.mem_map.mpr ⟨0, List.mem_range.mpr hn, rfl⟩, ?_⟩
    have e : (∑ j ∈ Finset.range n, ((r.getD j 0 : ℝ) : ℂ) *
        Complex.exp (2 * Real.pi * Complex.I * (j * ((0 : ℕ) : ℂ)) / n)) = ((∑ j ∈ Finset.range n, r.getD j 0 : ℝ) : ℂ) := by
      push_cast
      apply Finset.sum_congr rfl
      intro i _
      simp
    rw [e]
    have hs : 0 < ∑ j ∈ Finset.range n, r.getD j 0 :=
      Finset.sum_pos' (fun i _ => hr i) ⟨j, Finset.mem_range.mpr hj, lt_of_le_of_ne (hr j) (Ne.symm hne)⟩
    have hn' : (n : ℂ) ≠ 0 := by exact_mod_cast hn.ne'
    rw [norm_ne_zero_iff]
    refine mul_ne_zero (by simpa using hn') ?_
    exact_mod_cast hs.ne'

/-! ### The loop body -/

theorem lpc2lpcc_finite {a : List ℝ} {e : ℝ} (he : 0 ≤ e) (h0 : 1 ≤ a.length) :
    ∃ c, lpc2lpcc a e a.length = .ok c ∧ c.length = a.length ∧ FinRow c := by
  obtain ⟨c, h1, h2, h3, h4, h5⟩ := lpc2lpcc_ok a e h0 le_rfl (by omega)
  refine ⟨c, h1, h2, fun v hv => ?_⟩
  obtain ⟨m, hm, rfl⟩ := (mem_iff_getD 0 v).mp hv
  rcases Nat.eq_zero_or_pos m with h | h
  · subst h
    rw [h3, xZeroHandling, XF.log_pos]
    · exact ⟨_, rfl⟩
    · split_ifs with h0
      · unfold eps; positivity
      · exact lt_of_le_of_ne he (Ne.symm h0)
  · exact ⟨_, h4 m h (by omega)⟩

theorem plpRow_ok {nfft order : ℕ} {r : List ℝ} (ho : 2 ≤ order) (hr : ∀ j, 0 ≤ r.getD j 0)
    (hex : ∃ j, j < nfft ∧ r.getD j 0 ≠ 0) :
    ∃ c, plpRow nfft order (r.map fin) = .ok c ∧ c.length = order ∧ FinRow c := by
  obtain ⟨phi, h1, -⟩ := lpcHelper_ok ((ifftAbs_notSilent hr).mpr hex) (p := order - 1) (by omega)
  have hall : ((r.map fin).take nfft).all XF.isFinite = true := by
    rw [← List.map_take, List.all_map]; simp [Function.comp_def]
  have hmap : (r.map fin).map XF.toNum = r := by simp [Function.comp_def]
  have hlen : (1 :: List.ofFn phi).length = order := by simp; omega
  obtain ⟨c, h2, h3, h4⟩ := lpc2lpcc_finite (a := 1 :: List.ofFn phi) (abs_nonneg (lpcErr (ifftAbs nfft r) (1 :: List.ofFn phi)))
    (by simp)
  rw [hlen] at h2 h3
  refine ⟨c, ?_, h3, h4⟩
  rw [plpRow, if_neg (by omega), if_pos hall, hmap, h1, ok_bind]
  exact h2

theorem plpRow_silent {nfft order : ℕ} {r : List ℝ} (hn : nfft ≠ 0) (ho : 2 ≤ order) (hr : ∀ j, j < nfft → r.getD j 0 = 0) :
    plpRow nfft order (r.map fin) = .error .linAlgError := by
  have hall : ((r.map fin).take nfft).all XF.isFinite = true := by
    rw [← List.map_take, List.all_map]; simp [Function.comp_def]
  have hmap : (r.map fin).map XF.toNum = r := by simp [Function.comp_def]
  have h0 : ifftAbs nfft r ≠ [] := by
    intro h; have := ifftAbs_length nfft r; rw [h] at this; simp at this; omega
  have hs : ¬ Spec.NotSilent (ifftAbs nfft r) := by
    rintro ⟨v, hv, hne⟩
    obtain ⟨k, -, rfl⟩ := List.mem_map.mp hv
    apply hne
    rw [Finset.sum_eq_zero, mul_zero, norm_zero]
    intro j hj
    rw [hr j (Finset.mem_range.mp hj)]; simp
  rw [plpRow, if_neg (by omega), if_pos hall, hmap, lpcHelper_silent h0 hs (by omega)]
  rfl

theorem plpRow_length {nfft order : ℕ} {r c : List (XF ℝ)} (h : plpRow nfft order r = .ok c) :
    2 ≤ order ∧ c.length = order := by
  unfold plpRow at h
  split_ifs at h with h1 h2
  refine ⟨by omega, ?_⟩
  obtain ⟨⟨co, e⟩, h3, h4⟩ := (bind_ok_iff ..).mp h
  simp only at h4
  have hlen : co.length = order := by
    by_cases hx : Spec.NotSilent (ifftAbs nfft (r.map XF.toNum))
    · obtain ⟨phi, h5, -⟩ := lpcHelper_ok hx (p := order - 1) (by omega)
      rw [h3] at h5
      injection h5 with h5
      obtain ⟨rfl, -⟩ := Prod.mk.inj h5
      simp; omega
    · by_cases h0 : ifftAbs nfft (r.map XF.toNum) = []
      · simp [lpcHelper, h0] at h3
      · rw [lpcHelper_silent h0 hx (by omega)] at h3; cases h3
  obtain ⟨c', h5, h6, -⟩ := lpc2lpcc_ok co e (nceps := order) (by omega) (by omega) (by omega)
  rw [h4] at h5
  injection h5 with h5
  rw [h5, h6]

/-! ### The whole function -/

theorem rastaRows_length {x y : XMat} : ∀ {b a z : List (XF ℝ)}, rastaRows b a z x = .ok y → y.length = x.length := by
  induction x generalizing y with
  | nil => intro b a z h; rw [rastaRows] at h; injection h with h; subst h; rfl
  | cons r rs ih =>
    intro b a z h
    cases r with
    | nil => cases h
    | cons x0 t =>
      rw [rastaRows] at h
      simp only at h
      split at h
      · cases h
      · rename_i rest hrest
        injection h with h
        subst h
        simp [ih hrest]

theorem plpRasta_length {b : Bool} {x y : XMat} (h : plpRasta b x = .ok y) : y.length = x.length := by
  unfold plpRasta at h
  split_ifs at h
  · obtain ⟨z, h1, h2⟩ := (bind_ok_iff ..).mp h
    injection h2 with h2
    have := rastaRows_length h1
    rw [← h2]; simpa using this
  · injection h with h; rw [h]

theorem plpTail_shape {a : Args} {x y : XMat} (hx : ∀ r ∈ x, r.length = a.numCeps) (h : plpTail a x = .ok y) :
    y.length = x.length ∧ ∀ r ∈ y, r.length = a.numCeps := by
  unfold plpTail at h
  obtain ⟨m, h1, h2⟩ := (bind_ok_iff ..).mp h
  have hm : m.length = x.length ∧ ∀ r ∈ m, r.length = a.numCeps := by
    cases hl : a.lifter with
    | none => rw [hl] at h1; injection h1 with h1; subst h1; exact ⟨rfl, hx⟩
    | some l =>
      rw [hl] at h1
      obtain ⟨h3, rfl⟩ := (lifterCeps_ok_iff ..).mp h1
      refine ⟨by simp, fun r hr => ?_⟩
      obtain ⟨s, hs, rfl⟩ := List.mem_map.mp hr
      exact liftRow_length _ _ _ (hx s hs) h3
  cases hn : a.normalize with
  | none => rw [hn] at h2; injection h2 with h2; subst h2; exact hm
  | some s =>
    rw [hn] at h2
    simp only at h2
    split_ifs at h2
    · injection h2 with h2; subst h2; exact hm
    · obtain ⟨h3, h4⟩ := normalizeCeps_shape hm.2 h2
      exact ⟨h3.trans hm.1, h4⟩

end Spafe
