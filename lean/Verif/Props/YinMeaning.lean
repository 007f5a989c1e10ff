import Verif.Props.Yin

/-! C124: what `compute_yin` returns, in terms of the samples. C125: what remains of it under rounding. -/

set_option linter.unusedSectionVars false

namespace Spafe
namespace Props
open Model XF Spec

theorem pitchLag_unique {ε : ℝ} (hε : 0 ≤ ε) {c : ℕ → ℝ} {a T : ℕ} {thr : ℝ} {p p' : ℕ} (ha : 1 ≤ a)
    (h : PitchLag ε c a T thr p) (h' : PitchLag 0 c a T thr p') : p = p' := by
  rcases h with ⟨rfl, h⟩ | ⟨t0, h1, h2, h3, h4, h5, h6, h7⟩
  · rcases h' with ⟨rfl, -⟩ | ⟨t0', k1, k2, k3, k4, -⟩
    · rfl
    · have := h t0' k1 (by omega); linarith
  · rcases h' with ⟨rfl, h'⟩ | ⟨t0', k1, k2, k3, k4, k5, k6, k7⟩
    · have := h' t0 h1 (by omega); linarith
    · have e : t0 = t0' := by
        rcases lt_trichotomy t0 t0' with e | e | e
        · have := k5 t0 h1 e; linarith
        · exact e
        · have := h5 t0' k1 e; linarith
      subst e
      rcases lt_trichotomy p p' with e | e | e
      · have u1 := k6 p h2 e
        have u2 := h7 (by omega)
        linarith
      · exact e
      · have u1 := h6 p' k2 e
        have u2 := k7 (by omega)
        linarith

theorem pitchLag_mono {ε : ℝ} (hε : 0 ≤ ε) {c c' : ℕ → ℝ} {a T : ℕ} {thr : ℝ} {p : ℕ}
    (hc : ∀ t < T, |c' t - c t| ≤ ε) (ha : 1 ≤ a) (h : PitchLag ε c a T thr p) : PitchLag 0 c' a T thr p := by
  have lo : ∀ t < T, c t - ε ≤ c' t := fun t ht => by linarith [(abs_le.mp (hc t ht)).1]
  have hi : ∀ t < T, c' t ≤ c t + ε := fun t ht => by linarith [(abs_le.mp (hc t ht)).2]
  rcases h with ⟨rfl, h⟩ | ⟨t0, h1, h2, h3, h4, h5, h6, h7⟩
  · exact Or.inl ⟨rfl, fun t t1 t2 => by linarith [h t t1 t2, lo t t2]⟩
  · refine Or.inr ⟨t0, h1, h2, h3, by linarith [hi t0 (by omega)], fun t t1 t2 => by linarith [h5 t t1 t2, lo t (by omega)],
      fun t t1 t2 => by linarith [h6 t t1 t2, lo t (by omega), hi (t + 1) (by omega)],
      fun hp => by linarith [h7 hp, hi p (by omega), lo (p + 1) hp]⟩

/-- A list of finite values. -/
def Lags (L : List (XF ℝ)) (T : ℕ) (c : ℕ → ℝ) : Prop := L.length = T ∧ ∀ t < T, L.getD t nan = fin (c t)

theorem ltb_fin_iff (a b : ℝ) : ltb (fin a) (fin b) = true ↔ a < b := by simp [ltb]

theorem ltb_fin_false (a b : ℝ) : ltb (fin a) (fin b) = false ↔ b ≤ a := by
  rw [← not_lt, ← ltb_fin_iff]; simp

theorem getPitch_lags {L : List (XF ℝ)} {T : ℕ} {c : ℕ → ℝ} (hL : Lags L T c) (a : ℕ) (thr : ℝ) :
    ∃ p : ℕ, getPitch L a T thr = .ok (p : ℤ) ∧ PitchLag 0 c a T thr p := by
  rcases getPitch_spec L T hL.1.ge thr _ a rfl with ⟨h, h'⟩ | ⟨t0, p, h, h2, h3, h4, h5, h6, h7, h8⟩
  · refine ⟨0, h, Or.inl ⟨rfl, fun t t1 t2 => ?_⟩⟩
    have := h' t t1 t2
    rw [hL.2 t t2, ltb_fin_false] at this
    linarith
  · refine ⟨p, h, Or.inr ⟨t0, h2, h3, h4, ?_, fun t t1 t2 => ?_, fun t t1 t2 => ?_, fun hp => ?_⟩⟩
    · rw [hL.2 t0 (by omega), ltb_fin_iff] at h5; linarith
    · have := h6 t t1 t2
      rw [hL.2 t (by omega), ltb_fin_false] at this; linarith
    · have := h7 t t1 t2
      rw [hL.2 t (by omega), hL.2 (t + 1) (by omega), ltb_fin_iff] at this; linarith
    · have := h8 hp
      rw [hL.2 p (by omega), hL.2 (p + 1) (by omega), ltb_fin_false] at this; linarith

theorem argmin_lags {L : List (XF ℝ)} {T : ℕ} {c : ℕ → ℝ} (hL : Lags L T c) (hT : 1 ≤ T) : FirstMin c T (argminX L) := by
  have key : ∀ k ≤ T, ∃ b, (List.range k).foldl (fun best i =>
      if (L.getD best nan).isNan then best
      else if (L.getD i nan).isNan || ltb (L.getD i nan) (L.getD best nan) then i else best) 0 = b ∧
      (k = 0 → b = 0) ∧ (1 ≤ k → FirstMin c k b) := by
    intro k
    induction k with
    | zero => exact fun _ => ⟨0, rfl, fun _ => rfl, fun h => by omega⟩
    | succ k ih =>
      intro hk
      obtain ⟨b, hb, h0, h1⟩ := ih (by omega)
      rw [List.range_succ, List.foldl_append, List.foldl_cons, List.foldl_nil, hb]
      by_cases hk0 : k = 0
      · subst hk0
        refine ⟨0, ?_, by simp, fun _ => ⟨by omega, fun t ht => by rw [show t = 0 by omega], fun t ht => by omega⟩⟩
        rw [h0 rfl]; split_ifs <;> rfl
      · obtain ⟨f1, f2, f3⟩ := h1 (by omega)
        rw [hL.2 b (by omega), hL.2 k (by omega)]
        simp only [isNan, Bool.false_or, Bool.false_eq_true, if_false]
        by_cases hlt : c k < c b
        · rw [if_pos ((ltb_fin_iff _ _).mpr hlt)]
          refine ⟨k, rfl, by simp, fun _ => ⟨by omega, fun t ht => ?_, fun t ht => lt_of_lt_of_le hlt (f2 t ht)⟩⟩
          rcases Nat.lt_or_ge t k with h | h
          · exact (lt_of_lt_of_le hlt (f2 t h)).le
          · rw [show t = k by omega]
        · rw [if_neg (by rw [ltb_fin_iff]; exact hlt)]
          refine ⟨b, rfl, by simp, fun _ => ⟨by omega, fun t ht => ?_, f3⟩⟩
          rcases Nat.lt_or_ge t k with h | h
          · exact f2 t h
          · rw [show t = k by omega]; exact not_lt.mp hlt
  obtain ⟨b, hb, -, h⟩ := key T le_rfl
  rw [argminX, hL.1, hb]
  exact h hT

theorem min_lags {L : List (XF ℝ)} {T : ℕ} {c : ℕ → ℝ} (hL : Lags L T c) (hT : 1 ≤ T) {k : ℕ} (hk : FirstMin c T k) :
    pyMin L = .ok (fin (c k)) := by
  have key : ∀ (l : List ℝ) (a : ℝ), ∃ m, (l.map fin).foldl (fun (m x : XF ℝ) => if ltb x m then x else m) (fin a) = fin m ∧
      m ∈ a :: l ∧ ∀ y ∈ a :: l, m ≤ y := by
    intro l
    induction l with
    | nil => exact fun a => ⟨a, rfl, by simp, by simp⟩
    | cons b l ih =>
      intro a
      rw [List.map_cons, List.foldl_cons]
      by_cases h : b < a
      · rw [if_pos ((ltb_fin_iff _ _).mpr h)]
        obtain ⟨m, hm, h1, h2⟩ := ih b
        refine ⟨m, hm, List.mem_cons_of_mem _ h1, fun y hy => ?_⟩
        rcases List.mem_cons.mp hy with rfl | hy
        · exact le_trans (h2 b (by simp)) h.le
        · exact h2 y hy
      · rw [if_neg (by rw [ltb_fin_iff]; exact h)]
        obtain ⟨m, hm, h1, h2⟩ := ih a
        refine ⟨m, hm, ?_, fun y hy => ?_⟩
        · rcases List.mem_cons.mp h1 with rfl | h1
          · simp
          · simp [h1]
        · simp only [List.mem_cons] at hy
          rcases hy with rfl | rfl | hy
          · exact h2 _ (by simp)
          · exact le_trans (h2 a (by simp)) (not_lt.mp h)
          · exact h2 y (by simp [hy])
  have hLe : L = ((List.range T).map c).map fin := by
    refine ext_getD nan (by rw [hL.1]; simp) fun t ht => ?_
    rw [hL.1] at ht
    rw [hL.2 t ht, getD_map_lt _ _ 0 _ (by simpa using ht), getD_map_range_lt _ _ ht]
  have hmem : ∀ y, y ∈ (List.range T).map c ↔ ∃ t < T, c t = y := by
    intro y; simp
  rw [hLe]
  generalize hR : (List.range T).map c = R at *
  cases R with
  | nil => simp at hR; omega
  | cons a l =>
    obtain ⟨m, hm, h1, h2⟩ := key l a
    rw [List.map_cons, pyMin, hm]
    congr 2
    obtain ⟨t, ht, rfl⟩ := (hmem m).mp h1
    exact le_antisymm (h2 _ ((hmem _).mpr ⟨k, hk.1, rfl⟩)) (hk.2.1 t ht)

/-- The results for one frame from finite normalised differences. -/
theorem yinOut_lags {L : List (XF ℝ)} {T : ℕ} {c : ℕ → ℝ} (hL : Lags L T c) (hT : 1 ≤ T) (fs : ℝ) (a : ℕ) (thr : ℝ) :
    ∃ p k, PitchLag 0 c a T thr p ∧ FirstMin c T k ∧ yinOut fs a T thr L =
      .ok ⟨fin (if p = 0 then 0 else fs / p), fin (if p = 0 then c k else c p), fin (if a < k then fs / k else 0)⟩ := by
  obtain ⟨p, hp, hpl⟩ := getPitch_lags hL a thr
  have hk := argmin_lags hL hT
  refine ⟨p, argminX L, hpl, hk, ?_⟩
  have hpT : p < T := by
    rcases hpl with ⟨rfl, -⟩ | ⟨t0, -, -, h, -⟩
    · omega
    · exact h
  have harg : (if (a : ℤ) < (argminX L : ℤ) then fin fs / fin ((argminX L : ℕ) : ℝ) else fin 0) =
      fin (if a < argminX L then fs / (argminX L : ℕ) else 0) := by
    by_cases h : a < argminX L
    · rw [if_pos (by omega), if_pos h, fin_div _ _ (by exact_mod_cast (by omega : argminX L ≠ 0))]
    · rw [if_neg (by omega), if_neg h]
  simp only [yinOut]
  rw [hp, ok_bind, harg]
  by_cases h0 : p = 0
  · subst h0
    rw [if_neg (by simp), min_lags hL hT hk, ok_bind]
    simp
  · rw [if_pos (by exact_mod_cast h0), pyIdx_nat L nan (by rw [hL.1]; exact hpT), ok_bind, hL.2 p hpT, if_neg h0, if_neg h0]
    simp

theorem yinFrame_eq_out (fs : ℝ) (a T : ℤ) (thr : ℝ) (x : List ℝ) :
    yinFrame fs a T thr x = computeCmnd (computeDifference x T) T >>= yinOut fs a T thr := rfl

/-- C124: windows at least as long as the number of lags, frequencies at most `fs`. For every window that is not constant
the pitch is `fs` over the lag `p` that YIN's rule picks (0 if none), the harmonic rate is the normalised difference at `p`
(the smallest one if there is no pitch), and the third array holds `fs` over the lag of the overall minimum, if that lag
exceeds the smallest period. -/
theorem C124_meaning (sig : List ℝ) {fs winLen winHop low high thr : ℝ} (hv : YinValid fs winLen winHop low high)
    (hlow : low ≤ fs) (hT : ⌊fs / low⌋₊ ≤ ⌊winLen * fs⌋₊) :
    ∃ R, computeYin sig fs winLen winHop low high thr = .ok R ∧
      (∀ i, i < R.pitches.length ↔ i * ⌊winHop * fs⌋₊ + ⌊winLen * fs⌋₊ < sig.length) ∧
      ∀ i < R.pitches.length, NotConst (yinWindow sig ⌊winLen * fs⌋₊ ⌊winHop * fs⌋₊ i) →
        ∃ p k, PitchLag 0 (yinCmnd (yinWindow sig ⌊winLen * fs⌋₊ ⌊winHop * fs⌋₊ i)) ⌊fs / high⌋₊ ⌊fs / low⌋₊ thr p ∧
          FirstMin (yinCmnd (yinWindow sig ⌊winLen * fs⌋₊ ⌊winHop * fs⌋₊ i)) ⌊fs / low⌋₊ k ∧
          R.pitches.getD i nan = fin (if p = 0 then 0 else fs / p) ∧
          R.harmonicRates.getD i nan = fin (yinCmnd (yinWindow sig ⌊winLen * fs⌋₊ ⌊winHop * fs⌋₊ i) (if p = 0 then k else p)) ∧
          R.argmins.getD i nan = fin (if ⌊fs / high⌋₊ < k then fs / k else 0) := by
  obtain ⟨R, hR⟩ := C97_defined sig hv hT (thr := thr)
  obtain ⟨e1, e2, e3, e4, e5⟩ := computeYin_entries sig hv R hR
  obtain ⟨s1, s2, s3, s4, s5⟩ := C80_shape sig hv R hR
  refine ⟨R, hR, fun i => by rw [s1]; exact s4 i, fun i hi hx => ?_⟩
  obtain ⟨-, r, hr, r1, r2, r3⟩ := e5 i (by rw [← e1]; exact hi)
  have hT1 : 1 ≤ ⌊fs / low⌋₊ := Nat.le_floor (by rw [Nat.cast_one, le_div_iff₀ hv.2.1]; linarith)
  have hlen : (yinWindow sig ⌊winLen * fs⌋₊ ⌊winHop * fs⌋₊ i).length = ⌊winLen * fs⌋₊ :=
    frame_length sig (Nat.floor_pos.mpr hv.2.2.2.2) (by rw [← e1]; exact hi)
  generalize yinWindow sig ⌊winLen * fs⌋₊ ⌊winHop * fs⌋₊ i = x at *
  rw [yinFrame_eq_out, cmnd_of_frame x _ (by rw [hlen]; exact hT), ok_bind] at hr
  obtain ⟨p, k, hp, hk, h⟩ := yinOut_lags (L := cmndList x ⌊fs / low⌋₊) (T := ⌊fs / low⌋₊) (c := yinCmnd x)
    ⟨by rw [cmndList_length]; omega, fun t ht => cmndList_fin x hx ht⟩ hT1 fs ⌊fs / high⌋₊ thr
  rw [h] at hr
  injection hr with hr
  subst hr
  refine ⟨p, k, hp, hk, r1, ?_, r3⟩
  rw [r2]
  split_ifs <;> rfl

/-- C124: the rule picks one lag. -/
theorem C124_unique (c : ℕ → ℝ) (a T : ℕ) (ha : 1 ≤ a) (thr : ℝ) :
    ∃! p, PitchLag 0 c a T thr p := by
  obtain ⟨p, -, hp⟩ := getPitch_lags (L := (List.range T).map fun t => fin (c t)) (T := T) (c := c)
    ⟨by simp, fun t ht => getD_map_range_lt _ _ ht⟩ a thr
  exact ⟨p, hp, fun p' h => pitchLag_unique le_rfl ha h hp⟩

/-! ### C125: rounding -/

/-- `L` is what `compute_cmnd` computes from the differences `d` with cumulative sums accurate to `σ` relative to the sum of
the absolute values, and quotients accurate to `u`. -/
def RoundedCmnd (σ u : ℝ) (d : ℕ → ℝ) (T : ℕ) (L : List (XF ℝ)) : Prop :=
  L.length = T ∧ L.getD 0 nan = fin 1 ∧ ∀ τ, 1 ≤ τ → τ < T → ∃ S e : ℝ,
    |S - ∑ j ∈ Finset.range τ, d (j + 1)| ≤ σ * ∑ j ∈ Finset.range τ, |d (j + 1)| ∧ |e| ≤ u ∧
    L.getD τ nan = fin (d τ * τ * (1 + e)) / fin S

/-- The exact computation is one of the rounded ones. -/
theorem exact_is_rounded (x : List ℝ) (T : ℕ) (h1 : 1 ≤ T) (hT : T ≤ x.length) {κ σ u : ℝ} (hκ : 0 ≤ κ) (hσ : 0 ≤ σ)
    (hu : 0 ≤ u) : RoundedDiff κ x T (yinDiff x) ∧ ∃ L, computeCmnd (computeDifference x T) T = .ok L ∧
      RoundedCmnd σ u (yinDiff x) T L := by
  refine ⟨fun τ _ => ?_, _, cmnd_of_frame x T hT, by rw [cmndList_length]; omega, ?_, fun τ t1 t2 => ?_⟩
  · rw [sub_self, abs_zero]
    exact mul_nonneg hκ (Finset.sum_nonneg fun _ _ => sq_nonneg _)
  · rw [cmndList_getD x (by omega), if_pos rfl]
  · refine ⟨yinCum x τ, 0, ?_, by simpa using hu, ?_⟩
    · rw [yinCum, sub_self, abs_zero]
      exact mul_nonneg hσ (Finset.sum_nonneg fun _ _ => abs_nonneg _)
    · rw [cmndList_getD x t2, if_neg (by omega), add_zero, mul_one]

/-- The error of the cumulative sum at lag `τ`: `τ` differences off by `δ` each, and the summation error. -/
noncomputable def cumErr (σ δ : ℝ) (x : List ℝ) (τ : ℕ) : ℝ := τ * δ + σ * (yinCum x τ + τ * δ)

/-- The error of the normalised difference at lag `τ`. -/
noncomputable def cmndErr (σ u δ : ℝ) (x : List ℝ) (τ : ℕ) : ℝ :=
  (1 + u) * ((τ * δ + yinCmnd x τ * cumErr σ δ x τ) / (yinCum x τ - cumErr σ δ x τ)) + u * yinCmnd x τ

theorem cmnd_error {σ u δ : ℝ} (hσ : 0 ≤ σ) {x : List ℝ} {T : ℕ} {d : ℕ → ℝ}
    (hd : ∀ τ < T, |d τ - yinDiff x τ| ≤ δ) {L : List (XF ℝ)} (hL : RoundedCmnd σ u d T L) {τ : ℕ} (h1 : 1 ≤ τ)
    (hτ : τ < T) (hS : cumErr σ δ x τ < yinCum x τ) :
    ∃ v, L.getD τ nan = fin v ∧ |v - yinCmnd x τ| ≤ cmndErr σ u δ x τ := by
  obtain ⟨S, e, h2, h3, h4⟩ := hL.2.2 τ h1 hτ
  have hδ : 0 ≤ δ := le_trans (abs_nonneg _) (hd τ hτ)
  have hsum : |∑ j ∈ Finset.range τ, d (j + 1) - yinCum x τ| ≤ τ * δ := by
    rw [yinCum, ← Finset.sum_sub_distrib]
    refine le_trans (Finset.abs_sum_le_sum_abs _ _) ?_
    refine le_trans (Finset.sum_le_sum fun j hj => hd (j + 1) (by have := Finset.mem_range.mp hj; omega)) ?_
    simp
  have habs : ∑ j ∈ Finset.range τ, |d (j + 1)| ≤ yinCum x τ + τ * δ := by
    have : ∀ j ∈ Finset.range τ, |d (j + 1)| ≤ yinDiff x (j + 1) + δ := by
      intro j hj
      have h5 := hd (j + 1) (by have := Finset.mem_range.mp hj; omega)
      have h6 := yinDiff_nonneg x (j + 1)
      rw [abs_le] at h5 ⊢
      constructor <;> linarith [h5.1, h5.2]
    refine le_trans (Finset.sum_le_sum this) ?_
    rw [Finset.sum_add_distrib]
    simp [yinCum]
  have hSe : |S - yinCum x τ| ≤ cumErr σ δ x τ := by
    have : S - yinCum x τ = (∑ j ∈ Finset.range τ, d (j + 1) - yinCum x τ) + (S - ∑ j ∈ Finset.range τ, d (j + 1)) := by ring
    rw [this, cumErr]
    exact le_trans (abs_add_le _ _) (add_le_add hsum (le_trans h2 (mul_le_mul_of_nonneg_left habs hσ)))
  generalize hE : cumErr σ δ x τ = E at *
  have hSpos : 0 < yinCum x τ - E := by linarith
  have hSge : yinCum x τ - E ≤ S := by linarith [(abs_le.mp hSe).1]
  have hE0 : 0 ≤ E := le_trans (abs_nonneg _) hSe
  have hC : 0 < yinCum x τ := by linarith
  have hS0 : 0 < S := by linarith
  refine ⟨d τ * τ * (1 + e) / S, by rw [h4, fin_div _ _ hS0.ne'], ?_⟩
  have hτ0 : (0 : ℝ) < τ := by exact_mod_cast h1
  have hc : yinCmnd x τ = yinDiff x τ * τ / yinCum x τ := by
    rw [yinCmnd, if_neg (by omega)]
    field_simp
  have hc0 := yinCmnd_nonneg x τ
  have hdiff : |d τ * τ / S - yinCmnd x τ| ≤ (τ * δ + yinCmnd x τ * E) / (yinCum x τ - E) := by
    have e1 : d τ * τ / S - yinCmnd x τ = ((d τ - yinDiff x τ) * τ + yinCmnd x τ * (yinCum x τ - S)) / S := by
      rw [hc]; field_simp; ring
    rw [e1, abs_div, abs_of_pos hS0]
    refine div_le_div₀ (by positivity) ?_ hSpos hSge
    refine le_trans (abs_add_le _ _) (add_le_add ?_ ?_)
    · rw [abs_mul, abs_of_pos hτ0, mul_comm]
      exact mul_le_mul_of_nonneg_left (hd τ hτ) hτ0.le
    · rw [abs_mul, abs_of_nonneg hc0, abs_sub_comm]
      exact mul_le_mul_of_nonneg_left hSe hc0
  have e2 : d τ * τ * (1 + e) / S - yinCmnd x τ = (1 + e) * (d τ * τ / S - yinCmnd x τ) + e * yinCmnd x τ := by
    field_simp; ring
  have h1e : |1 + e| ≤ 1 + u := by
    refine le_trans (abs_add_le _ _) ?_
    rw [abs_one]; linarith
  rw [e2, cmndErr, hE]
  refine le_trans (abs_add_le _ _) (add_le_add ?_ ?_)
  · rw [abs_mul]
    exact mul_le_mul h1e hdiff (abs_nonneg _) (le_trans (abs_nonneg _) h1e)
  · rw [abs_mul, abs_of_nonneg hc0]
    exact mul_le_mul_of_nonneg_right h3 hc0

/-- C125: if the comparisons of the exact computation on a window hold with a margin that exceeds the error bound of every
lag, every rounded computation finds the same pitch, and the harmonic rate of a voiced window is off by at most the bound. -/
theorem C125_same_pitch {κ σ u ε : ℝ} (hσ : 0 ≤ σ) (hε : 0 ≤ ε) (x : List ℝ) (fs : ℝ) (a T : ℕ) (thr : ℝ) (ha : 1 ≤ a)
    (h1 : 1 ≤ T) (d : ℕ → ℝ) (hd : RoundedDiff κ x T d) (L : List (XF ℝ)) (hL : RoundedCmnd σ u d T L)
    (herr : ∀ τ, 1 ≤ τ → τ < T → cumErr σ (κ * frameEnergy x) x τ < yinCum x τ ∧
      cmndErr σ u (κ * frameEnergy x) x τ ≤ ε) (p : ℕ) (hp : PitchLag ε (yinCmnd x) a T thr p) :
    ∃ r h, yinOut fs a T thr L = .ok r ∧ r.pitch = fin (if p = 0 then 0 else fs / p) ∧ r.harmonicRate = fin h ∧
      (p ≠ 0 → |h - yinCmnd x p| ≤ ε) := by
  have hv : ∀ τ < T, ∃ v, L.getD τ nan = fin v ∧ |v - yinCmnd x τ| ≤ ε := by
    intro τ hτ
    by_cases h0 : τ = 0
    · exact ⟨1, by rw [h0, hL.2.1], by simp [h0, yinCmnd, hε]⟩
    · obtain ⟨e1, e2⟩ := herr τ (by omega) hτ
      obtain ⟨v, hv1, hv2⟩ := cmnd_error hσ hd hL (by omega) hτ e1
      exact ⟨v, hv1, le_trans hv2 e2⟩
  choose! c hc1 hc2 using hv
  obtain ⟨p', k, hp', hk, h⟩ := yinOut_lags (L := L) (T := T) (c := c) ⟨hL.1, hc1⟩ h1 fs a thr
  have := pitchLag_mono hε hc2 ha hp
  obtain rfl := pitchLag_unique le_rfl ha this hp'
  refine ⟨_, _, h, rfl, rfl, fun h0 => ?_⟩
  rw [if_neg h0]
  refine hc2 p ?_
  rcases hp with ⟨rfl, -⟩ | ⟨t0, -, -, h, -⟩
  · exact absurd rfl h0
  · exact h

/-- C125: the exact result has this pitch too. -/
theorem C125_exact {ε : ℝ} (hε : 0 ≤ ε) (x : List ℝ) (hx : NotConst x) (fs : ℝ) (a T : ℕ) (thr : ℝ) (ha : 1 ≤ a)
    (h1 : 1 ≤ T) (hT : T ≤ x.length) (p : ℕ) (hp : PitchLag ε (yinCmnd x) a T thr p) :
    ∃ r, yinFrame fs a T thr x = .ok r ∧ r.pitch = fin (if p = 0 then 0 else fs / p) := by
  rw [yinFrame_eq_out, cmnd_of_frame x T hT, ok_bind]
  obtain ⟨p', k, hp', hk, h⟩ := yinOut_lags (L := cmndList x T) (T := T) (c := yinCmnd x)
    ⟨by rw [cmndList_length]; omega, fun t ht => cmndList_fin x hx ht⟩ h1 fs a thr
  obtain rfl := pitchLag_unique hε ha hp hp'
  exact ⟨_, h, rfl⟩

/-- C125: on a silent window every rounded computation reports no pitch and a harmonic rate of 1, as the exact one. -/
theorem C125_silence {κ σ u : ℝ} (x : List ℝ) (hx : ∀ v ∈ x, v = 0) (fs : ℝ) (a T : ℕ) (thr : ℝ) (ha : 1 ≤ a)
    (h1 : 1 ≤ T) (d : ℕ → ℝ) (hd : RoundedDiff κ x T d) (L : List (XF ℝ)) (hL : RoundedCmnd σ u d T L) :
    ∃ r, yinOut fs a T thr L = .ok r ∧ r.pitch = fin 0 ∧ r.harmonicRate = fin 1 := by
  have hx0 : ∀ j, x.getD j 0 = 0 := by
    intro j
    by_cases h : j < x.length
    · exact hx _ (getD_mem 0 h)
    · exact getD_of_le _ _ (by omega)
  have hd0 : ∀ τ < T, d τ = 0 := by
    intro τ hτ
    have h := hd τ hτ
    have e1 : frameEnergy x = 0 := by
      rw [frameEnergy]; exact Finset.sum_eq_zero fun j _ => by rw [hx0]; norm_num
    have e2 : yinDiff x τ = 0 := by
      rw [yinDiff]; exact Finset.sum_eq_zero fun j _ => by rw [hx0, hx0]; norm_num
    rw [e1, e2, mul_zero, sub_zero] at h
    exact abs_nonpos_iff.mp h
  have hn : ∀ τ, 1 ≤ τ → τ < T → L.getD τ nan = nan := by
    intro τ t1 t2
    obtain ⟨S, e, h2, -, h4⟩ := hL.2.2 τ t1 t2
    have hs : ∀ j ∈ Finset.range τ, d (j + 1) = 0 := fun j hj => hd0 _ (by have := Finset.mem_range.mp hj; omega)
    rw [Finset.sum_eq_zero hs, Finset.sum_eq_zero (fun j hj => by rw [hs j hj, abs_zero]), mul_zero, sub_zero] at h2
    rw [h4, hd0 τ t2, abs_nonpos_iff.mp h2, zero_mul, zero_mul, zero_div_zero]
  have hp : getPitch L a T thr = .ok 0 := by
    rcases getPitch_spec L T hL.1.ge thr _ a rfl with ⟨h, -⟩ | ⟨t0, p, h, h2, h3, h4, h5, -⟩
    · exact h
    · rw [hn t0 (by omega) (by omega)] at h5
      simp [ltb] at h5
  have hm : pyMin L = .ok (fin 1) := by
    have hc : L = fin 1 :: (List.range (T - 1)).map fun (_ : ℕ) => nan := by
      refine ext_getD nan (by rw [hL.1]; simp; omega) fun i hi => ?_
      rw [hL.1] at hi
      cases i with
      | zero => rw [hL.2.1, List.getD_cons_zero]
      | succ i => rw [hn (i + 1) (by omega) hi, List.getD_cons_succ, getD_map_range_lt _ _ (by omega)]
    rw [hc, pyMin]
    congr 1
    generalize (List.range (T - 1)) = l
    induction l with
    | nil => rfl
    | cons b l ih => rw [List.map_cons, List.foldl_cons, if_neg (by simp [ltb]), ih]
  simp only [yinOut]
  rw [hp, ok_bind, if_neg (by simp), hm, ok_bind]
  exact ⟨_, rfl, rfl, rfl⟩

/-- C125: but on a constant window that is not silent the result hangs on rounding: however small the allowed error `κ > 0`
is, there is a rounded computation that reports a pitch of `fs` over the smallest lag (the exact one reports none). -/
theorem C125_constant_not_robust {κ σ u : ℝ} (hκ : 0 < κ) (hσ : 0 ≤ σ) (hu : 0 ≤ u) (x : List ℝ) (hx : ¬ NotConst x)
    (hne : ∃ v ∈ x, v ≠ 0) (fs : ℝ) (a T : ℕ) (thr : ℝ) (hthr : 0 < thr) (ha : 2 ≤ a) (haT : a < T) (hT : T ≤ x.length) :
    (∃ d L, RoundedDiff κ x T d ∧ RoundedCmnd σ u d T L ∧
      ∃ r, yinOut fs a T thr L = .ok r ∧ r.pitch = fin (fs / a) ∧ r.harmonicRate = fin 0) ∧
    ∃ r, yinFrame fs a T thr x = .ok r ∧ r.pitch = fin 0 := by
  refine ⟨?_, _, yinFrame_const fs a T thr x hx hT (by omega), rfl⟩
  have hE : 0 < frameEnergy x := by
    obtain ⟨v, hv, hv0⟩ := hne
    obtain ⟨j, hj, rfl⟩ := (mem_iff_getD (0 : ℝ) v).mp hv
    exact Finset.sum_pos' (fun _ _ => sq_nonneg _) ⟨j, Finset.mem_range.mpr hj, by positivity⟩
  have hδ : 0 < κ * frameEnergy x := mul_pos hκ hE
  generalize hδe : κ * frameEnergy x = δ at hδ
  obtain ⟨d, hd⟩ : ∃ d : ℕ → ℝ, d = fun τ => if τ = 1 then δ else 0 := ⟨_, rfl⟩
  have hsum : ∀ τ, 1 ≤ τ → ∑ j ∈ Finset.range τ, d (j + 1) = δ := by
    intro τ h1
    rw [Finset.sum_eq_single 0]
    · simp [hd]
    · intro j _ hj; simp [hd, hj]
    · intro h; simp at h; omega
  obtain ⟨c, hc⟩ : ∃ c : ℕ → ℝ, c = fun τ => if τ ≤ 1 then 1 else 0 := ⟨_, rfl⟩
  have hL : Lags ((List.range T).map fun τ => fin (c τ)) T c := ⟨by simp, fun t ht => getD_map_range_lt _ _ ht⟩
  refine ⟨d, (List.range T).map fun τ => fin (c τ), ?_, ⟨hL.1, ?_, ?_⟩, ?_⟩
  · intro τ _
    rw [yinDiff_const x hx, sub_zero, hδe, hd]
    dsimp only
    split_ifs
    · rw [abs_of_pos hδ]
    · rw [abs_zero]; exact hδ.le
  · rw [hL.2 0 (by omega), hc]; simp
  · intro τ t1 t2
    refine ⟨δ, 0, ?_, by simpa using hu, ?_⟩
    · rw [hsum τ t1, sub_self, abs_zero]
      exact mul_nonneg hσ (Finset.sum_nonneg fun _ _ => abs_nonneg _)
    · rw [hL.2 τ t2, fin_div _ _ hδ.ne', hc, hd]
      by_cases h : τ = 1
      · subst h; simp [hδ.ne']
      · simp [h, show ¬ τ ≤ 1 by omega]
  · obtain ⟨p, k, hp, hk, h⟩ := yinOut_lags hL (by omega) fs a thr
    have hpa : PitchLag 0 c a T thr a := by
      refine Or.inr ⟨a, le_rfl, le_rfl, haT, ?_, fun t _ _ => by omega, fun t _ _ => by omega, fun _ => ?_⟩
      · rw [hc]; simp [show ¬ a ≤ 1 by omega, hthr]
      · rw [hc]; simp [show ¬ a ≤ 1 by omega, show ¬ a + 1 ≤ 1 by omega]
    obtain rfl := pitchLag_unique le_rfl (by omega) hpa hp
    refine ⟨_, h, ?_, ?_⟩
    · simp [show a ≠ 0 by omega]
    · simp [show a ≠ 0 by omega, hc, show ¬ a ≤ 1 by omega]

/-- A window that alternates: differences 0, 20, 0, 12, normalised to 1, 1, 0, 9/8. -/
def alternating : List ℝ := [1, -1, 1, -1, 1, -1]

theorem alternating_cum : yinCum alternating 1 = 20 ∧ yinCum alternating 2 = 20 ∧ yinCum alternating 3 = 32 := by
  refine ⟨?_, ?_, ?_⟩ <;> simp [yinCum, yinDiff, alternating, Finset.sum_range_succ] <;> norm_num

theorem alternating_cmnd : yinCmnd alternating 0 = 1 ∧ yinCmnd alternating 1 = 1 ∧ yinCmnd alternating 2 = 0 ∧
    yinCmnd alternating 3 = 9 / 8 := by
  obtain ⟨s1, s2, s3⟩ := alternating_cum
  refine ⟨?_, ?_, ?_, ?_⟩ <;> simp only [yinCmnd, s1, s2, s3] <;> simp [yinDiff, alternating, Finset.sum_range_succ] <;>
    norm_num

theorem alternating_lag : PitchLag (1 / 100) (yinCmnd alternating) 2 4 (1 / 10) 2 := by
  obtain ⟨-, -, c2, c3⟩ := alternating_cmnd
  refine Or.inr ⟨2, le_rfl, le_rfl, by norm_num, ?_, fun t _ _ => by omega, fun t _ _ => by omega, fun _ => ?_⟩
  · rw [c2]; norm_num
  · rw [c2, c3]; norm_num

/-- C124: the pitch of the alternating window is half of the sampling rate, its harmonic rate is 0. -/
example : PitchLag 0 (yinCmnd alternating) 2 4 (1 / 10) 2 ∧ FirstMin (yinCmnd alternating) 4 2 := by
  obtain ⟨c0, c1, c2, c3⟩ := alternating_cmnd
  refine ⟨pitchLag_mono (ε := 1 / 100) (by norm_num) (fun t _ => by norm_num) (by norm_num) alternating_lag, by norm_num,
    fun t ht => ?_, fun t ht => ?_⟩
  · interval_cases t <;> rw [c2] <;> norm_num [c0, c1, c2, c3]
  · interval_cases t <;> rw [c2] <;> norm_num [c0, c1]

/-- C125: with relative errors of `10⁻⁹` every rounded computation finds the pitch of the alternating window. -/
example (fs : ℝ) (d : ℕ → ℝ) (L : List (XF ℝ)) (hd : RoundedDiff (1 / 10 ^ 9) alternating 4 d)
    (hL : RoundedCmnd (1 / 10 ^ 9) (1 / 10 ^ 9) d 4 L) :
    ∃ r h, yinOut fs (2 : ℕ) (4 : ℕ) (1 / 10) L = .ok r ∧ r.pitch = fin (fs / 2) ∧ r.harmonicRate = fin h ∧ |h| ≤ 1 / 100 := by
  obtain ⟨c0, c1, c2, c3⟩ := alternating_cmnd
  obtain ⟨s1, s2, s3⟩ := alternating_cum
  have hE : frameEnergy alternating = 6 := by simp [frameEnergy, alternating, Finset.sum_range_succ]; norm_num
  obtain ⟨r, h, h1, h2, h3, h4⟩ := C125_same_pitch (by norm_num) (by norm_num) alternating fs 2 4 (1 / 10) (by norm_num)
    (by norm_num) d hd L hL (fun τ t1 t2 => by
      rw [hE]
      interval_cases τ <;> simp only [cmndErr, cumErr, s1, s2, s3, c1, c2, c3] <;> norm_num) 2 alternating_lag
  refine ⟨r, h, h1, by simpa using h2, h3, ?_⟩
  have := h4 (by norm_num)
  rwa [c2, sub_zero] at this

/-- C125: a constant window that is not silent. -/
example : ¬ NotConst [1, 1, 1, 1] ∧ ∃ v ∈ ([1, 1, 1, 1] : List ℝ), v ≠ 0 := by
  refine ⟨fun ⟨j, hj, h⟩ => ?_, 1, by simp, one_ne_zero⟩
  simp only [List.length_cons, List.length_nil] at hj
  have : j = 0 ∨ j = 1 ∨ j = 2 := by omega
  rcases this with rfl | rfl | rfl <;> simp at h

end Props
end Spafe
