import Verif.Lemmas.Plp

/-! Helper lemmas: the RASTA filter on rows that contain `-inf` (the logarithm of an empty band). -/

set_option linter.unusedSectionVars false

namespace Spafe
open Model XF

/-- A logarithm of a non-negative energy: a number or `-inf`. -/
def LogVal (v : XF ℝ) : Prop := v = ninf ∨ ∃ y, v = fin y

theorem add_notFinite_left {a b : XF ℝ} (h : a.isFinite = false) : (a + b).isFinite = false := by
  cases a <;> cases b <;> simp_all [XF.add_def, XF.add, XF.isFinite]

theorem add_notFinite_right {a b : XF ℝ} (h : b.isFinite = false) : (a + b).isFinite = false := by
  cases a <;> cases b <;> simp_all [XF.add_def, XF.add, XF.isFinite]

theorem sum_notFinite {l : List (XF ℝ)} {v : XF ℝ} (hv : v ∈ l) (h : v.isFinite = false) : l.sum.isFinite = false := by
  induction l with
  | nil => cases hv
  | cons w l ih =>
    rw [List.sum_cons]
    rcases List.mem_cons.mp hv with rfl | hv
    · exact add_notFinite_left h
    · exact add_notFinite_right (ih hv)

theorem mul_zero_notFinite {a : XF ℝ} (h : a.isFinite = false) : a * 0 = nan := by
  show a * fin 0 = nan
  cases a <;> simp_all [XF.mul_def, XF.mul, XF.infMul, XF.isFinite]

theorem ninf_mul_pos {c : ℝ} (h : 0 < c) : fin c * (ninf : XF ℝ) = ninf := by
  have h2 : ¬ (0 < -c) := by linarith
  simp only [XF.mul_def, XF.mul, XF.infMul]
  rw [if_neg (by linarith [h] : ¬ (-c = 0)), if_neg h2]

theorem ninf_mul_neg {c : ℝ} (h : c < 0) : fin c * (ninf : XF ℝ) = pinf := by
  simp only [XF.mul_def, XF.mul, XF.infMul]
  rw [if_neg (by linarith [h] : ¬ (-c = 0)), if_pos (by linarith)]

theorem ninf_mul_zero : fin (0 : ℝ) * (ninf : XF ℝ) = nan := by
  simp [XF.mul_def, XF.mul, XF.infMul]

/-- The coefficients of the filter, as floats. -/
noncomputable def rastaB : List (XF ℝ) := (rastaNumer : List ℝ).map fin

noncomputable def rastaA : List (XF ℝ) := [fin 1, fin (-(94 / 100))]

theorem rastaB_eq : rastaB = [fin (1 / 5), fin (1 / 10), fin 0, fin (-1 / 10), fin (-1 / 5)] := by
  rw [rastaB, rastaNumer_eq]; rfl

theorem df2tX_cons (b a z : List (XF ℝ)) (x : XF ℝ) (xs : List (XF ℝ)) :
    (df2t b a z (x :: xs)).1 = (df2tStep b a z x).1 :: (df2t b a (df2tStep b a z x).2 xs).1 := rfl

theorem df2tX_length (b a xs : List (XF ℝ)) : ∀ z, (df2t b a z xs).1.length = xs.length := by
  induction xs with
  | nil => intro z; rfl
  | cons x xs ih => intro z; rw [df2tX_cons]; simp [ih]

theorem firZiX_length (b z x : List (XF ℝ)) (hb : b ≠ []) :
    (firZi b z x).1.length = x.length ∧ (firZi b z x).2.length = b.length - 1 := by
  have : 0 < b.length := List.length_pos_iff.mpr hb
  simp only [firZi, List.length_take, List.length_drop, List.length_map, List.length_range]
  omega

theorem step_fin (z : List ℝ) (x : ℝ) : df2tStep rastaB rastaA (z.map fin) (fin x) =
    (fin (df2tStep rastaNumer [1, -(94 / 100)] z x).1, (df2tStep rastaNumer [1, -(94 / 100)] z x).2.map fin) := by
  have := df2t_fin rastaNumer [1, -(94 / 100)] [x] z
  simp only [List.map_cons, List.map_nil, df2t, Prod.mk.injEq, List.cons.injEq, and_true] at this
  exact Prod.ext this.1 this.2

theorem step_length (z : List ℝ) (x : ℝ) : (df2tStep rastaNumer [1, -(94 / 100)] z x).2.length = z.length := by
  simp [df2tStep]

/-- One step on `-inf` from a finite state. -/
theorem step_ninf (a b c d : ℝ) : ∃ u v, df2tStep rastaB rastaA ([a, b, c, d].map fin) ninf = (ninf, [ninf, nan, u, v]) := by
  rw [rastaB_eq, rastaA]
  have h1 : fin (1 / 5 : ℝ) * (ninf : XF ℝ) = ninf := ninf_mul_pos (by norm_num)
  have h2 : fin (1 / 10 : ℝ) * (ninf : XF ℝ) = ninf := ninf_mul_pos (by norm_num)
  have h3 : fin (-(94 / 100) : ℝ) * (ninf : XF ℝ) = pinf := ninf_mul_neg (by norm_num)
  have h4 : (ninf : XF ℝ) + fin a = ninf := rfl
  simp only [df2tStep, List.map_cons, List.map_nil, List.getD_cons_zero, List.length_cons, List.length_nil, h1, h4]
  simp only [List.range_succ, List.range_zero, List.nil_append, List.cons_append, List.map_cons, List.map_nil,
    List.getD_cons_succ, List.getD_cons_zero, h2, h3, ninf_mul_zero, Nat.zero_add]
  exact ⟨_, _, rfl⟩

/-- Output when the row has `-inf` in its last two entries at most: numbers and `-inf`. -/
theorem df2t_good : ∀ (xs : List (XF ℝ)) (z : List ℝ), z.length = 4 → (∀ v ∈ xs, LogVal v) →
    (∀ k < xs.length, xs.getD k 0 = ninf → xs.length ≤ k + 2) → ∀ v ∈ (df2t rastaB rastaA (z.map fin) xs).1, LogVal v := by
  intro xs
  induction xs with
  | nil => intro z _ _ _ v hv; cases hv
  | cons x xs ih =>
    intro z hz hl hk v hv
    rw [df2tX_cons] at hv
    rcases hl x (by simp) with rfl | ⟨y, rfl⟩
    · have := hk 0 (by simp) rfl
      obtain ⟨a, b, c, d, rfl⟩ : ∃ a b c d, z = [a, b, c, d] := by
        match z, hz with
        | [a, b, c, d], _ => exact ⟨a, b, c, d, rfl⟩
      obtain ⟨u, w, hs⟩ := step_ninf a b c d
      rw [hs] at hv
      rcases List.mem_cons.mp hv with rfl | hv
      · exact Or.inl rfl
      match xs, this with
      | [], _ => cases hv
      | [t], _ =>
        rw [df2tX_cons] at hv
        have hv : v = (df2tStep rastaB rastaA [ninf, nan, u, w] t).1 := by simpa [df2t] using hv
        subst hv
        left
        rw [rastaB_eq]
        simp only [df2tStep, List.getD_cons_zero]
        rcases hl t (by simp) with rfl | ⟨y, rfl⟩
        · rw [ninf_mul_pos (by norm_num)]; rfl
        · rfl
    · rw [step_fin] at hv
      rcases List.mem_cons.mp hv with rfl | hv
      · exact Or.inr ⟨_, rfl⟩
      · refine ih _ (by rw [step_length, hz]) (fun v hv => hl v (by simp [hv])) (fun k hk' hn => ?_) v hv
        have := hk (k + 1) (by simpa using hk') (by simpa using hn)
        simp only [List.length_cons] at this
        omega

/-- Output when the row has a `-inf` followed by at least two entries: some NaN. -/
theorem df2t_bad : ∀ (xs : List (XF ℝ)) (z : List ℝ), z.length = 4 → (∀ v ∈ xs, LogVal v) →
    (∃ k, k + 2 < xs.length ∧ xs.getD k 0 = ninf) →
    nan ∈ (df2t rastaB rastaA (z.map fin) xs).1 := by
  intro xs
  induction xs with
  | nil => rintro z _ _ ⟨k, hk, -⟩; simp at hk
  | cons x xs ih =>
    rintro z hz hl ⟨k, hk, hn⟩
    rw [df2tX_cons]
    rcases hl x (by simp) with rfl | ⟨y, rfl⟩
    · obtain ⟨a, b, c, d, rfl⟩ : ∃ a b c d, z = [a, b, c, d] := by
        match z, hz with
        | [a, b, c, d], _ => exact ⟨a, b, c, d, rfl⟩
      obtain ⟨u, w, hs⟩ := step_ninf a b c d
      rw [hs]
      match xs, hk with
      | [], hk => simp at hk
      | [t], hk => simp at hk
      | s :: t :: xs, _ =>
        rw [df2tX_cons, df2tX_cons]
        have : (df2tStep rastaB rastaA (df2tStep rastaB rastaA [ninf, nan, u, w] s).2 t).1 = nan := by
          rw [rastaB_eq, rastaA]
          simp only [df2tStep, List.getD_cons_zero, List.length_cons, List.length_nil, List.range_succ, List.range_zero,
            List.nil_append, List.cons_append, List.map_cons, List.map_nil, List.getD_cons_succ]
          simp
        rw [this]
        simp
    · rw [step_fin]
      cases k with
      | zero => cases hn
      | succ k =>
        exact List.mem_cons_of_mem _ (ih _ (by rw [step_length, hz]) (fun v hv => hl v (by simp [hv]))
          ⟨k, by simp only [List.length_cons] at hk; omega, by simpa using hn⟩)

/-- The first four outputs: NaN at every `-inf`. -/
theorem fir_bad (z xs : List (XF ℝ)) {j : ℕ} (hj : j < xs.length) (hn : xs.getD j 0 = ninf) :
    nan ∈ (firZi rastaB z xs).1.map (· * 0) := by
  refine List.mem_map.mpr ⟨(firZi rastaB z xs).1.getD j 0, getD_mem _ ?_, ?_⟩
  · rw [(firZiX_length _ _ _ (by rw [rastaB_eq]; simp)).1]; exact hj
  · refine mul_zero_notFinite ?_
    have hB : rastaB.length = 5 := by rw [rastaB_eq]; rfl
    simp only [firZi]
    rw [getD_take_lt _ _ hj, getD_map_range_lt _ _ (by omega)]
    refine add_notFinite_left (sum_notFinite (List.mem_map.mpr ⟨0, by simp [hB], rfl⟩) ?_)
    rw [if_pos ⟨Nat.zero_le _, by simpa using hj⟩, Nat.sub_zero, hn, rastaB_eq]
    simp only [List.getD_cons_zero]
    rw [ninf_mul_pos (by norm_num)]; rfl

/-- A row of logarithms on which the filter gives no NaN: `-inf` in the last two bands and not in the first four. -/
def RastaFine (r : List (XF ℝ)) : Prop := ∀ k < r.length, r.getD k 0 = ninf → 4 ≤ k ∧ r.length ≤ k + 2

theorem logVal_map {l : List (XF ℝ)} (h : ∀ v ∈ l, ∃ y, v = fin y) : ∃ l' : List ℝ, l = l'.map fin := by
  refine ⟨l.map XF.toNum, ?_⟩
  rw [List.map_map]
  conv_lhs => rw [← List.map_id l]
  apply List.map_congr_left
  intro v hv
  obtain ⟨y, rfl⟩ := h v hv
  rfl

theorem take_fine {r : List (XF ℝ)} (hl : ∀ v ∈ r, LogVal v) (hf : ∀ k < r.length, r.getD k 0 = ninf → 4 ≤ k) :
    ∃ l : List ℝ, r.take 4 = l.map fin := by
  refine logVal_map fun v hv => ?_
  rcases hl v (List.mem_of_mem_take hv) with rfl | h
  · obtain ⟨k, hk, he⟩ := (mem_iff_getD (0 : XF ℝ) ninf).mp hv
    rw [List.length_take] at hk
    rw [getD_take_lt _ _ (by omega)] at he
    have := hf k (by omega) he
    omega
  · exact h

theorem rastaRowsX_ok (b c : List (XF ℝ)) (y : XMat) : ∀ z : List (XF ℝ), (∀ r ∈ y, r ≠ []) →
    ∃ u, rastaRows b c z y = .ok u := by
  induction y with
  | nil => intro z _; exact ⟨_, rfl⟩
  | cons r rs ih =>
    intro z h
    cases r with
    | nil => exact absurd rfl (h [] (by simp))
    | cons x0 t =>
      obtain ⟨u, hu⟩ := ih (firZi b (z.map (· * x0)) ((x0 :: t).take 4)).2 fun r hr => h r (by simp [hr])
      rw [rastaRows]
      simp only [hu]
      exact ⟨_, rfl⟩

theorem rastaRowsX_cons {b c z y1 z' : List (XF ℝ)} {x0 : XF ℝ} {t : List (XF ℝ)} {rs u : XMat}
    (h : firZi b (z.map (· * x0)) ((x0 :: t).take 4) = (y1, z')) (hu : rastaRows b c z' rs = .ok u) :
    rastaRows b c z ((x0 :: t) :: rs) = .ok ((y1.map (· * 0) ++ (df2t b c z' ((x0 :: t).drop 4)).1) :: u) := by
  rw [rastaRows]
  simp only [h, hu]

/-- RASTA on a matrix of logarithms: rows without NaN up to the first row that is not fine, which gets a NaN. -/
theorem rastaRows_inf : ∀ (x : XMat) (z : List ℝ), z.length = 4 → (∀ r ∈ x, r ≠ []) → (∀ r ∈ x, ∀ v ∈ r, LogVal v) →
    (∃ y, rastaRows rastaB rastaA (z.map fin) x = .ok y ∧ (∀ r ∈ y, r.getD 0 nan = fin 0 ∧ ∀ v ∈ r, LogVal v) ∧
      ∀ r ∈ x, RastaFine r) ∨
    (∃ y₁ b y₂, rastaRows rastaB rastaA (z.map fin) x = .ok (y₁ ++ b :: y₂) ∧
      (∀ r ∈ y₁, r.getD 0 nan = fin 0 ∧ ∀ v ∈ r, LogVal v) ∧ nan ∈ b ∧ (∃ r ∈ x, b.length = r.length) ∧
      ∃ r ∈ x, ¬ RastaFine r) := by
  intro x
  induction x with
  | nil => intro z _ _ _; exact Or.inl ⟨[], rfl, by simp, by simp⟩
  | cons r rs ih =>
    intro z hz hne hl
    obtain ⟨x0, t, rfl⟩ := List.exists_cons_of_ne_nil (hne r (by simp))
    have hB : rastaB ≠ [] := by rw [rastaB_eq]; simp
    have hlr := hl (x0 :: t) (by simp)
    have hbad : ∀ y1 z', firZi rastaB ((z.map fin).map (· * x0)) ((x0 :: t).take 4) = (y1, z') →
        nan ∈ y1.map (· * 0) ++ (df2t rastaB rastaA z' ((x0 :: t).drop 4)).1 → ¬ RastaFine (x0 :: t) →
        ∃ y₁ b y₂, rastaRows rastaB rastaA (z.map fin) ((x0 :: t) :: rs) = .ok (y₁ ++ b :: y₂) ∧
          (∀ r ∈ y₁, r.getD 0 nan = fin 0 ∧ ∀ v ∈ r, LogVal v) ∧ nan ∈ b ∧ (∃ r ∈ (x0 :: t) :: rs, b.length = r.length) ∧
          ∃ r ∈ (x0 :: t) :: rs, ¬ RastaFine r := by
      intro y1 z' he hn hf
      obtain ⟨u, hu⟩ := rastaRowsX_ok rastaB rastaA rs z' fun r hr => hne r (by simp [hr])
      rw [rastaRowsX_cons he hu]
      refine ⟨[], _, u, rfl, by simp, hn, ⟨x0 :: t, by simp, ?_⟩, x0 :: t, by simp, hf⟩
      have := (firZiX_length rastaB ((z.map fin).map (· * x0)) ((x0 :: t).take 4) hB).1
      rw [he] at this
      rw [List.length_append, List.length_map, df2tX_length, this, List.length_take, List.length_drop]
      omega
    by_cases h4 : ∃ j < (x0 :: t).length, (x0 :: t).getD j 0 = ninf ∧ j < 4
    · obtain ⟨j, hj, hjn, hj4⟩ := h4
      right
      refine hbad _ _ rfl (List.mem_append_left _ (fir_bad _ _ (j := j) (by rw [List.length_take]; omega) (by
        rw [getD_take_lt _ _ hj4]; exact hjn))) fun h => ?_
      have := (h j hj hjn).1
      omega
    have h4' : ∀ k < (x0 :: t).length, (x0 :: t).getD k 0 = ninf → 4 ≤ k := fun k hk hn => by
      by_contra hc; exact h4 ⟨k, hk, hn, by omega⟩
    obtain ⟨l, hlt⟩ := take_fine hlr h4'
    have hx0 : ∃ v, x0 = fin v := by
      rcases hlr x0 (by simp) with rfl | h
      · exact absurd (h4' 0 (by simp) rfl) (by omega)
      · exact h
    obtain ⟨v0, rfl⟩ := hx0
    have hfir : firZi rastaB ((z.map fin).map (· * fin v0)) ((fin v0 :: t).take 4) =
        ((firZi rastaNumer (z.map (· * v0)) l).1.map fin, (firZi rastaNumer (z.map (· * v0)) l).2.map fin) := by
      rw [hlt, show (z.map fin).map (· * fin v0) = (z.map (· * v0)).map fin by simp, rastaB]
      exact firZi_fin _ _ _
    have hz' : (firZi (rastaNumer : List ℝ) (z.map (· * v0)) l).2.length = 4 := by
      rw [(firZi_length _ _ _ (by simp [rastaNumer])).2]; rfl
    have hl1 : (firZi (rastaNumer : List ℝ) (z.map (· * v0)) l).1.length = min 4 (t.length + 1) := by
      have := congrArg List.length hlt
      rw [List.length_map, List.length_take, List.length_cons] at this
      rw [(firZi_length _ _ _ (by simp [rastaNumer])).1, ← this]
    have hd : ∀ v ∈ (fin v0 :: t).drop 4, LogVal v := fun v hv => hlr v (List.mem_of_mem_drop hv)
    by_cases hb : ∃ k, k + 2 < ((fin v0 :: t).drop 4).length ∧ ((fin v0 :: t).drop 4).getD k 0 = ninf
    · right
      refine hbad _ _ hfir (List.mem_append_right _ (df2t_bad _ _ hz' hd hb)) fun h => ?_
      obtain ⟨k, hk, hn⟩ := hb
      rw [List.length_drop] at hk
      rw [getD_drop'] at hn
      have := (h _ (by omega) hn).2
      omega
    have hfine : RastaFine (fin v0 :: t) := by
      intro k hk hn
      have k4 := h4' k hk hn
      refine ⟨k4, ?_⟩
      by_contra hc
      refine hb ⟨k - 4, by rw [List.length_drop]; omega, ?_⟩
      rw [getD_drop', show 4 + (k - 4) = k by omega]
      exact hn
    have hrow : ∀ v ∈ ((firZi rastaNumer (z.map (· * v0)) l).1.map fin).map (· * 0) ++
        (df2t rastaB rastaA ((firZi rastaNumer (z.map (· * v0)) l).2.map fin) ((fin v0 :: t).drop 4)).1, LogVal v := by
      intro v hv
      rcases List.mem_append.mp hv with hv | hv
      · rw [List.map_map] at hv
        obtain ⟨w, -, rfl⟩ := List.mem_map.mp hv
        exact Or.inr ⟨w * 0, rfl⟩
      · refine df2t_good _ _ hz' hd (fun k hk hn => ?_) v hv
        by_contra hc
        exact hb ⟨k, by omega, hn⟩
    have hrow0 : (((firZi rastaNumer (z.map (· * v0)) l).1.map fin).map (· * 0) ++
        (df2t rastaB rastaA ((firZi rastaNumer (z.map (· * v0)) l).2.map fin) ((fin v0 :: t).drop 4)).1).getD 0 nan = fin 0 := by
      rw [getD_append_left _ _ _ (by rw [List.length_map, List.length_map, hl1]; omega), List.map_map]
      rw [getD_map_lt _ _ (0 : ℝ) _ (by rw [hl1]; omega)]
      show fin _ * fin (0 : ℝ) = fin 0
      rw [XF.fin_mul, mul_zero]
    rcases ih _ hz' (fun r hr => hne r (by simp [hr])) (fun r hr => hl r (by simp [hr])) with
      ⟨y, hy, h1, h2⟩ | ⟨y₁, b, y₂, hy, h1, h2, ⟨r, hr, h3⟩, r', hr', h4⟩
    · left
      rw [rastaRowsX_cons hfir hy]
      refine ⟨_, rfl, ?_, ?_⟩
      · intro r hr
        rcases List.mem_cons.mp hr with rfl | hr
        · exact ⟨hrow0, hrow⟩
        · exact h1 r hr
      · intro r hr
        rcases List.mem_cons.mp hr with rfl | hr
        · exact hfine
        · exact h2 r hr
    · right
      rw [rastaRowsX_cons hfir hy]
      refine ⟨_ :: y₁, b, y₂, rfl, ?_, h2, ⟨r, by simp [hr], h3⟩, r', by simp [hr'], h4⟩
      intro r hr
      rcases List.mem_cons.mp hr with rfl | hr
      · exact ⟨hrow0, hrow⟩
      · exact h1 r hr

end Spafe
