import Verif.Lemmas.FrontEnd
import Verif.Lemmas.Finite
import Verif.Props.Cepstral

/-! Normalisation of matrices that differ by a factor or by an offset. -/

set_option linter.unusedSectionVars false

namespace Spafe
open XF Model

/-! ### Extended floats times a positive number -/

section
variable {s : ℝ}

theorem fsmul_mul (hs : 0 < s) (u v : XF ℝ) : (fin s * u) * v = fin s * (u * v) := by
  have h1 : ¬ -s = 0 := by linarith
  have h2 : ¬ 0 < -s := by linarith
  cases u with
  | nan => rfl
  | fin x => exact fin_mul_assoc hs x v
  | pinf =>
    cases v with
    | fin y =>
      rcases lt_trichotomy y 0 with h | h | h
      · simp [XF.mul_def, XF.mul, XF.infMul, hs, hs.ne', h.ne, h.not_gt, hs.not_gt]
      · simp [XF.mul_def, XF.mul, XF.infMul, hs, hs.ne', h]
      · simp [XF.mul_def, XF.mul, XF.infMul, hs, hs.ne', h, h.ne']
    | _ => simp [XF.mul_def, XF.mul, XF.infMul, hs, hs.ne', h2, h1]
  | ninf =>
    cases v with
    | fin y =>
      rcases lt_trichotomy y 0 with h | h | h
      · simp [XF.mul_def, XF.mul, XF.infMul, hs, hs.ne', h, h.ne, hs.not_gt]
      · simp [XF.mul_def, XF.mul, XF.infMul, hs.ne', h, hs.not_gt]
      · simp [XF.mul_def, XF.mul, XF.infMul, hs.ne', h.not_gt, h.ne', hs.not_gt]
    | _ => simp [XF.mul_def, XF.mul, XF.infMul, hs, hs.ne', hs.not_gt]

theorem xf_mul_comm (u v : XF ℝ) : u * v = v * u := by
  cases u <;> cases v <;> simp [XF.mul_def, XF.mul, mul_comm]

theorem mul_fsmul (hs : 0 < s) (u v : XF ℝ) : u * (fin s * v) = fin s * (u * v) := by
  rw [xf_mul_comm, fsmul_mul hs, xf_mul_comm v]

theorem fsmul_div (hs : 0 < s) (u v : XF ℝ) : (fin s * u) / v = fin s * (u / v) := fsmul_mul hs u _

theorem fsmul_fsmul (hs : 0 < s) (t : ℝ) (u : XF ℝ) : fin s * (fin t * u) = fin (s * t) * u :=
  (fin_mul_assoc hs t u).symm

theorem one_fsmul (u : XF ℝ) : fin 1 * u = u := by
  cases u <;> simp [XF.mul_def, XF.mul, XF.infMul]

theorem inv_fsmul (hs : 0 < s) (v : XF ℝ) : XF.inv (fin s * v) = fin s⁻¹ * XF.inv v := by
  have hi : 0 < s⁻¹ := inv_pos.mpr hs
  cases v with
  | fin x =>
    by_cases hx : x = 0
    · subst hx
      simp [XF.mul_def, XF.mul, XF.inv, XF.infMul, hs, hs.ne']
    · simp [XF.mul_def, XF.mul, XF.inv, XF.infMul, hs, hs.ne', hx, mul_comm]
  | _ => simp [XF.mul_def, XF.mul, XF.inv, XF.infMul, hs, hs.ne', hs.not_gt]

theorem fsmul_div_fsmul (hs : 0 < s) (u v : XF ℝ) : (fin s * u) / (fin s * v) = u / v := by
  have hi : 0 < s⁻¹ := inv_pos.mpr hs
  show (fin s * u) * XF.inv (fin s * v) = u * XF.inv v
  rw [inv_fsmul hs, fsmul_mul hs, mul_fsmul hi, fsmul_fsmul hs, mul_inv_cancel₀ hs.ne', one_fsmul]

theorem fsmul_neg (hs : 0 < s) (u : XF ℝ) : fin s * -u = -(fin s * u) := by
  cases u <;> simp [XF.mul_def, XF.neg_def, XF.mul, XF.neg, XF.infMul, hs, hs.ne', hs.not_gt]

theorem fsmul_sub (hs : 0 < s) (u v : XF ℝ) : fin s * (u - v) = fin s * u - fin s * v := by
  rw [XF.sub_def, XF.sub_def, fin_mul_add hs, fsmul_neg hs]

theorem fsmul_list_sum (hs : 0 < s) (l : List (XF ℝ)) : (l.map (fin s * ·)).sum = fin s * l.sum := by
  induction l with
  | nil => exact (fin_mul_zero s).symm
  | cons x l ih => simp only [List.map_cons, List.sum_cons, ih, fin_mul_add hs]

theorem fsmul_mul_fsmul (hs : 0 < s) (u v : XF ℝ) : (fin s * u) * (fin s * v) = fin (s * s) * (u * v) := by
  rw [fsmul_mul hs, mul_fsmul hs, fsmul_fsmul hs]

theorem sqrt_fsmul (hs : 0 < s) (u : XF ℝ) : XF.sqrt (fin (s * s) * u) = fin s * XF.sqrt u := by
  have hss : 0 < s * s := mul_pos hs hs
  cases u with
  | fin x =>
    by_cases hx : 0 ≤ x
    · have : 0 ≤ s * s * x := mul_nonneg hss.le hx
      simp [XF.sqrt, XF.mul_def, XF.mul, hx, this.not_gt, this, hx.not_gt, Real.sqrt_mul hss.le, Real.sqrt_mul_self hs.le]
    · have hx' : x < 0 := not_le.mp hx
      have : s * s * x < 0 := mul_neg_of_pos_of_neg hss hx'
      simp [XF.sqrt, XF.mul_def, XF.mul, hx', this, this.not_ge, hx'.not_ge]
  | _ => simp [XF.sqrt, XF.mul_def, XF.mul, XF.infMul, hs, hs.ne', hss, hss.ne', hss.not_gt]

theorem isNan_fsmul (hs : 0 < s) (u : XF ℝ) : (fin s * u).isNan = u.isNan := by
  cases u <;> simp [XF.mul_def, XF.mul, XF.infMul, XF.isNan, hs, hs.ne', hs.not_gt]

theorem ltb_fsmul (hs : 0 < s) (u v : XF ℝ) : ltb (fin s * u) (fin s * v) = ltb u v := by
  cases u <;> cases v <;> simp [XF.mul_def, XF.mul, XF.infMul, XF.ltb, hs, hs.ne', hs.le, hs.not_gt]

theorem max2_fsmul (hs : 0 < s) (u v : XF ℝ) : max2 (fin s * u) (fin s * v) = fin s * max2 u v := by
  unfold max2
  rw [isNan_fsmul hs, isNan_fsmul hs, ltb_fsmul hs]
  split_ifs <;> simp

theorem min2_fsmul (hs : 0 < s) (u v : XF ℝ) : min2 (fin s * u) (fin s * v) = fin s * min2 u v := by
  unfold min2
  rw [isNan_fsmul hs, isNan_fsmul hs, ltb_fsmul hs]
  split_ifs <;> simp

theorem xmax_fsmul (hs : 0 < s) (l : List (XF ℝ)) : xmax (l.map (fin s * ·)) = fin s * xmax l := by
  cases l with
  | nil => simp [xmax]
  | cons a l =>
    simp only [xmax, List.map_cons, List.foldl_map]
    induction l generalizing a with
    | nil => rfl
    | cons b l ih => simp only [List.foldl_cons]; rw [max2_fsmul hs, ih]

theorem xmin_fsmul (hs : 0 < s) (l : List (XF ℝ)) : xmin (l.map (fin s * ·)) = fin s * xmin l := by
  cases l with
  | nil => simp [xmin]
  | cons a l =>
    simp only [xmin, List.map_cons, List.foldl_map]
    induction l generalizing a with
    | nil => rfl
    | cons b l ih => simp only [List.foldl_cons]; rw [min2_fsmul hs, ih]

theorem xmean_fsmul (hs : 0 < s) (l : List (XF ℝ)) : xmean (l.map (fin s * ·)) = fin s * xmean l := by
  unfold xmean xlen
  rw [fsmul_list_sum hs, List.length_map, fsmul_div hs]

theorem xstd_fsmul (hs : 0 < s) (l : List (XF ℝ)) : xstd (l.map (fin s * ·)) = fin s * xstd l := by
  unfold xstd xlen
  rw [List.map_map, List.length_map, xmean_fsmul hs]
  have : ((fun v => (v - fin s * xmean l) * (v - fin s * xmean l)) ∘ fun x => fin s * x) =
      (fin (s * s) * ·) ∘ fun v => (v - xmean l) * (v - xmean l) := by
    funext v
    simp only [Function.comp]
    rw [← fsmul_sub hs, fsmul_mul_fsmul hs]
  rw [this, ← List.map_map, fsmul_list_sum (mul_pos hs hs), fsmul_div (mul_pos hs hs), sqrt_fsmul hs]

/-- A matrix times a positive number. -/
noncomputable def fsmulMat (s : ℝ) (m : XMat) : XMat := m.map fun r => r.map (fin s * ·)

theorem fsmulMat_flatten (m : XMat) : (fsmulMat s m).flatten = m.flatten.map (fin s * ·) := by
  rw [fsmulMat, List.map_flatten]

theorem colMeans_fsmul (hs : 0 < s) (m : XMat) (c : ℕ) :
    colMeans (fsmulMat s m) c = (colMeans m c).map (fin s * ·) := by
  unfold colMeans
  rw [List.map_map]
  apply List.map_congr_left
  intro j _
  simp only [Function.comp]
  rw [← xmean_fsmul hs]
  congr 1
  unfold Np.col fsmulMat
  rw [List.map_map, List.map_map]
  apply List.map_congr_left
  intro r _
  simp only [Function.comp]
  by_cases hj : j < r.length
  · rw [getD_map_lt _ _ 0 _ hj]
  · rw [List.getD_eq_default _ _ (by simpa using hj), List.getD_eq_default _ _ (by simpa using hj), fin_mul_zero]

theorem subRow_fsmul (hs : 0 < s) (m : XMat) (v : List (XF ℝ)) :
    subRow (fsmulMat s m) (v.map (fin s * ·)) = fsmulMat s (subRow m v) := by
  unfold subRow fsmulMat
  rw [List.map_map, List.map_map]
  apply List.map_congr_left
  intro r _
  simp only [Function.comp]
  rw [List.zipWith_map, List.map_zipWith]
  congr 1
  funext a b
  exact (fsmul_sub hs a b).symm

/-- The normalisations that divide by a spread do not see a positive factor. -/
theorem normalize_fsmul (hs : 0 < s) (m : XMat) (c : ℕ) {name : String} (hn : name ≠ "ms") :
    normalizeCeps (fsmulMat s m) c name = normalizeCeps m c name := by
  have hmap : ∀ (A : XMat) (d : XF ℝ), (fsmulMat s A).map (fun r => r.map (· / (fin s * d))) =
      A.map fun r => r.map (· / d) := by
    intro A d
    unfold fsmulMat
    rw [List.map_map]
    apply List.map_congr_left
    intro r _
    simp only [Function.comp, List.map_map]
    apply List.map_congr_left
    intro v _
    exact fsmul_div_fsmul hs v d
  by_cases h0 : m.flatten = []
  · rw [normalizeCeps, normalizeCeps, if_pos h0, if_pos (by rw [fsmulMat_flatten, h0]; rfl)]
  rw [normalizeCeps, normalizeCeps, if_neg h0, if_neg (by rw [fsmulMat_flatten]; simpa using h0), if_neg hn, if_neg hn,
    fsmulMat_flatten, colMeans_fsmul hs, subRow_fsmul hs, xstd_fsmul hs, xmean_fsmul hs, xmax_fsmul hs, xmin_fsmul hs,
    ← fsmul_sub hs, hmap, hmap]
  have : ((fsmulMat s m).map fun r => r.map fun v =>
      (v - fin s * xmean m.flatten) / (fin s * (xmax m.flatten - xmin m.flatten))) =
      m.map fun r => r.map fun v => (v - xmean m.flatten) / (xmax m.flatten - xmin m.flatten) := by
    unfold fsmulMat
    rw [List.map_map]
    apply List.map_congr_left
    intro r _
    simp only [Function.comp, List.map_map]
    apply List.map_congr_left
    intro v _
    simp only [Function.comp, ← fsmul_sub hs]
    exact fsmul_div_fsmul hs _ _
  rw [this]

theorem liftRow_fsmul (hs : 0 < s) (l : ℝ) (c : ℕ) (r : List (XF ℝ)) :
    liftRow l c (r.map (fin s * ·)) = (liftRow l c r).map (fin s * ·) := by
  unfold liftRow
  split_ifs
  · rfl
  · unfold dotDiag
    rw [List.map_map, List.length_map]
    apply List.map_congr_left
    intro j _
    simp only [Function.comp]
    rw [fin_mul_sum hs]
    apply Finset.sum_congr rfl
    intro i hi
    rw [getD_map_lt _ _ 0 _ (Finset.mem_range.mp hi), fsmul_mul hs]
  · rw [List.zipWith_map_left, List.map_zipWith]
    congr 1
    funext a b
    exact fsmul_mul hs a b

theorem ncols_fsmul (m : XMat) : Np.ncols (fsmulMat s m) = Np.ncols m := by
  cases m <;> simp [fsmulMat, Np.ncols]

theorem lifter_fsmul (hs : 0 < s) (m : XMat) (c : ℕ) (l : ℝ) :
    lifterCeps (fsmulMat s m) c l = (lifterCeps m c l).map (fsmulMat s) := by
  cases h : lifterCeps m c l with
  | ok m' =>
    obtain ⟨h1, rfl⟩ := (lifterCeps_ok_iff ..).mp h
    refine (lifterCeps_ok_iff ..).mpr ⟨h1, ?_⟩
    simp only [fsmulMat, List.map_map]
    apply List.map_congr_left
    intro r _
    exact (liftRow_fsmul hs l c r).symm
  | error e =>
    unfold lifterCeps at h ⊢
    split_ifs at h ⊢ with h1 h2 h3
    injection h with h
    subst h
    rfl

end

/-! ### A common offset -/

/-- The weights of `lifter_ceps` as real numbers. -/
noncomputable def liftU (l : ℝ) (c : ℕ) : List ℝ :=
  if l = 0 ∨ l > 10 then List.replicate c 1
  else if l > 0 then liftVecPos l c
  else (liftVecNeg l c).map toNum

theorem liftRow_fin {l : ℝ} (hl : l ≤ -1 ∨ 0 ≤ l) {c : ℕ} (hc : 0 < c) {r : List ℝ} (hr : r.length = c) :
    (liftU l c).length = c ∧ liftRow l c (r.map fin) = (List.zipWith (· * ·) r (liftU l c)).map fin := by
  unfold liftRow liftU
  split_ifs with h1 h2
  · refine ⟨by simp, ?_⟩
    congr 1
    apply ext_getD 0 (by simp [hr])
    intro j hj
    rw [getD_zipWith_lt _ _ _ 0 0 0 hj (by simpa using hr ▸ hj)]
    simp [List.getD_replicate, hr ▸ hj]
  · exact ⟨liftVecPos_length l hc, dotDiag_fin _ _ (by rw [liftVecPos_length l hc, hr])⟩
  · refine ⟨by simp [liftVecNeg], ?_⟩
    have hL : pyInt (-1 * l) ≠ 0 := by
      push Not at h1
      have hl1 : l ≤ -1 := by
        rcases hl with h3 | h3
        · exact h3
        · exact absurd (le_antisymm (not_lt.mp h2) h3) h1.1
      have h0 : (0:ℝ) ≤ -1 * l := by linarith
      rw [pyInt, if_pos h0]
      have : (1:ℤ) ≤ ⌊-1 * l⌋ := Int.le_floor.mpr (by push_cast; linarith)
      omega
    have hv : liftVecNeg l c = ((liftVecNeg l c).map toNum).map fin := by
      unfold liftVecNeg
      simp only [if_neg hL, List.map_map]
      rfl
    conv_lhs => rw [hv]
    rw [List.zipWith_map, List.map_zipWith]
    rfl

theorem zipWith_add_mul (r v u : List ℝ) : List.zipWith (· * ·) (List.zipWith (· + ·) r v) u =
    List.zipWith (· + ·) (List.zipWith (· * ·) r u) (List.zipWith (· * ·) v u) := by
  induction r generalizing v u with
  | nil => simp
  | cons x r ih =>
    cases v with
    | nil => simp
    | cons y v =>
      cases u with
      | nil => simp
      | cons z u => simp only [List.zipWith_cons_cons, ih, add_mul]

/-- A constant added to all log energies of a frame (and `τ` to the log of the frame energy) adds one vector to the
cepstrum, the same for every frame. -/
theorem tail_shift {a : Args} {N : ℕ} (hc : 0 < min a.numCeps N) (hl : LiftOk a.lifter) (t τ : ℝ) :
    ∃ v : List ℝ, v.length = min a.numCeps N ∧ ∀ x : List ℝ, x.length = N → ∀ mag mag' : List ℝ,
      (a.useEnergy = true → ∃ e, logEnergy a.nfft mag = fin e ∧ logEnergy a.nfft mag' = fin (e + τ)) →
      ∃ r : List ℝ, r.length = min a.numCeps N ∧ tailRow a N mag (x.map fin) = r.map fin ∧
        tailRow a N mag' ((x.map (· + t)).map fin) = (List.zipWith (· + ·) r v).map fin := by
  obtain ⟨D, hD⟩ : ∃ D : List ℝ → List ℝ, D = fun x => ((List.range x.length).map fun (k : ℕ) =>
      ∑ n ∈ Finset.range x.length, Np.dctKernel a.dctType x.length k n * x.getD n 0).take a.numCeps := ⟨_, rfl⟩
  have hDl : ∀ x : List ℝ, x.length = N → (D x).length = min a.numCeps N := by
    intro x hx; simp [hD, hx]
  have hdct : ∀ x : List ℝ, (Np.dctRow a.dctType (x.map fin)).take a.numCeps = (D x).map fin := by
    intro x; rw [dctRow_fin, hD, List.map_take]
  have hadd : ∀ x : List ℝ, x.length = N →
      D (x.map (· + t)) = List.zipWith (· + ·) (D x) (D (List.replicate N t)) := by
    intro x hx
    have h1 := hDl (x.map (· + t)) (by simpa using hx)
    have h2 := hDl x hx
    have h3 := hDl (List.replicate N t) (by simp)
    apply ext_getD 0 (by simp [h1, h2, h3])
    intro j hj
    rw [h1] at hj
    rw [getD_zipWith_lt _ _ _ 0 0 0 (by omega) (by omega)]
    have hj1 : j < a.numCeps := by omega
    have hj2 : j < N := by omega
    simp only [hD, List.length_map, List.length_replicate, hx]
    rw [getD_take_lt _ _ hj1, getD_take_lt _ _ hj1, getD_take_lt _ _ hj1, getD_map_range_lt _ _ hj2,
      getD_map_range_lt _ _ hj2, getD_map_range_lt _ _ hj2, ← Finset.sum_add_distrib]
    apply Finset.sum_congr rfl
    intro n hn
    have hn := Finset.mem_range.mp hn
    rw [getD_map_lt _ _ 0 _ (by omega), List.getD_replicate _ hn, mul_add]
  obtain ⟨E, hE⟩ : ∃ E : List ℝ → ℝ → List ℝ, E = fun r e => if a.useEnergy then r.set 0 e else r := ⟨_, rfl⟩
  have hEl : ∀ r e, (E r e).length = r.length := by intro r e; simp only [hE]; split_ifs <;> simp
  have hEadd : ∀ r v e, r.length = v.length →
      E (List.zipWith (· + ·) r v) (e + τ) = List.zipWith (· + ·) (E r e) (E v τ) := by
    intro r v e h
    simp only [hE]
    split_ifs
    · cases r with
      | nil => cases v <;> simp
      | cons x r => cases v with
        | nil => simp at h
        | cons y v => simp
    · rfl
  obtain ⟨L, hL⟩ : ∃ L : List ℝ → List ℝ, L = fun r => match a.lifter with
    | none => r
    | some l => List.zipWith (· * ·) r (liftU l (min a.numCeps N)) := ⟨_, rfl⟩
  have hLu : ∀ l, a.lifter = some l → (liftU l (min a.numCeps N)).length = min a.numCeps N := by
    intro l h
    exact (liftRow_fin (hl l h) hc (r := List.replicate (min a.numCeps N) 0) (by simp)).1
  have hLl : ∀ r : List ℝ, r.length = min a.numCeps N → (L r).length = min a.numCeps N := by
    intro r hr
    simp only [hL]
    cases h : a.lifter with
    | none => exact hr
    | some l => simp [hr, hLu l h]
  have hLadd : ∀ r v : List ℝ, L (List.zipWith (· + ·) r v) = List.zipWith (· + ·) (L r) (L v) := by
    intro r v
    simp only [hL]
    cases a.lifter with
    | none => rfl
    | some l => exact zipWith_add_mul _ _ _
  have htail : ∀ (x mag : List ℝ) (e : ℝ), x.length = N → (a.useEnergy = true → logEnergy a.nfft mag = fin e) →
      tailRow a N mag (x.map fin) = (L (E (D x) e)).map fin := by
    intro x mag e hx he
    unfold tailRow
    simp only [hdct]
    have h1 : (if a.useEnergy = true then ((D x).map fin).set 0 (logEnergy a.nfft mag) else (D x).map fin) =
        (E (D x) e).map fin := by
      simp only [hE]
      split_ifs with h
      · rw [he h, List.map_set]
      · rfl
    rw [h1]
    simp only [hL]
    cases h : a.lifter with
    | none => rfl
    | some l => exact (liftRow_fin (hl l h) hc (by rw [hEl, hDl x hx])).2
  refine ⟨L (E (D (List.replicate N t)) τ), hLl _ (by rw [hEl, hDl _ (by simp)]), fun x hx mag mag' he => ?_⟩
  obtain ⟨e, he1⟩ : ∃ e, a.useEnergy = true → logEnergy a.nfft mag = fin e ∧ logEnergy a.nfft mag' = fin (e + τ) := by
    by_cases h : a.useEnergy = true
    · obtain ⟨e, h1⟩ := he h
      exact ⟨e, fun _ => h1⟩
    · exact ⟨0, fun h' => absurd h' h⟩
  refine ⟨L (E (D x) e), hLl _ (by rw [hEl, hDl x hx]), htail x mag e hx fun h => (he1 h).1, ?_⟩
  rw [htail (x.map (· + t)) mag' (e + τ) (by simpa using hx) fun h => (he1 h).2, hadd x hx, hEadd _ _ _ (by
    rw [hDl x hx, hDl _ (by simp)]), hLadd]

/-- The log of the frame energy under a gain. -/
theorem logEnergy_smul {c : ℝ} (hc : c ≠ 0) (nfft : ℕ) (w : List ℝ)
    (h : ((Np.absRfft nfft w).map fun v => 1 / (nfft : ℝ) * (|v| * |v|)).sum ≠ 0) :
    ∃ e, logEnergy nfft (Np.absRfft nfft w) = fin e ∧
      logEnergy nfft (Np.absRfft nfft (w.map (c * ·))) = fin (e + Real.log (c ^ 2)) := by
  have hs : 0 ≤ ((Np.absRfft nfft w).map fun v => 1 / (nfft : ℝ) * (|v| * |v|)).sum := by
    apply List.sum_nonneg
    intro x hx
    obtain ⟨v, -, rfl⟩ := List.mem_map.mp hx
    positivity
  have hc2 : 0 < c ^ 2 := by positivity
  have he : ((Np.absRfft nfft (w.map (c * ·))).map fun v => 1 / (nfft : ℝ) * (|v| * |v|)).sum =
      c ^ 2 * ((Np.absRfft nfft w).map fun v => 1 / (nfft : ℝ) * (|v| * |v|)).sum := by
    rw [absRfft_smul, List.map_map, ← List.sum_map_mul_left]
    congr 1
    apply List.map_congr_left
    intro v _
    simp only [Function.comp, abs_mul, abs_abs]
    rw [← sq_abs c]
    ring
  have hs' := lt_of_le_of_ne hs (Ne.symm h)
  refine ⟨Real.log ((Np.absRfft nfft w).map fun v => 1 / (nfft : ℝ) * (|v| * |v|)).sum, ?_, ?_⟩
  · unfold logEnergy
    simp only [if_neg h]
    exact XF.log_pos hs'
  · unfold logEnergy
    simp only [he, if_neg (mul_ne_zero hc2.ne' h)]
    rw [XF.log_pos (mul_pos hc2 hs'), Real.log_mul hc2.ne' h, add_comm]

end Spafe
