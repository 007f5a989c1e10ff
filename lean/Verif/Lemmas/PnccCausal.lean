import Verif.Lemmas.Pncc2

/-! The medium-time processing of `pncc` reads no more than two frames ahead: `n` output rows are determined by `n + 2`
input rows. -/

set_option linter.unusedSectionVars false

namespace Spafe
open Model XF Spec

theorem scanRows_take {β : Type} (step : β → β → β) (prev : List β) (x : List (List β)) (n : ℕ) :
    (scanRows step prev x).take n = scanRows step prev (x.take n) := by
  induction n generalizing prev x with
  | zero => simp [scanRows]
  | succ n ih =>
    cases x with
    | nil => simp [scanRows]
    | cons r rs => simp only [scanRows, List.take_succ_cons, ih]

theorem mapMat2_take {β γ δ : Type} (f : β → γ → δ) (x : List (List β)) (y : List (List γ)) (n : ℕ) :
    (mapMat2 f x y).take n = mapMat2 f (x.take n) (y.take n) := by
  unfold mapMat2
  exact List.take_zipWith

theorem headD_of_take {β : Type} {x y : List (List β)} {n : ℕ} (hn : 1 ≤ n) (h : x.take n = y.take n) :
    x.headD [] = y.headD [] := by
  obtain ⟨k, rfl⟩ : ∃ k, n = k + 1 := ⟨n - 1, by omega⟩
  cases x <;> cases y <;> simp_all

theorem getD_of_take {β : Type} {x y : List β} {n i : ℕ} (hi : i < n) (h : x.take n = y.take n) (d : β) :
    x.getD i d = y.getD i d := by
  rw [← getD_take_lt x d hi, h, getD_take_lt y d hi]

theorem take_ext {β : Type} {x y : List β} {n : ℕ} (hx : n ≤ x.length) (hy : n ≤ y.length) (d : β)
    (h : ∀ i < n, x.getD i d = y.getD i d) : x.take n = y.take n := by
  apply ext_getD d
  · rw [List.length_take, List.length_take]; omega
  · intro i hi
    rw [List.length_take] at hi
    rw [getD_take_lt _ _ (by omega), getD_take_lt _ _ (by omega)]
    exact h i (by omega)

section
variable {n : ℕ} {P P' : XMat}

theorem medium_take (hl : n + 2 ≤ P.length) (hl' : n + 2 ≤ P'.length) (h : P.take (n + 2) = P'.take (n + 2)) :
    (mediumTimePower P).take n = (mediumTimePower P').take n := by
  have hc : Np.ncols P = Np.ncols P' := by unfold Np.ncols; rw [headD_of_take (by omega) h]
  unfold mediumTimePower
  refine take_ext (by simp; omega) (by simp; omega) [] fun m hm => ?_
  rw [getD_map_range_lt _ _ (by omega), getD_map_range_lt _ _ (by omega), hc]
  apply List.map_congr_left
  intro l _
  congr 1
  rw [min_eq_right (by omega), min_eq_right (by omega)]
  refine Finset.sum_congr rfl fun i hi => ?_
  rw [Finset.mem_Ico] at hi
  unfold Np.at2
  rw [getD_of_take (by omega) h]

theorem asym_take {x y : ℝ} {Q Q' E E' : XMat} (hn : 1 ≤ n) (hlen : Q.length ≠ 1) (hlen' : Q'.length ≠ 1)
    (h : Q.take n = Q'.take n) (hE : asymmetricLowpass Q x y = .ok E) (hE' : asymmetricLowpass Q' x y = .ok E') :
    E.take n = E'.take n := by
  unfold asymmetricLowpass at hE hE'
  split_ifs at hE hE'
  injection hE with hE
  injection hE' with hE'
  subst hE hE'
  rw [scanRows_take, scanRows_take, h]
  congr 1
  unfold asymInit
  rw [if_neg hlen, if_neg hlen', headD_of_take hn h]

theorem masking_take {x y : ℝ} {Q Q' E E' : XMat} (hn : 1 ≤ n)
    (h : Q.take n = Q'.take n) (hE : temporalMasking Q x y = .ok E) (hE' : temporalMasking Q' x y = .ok E') :
    E.take n = E'.take n := by
  obtain ⟨k, rfl⟩ : ∃ k, n = k + 1 := ⟨n - 1, by omega⟩
  cases Q with
  | nil => simp [temporalMasking] at hE
  | cons q qs =>
    cases Q' with
    | nil => simp [temporalMasking] at hE'
    | cons q' qs' =>
      simp only [temporalMasking, Except.ok.injEq] at hE hE'
      subst hE hE'
      simp only [List.take_succ_cons, List.cons.injEq] at h ⊢
      obtain ⟨rfl, h⟩ := h
      refine ⟨rfl, ?_⟩
      rw [List.take_zipWith, List.take_zipWith, h]
      congr 1
      cases k with
      | zero => simp
      | succ k =>
        simp only [onlinePeak, List.take_succ_cons, scanRows_take]
        have h2 : qs.take k = qs'.take k := by
          have := congrArg (List.take k) h
          rwa [List.take_take, List.take_take, min_eq_left (by omega)] at this
        rw [h2]

theorem noise_take {t : ℝ} {Q Q' R R' : XMat} (hn : 1 ≤ n) (hlen : Q.length ≠ 1) (hlen' : Q'.length ≠ 1)
    (hr : ∀ E, asymmetricLowpass Q 0.999 0.5 = .ok E → E.length = Q.length)
    (hr' : ∀ E, asymmetricLowpass Q' 0.999 0.5 = .ok E → E.length = Q'.length)
    (h : Q.take n = Q'.take n) (hR : noiseSuppression Q t = .ok R) (hR' : noiseSuppression Q' t = .ok R') :
    R.take n = R'.take n := by
  simp only [noiseSuppression, bind_ok_iff] at hR hR'
  obtain ⟨le, h1, f, h2, tm, h3, h4⟩ := hR
  obtain ⟨le', h1', f', h2', tm', h3', h4'⟩ := hR'
  injection h4 with h4
  injection h4' with h4'
  subst h4 h4'
  have hle := asym_take hn hlen hlen' h h1 h1'
  have hl1 := hr _ h1
  have hl1' := hr' _ h1'
  have hq0 : ((mapMat2 (fun q e => q - e) Q le).map fun r => r.map fun v => if ltb v (fin t) then fin 0 else v).take n =
      ((mapMat2 (fun q e => q - e) Q' le').map fun r => r.map fun v => if ltb v (fin t) then fin 0 else v).take n := by
    rw [← List.map_take, ← List.map_take, mapMat2_take, mapMat2_take, h, hle]
  have hf := asym_take hn (by simp [mapMat2, hl1]; omega) (by simp [mapMat2, hl1']; omega) hq0 h2 h2'
  have htm := masking_take hn hq0 h3 h3'
  rw [mapMat2_take, mapMat2_take, mapMat2_take, mapMat2_take, mapMat2_take, mapMat2_take, h, hle, hf, htm]

theorem weight_take {N L : ℕ} {R R' Q Q' S S' : XMat} (hn : 1 ≤ n) (hl : n ≤ R.length) (hl' : n ≤ R'.length)
    (hR : R.take n = R'.take n) (hQ : Q.take n = Q'.take n) (h : weightSmoothing R Q L N = .ok S)
    (h' : weightSmoothing R' Q' L N = .ok S') : S.take n = S'.take n := by
  have hc : Np.ncols R = Np.ncols R' := by unfold Np.ncols; rw [headD_of_take hn hR]
  unfold weightSmoothing at h h'
  have e1 := mapM_length _ _ _ h
  have e2 := mapM_length _ _ _ h'
  rw [List.length_range] at e1 e2
  refine take_ext (by omega) (by omega) [] fun i hi => ?_
  have h1 := ((mapM_ok_iff ..).mp h).get (i := i) (by simp; omega) (by omega)
  have h2 := ((mapM_ok_iff ..).mp h').get (i := i) (by simp; omega) (by omega)
  simp only [List.get_eq_getElem, List.getElem_range] at h1 h2
  have hrow : ∀ l, wsEntry (Np.ncols R) N L R Q i l = wsEntry (Np.ncols R') N L R' Q' i l := by
    intro l
    unfold wsEntry Np.at2
    rw [hc, getD_of_take hi hR, getD_of_take hi hQ]
  rw [show (List.range (Np.ncols R)).mapM (fun (l : ℕ) => wsEntry (Np.ncols R) N L R Q i l) =
    (List.range (Np.ncols R')).mapM (fun (l : ℕ) => wsEntry (Np.ncols R') N L R' Q' i l) by
      rw [show (fun (l : ℕ) => wsEntry (Np.ncols R) N L R Q i l) = fun (l : ℕ) => wsEntry (Np.ncols R') N L R' Q' i l from
        funext hrow, hc], h2] at h1
  injection h1 with h1
  rw [List.getD_eq_getElem _ _ (by omega), List.getD_eq_getElem _ _ (by omega)]
  exact h1.symm

theorem myu_take {lam : ℝ} {L : ℕ} (n : ℕ) {p : XF ℝ} {ts : XMat} {v : List (XF ℝ)} (h : myuLoop lam L p ts = .ok v) :
    myuLoop lam L p (ts.take n) = .ok (v.take n) := by
  induction n generalizing p ts v with
  | zero => simp [myuLoop]
  | succ n ih =>
    cases ts with
    | nil =>
      simp only [myuLoop, Except.ok.injEq] at h
      subst h
      simp [myuLoop]
    | cons t ts =>
      simp only [myuLoop] at h
      simp only [List.take_succ_cons, myuLoop]
      split_ifs at h ⊢ with h1 h2
      obtain ⟨vs, h3, h4⟩ := (bind_ok_iff ..).mp h
      injection h4 with h4
      subst h4
      rw [ih h3, ok_bind, List.take_succ_cons]

theorem power_take {lam k : ℝ} {L : ℕ} {T T' U U' : XMat} (hn : 1 ≤ n) (h : T.take n = T'.take n)
    (hU : meanPowerNormalization T lam L k = .ok U) (hU' : meanPowerNormalization T' lam L k = .ok U') :
    U.take n = U'.take n := by
  obtain ⟨j, rfl⟩ : ∃ j, n = j + 1 := ⟨n - 1, by omega⟩
  cases T with
  | nil => simp [meanPowerNormalization] at hU
  | cons t ts =>
    cases T' with
    | nil => simp [meanPowerNormalization] at hU'
    | cons t' ts' =>
      simp only [meanPowerNormalization, bind_ok_iff, Except.ok.injEq] at hU hU'
      obtain ⟨v, h1, rfl⟩ := hU
      obtain ⟨v', h1', rfl⟩ := hU'
      have h2 := myu_take j h1
      have h2' := myu_take j h1'
      simp only [List.take_succ_cons, List.cons.injEq] at h
      obtain ⟨rfl, h⟩ := h
      rw [h, h2'] at h2
      injection h2 with h2
      simp only [List.take_zipWith, List.take_succ_cons, h, h2]

/-- The first `n` rows after the non-linear processing are determined by the first `n + 2` rows of band powers. -/
theorem nonlin_take {c L : ℕ} {V V' : XMat} (hn : 1 ≤ n) (hr : Np.Rect P c) (hr' : Np.Rect P' c)
    (hl : n + 2 ≤ P.length) (hl' : n + 2 ≤ P'.length) (h : P.take (n + 2) = P'.take (n + 2)) (hV : pnccNonlin L P = .ok V)
    (hV' : pnccNonlin L P' = .ok V') : V.take n = V'.take n := by
  have h0 : P ≠ [] := by intro h; simp [h] at hl
  have h0' : P' ≠ [] := by intro h; simp [h] at hl'
  simp only [pnccNonlin, bind_ok_iff, Except.ok.injEq] at hV hV'
  obtain ⟨R, h1, S, h2, U, h3, rfl⟩ := hV
  obtain ⟨R', h1', S', h2', U', h3', rfl⟩ := hV'
  obtain ⟨l1, r1⟩ := medium_shape (M := 2) hr h0
  obtain ⟨l1', r1'⟩ := medium_shape (M := 2) hr' h0'
  obtain ⟨l2, r2⟩ := noise_shape r1 h1
  obtain ⟨l2', r2'⟩ := noise_shape r1' h1'
  have hQ := medium_take hl hl' h
  have hlenE : ∀ {Q E : XMat}, asymmetricLowpass Q 0.999 0.5 = .ok E → E.length = Q.length := by
    intro Q E hE
    unfold asymmetricLowpass at hE
    split_ifs at hE
    injection hE with hE
    subst hE
    exact scanRows_length _ _ _
  have hR := noise_take hn (by omega) (by omega) (fun E hE => hlenE hE) (fun E hE => hlenE hE) hQ h1 h1'
  have hS := weight_take hn (by omega) (by omega) hR hQ h2 h2'
  have hP : P.take n = P'.take n := by
    have := congrArg (List.take n) h
    rwa [List.take_take, List.take_take, min_eq_left (by omega)] at this
  have hT : (mapMat2 (fun p s => p * s) P S).take n = (mapMat2 (fun p s => p * s) P' S').take n := by
    rw [mapMat2_take, mapMat2_take, hP, hS]
  have hU := power_take hn hT h3 h3'
  rw [← List.map_take, ← List.map_take, hU]

end

end Spafe
