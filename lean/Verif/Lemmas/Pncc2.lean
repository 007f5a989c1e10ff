import Verif.Lemmas.Pncc
import Verif.Lemmas.Psrcc

/-! Helper lemmas for `pncc` as a whole. -/

set_option linter.unusedSectionVars false

namespace Spafe
open Model XF Spec

/-! ### Shapes on arbitrary extended floats -/

theorem asym_shape {Q X : XMat} {c : ℕ} {la lb : ℝ} (hQ : Np.Rect Q c) (h : asymmetricLowpass Q la lb = .ok X) :
    X.length = Q.length ∧ Np.Rect X c := by
  unfold asymmetricLowpass at h
  split_ifs at h with h0
  injection h with h
  rw [← h]
  refine ⟨scanRows_length _ _ _, scanRows_rect _ _ _ ?_ hQ⟩
  cases Q with
  | nil => simp at h0
  | cons q Q =>
    have : q.length = c := hQ q (by simp)
    unfold asymInit; split_ifs <;> simpa using this

theorem mask_shape {Q X : XMat} {c : ℕ} {la mu : ℝ} (hQ : Np.Rect Q c) (h : temporalMasking Q la mu = .ok X) :
    X.length = Q.length ∧ Np.Rect X c := by
  unfold temporalMasking at h
  cases Q with
  | nil => simp at h
  | cons q qs =>
    simp only at h
    injection h with h
    have hq : q.length = c := hQ q (by simp)
    have hqs : Np.Rect qs c := fun t ht => hQ t (by simp [ht])
    have hp : Np.Rect (onlinePeak la (q :: qs)) c := by
      intro r hr
      rcases List.mem_cons.mp hr with rfl | hr
      · exact hq
      · exact scanRows_rect _ _ _ hq hqs r hr
    rw [← h]
    constructor
    · simp [onlinePeak, scanRows_length]
    · intro r hr
      rcases List.mem_cons.mp hr with rfl | hr
      · exact hq
      · exact mapMat2_rect _ hp hqs r hr

theorem noise_shape {Q X : XMat} {c : ℕ} {t : ℝ} (hQ : Np.Rect Q c) (h : noiseSuppression Q t = .ok X) :
    X.length = Q.length ∧ Np.Rect X c := by
  simp only [noiseSuppression, bind_ok_iff] at h
  obtain ⟨le, h1, f, h2, tm, h3, h4⟩ := h
  obtain ⟨hl1, hr1⟩ := asym_shape hQ h1
  have hr0 := rect_map (mapMat2_rect (fun q e : XF ℝ => q - e) hQ hr1)
    (fun v : XF ℝ => if ltb v (fin t) then fin 0 else v)
  obtain ⟨hl2, hr2⟩ := asym_shape hr0 h2
  obtain ⟨hl3, hr3⟩ := mask_shape hr0 h3
  rw [List.length_map, mapMat2_length _ _ _ hl1.symm] at hl2 hl3
  injection h4 with h4
  rw [← h4]
  constructor
  · simp [mapMat2, hl1, hl2, hl3]
  · exact mapMat2_rect _ (mapMat2_rect _ hQ hr1) (mapMat2_rect _ hr3 hr2)

theorem ws_shape {R Q X : XMat} {c L N : ℕ} (hR : Np.Rect R c) (h0 : R ≠ []) (h : weightSmoothing R Q L N = .ok X) :
    X.length = R.length ∧ Np.Rect X c := by
  have hc := ncols_of_rect hR h0
  unfold weightSmoothing at h
  rw [hc] at h
  refine ⟨by rw [mapM_length _ _ _ h, List.length_range], fun r hr => ?_⟩
  have hf := (mapM_ok_iff _ _ _).mp h
  rw [List.mem_iff_getElem] at hr
  obtain ⟨i, hi, rfl⟩ := hr
  have := List.forall₂_iff_get.mp hf
  have := this.2 i (by rw [this.1]; exact hi) hi
  simp only [List.get_eq_getElem] at this
  rw [mapM_length _ _ _ this, List.length_range]

theorem mean_shape {T X : XMat} {c L : ℕ} {lam k : ℝ} (hT : Np.Rect T c)
    (h : meanPowerNormalization T lam L k = .ok X) : X.length = T.length ∧ Np.Rect X c := by
  have hlen : ∀ (ts : XMat) (p : XF ℝ) (v : List (XF ℝ)), myuLoop lam L p ts = .ok v → v.length = ts.length := by
    intro ts
    induction ts with
    | nil => intro p v h; simp only [myuLoop] at h; injection h with h; rw [← h]; rfl
    | cons t ts ih =>
      intro p v h
      simp only [myuLoop] at h
      split_ifs at h
      simp only [bind_ok_iff] at h
      obtain ⟨vs, h1, h2⟩ := h
      injection h2 with h2
      rw [← h2, List.length_cons, ih _ _ h1, List.length_cons]
  unfold meanPowerNormalization at h
  cases T with
  | nil => simp at h
  | cons t ts =>
    simp only [bind_ok_iff] at h
    obtain ⟨v, h1, h2⟩ := h
    injection h2 with h2
    have := hlen _ _ _ h1
    rw [← h2]
    refine ⟨by simp [this], fun r hr => ?_⟩
    rw [List.mem_iff_getElem] at hr
    obtain ⟨i, hi, rfl⟩ := hr
    rw [List.getElem_zipWith, List.length_map]
    exact hT _ (List.getElem_mem _)

theorem medium_shape {P : XMat} {c M : ℕ} (hP : Np.Rect P c) (h0 : P ≠ []) :
    (mediumTimePower P M).length = P.length ∧ Np.Rect (mediumTimePower P M) c := by
  unfold mediumTimePower
  rw [ncols_of_rect hP h0]
  refine ⟨by simp, fun r hr => ?_⟩
  obtain ⟨m, -, rfl⟩ := List.mem_map.mp hr
  simp

theorem nonlin_shape {P V : XMat} {c n : ℕ} (hP : Np.Rect P c) (h0 : P ≠ []) (h : pnccNonlin n P = .ok V) :
    V.length = P.length ∧ Np.Rect V c := by
  simp only [pnccNonlin, bind_ok_iff] at h
  obtain ⟨R, h1, S, h2, U, h3, h4⟩ := h
  injection h4 with h4
  obtain ⟨l1, r1⟩ := medium_shape (M := 2) hP h0
  obtain ⟨l2, r2⟩ := noise_shape r1 h1
  have hR : R ≠ [] := by
    intro h; rw [h] at l2; rw [l1] at l2; simp at l2; exact h0 (List.length_eq_zero_iff.mp l2.symm)
  obtain ⟨l3, r3⟩ := ws_shape r2 hR h2
  have l3' : P.length = S.length := by rw [l3, l2, l1]
  obtain ⟨l4, r4⟩ := mean_shape (mapMat2_rect _ hP r3) h3
  rw [mapMat2_length _ _ _ l3'] at l4
  rw [← h4]
  exact ⟨by simp [l4], rect_map r4 _⟩

/-! ### `pncc` in terms of its windows -/

/-- The filter powers of one windowed frame. -/
noncomputable def pnRow (nfft : ℕ) (power : ℝ) (fb : XMat) (w : List ℝ) : List (XF ℝ) :=
  fb.map fun f => Np.dot ((Np.absRfft nfft w).map fun v => fin (1 / (nfft : ℝ)) * XF.pow (fin v) power) f

theorem pnccPower_ok_iff (a : Args) (power : ℝ) (fb : XMat) (sig : List ℝ) (P : XMat) :
    pnccPower a power fb sig = .ok P ↔ ∃ W, frontEnd a a.preEmphCoeff sig = .ok W ∧ a.nfft ≠ 0 ∧
      (∀ r ∈ fb, r.length = a.nfft / 2 + 1) ∧ P = W.map (pnRow a.nfft power fb) := by
  simp only [pnccPower, bind_ok_iff]
  refine exists_congr fun W => and_congr_right fun _ => ?_
  unfold absFft
  constructor
  · rintro ⟨ft, h1, h2⟩
    split_ifs at h1 with hn
    split_ifs at h2 with hc
    injection h1 with h1; injection h2 with h2
    refine ⟨hn, hc, ?_⟩
    rw [← h2, ← h1]; simp [Np.dotT, pnRow]
  · rintro ⟨hn, hc, rfl⟩
    refine ⟨_, if_neg hn, ?_⟩
    rw [if_pos hc]; simp [Np.dotT, pnRow]

/-- The arguments with energy switched off (`pncc` has no `use_energy`). -/
def Model.Args.noEnergy (a : Args) : Args := { a with useEnergy := false }

theorem tail_noEnergy (a : Args) (V : XMat) (h0 : V ≠ []) {N : ℕ} (hV : Np.Rect V N) (m : XMat) :
    cepstralTail (a.noEnergy) [] V = .ok m ↔
      TailOk a.noEnergy N ∧ normStep a.noEnergy N (V.map fun x => tailRow a.noEnergy N [] x) = .ok m := by
  have := cepstralTail_ok_iff a.noEnergy V h0 (fun _ => []) id N (fun w hw => hV w hw) m
  rw [List.map_id] at this
  exact this

theorem pncc_ok_iff (a : Args) (power : ℝ) (sig : List ℝ) (m : XMat) :
    pncc a power sig = .ok m ↔ a.numCeps ≤ a.nfilts ∧ ∃ fb, gammaBankOf a = .ok fb ∧
      ∃ W, frontEnd a a.preEmphCoeff sig = .ok W ∧ a.nfft ≠ 0 ∧ (∀ r ∈ fb, r.length = a.nfft / 2 + 1) ∧
      ∃ V, pnccNonlin a.nfilts (W.map (pnRow a.nfft power fb)) = .ok V ∧
      TailOk a.noEnergy fb.length ∧
      normStep a.noEnergy fb.length (V.map fun x => tailRow a.noEnergy fb.length [] x) = .ok m := by
  have key : ∀ (fb : XMat) (W : List (List ℝ)) (V : XMat), frontEnd a a.preEmphCoeff sig = .ok W →
      pnccNonlin a.nfilts (W.map (pnRow a.nfft power fb)) = .ok V → V ≠ [] ∧ Np.Rect V fb.length := by
    intro fb W V hW hV
    have hr : Np.Rect (W.map (pnRow a.nfft power fb)) fb.length := by
      intro r hr
      obtain ⟨w, -, rfl⟩ := List.mem_map.mp hr
      simp [pnRow]
    have h0 := frontEnd_ne_nil hW
    obtain ⟨h1, h2⟩ := nonlin_shape hr (by simpa using h0) hV
    refine ⟨fun h => ?_, h2⟩
    rw [h] at h1; simp at h1; exact h0 (List.length_eq_zero_iff.mp h1.symm)
  unfold pncc
  split_ifs with hc
  · simp only [reduceCtorEq, false_iff]; rintro ⟨h, -⟩; omega
  · simp only [bind_ok_iff, pnccPower_ok_iff]
    constructor
    · rintro ⟨fb, hfb, P, ⟨W, hW, hn, hcol, rfl⟩, V, hV, ht⟩
      obtain ⟨h0, hr⟩ := key fb W V hW hV
      obtain ⟨h1, h2⟩ := (tail_noEnergy a V h0 hr m).mp ht
      exact ⟨by omega, fb, hfb, W, hW, hn, hcol, V, hV, h1, h2⟩
    · rintro ⟨-, fb, hfb, W, hW, hn, hcol, V, hV, h1, h2⟩
      obtain ⟨h0, hr⟩ := key fb W V hW hV
      exact ⟨fb, hfb, _, ⟨W, hW, hn, hcol, rfl⟩, V, hV, (tail_noEnergy a V h0 hr m).mpr ⟨h1, h2⟩⟩

/-! ### NaN propagation -/

theorem sum_nan {ι : Type} (s : Finset ι) (f : ι → XF ℝ) {i : ι} (hi : i ∈ s) (h : f i = nan) :
    ∑ j ∈ s, f j = nan := by
  classical
  rw [← Finset.add_sum_erase s f hi, h, XF.nan_add]

theorem list_sum_nan {l : List (XF ℝ)} (h : nan ∈ l) : l.sum = nan := by
  induction l with
  | nil => cases h
  | cons a l ih =>
    rw [List.sum_cons]
    rcases List.mem_cons.mp h with h | h
    · rw [← h, XF.nan_add]
    · rw [ih h, XF.add_nan]

theorem dctRow_nan {r : List (XF ℝ)} (h : ∀ v ∈ r, v = nan) (t : ℕ) : ∀ v ∈ Np.dctRow t r, v = nan := by
  intro v hv
  obtain ⟨k, hk, rfl⟩ := List.mem_map.mp hv
  have hk : k < r.length := by simpa using hk
  apply sum_nan _ _ (Finset.mem_range.mpr hk)
  rw [h _ (getD_mem 0 hk), XF.mul_nan]

/-- Not a number or `+inf`: what a non-negative number divided by zero gives. -/
def NanOrInf (v : XF ℝ) : Prop := v = nan ∨ v = pinf

theorem NanOrInf.add {u v : XF ℝ} (hu : NanOrInf u) (hv : NanOrInf v) : NanOrInf (u + v) := by
  rcases hu with rfl | rfl <;> rcases hv with rfl | rfl
  · exact .inl rfl
  · exact .inl rfl
  · exact .inl rfl
  · exact .inr rfl

theorem NanOrInf.sum {s : Finset ℕ} {f : ℕ → XF ℝ} (hs : s.Nonempty) (h : ∀ i ∈ s, NanOrInf (f i)) :
    NanOrInf (∑ i ∈ s, f i) := by
  classical
  induction hs using Finset.Nonempty.cons_induction with
  | singleton a => simpa using h a (by simp)
  | cons a s ha hs ih =>
    rw [Finset.sum_cons]
    exact (h a (by simp)).add (ih fun i hi => h i (by simp [hi]))

theorem nanOrInf_div_zero {x : ℝ} (hx : 0 ≤ x) : NanOrInf (fin x / fin 0) := by
  rcases hx.lt_or_eq with h | h
  · right; exact fin_div_zero_of_pos x h
  · left; rw [← h]; exact zero_div_zero

theorem NanOrInf.scale {v : XF ℝ} (h : NanOrInf v) {s : ℝ} (hs : 0 < s) : NanOrInf (fin s * v) := by
  rcases h with rfl | rfl
  · left; exact XF.mul_nan _
  · right; simp [XF.mul_def, XF.mul, infMul, hs, hs.ne']

theorem NanOrInf.zero_mul {v : XF ℝ} (h : NanOrInf v) : fin 0 * v = nan := by
  rcases h with rfl | rfl
  · exact XF.mul_nan _
  · simp [XF.mul_def, XF.mul, infMul]

/-- Once the running mean is NaN it stays NaN. -/
theorem myuLoop_nan {lam : ℝ} {L : ℕ} (ts : XMat) (p : XF ℝ) (v : List (XF ℝ)) (h : myuLoop lam L p ts = .ok v) :
    v.length = ts.length ∧ (p = nan → ∀ i, i < ts.length → v.getD i 0 = nan) ∧
      ∀ j, j < ts.length → nan ∈ (ts.getD j []).take L → ∀ i, j ≤ i → i < ts.length → v.getD i 0 = nan := by
  induction ts generalizing p v with
  | nil => simp only [myuLoop] at h; injection h with h; rw [← h]; simp
  | cons t ts ih =>
    simp only [myuLoop] at h
    split_ifs at h
    simp only [bind_ok_iff] at h
    obtain ⟨vs, h1, h2⟩ := h
    injection h2 with h2
    obtain ⟨e0, e1, e2⟩ := ih _ _ h1
    subst h2
    have hp : p = nan → fin lam * p + fin ((1 - lam) / L) * (t.take L).sum = nan := by
      rintro rfl; rw [XF.mul_nan, XF.nan_add]
    have ht : nan ∈ t.take L → fin lam * p + fin ((1 - lam) / L) * (t.take L).sum = nan := by
      intro h; rw [list_sum_nan h, XF.mul_nan, XF.add_nan]
    refine ⟨by simp [e0], fun h i hi => ?_, fun j hj hn i hij hi => ?_⟩
    · cases i with
      | zero => exact hp h
      | succ i => exact e1 (hp h) i (by simpa using hi)
    · cases j with
      | zero =>
        have hn : nan ∈ t.take L := hn
        cases i with
        | zero => exact ht hn
        | succ i => exact e1 (ht hn) i (by simpa using hi)
      | succ j =>
        cases i with
        | zero => omega
        | succ i => exact e2 j (by simpa using hj) hn i (by omega) (by simpa using hi)

theorem meanPower_nan {T U : XMat} {lam k : ℝ} {L : ℕ} (h : meanPowerNormalization T lam L k = .ok U) {j : ℕ}
    (hj : j < T.length) (hL : 0 < L) (hTL : L ≤ (T.getD j []).length) (hn : ∀ v ∈ T.getD j [], v = nan) {i : ℕ}
    (hij : i = j ∨ (1 ≤ j ∧ j ≤ i)) (hi : i < T.length) : ∀ v ∈ U.getD i [], v = nan := by
  unfold meanPowerNormalization at h
  cases T with
  | nil => simp at hj
  | cons t ts =>
    simp only [bind_ok_iff] at h
    obtain ⟨my, h1, h2⟩ := h
    injection h2 with h2
    obtain ⟨e0, -, e2⟩ := myuLoop_nan ts _ my h1
    subst h2
    intro v hv
    rw [getD_zipWith_lt _ _ _ [] [] nan hi (by simpa [e0] using hi)] at hv
    obtain ⟨u, hu, rfl⟩ := List.mem_map.mp hv
    rcases hij with rfl | ⟨hj1, hji⟩
    · rw [hn u hu, XF.mul_nan, XF.nan_div]
    · obtain ⟨j, rfl⟩ : ∃ j', j = j' + 1 := ⟨j - 1, by omega⟩
      obtain ⟨i, rfl⟩ : ∃ i', i = i' + 1 := ⟨i - 1, by omega⟩
      have hmem : nan ∈ (ts.getD j []).take L := by
        have hlen : 0 < ((ts.getD j []).take L).length := by
          rw [List.length_take]; simp only [List.getD_cons_succ] at hTL; omega
        have := getD_mem (l := (ts.getD j []).take L) 0 hlen
        have hx : (List.take L (ts.getD j [])).getD 0 0 = nan := hn _ (by
          rw [List.getD_cons_succ]; exact List.mem_of_mem_take this)
        rw [hx] at this; exact this
      have := e2 j (by simpa using hj) hmem i (by omega) (by simpa using hi)
      rw [List.getD_cons_succ]
      have e : my.getD i nan = nan := by
        rw [← this]
        have hlt : i < my.length := by rw [e0]; simpa using hi
        rw [List.getD_eq_getElem _ _ hlt, List.getD_eq_getElem _ _ hlt]
      rw [e, XF.div_nan]

/-- The smoothed weights when nothing is raised, also for zero denominators. -/
theorem weightSmoothing_ok {R Q : XMat} {c N L : ℕ} (hR : Np.Rect R c) (h0 : R ≠ []) (hL : L ≤ c)
    (hz : ∀ l, l < c → ((wsHi N L l : ℤ) - wsLo N l + 1) ≠ 0) :
    weightSmoothing R Q L N = .ok ((List.range R.length).map fun (m : ℕ) => (List.range c).map fun (l : ℕ) =>
      fin (1 / (((wsHi N L l : ℤ) - wsLo N l + 1 : ℤ) : ℝ)) *
        ∑ k ∈ Finset.Ico (wsLo N l) (wsHi N L l), Np.at2 R m k / Np.at2 Q m k) := by
  unfold weightSmoothing
  rw [ncols_of_rect hR h0]
  apply mapM_ok'
  intro m _
  apply mapM_ok'
  intro l hl
  have hl : l < c := by simpa using hl
  have h1 : wsHi N L l ≤ L := by unfold wsHi; omega
  unfold wsEntry
  rw [if_neg (hz l hl), if_neg (by omega)]

/-- Where a frame and its two neighbours on each side carry no power, the result is NaN; and, unless it is the first
frame, in all frames after it. -/
theorem pnccNonlin_nan {P : List (List ℝ)} {n : ℕ} (hP : Np.Rect P n) (hn : 2 ≤ n) (hnn : NonnegMat P) {V : XMat}
    (h : pnccNonlin n (finMat P) = .ok V) {j : ℕ} (hj : j < P.length)
    (hzero : ∀ i, i < P.length → i ≤ j + 2 → j ≤ i + 2 → ∀ l, l < n → Np.at2 P i l = 0) {i : ℕ}
    (hij : i = j ∨ (1 ≤ j ∧ j ≤ i)) (hi : i < P.length) : ∀ v ∈ V.getD i [], v = nan := by
  have h0 : P ≠ [] := by intro h; simp [h] at hj
  simp only [pnccNonlin, bind_ok_iff] at h
  obtain ⟨R, h1, S, h2, U, h3, h4⟩ := h
  injection h4 with h4
  rw [mediumTimePower_fin hP h0] at h1 h2
  have hQr := matOf_rect P.length n (rMedium 2 P)
  have hQ0 : matOf P.length n (rMedium 2 P) ≠ [] := by
    intro h; have := matOf_length P.length n (rMedium 2 P); rw [h] at this; simp at this; omega
  rw [noiseSuppression_fin hQr hQ0, matOf_length] at h1
  injection h1 with h1
  subst h1
  have hQj : ∀ l, l < n → rMedium 2 P j l = 0 := by
    intro l hl
    unfold rMedium
    rw [Finset.sum_eq_zero, mul_zero]
    intro i hi
    rw [Finset.mem_Ico] at hi
    exact hzero i (by omega) (by omega) (by omega) l hl
  have hRr := matOf_rect P.length n (rNoise 0 (matOf P.length n (rMedium 2 P)))
  have hle : ∀ l, l < n → wsLo 4 l < wsHi 4 n l := by intro l hl; unfold wsLo wsHi; omega
  rw [weightSmoothing_ok (finMat_rect hRr)
    (by intro h; have := congrArg List.length h; rw [finMat_length, matOf_length, List.length_nil] at this; omega) le_rfl
    (fun l hl => by have := hle l hl; omega)] at h2
  injection h2 with h2
  have hSr : Np.Rect S n := by
    rw [← h2]; intro r hr; obtain ⟨m, -, rfl⟩ := List.mem_map.mp hr; simp
  have hSl : S.length = P.length := by rw [← h2]; simp
  have hTr := mapMat2_rect (fun p s : XF ℝ => p * s) (finMat_rect hP) hSr
  have hTl : (mapMat2 (fun p s : XF ℝ => p * s) (finMat P) S).length = P.length := by
    rw [mapMat2_length _ _ _ (by simp [hSl])]; simp
  have hTj : ∀ v ∈ (mapMat2 (fun p s : XF ℝ => p * s) (finMat P) S).getD j [], v = nan := by
    intro v hv
    obtain ⟨l, hl, rfl⟩ := (mem_iff_getD 0 v).mp hv
    rw [rect_row hTr (by omega)] at hl
    have := at2_mapMat2 (fun p s : XF ℝ => p * s) (finMat_rect hP) hSr (by simp [hSl]) (by simpa using hj) hl
    unfold Np.at2 at this
    rw [this]
    have e1 := at2_finMat hP hj hl
    unfold Np.at2 at e1
    rw [e1]
    have hz := hzero j hj (by omega) (by omega) l hl
    unfold Np.at2 at hz
    rw [hz]
    apply NanOrInf.zero_mul
    rw [← h2, getD_map_range_lt _ _ (by simpa using hj), getD_map_range_lt _ _ hl]
    have hcard : (0:ℝ) < (((wsHi 4 n l : ℤ) - wsLo 4 l + 1 : ℤ) : ℝ) := by
      have := hle l hl
      exact_mod_cast (by omega : (0:ℤ) < (wsHi 4 n l : ℤ) - wsLo 4 l + 1)
    refine (NanOrInf.sum ⟨wsLo 4 l, by rw [Finset.mem_Ico]; exact ⟨le_rfl, hle l hl⟩⟩ ?_).scale (by positivity)
    intro k hk
    rw [Finset.mem_Ico] at hk
    have hk' : k < n := lt_of_lt_of_le hk.2 (by unfold wsHi; omega)
    rw [at2_finMat hRr (by simpa using hj) hk', at2_finMat hQr (by simpa using hj) hk', at2_matOf _ hj hk',
      at2_matOf _ hj hk', hQj k hk']
    exact nanOrInf_div_zero (rNoise_nonneg hQr hQ0 le_rfl (by simpa using hj) hk')
  have := meanPower_nan h3 (by omega) (by omega) (by rw [rect_row hTr (by omega)]) hTj hij (by omega)
  rw [← h4]
  have hUl : i < U.length := by rw [(mean_shape hTr h3).1]; omega
  rw [getD_map_lt _ _ [] _ hUl]
  intro v hv
  obtain ⟨u, hu, rfl⟩ := List.mem_map.mp hv
  rw [this u hu]
  simp [XF.pow]

/-- Finiteness: every channel from the second on carries power within two frames of every frame. -/
theorem pnccNonlin_value {P : List (List ℝ)} {c n : ℕ} (hP : Np.Rect P c) (h0 : P ≠ []) (hn : 1 ≤ n) (hnc : n ≤ c)
    (hc : c ≤ n + 4) (hnn : NonnegMat P)
    (hpos : ∀ j l, j < P.length → 1 ≤ l → l < n → ∃ i, i < P.length ∧ i ≤ j + 2 ∧ j ≤ i + 2 ∧ 0 < Np.at2 P i l) :
    ∃ V, pnccNonlin n (finMat P) = .ok (finMat V) ∧ V.length = P.length ∧ Np.Rect V c ∧ NonnegMat V ∧
      ∃ S, S = matOf P.length c (rWeight 4 n (matOf P.length c (rNoise 0 (matOf P.length c (rMedium 2 P))))
          (matOf P.length c (rMedium 2 P))) ∧
        ∀ m l, m < P.length → l < c → Np.at2 V m l =
          (Np.at2 P m l * Np.at2 S m l / rMyu 0.999 n (mapMat2 (fun p s : ℝ => p * s) P S) m) ^ ((1 : ℝ) / 15) := by
  have hQr := matOf_rect P.length c (rMedium 2 P)
  have hPl : 0 < P.length := List.length_pos_iff.mpr h0
  have hQ0 : matOf P.length c (rMedium 2 P) ≠ [] := by
    intro h; have := matOf_length P.length c (rMedium 2 P); rw [h] at this; simp at this; omega
  have hQpos : ∀ j l, j < P.length → 1 ≤ l → l < n → 0 < rMedium 2 P j l := by
    intro j l hj hl hl'
    obtain ⟨i, hi, h1, h2, h3⟩ := hpos j l hj hl hl'
    unfold rMedium
    apply mul_pos (by norm_num)
    apply lt_of_lt_of_le h3
    exact Finset.single_le_sum (f := fun i => Np.at2 P i l) (fun i _ => nonneg_at2 hnn i l)
      (by rw [Finset.mem_Ico]; omega)
  have hRr := matOf_rect P.length c (rNoise 0 (matOf P.length c (rMedium 2 P)))
  have hle : ∀ l, l < c → wsLo 4 l ≤ wsHi 4 n l := by intro l hl; unfold wsLo wsHi; omega
  have hR : noiseSuppression (mediumTimePower (finMat P)) =
      .ok (finMat (matOf P.length c (rNoise 0 (matOf P.length c (rMedium 2 P))))) := by
    rw [mediumTimePower_fin hP h0, noiseSuppression_fin hQr hQ0, matOf_length]
  have hS : weightSmoothing (finMat (matOf P.length c (rNoise 0 (matOf P.length c (rMedium 2 P)))))
      (mediumTimePower (finMat P)) n = .ok (finMat (matOf P.length c
        (rWeight 4 n (matOf P.length c (rNoise 0 (matOf P.length c (rMedium 2 P)))) (matOf P.length c (rMedium 2 P))))) := by
    rw [mediumTimePower_fin hP h0, weightSmoothing_fin hRr hQr (by simp)
      (by intro h; have := congrArg List.length h; rw [matOf_length, List.length_nil] at this; omega) hnc
      (fun l hl => by have := hle l hl; omega) ?_, matOf_length]
    intro m k hm hk hk'
    rw [matOf_length] at hm
    rw [at2_matOf _ hm (by omega)]
    exact (hQpos m k hm hk hk').ne'
  have hSr := matOf_rect P.length c
    (rWeight 4 n (matOf P.length c (rNoise 0 (matOf P.length c (rMedium 2 P)))) (matOf P.length c (rMedium 2 P)))
  have hSn : ∀ m l, m < P.length → l < c → 0 ≤ rWeight 4 n
      (matOf P.length c (rNoise 0 (matOf P.length c (rMedium 2 P)))) (matOf P.length c (rMedium 2 P)) m l := by
    intro m l hm hl
    unfold rWeight
    have : (0:ℝ) < (((wsHi 4 n l : ℤ) - wsLo 4 l + 1 : ℤ) : ℝ) := by
      have := hle l hl
      exact_mod_cast (by omega : (0:ℤ) < (wsHi 4 n l : ℤ) - wsLo 4 l + 1)
    apply mul_nonneg (by positivity)
    apply Finset.sum_nonneg
    intro k hk
    rw [Finset.mem_Ico] at hk
    have hk' : k < n := lt_of_lt_of_le hk.2 (by unfold wsHi; omega)
    have hk1 : 1 ≤ k := le_trans (by unfold wsLo; omega) hk.1
    rw [at2_matOf _ hm (by omega), at2_matOf _ hm (by omega)]
    exact div_nonneg (rNoise_nonneg hQr hQ0 le_rfl (by simpa using hm) (by omega)) (hQpos m k hm hk1 hk').le
  set Sm := matOf P.length c
    (rWeight 4 n (matOf P.length c (rNoise 0 (matOf P.length c (rMedium 2 P)))) (matOf P.length c (rMedium 2 P))) with hSm
  have hSl : P.length = Sm.length := by rw [hSm, matOf_length]
  have hTr := mapMat2_rect (fun p s : ℝ => p * s) hP hSr
  have hTn : NonnegMat (mapMat2 (fun p s : ℝ => p * s) P Sm) := by
    apply nonneg_of_at2 hTr
    intro i j hi hj
    rw [mapMat2_length _ _ _ hSl] at hi
    rw [at2_mapMat2 _ hP hSr hSl hi hj, hSm, at2_matOf _ hi hj]
    exact mul_nonneg (nonneg_at2 hnn _ _) (hSn i j hi hj)
  have hT : mapMat2 (fun p s : XF ℝ => p * s) (finMat P) (finMat Sm) = finMat (mapMat2 (fun p s : ℝ => p * s) P Sm) := by
    have : finMat (mapMat2 (fun p s : ℝ => p * s) P Sm) = mapMat2 (fun p s : ℝ => fin (p * s)) P Sm :=
      map_mapMat2 _ _ _ _
    rw [this]
    exact mapMat2_fin _ _ (fun a b => rfl) _ _
  have hT0 : mapMat2 (fun p s : ℝ => p * s) P Sm ≠ [] := by
    intro h; have := mapMat2_length (fun p s : ℝ => p * s) P Sm hSl; rw [h] at this; simp at this; omega
  have hmu : ∀ m, 0 < rMyu 0.999 n (mapMat2 (fun p s : ℝ => p * s) P Sm) m :=
    fun m => rMyu_pos (by norm_num) (by norm_num) n hTn m
  have hU := meanPower_fin (lam := 0.999) (L := n) 1 hTr hT0 hnc (.inl hn) (fun m _ => (hmu m).ne')
  rw [mapMat2_length _ _ _ hSl] at hU
  refine ⟨(matOf P.length c fun m l => 1 * Np.at2 (mapMat2 (fun p s : ℝ => p * s) P Sm) m l /
      rMyu 0.999 n (mapMat2 (fun p s : ℝ => p * s) P Sm) m).map fun r => r.map fun v => v ^ ((1:ℝ) / 15), ?_, ?_, ?_, ?_, Sm, hSm, ?_⟩
  · simp only [pnccNonlin]
    rw [hR, ok_bind, hS, ok_bind]
    rw [hT]
    rw [hU, ok_bind]
    congr 1
    simp only [finMat, matOf, List.map_map]
    apply List.map_congr_left
    intro m _
    simp only [Function.comp, List.map_map]
    apply List.map_congr_left
    intro l _
    simp only [Function.comp]
    apply XF.pow_nonneg' _ (by norm_num)
    exact div_nonneg (mul_nonneg zero_le_one (nonneg_at2 hTn _ _)) (hmu m).le
  · simp
  · exact rect_map (matOf_rect _ _ _) _
  · intro r hr v hv
    obtain ⟨s, hs, rfl⟩ := List.mem_map.mp hr
    obtain ⟨x, hx, rfl⟩ := List.mem_map.mp hv
    obtain ⟨m, -, rfl⟩ := List.mem_map.mp hs
    obtain ⟨l, -, rfl⟩ := List.mem_map.mp hx
    apply Real.rpow_nonneg
    exact div_nonneg (mul_nonneg zero_le_one (nonneg_at2 hTn _ _)) (hmu m).le
  · intro m l hm hl
    rw [at2_map (matOf_rect _ _ _) _ (by simpa using hm) hl, at2_matOf _ hm hl, at2_mapMat2 _ hP hSr hSl hm hl, one_mul]

theorem pnccNonlin_finite {P : List (List ℝ)} {c n : ℕ} (hP : Np.Rect P c) (h0 : P ≠ []) (hn : 1 ≤ n) (hnc : n ≤ c)
    (hc : c ≤ n + 4) (hnn : NonnegMat P)
    (hpos : ∀ j l, j < P.length → 1 ≤ l → l < n → ∃ i, i < P.length ∧ i ≤ j + 2 ∧ j ≤ i + 2 ∧ 0 < Np.at2 P i l) :
    ∃ V, pnccNonlin n (finMat P) = .ok (finMat V) ∧ V.length = P.length ∧ Np.Rect V c ∧ NonnegMat V := by
  obtain ⟨V, h1, h2, h3, h4, -⟩ := pnccNonlin_value hP h0 hn hnc hc hnn hpos
  exact ⟨V, h1, h2, h3, h4⟩

end Spafe
