import Verif.Model.Pncc
import Verif.Lemmas.Finite

/-! Helper lemmas for `pncc.py`: row recursions, pointwise maps, real matrices. -/

set_option linter.unusedSectionVars false

namespace Spafe
open Model XF Spec

section scan
variable {β γ : Type}

theorem scanRows_length (step : β → β → β) (prev : List β) (A : List (List β)) :
    (scanRows step prev A).length = A.length := by
  induction A generalizing prev with
  | nil => rfl
  | cons r A ih => simp [scanRows, ih]

theorem scanRows_rect (step : β → β → β) {c : ℕ} (prev : List β) (A : List (List β)) (hp : prev.length = c)
    (hA : Np.Rect A c) : Np.Rect (scanRows step prev A) c := by
  induction A generalizing prev with
  | nil => intro r hr; cases hr
  | cons r A ih =>
    have hr : r.length = c := hA r (by simp)
    have hz : (List.zipWith step prev r).length = c := by simp [hp, hr]
    intro s hs
    rcases List.mem_cons.mp hs with rfl | hs
    · exact hz
    · exact ih _ hz (fun t ht => hA t (by simp [ht])) s hs

theorem scanRows_map (step : β → β → β) (step' : γ → γ → γ) (f : β → γ)
    (h : ∀ a b, step' (f a) (f b) = f (step a b)) (prev : List β) (A : List (List β)) :
    scanRows step' (prev.map f) (A.map fun r => r.map f) = (scanRows step prev A).map fun r => r.map f := by
  induction A generalizing prev with
  | nil => rfl
  | cons r A ih =>
    have : List.zipWith step' (prev.map f) (r.map f) = (List.zipWith step prev r).map f := by
      rw [List.zipWith_map, List.map_zipWith]; simp only [h]
    simp only [scanRows, List.map_cons, this, ih]

/-- The entry recursion computed by the row loop. -/
theorem at2_scanRows [Zero β] (step : β → β → β) {c : ℕ} (prev : List β) (A : List (List β)) (hp : prev.length = c)
    (hA : Np.Rect A c) {m l : ℕ} (hm : m < A.length) (hl : l < c) :
    Np.at2 (scanRows step prev A) m l =
      step (match m with | 0 => prev.getD l 0 | m + 1 => Np.at2 (scanRows step prev A) m l) (Np.at2 A m l) := by
  induction A generalizing prev m with
  | nil => simp at hm
  | cons r A ih =>
    have hr : r.length = c := hA r (by simp)
    have hz : (List.zipWith step prev r).length = c := by simp [hp, hr]
    have hA' : Np.Rect A c := fun t ht => hA t (by simp [ht])
    cases m with
    | zero =>
      simp only [scanRows, Np.at2, List.getD_cons_zero]
      rw [getD_zipWith_lt _ _ _ 0 0 _ (by rw [hp]; exact hl) (by rw [hr]; exact hl)]
    | succ m =>
      have h1 := ih _ hz hA' (m := m) (by simpa using hm)
      have e1 : Np.at2 (scanRows step prev (r :: A)) (m + 1) l =
          Np.at2 (scanRows step (List.zipWith step prev r) A) m l := by simp [scanRows, Np.at2]
      have e2 : Np.at2 (r :: A) (m + 1) l = Np.at2 A m l := by simp [Np.at2]
      rw [e1, e2, h1]
      cases m with
      | zero => simp [scanRows, Np.at2]
      | succ m => simp [scanRows, Np.at2]

end scan

section map2
variable {β γ δ : Type}

theorem mapMat2_length (f : β → γ → δ) (A : List (List β)) (B : List (List γ)) (h : A.length = B.length) :
    (mapMat2 f A B).length = A.length := by simp [mapMat2, h]

theorem mapMat2_rect (f : β → γ → δ) {c : ℕ} {A : List (List β)} {B : List (List γ)} (hA : Np.Rect A c)
    (hB : Np.Rect B c) : Np.Rect (mapMat2 f A B) c := by
  intro r hr
  rw [mapMat2, List.mem_iff_getElem] at hr
  obtain ⟨i, hi, rfl⟩ := hr
  simp only [List.length_zipWith] at hi
  rw [List.getElem_zipWith, List.length_zipWith, hA _ (List.getElem_mem _), hB _ (List.getElem_mem _), min_self]

theorem at2_mapMat2 [Zero β] [Zero γ] [Zero δ] (f : β → γ → δ) {c : ℕ} {A : List (List β)} {B : List (List γ)}
    (hA : Np.Rect A c) (hB : Np.Rect B c) (h : A.length = B.length) {m l : ℕ} (hm : m < A.length) (hl : l < c) :
    Np.at2 (mapMat2 f A B) m l = f (Np.at2 A m l) (Np.at2 B m l) := by
  unfold Np.at2 mapMat2
  rw [getD_zipWith_lt _ _ _ [] [] _ hm (by omega),
    getD_zipWith_lt _ _ _ 0 0 _ (by rw [rect_row hA hm]; exact hl) (by rw [rect_row hB (h ▸ hm)]; exact hl)]

end map2

theorem at2_finMat {A : List (List ℝ)} {c : ℕ} (h : Np.Rect A c) {i j : ℕ} (hi : i < A.length) (hj : j < c) :
    Np.at2 (finMat A) i j = fin (Np.at2 A i j) := at2_map h fin hi hj

@[simp] theorem finMat_length (A : List (List ℝ)) : (finMat A).length = A.length := by simp [finMat]

theorem finMat_rect {A : List (List ℝ)} {c : ℕ} (h : Np.Rect A c) : Np.Rect (finMat A) c := rect_map h fin

theorem ncols_of_rect {β : Type} {A : List (List β)} {c : ℕ} (h : Np.Rect A c) (h0 : A ≠ []) : Np.ncols A = c := by
  cases A with
  | nil => exact absurd rfl h0
  | cons r A => exact h r (by simp)

/-- The real matrix with the given entries. -/
def matOf (r c : ℕ) (f : ℕ → ℕ → ℝ) : List (List ℝ) :=
  (List.range r).map fun (m : ℕ) => (List.range c).map fun (l : ℕ) => f m l

@[simp] theorem matOf_length (r c : ℕ) (f : ℕ → ℕ → ℝ) : (matOf r c f).length = r := by simp [matOf]

theorem matOf_rect (r c : ℕ) (f : ℕ → ℕ → ℝ) : Np.Rect (matOf r c f) c := by
  intro s hs
  obtain ⟨m, -, rfl⟩ := List.mem_map.mp hs
  simp

theorem at2_matOf {r c : ℕ} (f : ℕ → ℕ → ℝ) {m l : ℕ} (hm : m < r) (hl : l < c) :
    Np.at2 (matOf r c f) m l = f m l := by
  unfold Np.at2 matOf
  rw [getD_map_range_lt _ _ hm, getD_map_range_lt _ _ hl]

/-- A real extended-float matrix given by finite entries. -/
theorem eq_finMat_of_entries {X : XMat} {r c : ℕ} (hX : Np.Rect X c) (hr : X.length = r) (f : ℕ → ℕ → ℝ)
    (h : ∀ m l, m < r → l < c → Np.at2 X m l = fin (f m l)) : X = finMat (matOf r c f) := by
  apply mat_ext hX (finMat_rect (matOf_rect r c f)) (by simp [hr])
  intro m l hm hl
  rw [at2_finMat (matOf_rect r c f) (by simpa using hr ▸ hm) hl, h m l (hr ▸ hm) hl,
    at2_matOf f (hr ▸ hm) hl]

/-- Entries are numbers `≥ 0`. -/
def NonnegMat (A : List (List ℝ)) : Prop := ∀ r ∈ A, ∀ v ∈ r, 0 ≤ v

theorem nonneg_at2 {A : List (List ℝ)} (h : NonnegMat A) (i j : ℕ) : 0 ≤ Np.at2 A i j := by
  unfold Np.at2
  by_cases hi : i < A.length
  · by_cases hj : j < (A.getD i []).length
    · exact h _ (getD_mem _ hi) _ (getD_mem _ hj)
    · rw [List.getD_eq_default _ _ (not_lt.mp hj)]
  · rw [List.getD_eq_default _ _ (not_lt.mp hi)]; simp

theorem nonneg_of_at2 {A : List (List ℝ)} {c : ℕ} (hA : Np.Rect A c)
    (h : ∀ i j, i < A.length → j < c → 0 ≤ Np.at2 A i j) : NonnegMat A := by
  intro r hr v hv
  obtain ⟨i, hi, rfl⟩ := (mem_iff_getD [] r).mp hr
  obtain ⟨j, hj, rfl⟩ := (mem_iff_getD 0 v).mp hv
  exact h i j hi (by rw [← rect_row hA hi]; exact hj)

theorem finMat_of_allFinite {X : XMat} (h : AllFinite X) : ∃ A, X = finMat A := by
  refine ⟨X.map fun r => r.map toNum, ?_⟩
  unfold finMat
  rw [List.map_map]
  conv_lhs => rw [← List.map_id X]
  apply List.map_congr_left
  intro r hr
  simp only [Function.comp, id, List.map_map]
  conv_lhs => rw [← List.map_id r]
  apply List.map_congr_left
  intro v hv
  obtain ⟨x, rfl⟩ := h r hr v hv
  rfl

/-! ### The asymmetric filter on real matrices -/

/-- One step, on numbers. -/
noncomputable def rAsymStep (lmA lmB : ℝ) (p x : ℝ) : ℝ :=
  if p ≤ x then lmA * p + (1 - lmA) * x else lmB * p + (1 - lmB) * x

theorem asymStep_fin (lmA lmB p x : ℝ) : asymStep lmA lmB (fin p) (fin x) = fin (rAsymStep lmA lmB p x) := by
  unfold asymStep rAsymStep
  simp only [leb, decide_eq_true_eq, XF.fin_mul, XF.fin_add]
  split_ifs <;> rfl

noncomputable def rAsymInit (Q : List (List ℝ)) : List ℝ :=
  if Q.length = 1 then (Q.headD []).map (0.9 * ·) else (Q.headD []).map fun _ => 0

theorem headD_finMat (Q : List (List ℝ)) : (finMat Q).headD [] = (Q.headD []).map fin := by
  cases Q <;> rfl

theorem asymInit_fin (Q : List (List ℝ)) : asymInit (finMat Q) = (rAsymInit Q).map fin := by
  unfold asymInit rAsymInit
  rw [finMat_length, headD_finMat]
  split_ifs
  · rw [List.map_map, List.map_map]; rfl
  · rw [List.map_map, List.map_map]; rfl

noncomputable def rAsym (lmA lmB : ℝ) (Q : List (List ℝ)) : List (List ℝ) :=
  scanRows (rAsymStep lmA lmB) (rAsymInit Q) Q

theorem asymmetricLowpass_fin {Q : List (List ℝ)} (h : Q ≠ []) (lmA lmB : ℝ) :
    asymmetricLowpass (finMat Q) lmA lmB = .ok (finMat (rAsym lmA lmB Q)) := by
  have h0 : ¬ (finMat Q).length = 0 := by simpa using h
  unfold asymmetricLowpass
  rw [if_neg h0, asymInit_fin]
  congr 1
  exact scanRows_map _ _ fin (asymStep_fin lmA lmB) _ _

theorem rAsymInit_length {Q : List (List ℝ)} {c : ℕ} (hQ : Np.Rect Q c) (h : Q ≠ []) : (rAsymInit Q).length = c := by
  cases Q with
  | nil => exact absurd rfl h
  | cons r Q =>
    have : r.length = c := hQ r (by simp)
    unfold rAsymInit; split_ifs <;> simpa using this

@[simp] theorem rAsym_length (lmA lmB : ℝ) (Q : List (List ℝ)) : (rAsym lmA lmB Q).length = Q.length :=
  scanRows_length _ _ _

theorem rAsym_rect {Q : List (List ℝ)} {c : ℕ} (hQ : Np.Rect Q c) (h : Q ≠ []) (lmA lmB : ℝ) :
    Np.Rect (rAsym lmA lmB Q) c := scanRows_rect _ _ _ (rAsymInit_length hQ h) hQ

/-- What the first frame is combined with: `0` (or `0.9 * in[0]` when there is only one frame). -/
theorem rAsym_zero {Q : List (List ℝ)} {c : ℕ} (hQ : Np.Rect Q c) (h : Q ≠ []) (lmA lmB : ℝ) {l : ℕ} (hl : l < c) :
    Np.at2 (rAsym lmA lmB Q) 0 l =
      rAsymStep lmA lmB (if Q.length = 1 then 0.9 * Np.at2 Q 0 l else 0) (Np.at2 Q 0 l) := by
  rw [rAsym, at2_scanRows _ _ _ (rAsymInit_length hQ h) hQ (List.length_pos_iff.mpr h) hl]
  congr 1
  cases Q with
  | nil => exact absurd rfl h
  | cons r Q =>
    have hr : r.length = c := hQ r (by simp)
    unfold rAsymInit
    split_ifs
    · simp only [List.headD_cons, Np.at2, List.getD_cons_zero]
      rw [getD_map_lt _ _ 0 _ (by omega)]
    · simp only [List.headD_cons]
      rw [getD_map_lt _ _ 0 _ (by omega)]

theorem rAsym_succ {Q : List (List ℝ)} {c : ℕ} (hQ : Np.Rect Q c) (h : Q ≠ []) (lmA lmB : ℝ) {m l : ℕ}
    (hm : m + 1 < Q.length) (hl : l < c) :
    Np.at2 (rAsym lmA lmB Q) (m + 1) l =
      rAsymStep lmA lmB (Np.at2 (rAsym lmA lmB Q) m l) (Np.at2 Q (m + 1) l) := by
  rw [rAsym, at2_scanRows _ _ _ (rAsymInit_length hQ h) hQ hm hl]

theorem rAsymStep_nonneg {lmA lmB p x : ℝ} (ha : 0 ≤ lmA) (ha' : lmA ≤ 1) (hb : 0 ≤ lmB) (hb' : lmB ≤ 1)
    (hp : 0 ≤ p) (hx : 0 ≤ x) : 0 ≤ rAsymStep lmA lmB p x := by
  have h1 : 0 ≤ 1 - lmA := by linarith
  have h2 : 0 ≤ 1 - lmB := by linarith
  unfold rAsymStep; split_ifs <;> positivity

theorem rAsymStep_le {lmA lmB p x B : ℝ} (ha : 0 ≤ lmA) (ha' : lmA ≤ 1) (hb : 0 ≤ lmB) (hb' : lmB ≤ 1)
    (hp : p ≤ B) (hx : x ≤ B) : rAsymStep lmA lmB p x ≤ B := by
  unfold rAsymStep
  split_ifs
  · nlinarith [mul_le_mul_of_nonneg_left hp ha, mul_le_mul_of_nonneg_left hx (sub_nonneg.mpr ha')]
  · nlinarith [mul_le_mul_of_nonneg_left hp hb, mul_le_mul_of_nonneg_left hx (sub_nonneg.mpr hb')]

theorem rAsym_bounds {Q : List (List ℝ)} {c : ℕ} (hQ : Np.Rect Q c) (h : Q ≠ []) {lmA lmB : ℝ} (ha : 0 ≤ lmA)
    (ha' : lmA ≤ 1) (hb : 0 ≤ lmB) (hb' : lmB ≤ 1) (hn : NonnegMat Q) {m l : ℕ} (hm : m < Q.length) (hl : l < c) :
    0 ≤ Np.at2 (rAsym lmA lmB Q) m l ∧
      ∀ B : ℝ, (∀ k, k ≤ m → Np.at2 Q k l ≤ B) → Np.at2 (rAsym lmA lmB Q) m l ≤ B := by
  induction m with
  | zero =>
    rw [rAsym_zero hQ h lmA lmB hl]
    have h0 := nonneg_at2 hn 0 l
    have hp : 0 ≤ (if Q.length = 1 then 0.9 * Np.at2 Q 0 l else 0) ∧
        (if Q.length = 1 then 0.9 * Np.at2 Q 0 l else 0) ≤ Np.at2 Q 0 l := by
      split_ifs
      · exact ⟨by positivity, by linarith⟩
      · exact ⟨le_refl _, h0⟩
    exact ⟨rAsymStep_nonneg ha ha' hb hb' hp.1 h0, fun B hB =>
      rAsymStep_le ha ha' hb hb' (le_trans hp.2 (hB 0 le_rfl)) (hB 0 le_rfl)⟩
  | succ m ih =>
    obtain ⟨h1, h2⟩ := ih (by omega)
    rw [rAsym_succ hQ h lmA lmB hm hl]
    exact ⟨rAsymStep_nonneg ha ha' hb hb' h1 (nonneg_at2 hn _ _), fun B hB =>
      rAsymStep_le ha ha' hb hb' (h2 B fun k hk => hB k (by omega)) (hB _ le_rfl)⟩

/-! ### Temporal masking on real matrices -/

noncomputable def rPeak (lam : ℝ) : List (List ℝ) → List (List ℝ)
  | [] => []
  | q :: qs => q :: scanRows (fun p x => max (lam * p) x) q qs

noncomputable def rMaskStep (lam myu p x : ℝ) : ℝ := if lam * p ≤ x then x else myu * p

noncomputable def rMask (lam myu : ℝ) : List (List ℝ) → List (List ℝ)
  | [] => []
  | q :: qs => q :: mapMat2 (rMaskStep lam myu) ((rPeak lam (q :: qs)).take qs.length) qs

theorem zipWith_take_left {β γ δ : Type} (f : β → γ → δ) (x : List β) (y : List γ) :
    List.zipWith f x y = List.zipWith f (x.take y.length) y := by
  induction y generalizing x with
  | nil => simp
  | cons b y ih =>
    cases x with
    | nil => simp
    | cons a x => simp only [List.zipWith_cons_cons, List.length_cons, List.take_succ_cons]; rw [ih]

theorem onlinePeak_fin (lam : ℝ) (Q : List (List ℝ)) : onlinePeak lam (finMat Q) = finMat (rPeak lam Q) := by
  cases Q with
  | nil => rfl
  | cons q qs =>
    simp only [onlinePeak, finMat, List.map_cons, rPeak]
    congr 1
    exact scanRows_map _ _ fin (fun a b => by simp [XF.fin_mul, XF.max2_fin]) _ _

theorem maskStep_fin (lam myu p x : ℝ) : maskStep lam myu (fin p) (fin x) = fin (rMaskStep lam myu p x) := by
  unfold maskStep rMaskStep
  simp only [leb, decide_eq_true_eq, XF.fin_mul]
  split_ifs <;> rfl

theorem zipWith_map_map {β γ : Type} (f : β → β → β) (f' : γ → γ → γ) (g : β → γ)
    (h : ∀ a b, f' (g a) (g b) = g (f a b)) (x y : List (List β)) :
    List.zipWith (List.zipWith f') (x.map fun r => r.map g) (y.map fun r => r.map g) =
      (List.zipWith (List.zipWith f) x y).map fun r => r.map g := by
  rw [List.zipWith_map, List.map_zipWith]
  congr 1
  funext r s
  rw [List.zipWith_map, List.map_zipWith]; simp only [h]

theorem temporalMasking_fin {Q : List (List ℝ)} (h : Q ≠ []) (lam myu : ℝ) :
    temporalMasking (finMat Q) lam myu = .ok (finMat (rMask lam myu Q)) := by
  cases Q with
  | nil => exact absurd rfl h
  | cons q qs =>
    have h1 := onlinePeak_fin lam (q :: qs)
    simp only [finMat, List.map_cons] at h1
    simp only [temporalMasking, finMat, List.map_cons, rMask, h1]
    congr 2
    rw [zipWith_map_map _ _ fin (maskStep_fin lam myu), mapMat2, ← zipWith_take_left]

theorem rPeak_length (lam : ℝ) (Q : List (List ℝ)) : (rPeak lam Q).length = Q.length := by
  cases Q with
  | nil => rfl
  | cons q qs => simp [rPeak, scanRows_length]

theorem rPeak_rect {Q : List (List ℝ)} {c : ℕ} (hQ : Np.Rect Q c) (lam : ℝ) : Np.Rect (rPeak lam Q) c := by
  cases Q with
  | nil => exact hQ
  | cons q qs =>
    have hq : q.length = c := hQ q (by simp)
    have hqs : Np.Rect qs c := fun t ht => hQ t (by simp [ht])
    intro r hr
    rcases List.mem_cons.mp hr with rfl | hr
    · exact hq
    · exact scanRows_rect _ _ _ hq hqs r hr

theorem rPeak_zero {Q : List (List ℝ)} (lam : ℝ) (l : ℕ) : Np.at2 (rPeak lam Q) 0 l = Np.at2 Q 0 l := by
  cases Q <;> simp [rPeak, Np.at2]

theorem rPeak_succ {Q : List (List ℝ)} {c : ℕ} (hQ : Np.Rect Q c) (lam : ℝ) {m l : ℕ} (hm : m + 1 < Q.length)
    (hl : l < c) : Np.at2 (rPeak lam Q) (m + 1) l = max (lam * Np.at2 (rPeak lam Q) m l) (Np.at2 Q (m + 1) l) := by
  cases Q with
  | nil => simp at hm
  | cons q qs =>
    have hq : q.length = c := hQ q (by simp)
    have hqs : Np.Rect qs c := fun t ht => hQ t (by simp [ht])
    have := at2_scanRows (fun p x => max (lam * p) x) q qs hq hqs (m := m) (l := l) (by simpa using hm) hl
    have e1 : Np.at2 (rPeak lam (q :: qs)) (m + 1) l = Np.at2 (scanRows (fun p x => max (lam * p) x) q qs) m l := by
      simp [rPeak, Np.at2]
    rw [e1, this]
    cases m with
    | zero => simp [rPeak, Np.at2]
    | succ m => simp [rPeak, Np.at2]

@[simp] theorem rMask_length (lam myu : ℝ) (Q : List (List ℝ)) : (rMask lam myu Q).length = Q.length := by
  cases Q with
  | nil => rfl
  | cons q qs => simp [rMask, mapMat2, rPeak_length]

theorem rMask_rect {Q : List (List ℝ)} {c : ℕ} (hQ : Np.Rect Q c) (lam myu : ℝ) : Np.Rect (rMask lam myu Q) c := by
  cases Q with
  | nil => exact hQ
  | cons q qs =>
    have hq : q.length = c := hQ q (by simp)
    have hqs : Np.Rect qs c := fun t ht => hQ t (by simp [ht])
    intro r hr
    rcases List.mem_cons.mp hr with rfl | hr
    · exact hq
    · exact mapMat2_rect _ (fun s hs => rPeak_rect hQ lam s (List.mem_of_mem_take hs)) hqs r hr

theorem rMask_zero {Q : List (List ℝ)} (lam myu : ℝ) (l : ℕ) : Np.at2 (rMask lam myu Q) 0 l = Np.at2 Q 0 l := by
  cases Q <;> simp [rMask, Np.at2]

theorem rMask_succ {Q : List (List ℝ)} {c : ℕ} (hQ : Np.Rect Q c) (lam myu : ℝ) {m l : ℕ} (hm : m + 1 < Q.length)
    (hl : l < c) : Np.at2 (rMask lam myu Q) (m + 1) l =
      rMaskStep lam myu (Np.at2 (rPeak lam Q) m l) (Np.at2 Q (m + 1) l) := by
  cases Q with
  | nil => simp at hm
  | cons q qs =>
    have hq : q.length = c := hQ q (by simp)
    have hqs : Np.Rect qs c := fun t ht => hQ t (by simp [ht])
    have hm' : m < qs.length := by simpa using hm
    have hlen : ((rPeak lam (q :: qs)).take qs.length).length = qs.length := by simp [rPeak_length]
    have e1 : Np.at2 (rMask lam myu (q :: qs)) (m + 1) l =
        Np.at2 (mapMat2 (rMaskStep lam myu) ((rPeak lam (q :: qs)).take qs.length) qs) m l := by
      simp [rMask, Np.at2]
    rw [e1, at2_mapMat2 _ (fun s hs => rPeak_rect hQ lam s (List.mem_of_mem_take hs)) hqs hlen (by omega) hl]
    have e2 : Np.at2 ((rPeak lam (q :: qs)).take qs.length) m l = Np.at2 (rPeak lam (q :: qs)) m l := by
      unfold Np.at2; rw [getD_take_lt _ _ hm']
    rw [e2]
    simp [Np.at2]

/-! ### Medium-time power -/

/-- The medium-time average at one entry. -/
noncomputable def rMedium (M : ℕ) (P : List (List ℝ)) (m l : ℕ) : ℝ :=
  1 / (2 * (M : ℝ) + 1) * ∑ i ∈ Finset.Ico (m - M) (min P.length (m + M + 1)), Np.at2 P i l

theorem mediumTimePower_fin {P : List (List ℝ)} {c : ℕ} (hP : Np.Rect P c) (h : P ≠ []) (M : ℕ) :
    mediumTimePower (finMat P) M = finMat (matOf P.length c (rMedium M P)) := by
  have hc : Np.ncols (finMat P) = c := ncols_of_rect (finMat_rect hP) (by simpa [finMat] using h)
  unfold mediumTimePower
  rw [finMat_length, hc]
  simp only [matOf, finMat, List.map_map]
  apply List.map_congr_left
  intro m _
  simp only [Function.comp, List.map_map]
  apply List.map_congr_left
  intro l hl
  have hl : l < c := by simpa using hl
  simp only [Function.comp, rMedium]
  rw [← XF.fin_mul, ← XF.sum_fin]
  congr 1
  apply Finset.sum_congr rfl
  intro i hi
  rw [Finset.mem_Ico] at hi
  exact at2_finMat hP (by omega) hl

theorem rMedium_nonneg {P : List (List ℝ)} (hP : NonnegMat P) (M m l : ℕ) : 0 ≤ rMedium M P m l := by
  unfold rMedium
  apply mul_nonneg (by positivity)
  exact Finset.sum_nonneg fun i _ => nonneg_at2 hP i l

/-! ### Noise suppression -/

noncomputable def rSub (threshold : ℝ) (q e : ℝ) : ℝ := if q - e < threshold then 0 else q - e

/-- The rectified difference of the input and its lower envelope. -/
noncomputable def rQ0 (threshold : ℝ) (Q : List (List ℝ)) : List (List ℝ) :=
  mapMat2 (rSub threshold) Q (rAsym 0.999 0.5 Q)

theorem mapMat2_fin {δ : Type} (f : ℝ → ℝ → δ) (f' : XF ℝ → XF ℝ → δ) (h : ∀ a b, f' (fin a) (fin b) = f a b)
    (x y : List (List ℝ)) : mapMat2 f' (finMat x) (finMat y) = mapMat2 f x y := by
  unfold mapMat2 finMat
  rw [List.zipWith_map]
  congr 1
  funext r s
  rw [List.zipWith_map]; simp only [h]

theorem map_mapMat2 {β γ δ ε : Type} (g : δ → ε) (f : β → γ → δ) (x : List (List β)) (y : List (List γ)) :
    ((mapMat2 f x y).map fun r => r.map g) = mapMat2 (fun a b => g (f a b)) x y := by
  unfold mapMat2
  rw [List.map_zipWith]
  congr 1
  funext r s
  rw [List.map_zipWith]

theorem rQ0_length (t : ℝ) (Q : List (List ℝ)) : (rQ0 t Q).length = Q.length := by
  rw [rQ0, mapMat2_length _ _ _ (by simp)]

theorem rQ0_rect {Q : List (List ℝ)} {c : ℕ} (hQ : Np.Rect Q c) (h : Q ≠ []) (t : ℝ) : Np.Rect (rQ0 t Q) c :=
  mapMat2_rect _ hQ (rAsym_rect hQ h _ _)

/-- The switch between masked and floor signal, on numbers. -/
noncomputable def rNoise (threshold : ℝ) (Q : List (List ℝ)) (m l : ℕ) : ℝ :=
  if 2 * Np.at2 (rAsym 0.999 0.5 Q) m l ≤ Np.at2 Q m l then Np.at2 (rMask 0.85 0.2 (rQ0 threshold Q)) m l
  else Np.at2 (rAsym 0.999 0.5 (rQ0 threshold Q)) m l

theorem noiseSuppression_fin {Q : List (List ℝ)} {c : ℕ} (hQ : Np.Rect Q c) (h : Q ≠ []) (t : ℝ) :
    noiseSuppression (finMat Q) t = .ok (finMat (matOf Q.length c (rNoise t Q))) := by
  have hq0l : (rQ0 t Q).length = Q.length := rQ0_length t Q
  have hq0 : rQ0 t Q ≠ [] := by
    intro h1; rw [h1] at hq0l; exact h (List.length_eq_zero_iff.mp hq0l.symm)
  have e0 : ((mapMat2 (fun q e : XF ℝ => q - e) (finMat Q) (finMat (rAsym 0.999 0.5 Q))).map fun r =>
      r.map fun v => if ltb v (fin t) then fin 0 else v) = finMat (rQ0 t Q) := by
    have e1 : finMat (rQ0 t Q) = mapMat2 (fun a b => fin (rSub t a b)) Q (rAsym 0.999 0.5 Q) := map_mapMat2 _ _ _ _
    rw [map_mapMat2, e1]
    apply mapMat2_fin
    intro a b
    simp only [XF.fin_sub, ltb, decide_eq_true_eq, rSub]
    split_ifs <;> rfl
  unfold noiseSuppression
  rw [asymmetricLowpass_fin h, ok_bind]
  simp only [e0]
  rw [asymmetricLowpass_fin hq0, ok_bind, temporalMasking_fin hq0, ok_bind]
  congr 1
  have hr1 := rAsym_rect hQ h 0.999 0.5
  have hr2 := rQ0_rect hQ h t
  have hr3 := rMask_rect hr2 0.85 0.2
  have hr4 := rAsym_rect hr2 hq0 0.999 0.5
  rw [mapMat2_fin (fun q e => decide (2 * e ≤ q)) (fun q e : XF ℝ => leb (fin 2 * e) q)
    (fun a b => by simp [XF.fin_mul, leb]),
    mapMat2_fin (fun q e => (fin q, fin e)) Prod.mk (fun a b => rfl)]
  apply eq_finMat_of_entries
  · exact mapMat2_rect _ (mapMat2_rect _ hQ hr1) (mapMat2_rect _ hr3 hr4)
  · rw [mapMat2_length, mapMat2_length] <;> simp [mapMat2, hq0l]
  · intro m l hm hl
    let _ : Zero Bool := ⟨false⟩
    rw [at2_mapMat2 _ (mapMat2_rect _ hQ hr1) (mapMat2_rect _ hr3 hr4)
      (by simp [mapMat2, hq0l]) (by rw [mapMat2_length] <;> simp [hm]) hl,
      at2_mapMat2 _ hQ hr1 (by simp) hm hl,
      at2_mapMat2 _ hr3 hr4 (by simp) (by simp [hq0l, hm]) hl]
    simp only [decide_eq_true_eq, rNoise]
    split_ifs <;> rfl

theorem rQ0_nonneg {Q : List (List ℝ)} {c : ℕ} (hQ : Np.Rect Q c) (h : Q ≠ []) {t : ℝ} (ht : 0 ≤ t) :
    NonnegMat (rQ0 t Q) := by
  apply nonneg_of_at2 (rQ0_rect hQ h t)
  intro i j hi hj
  rw [rQ0, at2_mapMat2 _ hQ (rAsym_rect hQ h _ _) (by simp) (by rwa [rQ0_length] at hi) hj]
  unfold rSub
  split_ifs with h1
  · exact le_rfl
  · linarith

theorem rPeak_nonneg {Q : List (List ℝ)} {c : ℕ} (hQ : Np.Rect Q c) (hn : NonnegMat Q) (lam : ℝ) {m l : ℕ}
    (hm : m < Q.length) (hl : l < c) : 0 ≤ Np.at2 (rPeak lam Q) m l := by
  cases m with
  | zero => rw [rPeak_zero]; exact nonneg_at2 hn _ _
  | succ m => rw [rPeak_succ hQ lam hm hl]; exact le_max_of_le_right (nonneg_at2 hn _ _)

theorem rMask_nonneg {Q : List (List ℝ)} {c : ℕ} (hQ : Np.Rect Q c) (hn : NonnegMat Q) (lam : ℝ) {myu : ℝ}
    (hmyu : 0 ≤ myu) {m l : ℕ} (hm : m < Q.length) (hl : l < c) : 0 ≤ Np.at2 (rMask lam myu Q) m l := by
  cases m with
  | zero => rw [rMask_zero]; exact nonneg_at2 hn _ _
  | succ m =>
    rw [rMask_succ hQ lam myu hm hl]
    unfold rMaskStep
    split_ifs
    · exact nonneg_at2 hn _ _
    · exact mul_nonneg hmyu (rPeak_nonneg hQ hn lam (by omega) hl)

theorem rNoise_nonneg {Q : List (List ℝ)} {c : ℕ} (hQ : Np.Rect Q c) (h : Q ≠ []) {t : ℝ} (ht : 0 ≤ t) {m l : ℕ}
    (hm : m < Q.length) (hl : l < c) : 0 ≤ rNoise t Q m l := by
  have hq0l : (rQ0 t Q).length = Q.length := rQ0_length t Q
  have hq0 : rQ0 t Q ≠ [] := by
    intro h1; rw [h1] at hq0l; exact h (List.length_eq_zero_iff.mp hq0l.symm)
  have hr2 := rQ0_rect hQ h t
  have hn := rQ0_nonneg hQ h ht
  unfold rNoise
  split_ifs
  · exact rMask_nonneg hr2 hn _ (by norm_num) (by omega) hl
  · exact (rAsym_bounds hr2 hq0 (by norm_num) (by norm_num) (by norm_num) (by norm_num) hn (by omega) hl).1

/-! ### Weight smoothing -/

/-- The smoothed weight at one entry, on numbers. -/
noncomputable def rWeight (N L : ℕ) (R Q : List (List ℝ)) (m l : ℕ) : ℝ :=
  1 / (((wsHi N L l : ℤ) - wsLo N l + 1 : ℤ) : ℝ) *
    ∑ k ∈ Finset.Ico (wsLo N l) (wsHi N L l), Np.at2 R m k / Np.at2 Q m k

theorem mapM_ok' {β γ ε : Type} {f : β → Except ε γ} {g : β → γ} {l : List β} (h : ∀ a ∈ l, f a = .ok (g a)) :
    l.mapM f = .ok (l.map g) := mapM_ok f g l h

theorem weightSmoothing_fin {R Q : List (List ℝ)} {c N L : ℕ} (hR : Np.Rect R c) (hQ : Np.Rect Q c)
    (hl : R.length = Q.length) (h0 : R ≠ []) (hL : L ≤ c)
    (hz : ∀ l, l < c → ((wsHi N L l : ℤ) - wsLo N l + 1) ≠ 0)
    (hpos : ∀ m k, m < Q.length → 1 ≤ k → k < L → Np.at2 Q m k ≠ 0) :
    weightSmoothing (finMat R) (finMat Q) L N = .ok (finMat (matOf R.length c (rWeight N L R Q))) := by
  have hc : Np.ncols (finMat R) = c := ncols_of_rect (finMat_rect hR) (by simpa [finMat] using h0)
  unfold weightSmoothing
  rw [finMat_length, hc]
  rw [mapM_ok' (g := fun (m : ℕ) => (List.range c).map fun (l : ℕ) => fin (rWeight N L R Q m l))]
  · simp only [finMat, matOf, List.map_map]; congr 1
    apply List.map_congr_left; intro m _; simp only [Function.comp, List.map_map]; rfl
  · intro m hm
    have hm : m < R.length := by simpa using hm
    apply mapM_ok'
    intro l hlc
    have hlc : l < c := by simpa using hlc
    have h1 : wsHi N L l ≤ L := by unfold wsHi; omega
    have h2 : 1 ≤ wsLo N l := by unfold wsLo; omega
    unfold wsEntry rWeight
    rw [if_neg (hz l hlc), if_neg (by omega), ← XF.fin_mul, ← XF.sum_fin]
    congr 2
    apply Finset.sum_congr rfl
    intro k hk
    rw [Finset.mem_Ico] at hk
    rw [at2_finMat hR hm (by omega), at2_finMat hQ (by omega) (by omega),
      XF.fin_div _ _ (hpos m k (by omega) (by omega) (by omega))]

/-! ### Mean power -/

/-- The running mean power, on numbers. -/
noncomputable def rMyu (lam : ℝ) (L : ℕ) (T : List (List ℝ)) : ℕ → ℝ
  | 0 => 0.0001
  | m + 1 => lam * rMyu lam L T m + (1 - lam) / L * ∑ l ∈ Finset.range L, Np.at2 T (m + 1) l

theorem sum_take_eq (t : List ℝ) (L : ℕ) (h : L ≤ t.length) :
    ((t.map fin).take L).sum = fin (∑ l ∈ Finset.range L, t.getD l 0) := by
  rw [← List.map_take, XF.list_sum_fin, sum_eq_sum_getD, List.length_take, min_eq_left h]
  congr 1
  apply Finset.sum_congr rfl
  intro l hl
  rw [getD_take_lt _ _ (Finset.mem_range.mp hl)]

theorem myuLoop_fin {lam : ℝ} {L : ℕ} (hL : 0 < L) (p : ℝ) (ts : List (List ℝ)) (hT : ∀ t ∈ ts, L ≤ t.length) :
    ∃ v : List ℝ, myuLoop lam L (fin p) (finMat ts) = .ok (v.map fin) ∧ v.length = ts.length ∧
      ∀ m, m < ts.length → v.getD m 0 = lam * (match m with | 0 => p | m + 1 => v.getD m 0) +
        (1 - lam) / L * ∑ l ∈ Finset.range L, Np.at2 ts m l := by
  induction ts generalizing p with
  | nil => exact ⟨[], rfl, rfl, by simp⟩
  | cons t ts ih =>
    have ht : L ≤ t.length := hT t (by simp)
    obtain ⟨v, h1, h2, h3⟩ := ih (lam * p + (1 - lam) / L * ∑ l ∈ Finset.range L, t.getD l 0)
      (fun s hs => hT s (by simp [hs]))
    refine ⟨(lam * p + (1 - lam) / L * ∑ l ∈ Finset.range L, t.getD l 0) :: v, ?_, by simp [h2], ?_⟩
    · simp only [finMat, List.map_cons, myuLoop]
      rw [if_neg hL.ne', if_neg (by simpa using ht), sum_take_eq t L ht, XF.fin_mul, XF.fin_mul, XF.fin_add]
      rw [finMat] at h1
      rw [h1]; rfl
    · intro m hm
      cases m with
      | zero => simp [Np.at2]
      | succ m =>
        have := h3 m (by simpa using hm)
        rw [List.getD_cons_succ, this]
        cases m with
        | zero => simp [Np.at2]
        | succ m => simp [Np.at2]

theorem rMyu_pos {lam : ℝ} (h0 : 0 < lam) (h1 : lam ≤ 1) (L : ℕ) {T : List (List ℝ)} (hT : NonnegMat T) (m : ℕ) :
    0 < rMyu lam L T m := by
  induction m with
  | zero => simp only [rMyu]; norm_num
  | succ m ih =>
    simp only [rMyu]
    have h2 : 0 ≤ ∑ l ∈ Finset.range L, Np.at2 T (m + 1) l := Finset.sum_nonneg fun l _ => nonneg_at2 hT _ _
    have h3 : 0 ≤ (1 - lam) / L := div_nonneg (by linarith) (Nat.cast_nonneg _)
    have := mul_nonneg h3 h2
    have := mul_pos h0 ih
    linarith

theorem meanPower_fin {lam : ℝ} {L : ℕ} (k : ℝ) {T : List (List ℝ)} {c : ℕ} (hT : Np.Rect T c)
    (h0 : T ≠ []) (hL : L ≤ c) (hLr : 0 < L ∨ T.length = 1) (hne : ∀ m, m < T.length → rMyu lam L T m ≠ 0) :
    meanPowerNormalization (finMat T) lam L k =
      .ok (finMat (matOf T.length c fun m l => k * Np.at2 T m l / rMyu lam L T m)) := by
  cases T with
  | nil => exact absurd rfl h0
  | cons t ts =>
    have hv : ∃ v : List ℝ, myuLoop lam L (fin 0.0001) (finMat ts) = .ok (v.map fin) ∧ v.length = ts.length ∧
        ∀ m, m < ts.length → v.getD m 0 = lam * (match m with | 0 => 0.0001 | m + 1 => v.getD m 0) +
          (1 - lam) / L * ∑ l ∈ Finset.range L, Np.at2 ts m l := by
      rcases hLr with h | h
      · exact myuLoop_fin h 0.0001 ts (fun s hs => by rw [hT s (by simp [hs])]; exact hL)
      · have : ts = [] := by simpa using h
        subst this
        exact ⟨[], rfl, rfl, by simp⟩
    obtain ⟨v, h1, h2, h3⟩ := hv
    have hmy : ∀ m, m < ts.length + 1 → (0.0001 :: v).getD m 0 = rMyu lam L (t :: ts) m := by
      intro m
      induction m with
      | zero => intro _; rfl
      | succ m ih =>
        intro hm
        rw [List.getD_cons_succ, h3 m (by omega), rMyu, ← ih (by omega)]
        cases m with
        | zero => simp [Np.at2]
        | succ m => simp [Np.at2]
    have e : meanPowerNormalization (finMat (t :: ts)) lam L k = .ok
        (List.zipWith (fun r u => r.map fun v => fin k * v / u) (finMat (t :: ts)) ((0.0001 :: v).map fin)) := by
      rw [finMat] at h1
      simp only [meanPowerNormalization, finMat, List.map_cons]
      rw [h1]; rfl
    rw [e]
    congr 1
    have hlen : (List.zipWith (fun r u => r.map fun v => fin k * v / u) (finMat (t :: ts))
        ((0.0001 :: v).map fin)).length = (t :: ts).length := by simp [h2]
    apply eq_finMat_of_entries _ hlen
    · intro m l hm hl
      unfold Np.at2
      rw [getD_zipWith_lt _ _ _ [] [] (fin 0) (by simpa using hm) (by simpa [h2] using hm),
        getD_map_lt _ _ 0 _ (by rw [rect_row (finMat_rect hT) (by simpa using hm)]; exact hl),
        getD_map_lt _ _ 0 _ (by simpa [h2] using hm), hmy m (by simpa using hm)]
      have := at2_finMat hT hm hl
      unfold Np.at2 at this
      rw [this, XF.fin_mul, XF.fin_div _ _ (hne m hm)]
    · intro r hr
      rw [List.mem_iff_getElem] at hr
      obtain ⟨i, hi, rfl⟩ := hr
      rw [List.getElem_zipWith, List.length_map]
      exact finMat_rect hT _ (List.getElem_mem _)

end Spafe
