import Verif.Lemmas.Store
import Verif.Lemmas.Pncc2
import Verif.Model.Features

/-!
C121: the functions that write into arrays in place - the loops of pncc, the RASTA filter, the mel filter loop, the row
reversal of the inverse mel banks - compute what their recursive descriptions say, and change no array that existed before
they were called.
-/

set_option linter.unusedSectionVars false

namespace Spafe
namespace Props
open Model XF Spec Store

theorem whereRow_zip (f : XF ℝ → XF ℝ → Bool) (g k : XF ℝ → XF ℝ → XF ℝ) (p x : List (XF ℝ)) :
    whereRow (List.zipWith f x p) (List.zipWith g p x) (List.zipWith k p x) =
      List.zipWith (fun p x => if f x p then g p x else k p x) p x := by
  unfold whereRow
  induction p generalizing x with
  | nil => cases x <;> rfl
  | cons a p ih =>
    cases x with
    | nil => rfl
    | cons b x => simp only [List.zipWith_cons_cons, ih]

theorem scanRows_getD (step : XF ℝ → XF ℝ → XF ℝ) (prev : List (XF ℝ)) (A : XMat) {m : ℕ} (hm : m < A.length) :
    (scanRows step prev A).getD m [] =
      List.zipWith step (if m = 0 then prev else (scanRows step prev A).getD (m - 1) []) (A.getD m []) := by
  induction A generalizing prev m with
  | nil => simp at hm
  | cons r A ih =>
    cases m with
    | zero => simp [scanRows]
    | succ m =>
      simp only [scanRows, List.getD_cons_succ]
      rw [ih _ (by simpa using hm), if_neg (Nat.succ_ne_zero m), Nat.add_sub_cancel]
      cases m with
      | zero => simp
      | succ m => simp

theorem zerosLike_length (Q : XMat) : (zerosLike Q).length = Q.length := by simp [zerosLike]

theorem zerosLike_rect {Q : XMat} {c : ℕ} (hQ : Np.Rect Q c) : Np.Rect (zerosLike Q) c := rect_map hQ _

theorem zerosLike_getD {Q : XMat} {c : ℕ} (hQ : Np.Rect Q c) {m : ℕ} (hm : m < Q.length) :
    (zerosLike Q).getD m [] = List.replicate c (fin 0) := by
  unfold zerosLike
  rw [getD_map_lt _ _ [] _ hm, List.map_const', rect_row hQ hm]

/-- A rectangular array stays rectangular while it is filled. -/
theorem partialArr_row {out init : XMat} {c : ℕ} (hl : out.length = init.length) (ho : Np.Rect out c)
    (hi : Np.Rect init c) {m i : ℕ} (hm : m ≤ out.length) (hi' : i < out.length) :
    ((partialArr out init m).getD i []).length = c := by
  rw [partialArr_getD [] hl hm]
  split_ifs
  · exact rect_row ho hi'
  · exact rect_row hi (hl ▸ hi')

theorem set_rect {A : XMat} {c : ℕ} (h : Np.Rect A c) {v : List (XF ℝ)} (hv : v.length = c) (m : ℕ) :
    Np.Rect (A.set m v) c := by
  intro r hr
  rcases List.mem_or_eq_of_mem_set hr with h1 | h1
  · exact h r h1
  · exact h1 ▸ hv

/-- **C121** (`asymmetric_lowpass_filtering`). For every store and every matrix in it: the loop, which reads the row before
the current one of the array it is filling (and the last one in its first round), computes the recursion of C34 into a new
array, and leaves all others alone. -/
theorem C121_asymmetric {h : Heap} {q : ℕ} {Q : XMat} {c : ℕ} (hq : h[q]? = some Q) (hQ : Np.Rect Q c) (lmA lmB : ℝ) :
    Computes (asymLowpassP q lmA lmB) h (asymmetricLowpass Q lmA lmB) := by
  unfold asymmetricLowpass
  by_cases h0 : Q.length = 0
  · rw [if_pos h0]
    show asymLowpassP q lmA lmB h = _
    unfold asymLowpassP
    rw [bind_run, load_run hq, ok_bind, bind_run, alloc_run, ok_bind, bind_run]
    have := getRow_error (m := 0) (old_get hq [zerosLike Q]) (by omega)
    rw [Nat.cast_zero] at this
    rw [this, error_bind]
  rw [if_neg h0]
  have h0' : 0 < Q.length := Nat.pos_of_ne_zero h0
  set init : XMat := (zerosLike Q).set 0 ((Q.getD 0 []).map (fin 0.9 * ·)) with hinit
  set out : XMat := scanRows (asymStep lmA lmB) (asymInit Q) Q with hout
  have hhead : Q.headD [] = Q.getD 0 [] := by cases Q <;> rfl
  have hil : init.length = Q.length := by simp [hinit, zerosLike_length]
  have hol : out.length = Q.length := scanRows_length _ _ _
  have hl : out.length = init.length := by rw [hil, hol]
  have hic : Np.Rect init c := set_rect (zerosLike_rect hQ) (by rw [List.length_map, rect_row hQ h0']) _
  have hac : (asymInit Q).length = c := by
    unfold asymInit
    rw [hhead]
    split_ifs <;> rw [List.length_map, rect_row hQ h0']
  have hoc : Np.Rect out c := scanRows_rect _ _ _ hac hQ
  have hlast : init.getD (init.length - 1) [] = asymInit Q := by
    unfold asymInit
    rw [hhead, hil]
    split_ifs with h1
    · rw [h1, hinit]
      simp [zerosLike_length, h0']
    · rw [hinit, List.getD_eq_getElem?_getD, List.getElem?_set_ne (by omega), ← List.getD_eq_getElem?_getD,
        zerosLike_getD hQ (by omega), List.map_const', rect_row hQ h0']
      rfl
  refine ⟨h.length, [out], ?_, le_rfl, new_get _ _ _⟩
  unfold asymLowpassP
  rw [bind_run, load_run hq, ok_bind, bind_run, alloc_run, ok_bind, bind_run]
  have e0 := getRow_run (m := 0) (old_get hq [zerosLike Q]) h0'
  have e1 := setRow_run (m := 0) (new_get h (zerosLike Q) []) (v := (Q.getD 0 []).map (fin 0.9 * ·))
    (by rw [zerosLike_length]; exact h0')
    (by rw [zerosLike_getD hQ h0', List.length_replicate, List.length_map, rect_row hQ h0'])
  rw [Nat.cast_zero] at e0 e1
  beta_reduce
  rw [e0, ok_bind, bind_run]
  beta_reduce
  rw [e1, ok_bind, new_set, ← hinit, bind_run]
  beta_reduce
  rw [load_run (new_get h init []), ok_bind, bind_run]
  beta_reduce
  rw [hil]
  have key := loop_ok' (body := fun (m : ℕ) => do
      let p1 ← getRow h.length ((m : ℤ) - 1)
      let x1 ← getRow q m
      let Q1 := List.zipWith (fun p x => fin lmA * p + fin (1 - lmA) * x) p1 x1
      let p2 ← getRow h.length ((m : ℤ) - 1)
      let x2 ← getRow q m
      let Q2 := List.zipWith (fun p x => fin lmB * p + fin (1 - lmB) * x) p2 x2
      let x3 ← getRow q m
      let p3 ← getRow h.length ((m : ℤ) - 1)
      setRow h.length m (whereRow (List.zipWith (fun x p => leb p x) x3 p3) Q1 Q2))
    (fun m => h ++ [partialArr out init m]) Q.length ?_
  · beta_reduce at key
    rw [partialArr_zero] at key
    rw [key, ok_bind, pure_run, ← hol, partialArr_full hl]
  · intro m hm
    have hprev : getRow h.length ((m : ℤ) - 1) (h ++ [partialArr out init m]) =
        .ok (if m = 0 then asymInit Q else out.getD (m - 1) [], h ++ [partialArr out init m]) := by
      by_cases hm0 : m = 0
      · subst hm0
        rw [if_pos rfl, partialArr_zero, Nat.cast_zero, zero_sub,
          getRow_last (new_get h init []) (List.ne_nil_of_length_pos (by omega)), hlast]
      · have : ((m : ℤ) - 1) = ((m - 1 : ℕ) : ℤ) := by omega
        rw [if_neg hm0, this, getRow_run (new_get h _ []) (by rw [partialArr_length hl (by omega)]; omega),
          partialArr_getD [] hl (by omega), if_pos (by omega)]
    have hx := getRow_run (m := m) (old_get hq [partialArr out init m]) hm
    simp only [bind_run, hprev, hx, ok_bind]
    rw [whereRow_zip]
    have hrow : List.zipWith (fun p x => if leb p x then fin lmA * p + fin (1 - lmA) * x else fin lmB * p + fin (1 - lmB) * x)
        (if m = 0 then asymInit Q else out.getD (m - 1) []) (Q.getD m []) = out.getD m [] := (scanRows_getD _ _ _ hm).symm
    rw [hrow, setRow_run (new_get h _ []) (by rw [partialArr_length hl (by omega)]; omega)
      (by rw [partialArr_row hl hoc hic (by omega) (by omega), rect_row hoc (by omega)]), new_set,
      partialArr_set [] hl (by omega)]

theorem whereRow_mask (lam myu : ℝ) (p x : List (XF ℝ)) (hl : p.length = x.length) :
    whereRow (List.zipWith (fun x p => leb (fin lam * p) x) x p) x (p.map (fin myu * ·)) =
      List.zipWith (maskStep lam myu) p x := by
  unfold whereRow
  induction p generalizing x with
  | nil => cases x <;> simp
  | cons a p ih =>
    cases x with
    | nil => simp at hl
    | cons b x =>
      simp only [List.zipWith_cons_cons, List.map_cons, ih x (by simpa using hl)]
      rfl

/-- **C121** (`temporal_masking`): two arrays are filled at the same time, the peaks and the result. -/
theorem C121_masking {h : Heap} {q : ℕ} {Q : XMat} {c : ℕ} (hq : h[q]? = some Q) (hQ : Np.Rect Q c) (lam myu : ℝ) :
    Computes (temporalMaskingP q lam myu) h (temporalMasking Q lam myu) := by
  by_cases h0 : Q.length = 0
  · have : Q = [] := List.length_eq_zero_iff.mp h0
    subst this
    show temporalMaskingP q lam myu h = _
    unfold temporalMaskingP
    rw [bind_run, load_run hq, ok_bind, bind_run, alloc_run, ok_bind, bind_run, alloc_run, ok_bind, bind_run]
    have := getRow_error (m := 0) (old_get (old_get hq [zerosLike []]) [zerosLike []]) (by simp)
    rw [Nat.cast_zero] at this
    rw [this, error_bind]
  have h0' : 0 < Q.length := Nat.pos_of_ne_zero h0
  obtain ⟨out, hok, hol, hoc, ho0, hos⟩ : ∃ out : XMat, temporalMasking Q lam myu = .ok out ∧ out.length = Q.length ∧
      Np.Rect out c ∧ out.getD 0 [] = Q.getD 0 [] ∧ ∀ m, 1 ≤ m → m < Q.length → out.getD m [] =
        List.zipWith (maskStep lam myu) ((onlinePeak lam Q).getD (m - 1) []) (Q.getD m []) := by
    cases Q with
    | nil => simp at h0
    | cons r rs =>
      have hr : Np.Rect (onlinePeak lam (r :: rs)) c := by
        intro s hs
        rcases List.mem_cons.mp hs with rfl | hs
        · exact hQ _ (by simp)
        · exact scanRows_rect _ _ _ (hQ r (by simp)) (fun t ht => hQ t (by simp [ht])) s hs
      have hlp : (onlinePeak lam (r :: rs)).length = rs.length + 1 := by simp [onlinePeak, scanRows_length]
      refine ⟨_, rfl, by simp [hlp], ?_, rfl, ?_⟩
      · intro s hs
        rcases List.mem_cons.mp hs with rfl | hs
        · exact hQ _ (by simp)
        · exact mapMat2_rect (maskStep lam myu) hr (fun t ht => hQ t (by simp [ht])) s hs
      · intro m h1 hm
        obtain ⟨m, rfl⟩ : ∃ k, m = k + 1 := ⟨m - 1, by omega⟩
        rw [List.getD_cons_succ, List.getD_cons_succ, Nat.add_sub_cancel,
          getD_zipWith_lt _ _ _ [] [] _ (by rw [hlp]; simp at hm; omega) (by simpa using hm)]
  obtain ⟨peak, hp, hpl, hpc, hp0, hps⟩ : ∃ peak : XMat, onlinePeak lam Q = peak ∧ peak.length = Q.length ∧
      Np.Rect peak c ∧ peak.getD 0 [] = Q.getD 0 [] ∧ ∀ m, 1 ≤ m → m < Q.length → peak.getD m [] =
        List.zipWith (fun p x => max2 (fin lam * p) x) (peak.getD (m - 1) []) (Q.getD m []) := by
    cases Q with
    | nil => simp at h0
    | cons r rs =>
      refine ⟨_, rfl, by simp [onlinePeak, scanRows_length], ?_, rfl, ?_⟩
      · intro s hs
        rcases List.mem_cons.mp hs with rfl | hs
        · exact hQ _ (by simp)
        · exact scanRows_rect _ _ _ (hQ r (by simp)) (fun t ht => hQ t (by simp [ht])) s hs
      · intro m h1 hm
        obtain ⟨m, rfl⟩ : ∃ k, m = k + 1 := ⟨m - 1, by omega⟩
        unfold onlinePeak
        rw [List.getD_cons_succ, List.getD_cons_succ, Nat.add_sub_cancel, scanRows_getD _ _ _ (by simpa using hm)]
        cases m with
        | zero => rfl
        | succ m => simp
  rw [hp] at hos
  have hzl := zerosLike_length Q
  have hzc := zerosLike_rect hQ
  have hl1 : out.length = (zerosLike Q).length := by omega
  have hl2 : peak.length = (zerosLike Q).length := by omega
  rw [hok]
  refine ⟨h.length, [out, peak], ?_, le_rfl, new_get _ _ _⟩
  unfold temporalMaskingP
  rw [bind_run, load_run hq, ok_bind, bind_run, alloc_run, ok_bind, bind_run, alloc_run, ok_bind, bind_run]
  beta_reduce
  rw [List.append_assoc, List.singleton_append]
  have z0 : (zerosLike Q).getD 0 [] = List.replicate c (fin 0) := zerosLike_getD hQ h0'
  have e0 := getRow_run (m := 0) (old_get hq [zerosLike Q, zerosLike Q]) h0'
  have e1 := setRow_run (m := 0) (new_get h (zerosLike Q) [zerosLike Q]) (v := Q.getD 0 [])
    (by rw [hzl]; exact h0') (by rw [z0, List.length_replicate, rect_row hQ h0'])
  have e2 := getRow_run (m := 0) (old_get hq [(zerosLike Q).set 0 (Q.getD 0 []), zerosLike Q]) h0'
  have e3 := setRow_run (m := 0) (new_get1 h ((zerosLike Q).set 0 (Q.getD 0 [])) (zerosLike Q) []) (v := Q.getD 0 [])
    (by rw [hzl]; exact h0') (by rw [z0, List.length_replicate, rect_row hQ h0'])
  rw [Nat.cast_zero] at e0 e1 e2 e3
  have hlen1 : (h ++ [zerosLike Q]).length = h.length + 1 := by simp
  rw [hlen1]
  simp only [e0, ok_bind, bind_run, e1, new_set, e2, e3, new_set1]
  have i1 : (zerosLike Q).set 0 (Q.getD 0 []) = partialArr out (zerosLike Q) 1 := by
    rw [← ho0]
    have := partialArr_set [] hl1 (m := 0) (by omega)
    rw [partialArr_zero] at this
    exact this
  have i2 : (zerosLike Q).set 0 (Q.getD 0 []) = partialArr peak (zerosLike Q) 1 := by
    rw [← hp0]
    have := partialArr_set [] hl2 (m := 0) (by omega)
    rw [partialArr_zero] at this
    exact this
  have key := loop_ok (body := fun (m : ℕ) => do
      let p ← getRow (h.length + 1) ((m : ℤ) - 1)
      let x ← getRow q m
      setRow (h.length + 1) m (List.zipWith (fun p x => max2 (fin lam * p) x) p x)
      let x1 ← getRow q m
      let p1 ← getRow (h.length + 1) ((m : ℤ) - 1)
      let x2 ← getRow q m
      let p2 ← getRow (h.length + 1) ((m : ℤ) - 1)
      setRow h.length m (whereRow (List.zipWith (fun x p => leb (fin lam * p) x) x1 p1) x2 (p2.map (fin myu * ·))))
    (fun m => h ++ [partialArr out (zerosLike Q) m, partialArr peak (zerosLike Q) m]) 1 (Q.length - 1) ?_
  · rw [show 1 + (Q.length - 1) = Q.length by omega] at key
    beta_reduce at key
    rw [← i1, ← i2, ← hol, partialArr_full hl1, hol, ← hpl, partialArr_full hl2, hpl] at key
    rw [key, ok_bind, pure_run]
  · intro m h1 hm
    have hm' : m < Q.length := by omega
    have hc : ((m : ℤ) - 1) = ((m - 1 : ℕ) : ℤ) := by omega
    have hpr : ∀ t : Heap, ∀ k, m ≤ k → k ≤ peak.length → ∀ o : XMat, getRow (h.length + 1) ((m : ℤ) - 1)
        (h ++ o :: partialArr peak (zerosLike Q) k :: t) =
        .ok (peak.getD (m - 1) [], h ++ o :: partialArr peak (zerosLike Q) k :: t) := by
      intro t k hk hk' o
      rw [hc, getRow_run (new_get1 h _ _ _) (by rw [partialArr_length hl2 hk']; omega), partialArr_getD [] hl2 hk',
        if_pos (by omega)]
    have hx : ∀ t, getRow q (m : ℤ) (h ++ t) = .ok (Q.getD m [], h ++ t) := fun t => getRow_run (old_get hq t) hm'
    have hpp : (peak.getD (m - 1) []).length = c := rect_row hpc (by omega)
    have hs1 : setRow (h.length + 1) (m : ℤ) (peak.getD m [])
        (h ++ [partialArr out (zerosLike Q) m, partialArr peak (zerosLike Q) m]) =
        .ok ((), h ++ [partialArr out (zerosLike Q) m, partialArr peak (zerosLike Q) (m + 1)]) := by
      rw [setRow_run (new_get1 h _ _ []) (by rw [partialArr_length hl2 (by omega)]; omega)
        (by rw [partialArr_row hl2 hpc hzc (by omega) (by omega), rect_row hpc (by omega)]), new_set1,
        partialArr_set [] hl2 (by omega)]
    have hs2 : setRow h.length (m : ℤ) (out.getD m [])
        (h ++ [partialArr out (zerosLike Q) m, partialArr peak (zerosLike Q) (m + 1)]) =
        .ok ((), h ++ [partialArr out (zerosLike Q) (m + 1), partialArr peak (zerosLike Q) (m + 1)]) := by
      rw [setRow_run (new_get h _ _) (by rw [partialArr_length hl1 (by omega)]; omega)
        (by rw [partialArr_row hl1 hoc hzc (by omega) (by omega), rect_row hoc (by omega)]), new_set,
        partialArr_set [] hl1 (by omega)]
    have hw := whereRow_mask lam myu (peak.getD (m - 1) []) (Q.getD m []) (by rw [hpp, rect_row hQ hm'])
    rw [← hos m h1 hm'] at hw
    simp only [bind_run, hpr [] m le_rfl (by omega), hx, ok_bind, ← hps m h1 hm', hs1,
      hpr [] (m + 1) (by omega) (by omega), hw, hs2]

/-- A partly filled array: `acc`, then what is left of the initial contents. -/
theorem fill_get {β : Type} (d : β) (acc init : List β) (h : acc.length < init.length) :
    (acc ++ init.drop acc.length).getD acc.length d = init.getD acc.length d := by
  rw [List.getD_append_right _ _ _ _ le_rfl, Nat.sub_self]
  simp [List.getD_eq_getElem?_getD]

theorem fill_length {β : Type} (acc init : List β) (h : acc.length ≤ init.length) :
    (acc ++ init.drop acc.length).length = init.length := by simp; omega

theorem fill_set {β : Type} (acc init : List β) (v : β) (h : acc.length < init.length) :
    (acc ++ init.drop acc.length).set acc.length v = (acc ++ [v]) ++ init.drop (acc ++ [v]).length := by
  rw [List.set_append_right _ _ le_rfl, Nat.sub_self, List.append_assoc, List.length_append, List.length_singleton,
    List.drop_eq_getElem_cons h]
  rfl

theorem fill_full {β : Type} (acc init : List β) (h : acc.length = init.length) : acc ++ init.drop acc.length = acc := by
  rw [h, List.drop_length, List.append_nil]

/-- **C121** (`weight_smoothing`): two nested loops, either of which may raise. -/
theorem C121_smoothing {h : Heap} {r q : ℕ} {R Q : XMat} {c : ℕ} (hr : h[r]? = some R) (hq : h[q]? = some Q)
    (hR : Np.Rect R c) (hQ : Np.Rect Q c) (hl : R.length = Q.length) (L N : ℕ) :
    Computes (weightSmoothingP r q L N) h (weightSmoothing R Q L N) := by
  have hzl := zerosLike_length R
  have key : weightSmoothingP r q L N h =
      weightSmoothing R Q L N >>= fun out => .ok (h.length, h ++ [out ++ (zerosLike R).drop out.length]) := by
    unfold weightSmoothingP
    rw [bind_run, load_run hr, ok_bind, bind_run, alloc_run, ok_bind, bind_run]
    beta_reduce
    rw [List.range_eq_range']
    have := loop_fill (fun (m : ℕ) => (List.range (Np.ncols R)).mapM fun (l : ℕ) => wsEntry (Np.ncols R) N L R Q m l)
      (fun (m : ℕ) => loop (List.range (Np.ncols R)) fun l => do
        let l1 := wsLo N l
        let l2 := wsHi N L l
        if ((l2 : ℤ) - l1 + 1) = 0 then lift (.error .zeroDivisionError)
        else do
          let terms ← (List.range' l1 (l2 - l1)).mapM fun (k : ℕ) => do
            let a ← getAt r m k
            let b ← getAt q m k
            pure (a / b)
          setAt h.length m l (fin (1 / (((l2 : ℤ) - l1 + 1 : ℤ) : ℝ)) * terms.sum))
      (fun acc : XMat => h ++ [acc ++ (zerosLike R).drop acc.length]) R.length [] ?_
    · simp only [List.length_nil, List.drop_zero, List.nil_append] at this
      rw [this]
      unfold weightSmoothing
      rw [List.range_eq_range' (n := R.length)]
      cases (List.range' 0 R.length).mapM fun (m : ℕ) =>
        (List.range (Np.ncols R)).mapM fun (l : ℕ) => wsEntry (Np.ncols R) N L R Q m l with
      | error e => rfl
      | ok v => rfl
    · intro acc _ hacc
      simp only [List.length_nil, Nat.zero_add] at hacc
      have hc : Np.ncols R = c := ncols_of_rect hR (List.ne_nil_of_length_pos (by omega))
      rw [hc]
      beta_reduce
      set m := acc.length with hm
      set zrow : List (XF ℝ) := List.replicate c (fin 0) with hzrow
      have hzrl : zrow.length = c := by rw [hzrow, List.length_replicate]
      have hz : (zerosLike R).getD m [] = zrow := zerosLike_getD hR hacc
      have hRm : (R.getD m []).length = c := rect_row hR hacc
      have hQm : (Q.getD m []).length = c := rect_row hQ (hl ▸ hacc)
      have inner := loop_fill (fun (l : ℕ) => wsEntry c N L R Q m l)
        (fun (l : ℕ) => do
          let l1 := wsLo N l
          let l2 := wsHi N L l
          if ((l2 : ℤ) - l1 + 1) = 0 then lift (.error .zeroDivisionError)
          else do
            let terms ← (List.range' l1 (l2 - l1)).mapM fun (k : ℕ) => do
              let a ← getAt r m k
              let b ← getAt q m k
              pure (a / b)
            setAt h.length m l (fin (1 / (((l2 : ℤ) - l1 + 1 : ℤ) : ℝ)) * terms.sum))
        (fun row : List (XF ℝ) => h ++ [(acc ++ (zerosLike R).drop m).set m (row ++ zrow.drop row.length)]) c [] ?_
      · simp only [List.length_nil, List.drop_zero, List.nil_append] at inner
        have h1 : (acc ++ (zerosLike R).drop m).set m zrow = acc ++ (zerosLike R).drop m := by
          rw [hm, fill_set _ _ _ (by omega), List.length_append, List.length_singleton, List.append_assoc, ← hz,
            List.getD_eq_getElem _ _ (by omega)]
          congr 1
          exact (List.drop_eq_getElem_cons (by omega)).symm
        rw [h1] at inner
        rw [List.range_eq_range', inner]
        cases hv : (List.range' 0 c).mapM fun (l : ℕ) => wsEntry c N L R Q m l with
        | error e => simp only [error_bind]
        | ok v =>
          have hvl : v.length = c := by rw [mapM_length _ _ _ hv, List.length_range']
          simp only [ok_bind]
          rw [fill_full v zrow (by omega), hm, fill_set _ _ _ (by omega)]
      · intro row _ hrow
        simp only [List.length_nil, Nat.zero_add] at hrow
        beta_reduce
        set l := row.length with hlrow
        set H : Heap := h ++ [(acc ++ (zerosLike R).drop m).set m (row ++ zrow.drop l)] with hH
        unfold wsEntry
        dsimp only
        split_ifs with c1 c2
        · rw [lift_error, error_bind]
        · have := mapM_run_error (f := fun (k : ℕ) => do
              let a ← getAt r m k
              let b ← getAt q m k
              pure (a / b)) (fun k => Np.at2 R m k / Np.at2 Q m k) (h := H)
              (l := List.range' (wsLo N l) (wsHi N L l - wsLo N l)) (e := .indexError) ?_ ?_
          · rw [bind_run, this, error_bind, error_bind]
          · intro k _
            by_cases hk : k < c
            · left
              rw [bind_run, getAt_run (old_get hr _) hacc (by omega), ok_bind, bind_run,
                getAt_run (old_get hq _) (by omega) (by omega), ok_bind]
              rfl
            · right
              rw [bind_run, getAt_error (old_get hr _) hacc (by omega), error_bind]
          · refine ⟨wsHi N L l - 1, List.mem_range'_1.mpr ⟨by omega, by omega⟩, ?_⟩
            beta_reduce
            rw [bind_run, getAt_error (old_get hr _) hacc (by omega), error_bind]
        · have := mapM_run_ok (f := fun (k : ℕ) => do
              let a ← getAt r m k
              let b ← getAt q m k
              pure (a / b)) (fun k => Np.at2 R m k / Np.at2 Q m k) (h := H)
              (l := List.range' (wsLo N l) (wsHi N L l - wsLo N l)) ?_
          · rw [bind_run, this, ok_bind, ok_bind]
            beta_reduce
            have hget : ((acc ++ (zerosLike R).drop m).set m (row ++ zrow.drop l)).getD m [] = row ++ zrow.drop l := by
              have : m < ((acc ++ (zerosLike R).drop m).set m (row ++ zrow.drop l)).length := by
                rw [List.length_set, hm, fill_length _ _ (by omega)]; omega
              rw [List.getD_eq_getElem _ _ this, List.getElem_set_self]
            rw [hH, setAt_run (new_get h _ []) (by rw [List.length_set, hm, fill_length _ _ (by omega)]; omega)
              (by rw [hget, hlrow, fill_length _ _ (by omega)]; omega), hget, new_set,
              List.set_set, hlrow, fill_set row zrow _ (by omega), sum_Ico_range']
          · intro k hk
            obtain ⟨k1, k2⟩ := List.mem_range'_1.mp hk
            have hk : k < c := by
              by_contra hc'
              exact c2 ⟨by omega, by omega⟩
            rw [bind_run, getAt_run (old_get hr _) hacc (by omega), ok_bind, bind_run,
              getAt_run (old_get hq _) (by omega) (by omega), ok_bind]
            rfl
  cases hw : weightSmoothing R Q L N with
  | error e => show _ = _; rw [key, hw, error_bind]
  | ok out =>
    have hol : out.length = R.length := by
      unfold weightSmoothing at hw
      rw [mapM_length _ _ _ hw, List.length_range]
    rw [hw, ok_bind, fill_full _ _ (by omega)] at key
    exact ⟨h.length, [out], key, le_rfl, new_get _ _ _⟩

/-- **C121** (`mean_power_normalization`). -/
theorem C121_mean_power {h : Heap} {t : ℕ} {T : XMat} (ht : h[t]? = some T) (lam : ℝ) (L : ℕ) (k : ℝ) :
    Computes (meanPowerP t lam L k) h (meanPowerNormalization T lam L k) := by
  have loopEq : ∀ (n : ℕ) (pre : List (XF ℝ)) (p : XF ℝ), pre.length + 1 + n = T.length →
      loop (List.range' (pre.length + 1) n) (fun (m : ℕ) => do
        let p ← getAt h.length 0 ((m : ℤ) - 1)
        if L = 0 then lift (.error .zeroDivisionError)
        else do
          let terms ← (List.range L).mapM fun (l : ℕ) => getAt t m l
          setAt h.length 0 m (fin lam * p + fin ((1 - lam) / L) * terms.sum))
        (h ++ [[(pre ++ [p]) ++ List.replicate n (fin 0)]]) =
      myuLoop lam L p (T.drop (pre.length + 1)) >>= fun vs => .ok ((), h ++ [[(pre ++ [p]) ++ vs]]) := by
    intro n
    induction n with
    | zero =>
      intro pre p hn
      rw [List.drop_eq_nil_of_le (by omega)]
      rfl
    | succ n ih =>
      intro pre p hn
      have hm : pre.length + 1 < T.length := by omega
      rw [List.range'_succ, loop, bind_run, List.drop_eq_getElem_cons hm, myuLoop, bind_run]
      have hbuf : ((pre ++ [p]) ++ List.replicate (n + 1) (fin (0 : ℝ))).length = T.length := by simp; omega
      have e1 : getAt h.length 0 (((pre.length + 1 : ℕ) : ℤ) - 1)
          (h ++ [[(pre ++ [p]) ++ List.replicate (n + 1) (fin 0)]]) =
          .ok (p, h ++ [[(pre ++ [p]) ++ List.replicate (n + 1) (fin 0)]]) := by
        rw [show (((pre.length + 1 : ℕ) : ℤ) - 1) = ((pre.length : ℕ) : ℤ) by push_cast; ring]
        have := getAt_run (new_get h [(pre ++ [p]) ++ List.replicate (n + 1) (fin 0)] []) (m := 0) (l := pre.length)
          (by simp) (by simp)
        rw [Nat.cast_zero] at this
        rw [this]
        simp
      rw [e1, ok_bind]
      beta_reduce
      by_cases hL : L = 0
      · rw [if_pos hL, if_pos hL, lift_error, error_bind, error_bind]
      rw [if_neg hL, if_neg hL]
      have hrow : T.getD (pre.length + 1) [] = T[pre.length + 1] := List.getD_eq_getElem _ _ hm
      by_cases hs : T[pre.length + 1].length < L
      · rw [if_pos hs, bind_run, mapM_run_error (fun l => Np.at2 T (pre.length + 1) l) (e := .indexError), error_bind,
          error_bind, error_bind]
        · intro l _
          by_cases hl : l < T[pre.length + 1].length
          · left
            rw [getAt_run (old_get ht _) hm (by rw [hrow]; exact hl)]
            rfl
          · right
            rw [getAt_error (old_get ht _) hm (by rw [hrow]; omega)]
        · refine ⟨T[pre.length + 1].length, List.mem_range.mpr hs, ?_⟩
          rw [getAt_error (old_get ht _) hm (by rw [hrow])]
      · rw [if_neg hs, bind_run, mapM_run_ok (fun l => Np.at2 T (pre.length + 1) l)]
        · rw [ok_bind]
          beta_reduce
          have hsum : ((List.range L).map fun l => Np.at2 T (pre.length + 1) l) = T[pre.length + 1].take L := by
            apply ext_getD 0
            · simp; omega
            · intro i hi
              simp only [List.length_map, List.length_range] at hi
              rw [getD_map_range_lt _ _ hi, getD_take_lt _ _ hi, Np.at2, hrow]
          rw [hsum]
          have e2 := setAt_run (new_get h [(pre ++ [p]) ++ List.replicate (n + 1) (fin (0 : ℝ))] []) (m := 0)
            (l := pre.length + 1) (by simp) (by simp)
            (fin lam * p + fin ((1 - lam) / L) * (T[pre.length + 1].take L).sum)
          rw [Nat.cast_zero, new_set] at e2
          rw [e2, ok_bind]
          set v := fin lam * p + fin ((1 - lam) / L) * (T[pre.length + 1].take L).sum with hv
          have e3 : [(pre ++ [p]) ++ List.replicate (n + 1) (fin (0 : ℝ))].set 0
              (([(pre ++ [p]) ++ List.replicate (n + 1) (fin (0 : ℝ))].getD 0 []).set (pre.length + 1) v) =
              [((pre ++ [p]) ++ [v]) ++ List.replicate n (fin 0)] := by
            have : pre.length + 1 = (pre ++ [p]).length := by simp
            simp only [List.getD_cons_zero, List.set_cons_zero]
            rw [this, List.set_append_right _ _ le_rfl, Nat.sub_self, List.replicate_succ, List.set_cons_zero]
            simp
          rw [e3]
          have := ih (pre ++ [p]) v (by simp; omega)
          rw [List.length_append, List.length_singleton] at this
          rw [this]
          cases hmy : myuLoop lam L v (T.drop (pre.length + 1 + 1)) with
          | error e =>
            have hmy : myuLoop lam L v (List.drop (pre.length + 1 + 1) T) = .error e := hmy
            simp only [hmy, error_bind]
          | ok vs =>
            have hmy : myuLoop lam L v (List.drop (pre.length + 1 + 1) T) = .ok vs := hmy
            simp only [hmy, ok_bind, List.append_assoc, List.singleton_append, List.cons_append, List.nil_append]
        · intro l hl
          rw [getAt_run (old_get ht _) hm (by rw [hrow]; have := List.mem_range.mp hl; omega)]
          rfl
  cases hT : T with
  | nil =>
    subst hT
    show meanPowerP t lam L k h = _
    unfold meanPowerP
    rw [bind_run, load_run ht, ok_bind, bind_run, alloc_run, ok_bind, bind_run]
    have := setAt_error (new_get h [List.replicate 0 (fin (0 : ℝ))] []) (m := 0) (l := 0) (by simp) (by simp) (fin 0.0001)
    rw [Nat.cast_zero] at this
    beta_reduce
    rw [List.length_nil, this, error_bind]
  | cons t0 ts =>
    have hlen : T.length = ts.length + 1 := by rw [hT]; rfl
    have e1 := setAt_run (new_get h [List.replicate T.length (fin (0 : ℝ))] []) (m := 0) (l := 0) (by simp)
      (by simp; omega) (fin 0.0001)
    rw [Nat.cast_zero, new_set] at e1
    have e2 : [List.replicate T.length (fin (0 : ℝ))].set 0 (([List.replicate T.length (fin (0 : ℝ))].getD 0 []).set 0
        (fin 0.0001)) = [([] ++ [fin 0.0001]) ++ List.replicate ts.length (fin 0)] := by
      rw [hlen, List.replicate_succ]; rfl
    rw [e2] at e1
    have key : meanPowerP t lam L k h = meanPowerNormalization T lam L k >>= fun out => (Except.ok (h.length + 1,
        h ++ [[fin 0.0001 :: (match myuLoop lam L (fin 0.0001) ts with | .ok v => v | .error _ => [])], out]) : Py (ℕ × Heap)) := by
      unfold meanPowerP
      rw [bind_run, load_run ht, ok_bind, bind_run, alloc_run, ok_bind, bind_run]
      beta_reduce
      rw [e1, ok_bind, bind_run]
      beta_reduce
      have := loopEq ts.length [] (fin 0.0001) (by simp; omega)
      rw [List.length_nil, Nat.zero_add] at this
      rw [show T.length - 1 = ts.length by omega, this, hT, List.drop_one, List.tail_cons]
      unfold meanPowerNormalization
      cases hmy : myuLoop lam L (fin 0.0001) ts with
      | error e => simp only [hmy, error_bind]
      | ok vs =>
        simp only [hmy, ok_bind]
        have g := getRow_run (new_get h [([] ++ [fin (0.0001 : ℝ)]) ++ vs] []) (m := 0) (by simp)
        rw [Nat.cast_zero] at g
        rw [bind_run, load_run (old_get ht _), ok_bind, bind_run]
        beta_reduce
        rw [g, ok_bind, alloc_run, hT]
        simp
    rw [← hT]
    cases hw : meanPowerNormalization T lam L k with
    | error e => show _ = _; rw [key, hw, error_bind]
    | ok out =>
      rw [hw, ok_bind] at key
      exact ⟨_, _, key, by omega, new_get1 _ _ _ _⟩

theorem firX_length (b z x : List (XF ℝ)) (hb : b ≠ []) : (firZi b z x).1.length = x.length := by
  have : 0 < b.length := List.length_pos_iff.mpr hb
  simp only [firZi, List.length_take, List.length_map, List.length_range]
  omega

theorem df2tX_length (b a : List (XF ℝ)) (xs : List (XF ℝ)) : ∀ z, (df2t b a z xs).1.length = xs.length := by
  induction xs with
  | nil => intro z; rfl
  | cons x xs ih => intro z; simp [df2t, ih]

/-- **C121** (`rasta_filter`), for any filter coefficients and initial state. -/
theorem C121_rasta {h : Heap} {x : ℕ} {X : XMat} {c : ℕ} (hx : h[x]? = some X) (hX : Np.Rect X c)
    (numer denom zi : List (XF ℝ)) (hn : numer ≠ []) :
    Computes (rastaP numer denom zi x) h (rastaRows numer denom zi X) := by
  have hzl := zerosLike_length X
  have loopEq : ∀ (n : ℕ) (acc : XMat) (z : List (XF ℝ)), acc.length + n = X.length →
      rastaLoopP numer denom x h.length (List.range' acc.length n) z (h ++ [acc ++ (zerosLike X).drop acc.length]) =
      rastaRows numer denom z (X.drop acc.length) >>= fun vs => .ok ((), h ++ [acc ++ vs]) := by
    intro n
    induction n with
    | zero =>
      intro acc z hn
      rw [List.drop_eq_nil_of_le (by omega), List.drop_eq_nil_of_le (by omega)]
      rfl
    | succ n ih =>
      intro acc z hlen
      have hm : acc.length < X.length := by omega
      have hrow : X.getD acc.length [] = X[acc.length] := List.getD_eq_getElem _ _ hm
      have hrl : (X.getD acc.length []).length = c := rect_row hX hm
      have e1 := getRow_run (m := acc.length) (old_get hx [acc ++ (zerosLike X).drop acc.length]) hm
      rw [List.range'_succ, rastaLoopP, bind_run, e1, ok_bind, bind_run, List.drop_eq_getElem_cons hm, ← hrow]
      beta_reduce
      cases hr : X.getD acc.length [] with
      | nil =>
        have := getAt_error (l := 0) (old_get hx [acc ++ (zerosLike X).drop acc.length]) hm (by rw [hr]; simp)
        rw [Nat.cast_zero] at this
        rw [this, error_bind]
        rfl
      | cons x0 xs =>
        have e2 := getAt_run (l := 0) (old_get hx [acc ++ (zerosLike X).drop acc.length]) hm (by rw [hr]; simp)
        rw [Nat.cast_zero, hr, List.getD_cons_zero] at e2
        rw [e2, ok_bind, rastaRows]
        beta_reduce
        rw [hr] at e1 hrl
        dsimp only
        rw [bind_run, e1, ok_bind, bind_run]
        beta_reduce
        set fz := firZi numer (z.map (· * x0)) ((x0 :: xs).take 4) with hfz
        set row := fz.1.map (· * fin 0) ++ (df2t numer denom fz.2 ((x0 :: xs).drop 4)).1 with hrw
        have hrowl : row.length = c := by
          rw [hrw, List.length_append, List.length_map, hfz, firX_length _ _ _ hn, df2tX_length, ← hrl,
            ← List.length_append, List.take_append_drop]
        rw [setRow_run (new_get h _ []) (by rw [fill_length _ _ (by omega)]; omega)
          (by rw [fill_get _ _ _ (by omega), zerosLike_getD hX hm, List.length_replicate, hrowl]), new_set,
          fill_set _ _ _ (by omega), ok_bind]
        have := ih (acc ++ [row]) fz.2 (by simp; omega)
        have hl1 : (acc ++ [row]).length = acc.length + 1 := by simp
        rw [hl1] at this ⊢
        rw [this]
        cases rastaRows numer denom fz.2 (X.drop (acc.length + 1)) with
        | error e => rfl
        | ok vs =>
          simp only [ok_bind]
          show _ = Except.ok ((), h ++ [acc ++ (row :: vs)])
          rw [List.append_assoc]
          rfl
  have key : rastaP numer denom zi x h = rastaRows numer denom zi X >>= fun out => .ok (h.length, h ++ [out]) := by
    unfold rastaP
    rw [bind_run, load_run hx, ok_bind, bind_run, alloc_run, ok_bind, bind_run]
    have := loopEq X.length [] zi (by simp)
    simp only [List.length_nil, List.drop_zero, List.nil_append] at this
    beta_reduce
    rw [List.range_eq_range', this]
    cases rastaRows numer denom zi X with
    | error e => rfl
    | ok v => rfl
  cases hw : rastaRows numer denom zi X with
  | error e => show _ = _; rw [key, hw, error_bind]
  | ok out =>
    rw [hw, ok_bind] at key
    exact ⟨h.length, [out], key, le_rfl, new_get _ _ _⟩

theorem whereRow_map (fs old : List (XF ℝ)) (b : XF ℝ → Bool) (g : XF ℝ → XF ℝ) (hl : old.length = fs.length) :
    whereRow (fs.map b) (fs.map g) old = List.zipWith (fun f o => if b f then g f else o) fs old := by
  unfold whereRow
  induction fs generalizing old with
  | nil => rfl
  | cons f fs ih =>
    cases old with
    | nil => simp at hl
    | cons o old => simp only [List.map_cons, List.zipWith_cons_cons, ih old (by simpa using hl)]

theorem setMask_run {h : Heap} {r : ℕ} {x : XMat} (hx : h[r]? = some x) {j : ℕ} (hj : j < x.length)
    (fs : List (XF ℝ)) (b : XF ℝ → Bool) (g : XF ℝ → XF ℝ) (hl : (x.getD j []).length = fs.length) :
    setMask r (j : ℤ) (fs.map b) (fs.map g) h =
      .ok ((), h.set r (x.set j (List.zipWith (fun f o => if b f then g f else o) fs (x.getD j [])))) := by
  unfold setMask
  rw [bind_run, getRow_run hx hj, ok_bind, whereRow_map _ _ _ _ hl, setRow_run hx hj (by rw [List.length_zipWith, hl, min_self])]

/-- **C121** (the loop of `mel_filter_banks_helper`): two masked assignments per filter, the second over the first. -/
theorem C121_mel_bank (h : Heap) (pts : List (XF ℝ)) (nfilts nfft : ℕ) (low high : ℝ) (scaling : List ℝ)
    (hs : scaling.length = nfilts) :
    Computes (melBankP pts nfilts nfft low high scaling) h (.ok (melBank pts nfilts nfft low high scaling)) := by
  obtain ⟨fs, hfs⟩ : ∃ fs : List (XF ℝ), fs = (melFreqs nfft low high).map fin := ⟨_, rfl⟩
  have hfl : fs.length = nfft / 2 + 1 := by rw [hfs, List.length_map, melFreqs]; simp only [Np.linspace]; split_ifs <;> simp; omega
  set init : XMat := List.replicate nfilts (List.replicate (nfft / 2 + 1) (fin 0)) with hinit
  set out : XMat := (List.range nfilts).map fun (j : ℕ) => fs.map fun f =>
    melEntry (pts.getD j 0) (pts.getD (j + 1) 0) (pts.getD (j + 2) 0) f with hout
  have hl : out.length = init.length := by simp [hout, hinit]
  have hol : out.length = nfilts := by simp [hout]
  have hfin : List.zipWith (fun r (s : ℝ) => r.map (· * fin s)) out scaling = melBank pts nfilts nfft low high scaling := by
    unfold melBank
    apply ext_getD []
    · simp [hol, hs]
    · intro j hj
      have hj' : j < nfilts := by simpa [hol, hs] using hj
      rw [getD_zipWith_lt _ _ _ [] [] 0 (by omega) (by omega), hout, getD_map_range_lt _ _ hj', getD_map_range_lt _ _ hj', hfs,
        List.map_map, List.map_map]
      rfl
  refine ⟨h.length + 1, [out, melBank pts nfilts nfft low high scaling], ?_, by omega, new_get1 _ _ _ _⟩
  unfold melBankP
  dsimp only
  rw [← hfs, bind_run, alloc_run, ok_bind, bind_run]
  beta_reduce
  have key := loop_ok' (body := fun (j : ℕ) => do
      setMask h.length j (fs.map fun f => leb (pts.getD j 0) f == leb f (pts.getD (j + 1) 0))
        (fs.map fun f => (f - pts.getD j 0) / (pts.getD (j + 1) 0 - pts.getD j 0))
      setMask h.length j (fs.map fun f => leb (pts.getD (j + 1) 0) f == leb f (pts.getD (j + 2) 0))
        (fs.map fun f => (pts.getD (j + 2) 0 - f) / (pts.getD (j + 2) 0 - pts.getD (j + 1) 0)))
    (fun j => h ++ [partialArr out init j]) nfilts ?_
  · beta_reduce at key
    rw [partialArr_zero] at key
    rw [key, ok_bind, bind_run, ← hol, partialArr_full hl, load_run (new_get h _ []), ok_bind, alloc_run, hol, hfin]
    simp
  · intro j hj
    have hzero : (partialArr out init j).getD j [] = List.replicate (nfft / 2 + 1) (fin 0) := by
      rw [partialArr_getD [] hl (by omega), if_neg (lt_irrefl j), hinit,
        List.getD_eq_getElem _ _ (by simpa using hj), List.getElem_replicate]
    have hlen : (partialArr out init j).length = nfilts := by rw [partialArr_length hl (by omega), hol]
    rw [bind_run, setMask_run (new_get h _ []) (by omega) _ _ _ (by rw [hzero, List.length_replicate, hfl]), new_set, ok_bind]
    have hget : ∀ v, ((partialArr out init j).set j v).getD j [] = v := by
      intro v
      rw [List.getD_eq_getElem _ _ (by rw [List.length_set]; omega), List.getElem_set_self]
    rw [setMask_run (new_get h _ []) (by rw [List.length_set]; omega) _ _ _ (by rw [hget, List.length_zipWith, hzero, List.length_replicate, hfl, min_self]), new_set,
      List.set_set, hget, hzero, ← partialArr_set [] hl (by omega)]
    congr 5
    rw [hout, getD_map_range_lt _ _ hj]
    apply ext_getD 0
    · simp [hfl]
    · intro i hi
      have hi' : i < nfft / 2 + 1 := by simpa [hfl] using hi
      rw [getD_zipWith_lt _ _ _ 0 0 0 (by omega) (by rw [List.length_zipWith, List.length_replicate]; omega),
        getD_zipWith_lt _ _ _ 0 0 0 (by omega) (by simp; omega), getD_map_lt _ _ 0 _ (by omega),
        List.getD_eq_getElem (List.replicate _ _) _ (by simpa using hi'), List.getElem_replicate]
      rfl

/-- **C121** (row reversal in `inverse_mel_filter_banks`): here the bank that the loop is given is overwritten - it is the
one the caller has just computed - and nothing else. -/
theorem C121_reverse {h : Heap} {b : ℕ} {B : XMat} (hb : h[b]? = some B) :
    reverseRowsP b h = .ok (h.length, h.set b (B.map List.reverse) ++ [absMat (B.map List.reverse)]) := by
  have hbl : b < h.length := by
    by_contra hc
    rw [List.getElem?_eq_none (by omega)] at hb
    cases hb
  have hl : (B.map List.reverse).length = B.length := by simp
  unfold reverseRowsP
  rw [bind_run, load_run hb, ok_bind, bind_run]
  beta_reduce
  have hget : ∀ x : XMat, (h.set b x)[b]? = some x := by
    intro x
    rw [List.getElem?_set_self hbl]
  have key := loop_ok' (body := fun (i : ℕ) => do
      let pts ← getRow b i
      setRow b i pts.reverse) (fun i => h.set b (partialArr (B.map List.reverse) B i)) B.length ?_
  · beta_reduce at key
    have h0 : h.set b (partialArr (B.map List.reverse) B 0) = h := by
      rw [partialArr_zero]
      apply List.ext_getElem?
      intro i
      rw [List.getElem?_set]
      split_ifs with h1
      · rw [← h1, hb]
      · rfl
    have h1 : partialArr (B.map List.reverse) B B.length = B.map List.reverse := by
      have := partialArr_full hl
      rw [hl] at this
      exact this
    rw [h0, h1] at key
    rw [key, ok_bind, bind_run, load_run (hget _), ok_bind, alloc_run, List.length_set]
  · intro i hi
    rw [bind_run, getRow_run (hget _) (by rw [partialArr_length hl (by omega)]; omega), ok_bind]
    beta_reduce
    have hold : (partialArr (B.map List.reverse) B i).getD i [] = B.getD i [] := by
      rw [partialArr_getD [] hl (by omega), if_neg (lt_irrefl i)]
    rw [hold, setRow_run (hget _) (by rw [partialArr_length hl (by omega)]; omega) (by rw [hold, List.length_reverse]),
      List.set_set]
    have : (B.getD i []).reverse = (B.map List.reverse).getD i [] := by rw [getD_map_lt _ _ [] _ hi]
    rw [this, partialArr_set [] hl (by omega)]

/-- Running one program of this kind after another: all that the second sees of the first is its new array. -/
theorem computes_bind {h : Heap} {p : Prog ℕ} {k : ℕ → Prog ℕ} {x : Py XMat} {y : XMat → Py XMat}
    (hp : Computes p h x)
    (hk : ∀ v r t, x = .ok v → h.length ≤ r → (h ++ t)[r]? = some v → Computes (k r) (h ++ t) (y v)) :
    Computes (p >>= k) h (x >>= y) := by
  cases x with
  | error e =>
    have hp : p h = .error e := hp
    show (p >>= k) h = _
    rw [bind_run, hp, error_bind]
  | ok v =>
    obtain ⟨r, t, h1, h2, h3⟩ := hp
    have := hk v r t rfl h2 h3
    rw [ok_bind]
    cases hy : y v with
    | error e =>
      rw [hy] at this
      have this : k r (h ++ t) = .error e := this
      show (p >>= k) h = _
      rw [bind_run, h1, ok_bind, this]
    | ok w =>
      rw [hy] at this
      obtain ⟨r', t', g1, g2, g3⟩ := this
      refine ⟨r', t ++ t', ?_, by rw [List.length_append] at g2; omega, by rw [← List.append_assoc]; exact g3⟩
      rw [bind_run, h1, ok_bind, g1, List.append_assoc]

theorem computes_load {h : Heap} {r : ℕ} {x : XMat} (hx : h[r]? = some x) {k : XMat → Prog ℕ} {res : Py XMat}
    (hk : Computes (k x) h res) : Computes (load r >>= k) h res := by
  cases res with
  | error e =>
    have hk : k x h = .error e := hk
    show (load r >>= k) h = _
    rw [bind_run, load_run hx, ok_bind, hk]
  | ok w =>
    obtain ⟨r', t', g1, g2, g3⟩ := hk
    exact ⟨r', t', by rw [bind_run, load_run hx, ok_bind, g1], g2, g3⟩

theorem computes_alloc (h : Heap) (x : XMat) : Computes (alloc x) h (.ok x) :=
  ⟨h.length, [x], alloc_run _ _, le_rfl, new_get _ _ _⟩

/-- **C121** (`asymmetric_noise_suppression_with_temporal_masking`). -/
theorem C121_noise_suppression {h : Heap} {q : ℕ} {Q : XMat} {c : ℕ} (hq : h[q]? = some Q) (hQ : Np.Rect Q c)
    (threshold : ℝ) : Computes (noiseSuppressionP q threshold) h (noiseSuppression Q threshold) := by
  unfold noiseSuppressionP noiseSuppression
  refine computes_bind (C121_asymmetric hq hQ _ _) fun le r t hle hr hget => ?_
  obtain ⟨hll, hlc⟩ := asym_shape hQ hle
  refine computes_load (old_get hq t) (computes_load hget ?_)
  have hsub : Np.Rect (mapMat2 (fun q e => q - e) Q le) c := mapMat2_rect _ hQ hlc
  refine computes_bind (x := .ok _) (y := fun sub => _) (computes_alloc _ _) fun sub r1 t1 hs _ hget1 => ?_
  refine computes_load hget1 ?_
  injection hs with hs
  subst hs
  refine computes_bind (x := .ok _) (y := fun q0 => _) (computes_alloc _ _) fun q0 r2 t2 hq0 _ hget2 => ?_
  injection hq0 with hq0
  have hq0c : Np.Rect q0 c := hq0 ▸ rect_map hsub _
  subst hq0
  refine computes_bind (C121_asymmetric hget2 hq0c _ _) fun f r3 t3 _ _ hget3 => ?_
  refine computes_bind (C121_masking (old_get hget2 t3) hq0c _ _) fun tm r4 t4 _ _ hget4 => ?_
  refine computes_load (old_get (old_get (old_get (old_get (old_get hq t) t1) t2) t3) t4) ?_
  refine computes_load (old_get (old_get (old_get (old_get hget t1) t2) t3) t4) ?_
  refine computes_load hget4 (computes_load (old_get hget3 t4) (computes_alloc _ _))

/-- **C121** (the medium-time processing of `pncc`): the composition of all of these. -/
theorem C121_pncc {h : Heap} {p : ℕ} {P : XMat} {c : ℕ} (hp : h[p]? = some P) (hP : Np.Rect P c) (nfilts : ℕ) :
    Computes (pnccNonlinP p nfilts) h (pnccNonlin nfilts P) := by
  unfold pnccNonlinP pnccNonlin
  refine computes_load hp ?_
  refine computes_bind (x := .ok _) (y := fun q => _) (computes_alloc _ _) fun Q r1 t1 hQ _ hget1 => ?_
  injection hQ with hQ
  subst hQ
  have hQc : Np.Rect (mediumTimePower P) c := by
    by_cases h0 : P = []
    · subst h0
      intro r hr
      simp [mediumTimePower] at hr
    · exact (medium_shape hP h0).2
  refine computes_bind (C121_noise_suppression hget1 hQc _) fun R r2 t2 hR _ hget2 => ?_
  obtain ⟨hRl, hRc⟩ := noise_shape hQc hR
  refine computes_bind (C121_smoothing hget2 (old_get hget1 t2) hRc hQc hRl _ _) fun S r3 t3 _ _ hget3 => ?_
  refine computes_load (old_get (old_get (old_get hp t1) t2) t3) (computes_load hget3 ?_)
  refine computes_bind (x := .ok _) (y := fun T => _) (computes_alloc _ _) fun T r4 t4 hT _ hget4 => ?_
  injection hT with hT
  subst hT
  refine computes_bind (C121_mean_power hget4 _ _ _) fun U r5 t5 _ _ hget5 => ?_
  exact computes_load hget5 (computes_alloc _ _)

/-- **C121** (nothing else changes): after such a program every array that existed has the value it had, and the result is
a new array. In particular the caller's arrays are never written to. -/
theorem C121_unchanged {p : Prog ℕ} {h h' : Heap} {res : Py XMat} {r : ℕ} (hp : Computes p h res)
    (hr : p h = .ok (r, h')) :
    (∀ i < h.length, h'[i]? = h[i]?) ∧ h.length ≤ r ∧ ∃ x, res = .ok x ∧ h'[r]? = some x := by
  cases res with
  | error e =>
    have hp : p h = .error e := hp
    rw [hp] at hr
    cases hr
  | ok x =>
    obtain ⟨r', t, h1, h2, h3⟩ := hp
    rw [hr] at h1
    injection h1 with h1
    injection h1 with h4 h5
    subst h4 h5
    exact ⟨fun i hi => List.getElem?_append_left hi, h2, x, rfl, h3⟩

/-! Concrete stores. -/

/-- One row: the first round of the loop reads, at index `-1`, the row that line 84 has just set to `0.9`. -/
example : ∃ r t, asymLowpassP 0 0.999 0.5 [[[fin 1]]] = .ok (r, [[[fin 1]]] ++ t) ∧ 1 ≤ r ∧
    ([[[fin 1]]] ++ t : Heap)[r]? = some [[fin 0.9001]] := by
  have h := C121_asymmetric (h := [[[fin 1]]]) (q := 0) (Q := [[fin 1]]) (c := 1) rfl (by intro r hr; simp at hr; simp [hr])
    0.999 0.5
  have e : asymmetricLowpass [[fin (1 : ℝ)]] 0.999 0.5 = .ok [[fin 0.9001]] := by
    have : leb (fin ((0.9 : ℝ) * 1)) (fin 1) = true := by simp [leb]; norm_num
    simp [asymmetricLowpass, asymInit, scanRows, asymStep, this]
    norm_num
  rw [e] at h
  exact h

/-- A bank of two filters is reversed in place; the array beside it is not touched. -/
example : reverseRowsP 1 [[[fin 7]], [[fin 1, fin 2], [fin (-3), fin 4]]] =
    .ok (2, [[[fin 7]], [[fin 2, fin 1], [fin 4, fin (-3)]], [[fin 2, fin 1], [fin 4, fin 3]]]) := by
  rw [C121_reverse (B := [[fin 1, fin 2], [fin (-3), fin 4]]) rfl]
  simp [absMat, XF.abs]

/-- An empty matrix: `IndexError`. -/
example : asymLowpassP 0 0.999 0.5 [[]] = .error .indexError := by
  have h := C121_asymmetric (h := [[]]) (q := 0) (Q := []) (c := 0) rfl (by intro r hr; cases hr) 0.999 0.5
  exact h

end Props
end Spafe
