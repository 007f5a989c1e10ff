import Verif.Lemmas.FrontEnd
import Verif.Lemmas.Fourier
import Verif.Spec.Features

/-! Helper lemmas: finiteness of feature rows. -/

set_option linter.unusedSectionVars false

namespace Spafe
open Model XF Spec

/-- A row of finite numbers. -/
def FinRow (r : List (XF ℝ)) : Prop := ∀ v ∈ r, ∃ x : ℝ, v = fin x

theorem finRow_iff (r : List (XF ℝ)) : FinRow r ↔ ∃ r' : List ℝ, r = r'.map fin := by
  constructor
  · intro h
    refine ⟨r.map toNum, ?_⟩
    rw [List.map_map]
    conv_lhs => rw [← List.map_id r]
    apply List.map_congr_left
    intro v hv
    obtain ⟨x, rfl⟩ := h v hv
    rfl
  · rintro ⟨r', rfl⟩ v hv
    obtain ⟨x, -, rfl⟩ := List.mem_map.mp hv
    exact ⟨x, rfl⟩

theorem dctRow_fin (t : ℕ) (r : List ℝ) : Np.dctRow t (r.map fin) =
    ((List.range r.length).map fun (k : ℕ) =>
      ∑ n ∈ Finset.range r.length, Np.dctKernel t r.length k n * r.getD n 0).map fin := by
  unfold Np.dctRow
  rw [List.map_map, List.length_map]
  apply List.map_congr_left
  intro k _
  simp only [Function.comp]
  rw [← XF.sum_fin]
  apply Finset.sum_congr rfl
  intro n hn
  rw [getD_map_lt _ _ 0 _ (Finset.mem_range.mp hn)]; rfl

theorem dctRow_length (t : ℕ) (r : List (XF ℝ)) : (Np.dctRow t r).length = r.length := by simp [Np.dctRow]

theorem FinRow.dct {r : List (XF ℝ)} (h : FinRow r) (t : ℕ) : FinRow (Np.dctRow t r) := by
  obtain ⟨r', rfl⟩ := (finRow_iff r).mp h
  rw [dctRow_fin]; exact (finRow_iff _).mpr ⟨_, rfl⟩

theorem FinRow.take {r : List (XF ℝ)} (h : FinRow r) (n : ℕ) : FinRow (r.take n) :=
  fun v hv => h v (List.mem_of_mem_take hv)

theorem FinRow.set {r : List (XF ℝ)} (h : FinRow r) (i : ℕ) (x : ℝ) : FinRow (r.set i (fin x)) := by
  intro v hv
  rcases List.mem_or_eq_of_mem_set hv with h1 | h1
  · exact h v h1
  · exact ⟨x, h1⟩

theorem FinRow.zipWith_mul {r s : List (XF ℝ)} (hr : FinRow r) (hs : FinRow s) :
    FinRow (List.zipWith (· * ·) r s) := by
  obtain ⟨r', rfl⟩ := (finRow_iff r).mp hr
  obtain ⟨s', rfl⟩ := (finRow_iff s).mp hs
  refine (finRow_iff _).mpr ⟨List.zipWith (· * ·) r' s', ?_⟩
  rw [List.zipWith_map, List.map_zipWith]; rfl

theorem FinRow.dotDiag {r : List (XF ℝ)} (h : FinRow r) (v : List ℝ) : FinRow (dotDiag r v) := by
  obtain ⟨r', rfl⟩ := (finRow_iff r).mp h
  intro u hu
  obtain ⟨j, -, rfl⟩ := List.mem_map.mp hu
  refine ⟨∑ i ∈ Finset.range r'.length, r'.getD i 0 * (if i = j then v.getD i 0 else 0), ?_⟩
  rw [← XF.sum_fin, List.length_map]
  apply Finset.sum_congr rfl
  intro i hi
  rw [getD_map_lt _ _ 0 _ (Finset.mem_range.mp hi), XF.fin_mul]

/-- The lifter values with which liftering keeps numbers finite. -/
def LiftOk (l : Option ℝ) : Prop := ∀ x, l = some x → x ≤ -1 ∨ 0 ≤ x

theorem FinRow.lift {r : List (XF ℝ)} (h : FinRow r) {l : ℝ} (hl : l ≤ -1 ∨ 0 ≤ l) (c : ℕ) :
    FinRow (liftRow l c r) := by
  unfold liftRow
  split_ifs with h1 h2
  · exact h
  · exact h.dotDiag _
  · apply h.zipWith_mul
    intro v hv
    simp only [liftVecNeg] at hv
    obtain ⟨i, -, rfl⟩ := List.mem_map.mp hv
    rw [if_neg]
    · exact ⟨_, rfl⟩
    · push Not at h1
      have hl1 : l ≤ -1 := by
        rcases hl with h3 | h3
        · exact h3
        · exact absurd (le_antisymm (not_lt.mp h2) h3) h1.1
      have h0 : (0:ℝ) ≤ -1 * l := by linarith
      rw [pyInt, if_pos h0]
      have : (1:ℤ) ≤ ⌊-1 * l⌋ := Int.le_floor.mpr (by push_cast; linarith)
      omega

theorem logEnergy_fin (nfft : ℕ) (mag : List ℝ) : ∃ x, logEnergy nfft mag = fin x := by
  unfold logEnergy
  simp only
  have hs : 0 ≤ (mag.map fun v => 1 / (nfft : ℝ) * (|v| * |v|)).sum := by
    apply List.sum_nonneg
    intro x hx
    obtain ⟨v, -, rfl⟩ := List.mem_map.mp hx
    positivity
  generalize (mag.map fun v => 1 / (nfft : ℝ) * (|v| * |v|)).sum = s at *
  rw [XF.log_pos]
  · exact ⟨_, rfl⟩
  · split_ifs with h
    · unfold eps; positivity
    · exact lt_of_le_of_ne hs (Ne.symm h)

theorem FinRow.tail {a : Args} (hl : LiftOk a.lifter) {x : List (XF ℝ)} (h : FinRow x) (N : ℕ) (mag : List ℝ) :
    FinRow (tailRow a N mag x) := by
  unfold tailRow
  have h1 : FinRow (if a.useEnergy then ((Np.dctRow a.dctType x).take a.numCeps).set 0 (logEnergy a.nfft mag)
      else (Np.dctRow a.dctType x).take a.numCeps) := by
    obtain ⟨e, he⟩ := logEnergy_fin a.nfft mag
    split_ifs
    · rw [he]; exact ((h.dct _).take _).set _ _
    · exact (h.dct _).take _
  cases hlf : a.lifter with
  | none => exact h1
  | some l => exact h1.lift (hl l hlf) _

theorem liftRow_length (l : ℝ) (c : ℕ) (r : List (XF ℝ)) (hr : r.length = c) (h : 0 < l → l ≤ 10 → c ≠ 0) :
    (liftRow l c r).length = c := by
  unfold liftRow
  split_ifs with h1 h2
  · exact hr
  · push Not at h1
    have hc := h h2 h1.2
    simp only [dotDiag, List.length_map, List.length_range]
    exact liftVecPos_length l (Nat.pos_of_ne_zero hc)
  · simp [liftVecNeg, hr]

theorem tailRow_length {a : Args} {N : ℕ} (ht : TailOk a N) (mag : List ℝ) (x : List (XF ℝ)) (hx : x.length = N) :
    (tailRow a N mag x).length = min a.numCeps N := by
  unfold tailRow
  have h1 : (if a.useEnergy then ((Np.dctRow a.dctType x).take a.numCeps).set 0 (logEnergy a.nfft mag)
      else (Np.dctRow a.dctType x).take a.numCeps).length = min a.numCeps N := by
    split_ifs <;> simp [dctRow_length, hx]
  cases hlf : a.lifter with
  | none => exact h1
  | some l => exact liftRow_length l _ _ h1 (ht.2.2.2.2.2 l hlf)

/-! ### Filter outputs -/

theorem powRow_nonneg (nfft : ℕ) (w : List ℝ) : ∀ v ∈ powRow nfft w, 0 ≤ v := by
  intro v hv
  obtain ⟨x, -, rfl⟩ := List.mem_map.mp hv
  have := mul_self_nonneg x
  positivity

/-- A row of finite non-negative numbers. -/
def NonnegRow (r : List (XF ℝ)) : Prop := ∀ v ∈ r, ∃ x : ℝ, 0 ≤ x ∧ v = fin x

theorem NonnegRow.finRow {r : List (XF ℝ)} (h : NonnegRow r) : FinRow r := fun v hv => by
  obtain ⟨x, -, hx⟩ := h v hv; exact ⟨x, hx⟩

theorem dot_fin (r s : List ℝ) : Np.dot (r.map fin) (s.map fin) = fin (Np.dot r s) := by
  unfold Np.dot
  rw [List.zipWith_map, ← XF.list_sum_fin, List.map_zipWith]; rfl

theorem dot_nonneg {r s : List ℝ} (hr : ∀ v ∈ r, 0 ≤ v) (hs : ∀ v ∈ s, 0 ≤ v) : 0 ≤ Np.dot r s := by
  unfold Np.dot
  apply List.sum_nonneg
  intro x hx
  rw [List.mem_iff_getElem] at hx
  obtain ⟨i, hi, rfl⟩ := hx
  simp only [List.length_zipWith] at hi
  rw [List.getElem_zipWith]
  exact mul_nonneg (hr _ (List.getElem_mem _)) (hs _ (List.getElem_mem _))

theorem specRow_nonneg {fb : XMat} (h : AllNonneg fb) (nfft : ℕ) (w : List ℝ) : NonnegRow (specRow nfft fb w) := by
  intro v hv
  obtain ⟨f, hf, rfl⟩ := List.mem_map.mp hv
  have hfr : NonnegRow f := h f hf
  obtain ⟨f', rfl⟩ := (finRow_iff f).mp hfr.finRow
  refine ⟨_, dot_nonneg (powRow_nonneg nfft w) ?_, dot_fin _ _⟩
  intro x hx
  obtain ⟨y, hy, he⟩ := hfr (fin x) (List.mem_map.mpr ⟨x, hx, rfl⟩)
  injection he with he; rw [he]; exact hy

theorem logG_nonneg {x : ℝ} (hx : 0 ≤ x) : ∃ y, logG (fin x) = fin y := by
  unfold logG xZeroHandling
  simp only
  rw [XF.log_pos]
  · exact ⟨_, rfl⟩
  · split_ifs with h
    · unfold eps; positivity
    · exact lt_of_le_of_ne hx (Ne.symm h)

theorem logG_pos {x : ℝ} (hx : 0 < x) : logG (fin x) = fin (Real.log x) := by
  unfold logG xZeroHandling
  simp only
  rw [if_neg hx.ne', XF.log_pos hx]

theorem intensity_fin {x : ℝ} (hx : 0 ≤ x) : ∃ y, 0 ≤ y ∧ intensityPowerLaw (fin x) = fin y := by
  unfold intensityPowerLaw
  simp only [XF.fin_mul, XF.fin_add]
  have h3 : 0 ≤ x * x := mul_self_nonneg x
  have h4 : 0 ≤ x * x * x * (x * x * x) := mul_self_nonneg (x * x * x)
  rw [XF.fin_div _ _ (by positivity), XF.pow_nonneg' (by positivity) (by norm_num)]
  exact ⟨_, by positivity, rfl⟩

theorem FinRow.map_nonneg {r : List (XF ℝ)} (h : NonnegRow r) {g : XF ℝ → XF ℝ}
    (hg : ∀ x : ℝ, 0 ≤ x → ∃ y, g (fin x) = fin y) : FinRow (r.map g) := by
  intro v hv
  obtain ⟨u, hu, rfl⟩ := List.mem_map.mp hv
  obtain ⟨x, hx, rfl⟩ := h u hu
  exact hg x hx

/-- A feature with a non-negative bank and a non-linearity that is finite on `[0, ∞)` is finite. -/
theorem featCore_finite {a : Args} (hn : a.normalize = none) (hl : LiftOk a.lifter) {coeff : ℝ} {fb : XMat}
    (hfb : AllNonneg fb) {g : XF ℝ → XF ℝ} (hg : ∀ x : ℝ, 0 ≤ x → ∃ y, g (fin x) = fin y) {sig : List ℝ} {m : XMat}
    (h : featCore a coeff fb g sig = .ok m) : AllFinite m := by
  obtain ⟨W, -, -, -, -, rfl⟩ := (featCore_ok_iff' hn ..).mp h
  intro r hr
  obtain ⟨w, -, rfl⟩ := List.mem_map.mp hr
  exact FinRow.tail hl (FinRow.map_nonneg (specRow_nonneg hfb _ _) hg) _ _

end Spafe
