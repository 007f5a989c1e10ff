import Verif.Model.MelFbanks
import Verif.Spec.Fbanks
import Verif.Lemmas.Converters
import Verif.Lemmas.Mat

/-! Helper lemmas for `mel_fbanks.py`, `linear_fbanks.py`. -/

set_option linter.unusedSectionVars false

namespace Spafe
open XF Spec Model

/-! ### exceptions other than `ParameterError` -/

/-- The computation does not raise `ParameterError`. -/
def NoParam {β : Type} (x : Py β) : Prop := ∀ m, x ≠ .error (.parameterError m)

theorem NoParam.ok {β : Type} (a : β) : NoParam (.ok a : Py β) := fun _ h => by cases h
theorem NoParam.err {β : Type} (e : Err) (h : ∀ m, e ≠ .parameterError m) : NoParam (.error e : Py β) :=
  fun m h' => by cases h'; exact h m rfl
theorem NoParam.bind {β γ : Type} {x : Py β} {f : β → Py γ} (hx : NoParam x) (hf : ∀ a, NoParam (f a)) :
    NoParam (x >>= f) := by
  intro m h
  cases x with
  | error e => rw [error_bind] at h; injection h with h; exact hx m (by rw [h])
  | ok a => rw [ok_bind] at h; exact hf a m h
theorem NoParam.mapM {β γ : Type} (f : β → Py γ) (hf : ∀ a, NoParam (f a)) (l : List β) : NoParam (l.mapM f) := by
  induction l with
  | nil => exact NoParam.ok _
  | cons a l ih =>
    rw [List.mapM_cons]
    exact (hf a).bind fun b => ih.bind fun c => NoParam.ok _

theorem noParam_hz2mel (f : XF ℝ) (ap : String) : NoParam (hz2mel f ap) := by
  unfold hz2mel; split_ifs
  · exact NoParam.ok _
  · exact NoParam.ok _
  · exact NoParam.err _ (by simp)
theorem noParam_mel2hz (f : XF ℝ) (ap : String) : NoParam (mel2hz f ap) := by
  unfold mel2hz; split_ifs
  · exact NoParam.ok _
  · exact NoParam.ok _
  · exact NoParam.err _ (by simp)
theorem noParam_scale (s : String) (n : ℕ) : NoParam (scaleFbank s n : Py (List ℝ)) := by
  unfold scaleFbank; split_ifs
  · exact NoParam.ok _
  · exact NoParam.ok _
  · exact NoParam.ok _
  · exact NoParam.err _ (by simp)

/-! ### effective high frequency -/

theorem effHigh_eq {fs h : ℝ} {hf : Option ℝ} (e : EffHigh fs hf h) : effHigh hf fs = h := by
  cases e with
  | none => rfl
  | zero => simp [effHigh]
  | given h h0 => simp [effHigh, h0]

theorem effHigh_spec (hf : Option ℝ) (fs : ℝ) : EffHigh fs hf (effHigh hf fs) := by
  cases hf with
  | none => exact .none
  | some h =>
    by_cases h0 : h = 0
    · subst h0; simp only [effHigh, if_true]; exact .zero
    · simp only [effHigh, if_neg h0]; exact .given h h0

/-! ### scales -/

theorem scale_ok {s : String} {w : ℕ → ℕ → ℝ} (h : Scale s w) (n : ℕ) :
    (scaleFbank s n : Py (List ℝ)) = .ok ((List.range n).map fun (j : ℕ) => w n j) := by
  cases h with
  | ascendant => simp [scaleFbank]
  | descendant => simp [scaleFbank]
  | constant => simp [scaleFbank]

theorem scale_range {s : String} {w : ℕ → ℕ → ℝ} (h : Scale s w) {n j : ℕ} (hj : j < n) :
    0 < w n j ∧ w n j ≤ 1 := by
  have hn : (0:ℝ) < n := by exact_mod_cast (by omega : 0 < n)
  have h1 : (j:ℝ) + 1 ≤ n := by exact_mod_cast hj
  cases h with
  | ascendant =>
    exact ⟨by positivity, by rw [div_le_one hn]; exact h1⟩
  | descendant =>
    exact ⟨div_pos (by linarith) hn, by rw [div_le_one hn]; linarith [(Nat.cast_nonneg j : (0:ℝ) ≤ j)]⟩
  | constant => exact ⟨one_pos, le_refl _⟩

theorem inverseScale_ok {s t : String} (h : SwapScale s t) : inverseScale s = .ok t := by
  cases h <;> simp [inverseScale]

theorem swap_scale {s t : String} (h : SwapScale s t) : ∃ w, Scale t w := by
  cases h
  · exact ⟨_, .descendant⟩
  · exact ⟨_, .ascendant⟩
  · exact ⟨_, .constant⟩

/-! ### mel formulas -/

theorem melConst_pos {s : String} {a b : ℝ} (h : MelConst s a b) : 0 < a ∧ 0 < b := by
  cases h <;> norm_num

theorem hz2mel_eq {s : String} {a b f : ℝ} (h : MelConst s a b) (hf : -b < f) :
    hz2mel (fin f) s = .ok (fin (mel a b f)) := by
  cases h
  · exact hz2mel_fin_osh hf
  · exact hz2mel_fin_lin hf

theorem mel2hz_eq {s : String} {a b : ℝ} (h : MelConst s a b) (m : ℝ) :
    mel2hz (fin m) s = .ok (fin (melInv a b m)) := by
  cases h
  · exact mel2hz_fin_osh m
  · exact mel2hz_fin_lin m

theorem melInv_mel {a b f : ℝ} (ha : 0 < a) (hb : 0 < b) (hf : -b < f) : melInv a b (mel a b f) = f := by
  have h1 : 0 < 1 + f / b := by
    have : -1 < f / b := by rw [lt_div_iff₀ hb]; linarith
    linarith
  unfold melInv mel
  rw [mul_div_assoc, mul_comm a, div_mul_cancel₀ _ ha.ne', Real.rpow_logb (by norm_num) (by norm_num) h1]
  field_simp; ring

theorem mel_melInv {a b m : ℝ} (ha : 0 < a) (hb : 0 < b) : mel a b (melInv a b m) = m := by
  unfold melInv mel
  have : 1 + b * ((10:ℝ) ^ (m / a) - 1) / b = (10:ℝ) ^ (m / a) := by field_simp; ring
  rw [this]; exact logb_rpow_div ha.ne'

theorem melInv_strictMono {a b : ℝ} (ha : 0 < a) (hb : 0 < b) : StrictMono (melInv a b) := by
  intro x y h
  unfold melInv
  have : (10:ℝ) ^ (x / a) < (10:ℝ) ^ (y / a) :=
    Real.rpow_lt_rpow_of_exponent_lt (by norm_num) (div_lt_div_of_pos_right h ha)
  nlinarith

theorem mel_strictMono {a b x y : ℝ} (ha : 0 < a) (hb : 0 < b) (hx : -b < x) (h : x < y) :
    mel a b x < mel a b y := by
  by_contra hc
  push Not at hc
  have := (melInv_strictMono ha hb).monotone hc
  rw [melInv_mel ha hb hx, melInv_mel ha hb (hx.trans h)] at this
  linarith

/-! ### points -/

theorem linPoint_strictMono {low high : ℝ} (h : low < high) (n : ℕ) : StrictMono (linPoint low high n) := by
  intro i j hij
  unfold linPoint
  have hn : (0:ℝ) < n + 1 := by positivity
  have : (i:ℝ) < j := by exact_mod_cast hij
  have h2 : (i:ℝ) * (high - low) / (n + 1) < j * (high - low) / (n + 1) :=
    div_lt_div_of_pos_right (mul_lt_mul_of_pos_right this (by linarith)) hn
  linarith

theorem linPoint_zero (low high : ℝ) (n : ℕ) : linPoint low high n 0 = low := by simp [linPoint]
theorem linPoint_last (low high : ℝ) (n : ℕ) : linPoint low high n (n + 1) = high := by
  unfold linPoint
  have hn : ((n:ℝ) + 1) ≠ 0 := by positivity
  push_cast; field_simp; ring

theorem melPoint_strictMono {a b low high : ℝ} (ha : 0 < a) (hb : 0 < b) (hl : -b < low) (h : low < high) (n : ℕ) :
    StrictMono (melPoint a b low high n) := fun _ _ hij =>
  melInv_strictMono ha hb (linPoint_strictMono (mel_strictMono ha hb hl h) n hij)

theorem melPoint_zero {a b low high : ℝ} (ha : 0 < a) (hb : 0 < b) (hl : -b < low) (n : ℕ) :
    melPoint a b low high n 0 = low := by
  unfold melPoint; rw [linPoint_zero, melInv_mel ha hb hl]
theorem melPoint_last {a b low high : ℝ} (ha : 0 < a) (hb : 0 < b) (hl : -b < high) (n : ℕ) :
    melPoint a b low high n (n + 1) = high := by
  unfold melPoint; rw [linPoint_last, melInv_mel ha hb hl]

theorem scalePoints_eq {low high : ℝ} (h : low ≤ high) (n : ℕ) :
    scalePoints (fin low) (fin high) n = (List.range (n + 2)).map fun (j : ℕ) => fin (linPoint low high n j) := by
  have hn : ((n:ℝ) + 1) ≠ 0 := by positivity
  unfold scalePoints
  apply List.map_congr_left
  intro j _
  simp only [fin_sub, abs_fin, fin_div _ _ hn, fin_mul, fin_add, abs_of_nonneg (sub_nonneg.mpr h), linPoint]
  congr 1; ring

/-! ### triangles -/

theorem melEntry_eq {l c u : ℝ} (h1 : l < c) (h2 : c < u) (f : ℝ) :
    melEntry (fin l) (fin c) (fin u) (fin f) = fin (tri l c u f) := by
  have d1 : c - l ≠ 0 := by linarith
  have d2 : u - c ≠ 0 := by linarith
  have p1 : 0 < c - l := by linarith
  have p2 : 0 < u - c := by linarith
  unfold melEntry tri
  simp only [leb_fin, fin_sub, fin_div _ _ d1, fin_div _ _ d2]
  rcases lt_or_ge f l with hl | hl
  · have e1 : ¬ l ≤ f := by linarith
    have e2 : f ≤ c := by linarith
    have e3 : ¬ c ≤ f := by linarith
    have e4 : f ≤ u := by linarith
    simp only [e1, e2, e3, e4, decide_true, decide_false]
    have : (f - l) / (c - l) ≤ 0 := div_nonpos_of_nonpos_of_nonneg (by linarith) p1.le
    simp [max_eq_left (le_trans (min_le_left _ _) this)]
  rcases lt_or_ge f c with hc | hc
  · have e2 : f ≤ c := hc.le
    have e3 : ¬ c ≤ f := by linarith
    have e4 : f ≤ u := by linarith
    simp only [hl, e2, e3, e4, decide_true, decide_false]
    have q1 : 0 ≤ (f - l) / (c - l) := div_nonneg (by linarith) p1.le
    have q2 : (f - l) / (c - l) ≤ 1 := by rw [div_le_one p1]; linarith
    have q3 : 1 ≤ (u - f) / (u - c) := by rw [le_div_iff₀ p2]; linarith
    simp [min_eq_left (q2.trans q3), max_eq_right q1]
  rcases le_or_gt f u with hu | hu
  · simp only [hc, hu, decide_true]
    have q1 : 0 ≤ (u - f) / (u - c) := div_nonneg (by linarith) p2.le
    have q2 : (u - f) / (u - c) ≤ 1 := by rw [div_le_one p2]; linarith
    have q3 : 1 ≤ (f - l) / (c - l) := by rw [le_div_iff₀ p1]; linarith
    simp [min_eq_right (q2.trans q3), max_eq_right q1]
  · have e2 : ¬ f ≤ c := by linarith
    have e4 : ¬ f ≤ u := by linarith
    simp only [hl, e2, hc, e4, decide_true, decide_false]
    have : (u - f) / (u - c) ≤ 0 := div_nonpos_of_nonpos_of_nonneg (by linarith) p2.le
    simp [max_eq_left (le_trans (min_le_right _ _) this)]

theorem tri_nonneg (l c u f : ℝ) : 0 ≤ tri l c u f := le_max_left _ _
theorem tri_le_one {l c u : ℝ} (h1 : l < c) (h2 : c < u) (f : ℝ) : tri l c u f ≤ 1 := by
  unfold tri
  apply max_le zero_le_one
  rcases le_or_gt f c with h | h
  · exact (min_le_left _ _).trans (by rw [div_le_one (by linarith)]; linarith)
  · exact (min_le_right _ _).trans (by rw [div_le_one (by linarith)]; linarith)
theorem tri_apex {l c u : ℝ} (h1 : l < c) (h2 : c < u) : tri l c u c = 1 := by
  unfold tri
  rw [div_self (by linarith), div_self (by linarith)]; simp
theorem tri_outside {l c u f : ℝ} (h1 : l < c) (h2 : c < u) (h : f ≤ l ∨ u ≤ f) : tri l c u f = 0 := by
  unfold tri
  apply max_eq_left
  rcases h with h | h
  · exact (min_le_left _ _).trans (div_nonpos_of_nonpos_of_nonneg (by linarith) (by linarith))
  · exact (min_le_right _ _).trans (div_nonpos_of_nonpos_of_nonneg (by linarith) (by linarith))
theorem tri_pos {l c u f : ℝ} (h1 : l < f) (h2 : f < u) (h3 : l < c) (h4 : c < u) : 0 < tri l c u f :=
  lt_max_of_lt_right (lt_min (div_pos (by linarith) (by linarith)) (div_pos (by linarith) (by linarith)))

/-- A ramp from 0 at `p` to 1 at `q`. -/
noncomputable def ramp (p q f : ℝ) : ℝ := max 0 (min 1 ((f - p) / (q - p)))

theorem tri_eq_ramp_sub {l c u : ℝ} (h1 : l < c) (h2 : c < u) (f : ℝ) :
    tri l c u f = ramp l c f - ramp c u f := by
  have p1 : 0 < c - l := by linarith
  have p2 : 0 < u - c := by linarith
  unfold ramp
  rcases le_or_gt f l with hl | hl
  · rw [tri_outside h1 h2 (.inl hl), max_eq_left, max_eq_left, sub_zero]
    · exact (min_le_right _ _).trans (div_nonpos_of_nonpos_of_nonneg (by linarith) p2.le)
    · exact (min_le_right _ _).trans (div_nonpos_of_nonpos_of_nonneg (by linarith) p1.le)
  rcases le_or_gt f c with hc | hc
  · have q1 : 0 ≤ (f - l) / (c - l) := div_nonneg (by linarith) p1.le
    have q2 : (f - l) / (c - l) ≤ 1 := by rw [div_le_one p1]; linarith
    have q3 : 1 ≤ (u - f) / (u - c) := by rw [le_div_iff₀ p2]; linarith
    have q4 : (f - c) / (u - c) ≤ 0 := div_nonpos_of_nonpos_of_nonneg (by linarith) p2.le
    rw [min_eq_right q2, max_eq_right q1, max_eq_left ((min_le_right _ _).trans q4), sub_zero]
    unfold tri
    rw [min_eq_left (q2.trans q3), max_eq_right q1]
  rcases le_or_gt u f with hu | hu
  · rw [tri_outside h1 h2 (.inr hu), min_eq_left, min_eq_left]
    · simp
    · rw [le_div_iff₀ p2]; linarith
    · rw [le_div_iff₀ p1]; linarith
  · have q1 : 1 ≤ (f - l) / (c - l) := by rw [le_div_iff₀ p1]; linarith
    have q2 : 0 ≤ (f - c) / (u - c) := div_nonneg (by linarith) p2.le
    have q3 : (f - c) / (u - c) ≤ 1 := by rw [div_le_one p2]; linarith
    have q4 : 0 ≤ (u - f) / (u - c) := div_nonneg (by linarith) p2.le
    have q5 : (u - f) / (u - c) ≤ 1 := by rw [div_le_one p2]; linarith
    rw [min_eq_left q1, min_eq_right q3, max_eq_right zero_le_one, max_eq_right q2]
    unfold tri
    rw [min_eq_right (q5.trans q1), max_eq_right q4]
    field_simp; ring

/-- Consecutive triangles sum to one between the first and the last apex. -/
theorem tri_partition {p : ℕ → ℝ} (hp : StrictMono p) (n : ℕ) {f : ℝ} (h1 : p 1 ≤ f) (h2 : f ≤ p n) :
    ∑ j ∈ Finset.range n, tri (p j) (p (j + 1)) (p (j + 2)) f = 1 := by
  have : ∀ j, tri (p j) (p (j + 1)) (p (j + 2)) f = ramp (p j) (p (j + 1)) f - ramp (p (j + 1)) (p (j + 2)) f :=
    fun j => tri_eq_ramp_sub (hp (by omega)) (hp (by omega)) f
  simp only [this]
  rw [Finset.sum_range_sub' (fun j => ramp (p j) (p (j + 1)) f)]
  have r0 : ramp (p 0) (p (0 + 1)) f = 1 := by
    have : p 0 < p 1 := hp (by omega)
    unfold ramp
    rw [min_eq_left, max_eq_right zero_le_one]
    rw [le_div_iff₀ (by simpa using this)]; simpa using h1
  have rn : ramp (p n) (p (n + 1)) f = 0 := by
    have : p n < p (n + 1) := hp (by omega)
    unfold ramp
    apply max_eq_left
    exact (min_le_right _ _).trans (div_nonpos_of_nonpos_of_nonneg (by linarith) (by linarith))
  rw [r0, rn, sub_zero]

/-! ### columns -/

theorem melFreqs_eq (nfft : ℕ) (low high : ℝ) :
    melFreqs nfft low high = (List.range (nfft / 2 + 1)).map fun (k : ℕ) => colFreq low high nfft k := by
  unfold melFreqs Np.linspace colFreq
  by_cases h : nfft / 2 = 0
  · simp [h]
  · rw [if_neg (by omega)]
    apply List.map_congr_left
    intro k _
    push_cast
    rw [add_sub_cancel_right, mul_div_assoc]

/-- The bank for a strictly increasing sequence of edges. -/
theorem melBank_eq {p : ℕ → ℝ} (hp : StrictMono p) {n nfft : ℕ} (low high : ℝ) (w : ℕ → ℝ) :
    melBank ((List.range (n + 2)).map fun (j : ℕ) => fin (p j)) n nfft low high ((List.range n).map w) =
      (List.range n).map fun (j : ℕ) => (List.range (nfft / 2 + 1)).map fun (k : ℕ) =>
        fin (w j * tri (p j) (p (j + 1)) (p (j + 2)) (colFreq low high nfft k)) := by
  unfold melBank
  rw [melFreqs_eq]
  apply List.map_congr_left
  intro j hj
  have hj : j < n := by simpa using hj
  rw [List.map_map]
  apply List.map_congr_left
  intro k _
  simp only [Function.comp]
  rw [getD_map_range_lt _ _ (by omega), getD_map_range_lt _ _ (by omega), getD_map_range_lt _ _ (by omega),
    getD_map_range_lt _ _ hj, melEntry_eq (hp (by omega)) (hp (by omega)), fin_mul, mul_comm]

theorem drop_take_points (f : ℕ → XF ℝ) (n : ℕ) :
    (((List.range (n + 2)).map f).drop 1).take n = (List.range n).map fun (j : ℕ) => f (j + 1) := by
  apply ext_getD (0 : XF ℝ)
  · simp
  · intro i hi
    have hi : i < n := by simp at hi; omega
    rw [getD_take_lt _ _ hi, getD_drop', getD_map_range_lt _ _ (by omega), getD_map_range_lt _ _ hi, add_comm]

/-- Closed form of a mel bank. -/
noncomputable def melBankSpec (a b low high : ℝ) (n nfft : ℕ) (w : ℕ → ℕ → ℝ) : XMat :=
  (List.range n).map fun (j : ℕ) => (List.range (nfft / 2 + 1)).map fun (k : ℕ) =>
    fin (w n j * tri (melPoint a b low high n j) (melPoint a b low high n (j + 1))
      (melPoint a b low high n (j + 2)) (colFreq low high nfft k))

theorem mel_helper_eq {scale approach : String} {w : ℕ → ℕ → ℝ} {a b fs low high : ℝ} {hf : Option ℝ}
    (hs : Scale scale w) (hm : MelConst approach a b) (he : EffHigh fs hf high)
    (h0 : 0 ≤ low) (h1 : low < high) (h2 : high ≤ fs / 2) (n nfft : ℕ) :
    melFilterBanksHelper n nfft fs low hf scale "mel" approach =
      .ok (melBankSpec a b low high n nfft w,
        (List.range n).map fun (j : ℕ) => fin (linPoint (mel a b low) (mel a b high) n (j + 1))) := by
  obtain ⟨ha, hb⟩ := melConst_pos hm
  unfold melFilterBanksHelper
  have hl : -b < low := by linarith
  have hml := mel_strictMono ha hb hl h1
  rw [effHigh_eq he, if_neg (by linarith), if_neg (by linarith), if_pos rfl, hz2mel_eq hm hl,
    hz2mel_eq hm (by linarith)]
  simp only [ok_bind]
  rw [scalePoints_eq hml.le, mapM_ok (fun p => mel2hz p approach) (fun p => fin (melInv a b p.toNum)), scale_ok hs]
  · simp only [ok_bind]
    rw [List.map_map, drop_take_points]
    congr 2
    exact melBank_eq (melPoint_strictMono ha hb hl h1 n) low high (w n)
  · intro p hp
    obtain ⟨j, _, rfl⟩ := List.mem_map.mp hp
    rw [mel2hz_eq hm]; rfl

theorem lin_helper_eq {scale : String} (approach : String) {w : ℕ → ℕ → ℝ} {fs low high : ℝ} {hf : Option ℝ}
    (hs : Scale scale w) (he : EffHigh fs hf high)
    (h0 : 0 ≤ low) (h1 : low < high) (h2 : high ≤ fs / 2) (n nfft : ℕ) :
    melFilterBanksHelper n nfft fs low hf scale "lin" approach =
      .ok ((List.range n).map fun (j : ℕ) => (List.range (nfft / 2 + 1)).map fun (k : ℕ) =>
          fin (w n j * tri (linPoint low high n j) (linPoint low high n (j + 1))
            (linPoint low high n (j + 2)) (colFreq low high nfft k)),
        (List.range n).map fun (j : ℕ) => fin (linPoint low high n (j + 1))) := by
  unfold melFilterBanksHelper
  rw [effHigh_eq he, if_neg (by linarith), if_neg (by linarith), if_neg (by simp),
    scalePoints_eq h1.le, scale_ok hs]
  simp only [ok_bind]
  rw [drop_take_points]
  congr 2
  exact melBank_eq (linPoint_strictMono h1 n) low high (w n)

theorem isMatrix_map_range (r c : ℕ) (f : ℕ → ℕ → ℝ) :
    IsMatrix ((List.range r).map fun (j : ℕ) => (List.range c).map fun (k : ℕ) => fin (f j k)) r c f := by
  refine ⟨by simp, ?_, ?_⟩
  · intro row h
    obtain ⟨j, _, rfl⟩ := List.mem_map.mp h
    simp
  · intro i j hi hj
    rw [getD_map_range_lt _ _ hi, getD_map_range_lt _ _ hj]

theorem isVector_map_range (n : ℕ) (f : ℕ → ℝ) :
    IsVector ((List.range n).map fun (j : ℕ) => fin (f j)) n f :=
  ⟨by simp, fun i hi => by rw [getD_map_range_lt _ _ hi]⟩

theorem IsMatrix.eq {m : XMat} {r c : ℕ} {f : ℕ → ℕ → ℝ} (h : IsMatrix m r c f) :
    m = (List.range r).map fun (j : ℕ) => (List.range c).map fun (k : ℕ) => fin (f j k) := by
  obtain ⟨h1, h2, h3⟩ := h
  apply ext_getD []
  · simpa using h1
  · intro i hi
    have hi' : i < r := by omega
    rw [getD_map_range_lt _ _ hi']
    have hl : (m.getD i []).length = c := h2 _ (getD_mem _ hi)
    apply ext_getD (fin 0)
    · simpa using hl
    · intro j hj
      have hj : j < c := by omega
      rw [h3 i j hi' hj, getD_map_range_lt _ _ hj]

end Spafe
