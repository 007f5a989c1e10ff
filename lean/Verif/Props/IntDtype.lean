import Verif.Model.IntDtype
import Verif.Props.Locality
import Verif.Props.LpMeaning
import Verif.Lemmas.Cqt

/-! C119: integer samples in lpc and lpcc. -/

set_option linter.unusedSectionVars false

namespace Spafe
namespace Props
open Model XF Spec

theorem wrap_eq (t : IntType) (z : ℤ) (h0 : t.lo ≤ z) (h1 : z < t.lo + 2 ^ t.bits) : t.wrap (z : ℝ) = z := by
  unfold IntType.wrap
  rw [Int.floor_intCast, Int.emod_eq_of_lt (by omega) (by omega)]
  congr 1
  ring

theorem wrap_zero (t : IntType) (h0 : t.lo ≤ 0) (h1 : 0 < t.lo + 2 ^ t.bits) (z : ℤ) (h : (2 : ℤ) ^ t.bits ∣ z) :
    t.wrap (z : ℝ) = 0 := by
  unfold IntType.wrap
  rw [Int.floor_intCast]
  have : (z - t.lo) % 2 ^ t.bits = (-t.lo) % 2 ^ t.bits := by
    rw [sub_eq_add_neg, Int.add_emod, Int.emod_eq_zero_of_dvd h, zero_add, Int.emod_emod_of_dvd _ dvd_rfl]
  rw [this, Int.emod_eq_of_lt (by omega) (by omega)]
  simp

/-- A frame of integers. -/
def Integral (x : List ℝ) : Prop := ∃ z : List ℤ, x = z.map fun (v : ℤ) => (v : ℝ)

theorem autoCorr_int (z : List ℤ) (k : ℕ) : autoCorr (z.map fun (v : ℤ) => (v : ℝ)) k =
    ((∑ n ∈ Finset.range z.length, z.getD n 0 * z.getD (n + k) 0 : ℤ) : ℝ) := by
  have hg : ∀ n, (z.map fun (v : ℤ) => (v : ℝ)).getD n 0 = ((z.getD n 0 : ℤ) : ℝ) := by
    intro n
    by_cases hn : n < z.length
    · rw [getD_map_lt _ _ 0 _ hn]
    · rw [List.getD_eq_default _ _ (by simpa using hn), List.getD_eq_default _ _ (by omega)]; simp
  rw [autoCorr_eq, List.length_map]
  push_cast
  apply Finset.sum_congr rfl
  intro n _
  rw [hg, hg]

theorem abs_autoCorr_le (x : List ℝ) (k : ℕ) : |autoCorr x k| ≤ autoCorr x 0 := by
  rw [autoCorr_eq, autoCorr_eq]
  have h1 : ∑ n ∈ Finset.range x.length, x.getD (n + k) 0 ^ 2 ≤ ∑ n ∈ Finset.range x.length, x.getD n 0 ^ 2 := by
    have e : ∑ n ∈ Finset.range x.length, x.getD (n + k) 0 ^ 2 =
        ∑ n ∈ Finset.Ico k (x.length + k), x.getD n 0 ^ 2 := by
      rw [Finset.sum_Ico_eq_sum_range]
      simp only [Nat.add_sub_cancel]
      apply Finset.sum_congr rfl
      intro n _
      rw [add_comm]
    rw [e]
    calc _ ≤ ∑ n ∈ Finset.range (x.length + k), x.getD n 0 ^ 2 :=
          Finset.sum_le_sum_of_subset_of_nonneg (fun n hn => by simp at hn ⊢; omega) fun _ _ _ => sq_nonneg _
      _ = _ := by
        rw [Finset.sum_range_add, add_eq_left]
        apply Finset.sum_eq_zero
        intro n _
        rw [List.getD_eq_default _ _ (by omega)]; simp
  refine (Finset.abs_sum_le_sum_abs _ _).trans ?_
  have h2 : ∀ n ∈ Finset.range x.length, |x.getD n 0 * x.getD (n + k) 0| ≤
      (x.getD n 0 ^ 2 + x.getD (n + k) 0 ^ 2) / 2 := by
    intro n _
    rw [abs_mul]
    nlinarith [sq_nonneg (|x.getD n 0| - |x.getD (n + k) 0|), sq_abs (x.getD n 0), sq_abs (x.getD (n + k) 0)]
  refine (Finset.sum_le_sum h2).trans ?_
  rw [← Finset.sum_div, Finset.sum_add_distrib]
  have e0 : ∑ n ∈ Finset.range x.length, x.getD n 0 * x.getD (n + 0) 0 = ∑ n ∈ Finset.range x.length, x.getD n 0 ^ 2 :=
    Finset.sum_congr rfl fun n _ => by rw [add_zero, sq]
  rw [e0]
  linarith

/-- Entries of `r` computed with integers. -/
theorem rInt_getD (t : IntType) {x : List ℝ} (hx : x ≠ []) (order : ℕ) :
    ((List.range (order + 1)).map fun (i : ℕ) => if i < min (order + 1) x.length then
      (pySlice ((correlateFull x).map t.wrap) ((x.length : ℤ) - 1) ((x.length : ℤ) + order)).getD i 0 else 0) =
    (List.range (order + 1)).map fun (k : ℕ) => if k < x.length then t.wrap (autoCorr x k) else 0 := by
  have hl : 0 < x.length := List.length_pos_iff.mpr hx
  apply List.map_congr_left
  intro k hk
  have hk : k < order + 1 := List.mem_range.mp hk
  have hR := lpcR_getD hx (order := order) (k := k) (by omega)
  by_cases hkx : k < x.length
  · rw [if_pos (by omega), if_pos hkx]
    simp only [lpcR] at hR
    rw [getD_map_range_lt _ _ hk, if_pos (by omega)] at hR
    rw [← hR]
    have : pySlice ((correlateFull x).map t.wrap) ((x.length : ℤ) - 1) ((x.length : ℤ) + order) =
        (pySlice (correlateFull x) ((x.length : ℤ) - 1) ((x.length : ℤ) + order)).map t.wrap := by
      unfold pySlice
      rw [List.length_map, List.map_take, List.map_drop]
    rw [this, getD_map_lt _ _ 0 _ ?_]
    unfold pySlice sliceBound
    rw [List.length_take, List.length_drop, correlateFull_length]
    split_ifs <;> omega
  · rw [if_neg (by omega), if_neg hkx]

/-- Without overflow the integer computation is the exact one. -/
theorem helper_same (t : IntType) {x : List ℝ} (hi : Integral x) (h2 : 2 ≤ x.length) (order : ℕ)
    (hs : t.lo = -2 ^ (t.bits - 1)) (hb : 1 ≤ t.bits) (hq : autoCorr x 0 < 2 ^ (t.bits - 1)) :
    lpcHelperInt t x order = lpcHelper x order := by
  have hx : x ≠ [] := by rintro rfl; simp at h2
  have hpow : (2 : ℤ) ^ t.bits = 2 ^ (t.bits - 1) + 2 ^ (t.bits - 1) := by
    obtain ⟨b, hb'⟩ : ∃ b, t.bits = b + 1 := ⟨t.bits - 1, by omega⟩
    rw [hb', Nat.add_sub_cancel, pow_succ]; ring
  have hw : ∀ k, t.wrap (autoCorr x k) = autoCorr x k ∧ t.wrap (- autoCorr x k) = - autoCorr x k := by
    intro k
    have hb := abs_autoCorr_le x k
    obtain ⟨z, rfl⟩ := hi
    rw [autoCorr_int] at hb hq ⊢
    set q := ∑ n ∈ Finset.range z.length, z.getD n 0 * z.getD (n + k) 0
    set q0 := ∑ n ∈ Finset.range z.length, z.getD n 0 * z.getD (n + 0) 0
    rw [autoCorr_int] at hb
    have h1 : |q| ≤ q0 := by exact_mod_cast hb
    have h2 : q0 < 2 ^ (t.bits - 1) := by exact_mod_cast hq
    have := abs_le.mp h1
    refine ⟨wrap_eq t q (by omega) (by omega), ?_⟩
    have := wrap_eq t (-q) (by omega) (by omega)
    push_cast at this
    exact this
  have hz : t.wrap 0 = 0 := by
    have := wrap_eq t 0 (by rw [hs]; simp) (by rw [hs, hpow]; simp)
    simpa using this
  have hc : (correlateFull x).map t.wrap = correlateFull x := by
    apply ext_getD 0 (by simp)
    intro i hi'
    have hi' : i < 2 * x.length - 1 := by simpa [correlateFull_length] using hi'
    rw [getD_map_lt _ _ 0 _ (by rw [correlateFull_length]; exact hi'), correlateFull_all hx hi']
    exact (hw _).1
  have hrr : ∀ k, t.wrap (-(lpcR x order).getD k 0) = -(lpcR x order).getD k 0 := by
    intro k
    by_cases hk : k ≤ order
    · rw [lpcR_getD hx hk]; exact (hw k).2
    · rw [List.getD_eq_default _ _ (by simp [lpcR]; omega)]; simpa using hz
  simp only [lpcHelperInt, lpcHelper]
  rw [hc]
  have hR : ((List.range (order + 1)).map fun (i : ℕ) => if i < min (order + 1) x.length then
      (pySlice (correlateFull x) ((x.length : ℤ) - 1) ((x.length : ℤ) + order)).getD i 0 else 0) = lpcR x order := rfl
  rw [hR]
  simp only [hrr]
  have : (order = 0 ∨ x.length = 1) ↔ order = 0 := by omega
  simp only [this]

/-- If all samples are divisible by `2 ^ m` and `2 m` is at least the number of bits, all correlations wrap to 0. -/
theorem helper_singular (t : IntType) (z : List ℤ) (h2 : 2 ≤ z.length) (order : ℕ) (ho : 1 ≤ order)
    (h0 : t.lo ≤ 0) (h1 : 0 < t.lo + 2 ^ t.bits) (m : ℕ) (hm : t.bits ≤ 2 * m) (hd : ∀ v ∈ z, (2 : ℤ) ^ m ∣ v) :
    lpcHelperInt t (z.map fun (v : ℤ) => (v : ℝ)) order = .error .linAlgError := by
  have hx : (z.map fun (v : ℤ) => (v : ℝ)) ≠ [] := by
    intro h
    have := congrArg List.length h
    simp at this
    subst this
    simp at h2
  have hdv : ∀ n, (2 : ℤ) ^ m ∣ z.getD n 0 := by
    intro n
    by_cases hn : n < z.length
    · exact hd _ (getD_mem _ hn)
    · rw [List.getD_eq_default _ _ (by omega)]; exact dvd_zero _
  have hw : ∀ k, t.wrap (autoCorr (z.map fun (v : ℤ) => (v : ℝ)) k) = 0 := by
    intro k
    rw [autoCorr_int]
    refine wrap_zero t h0 h1 _ (Finset.dvd_sum fun n _ => ?_)
    refine dvd_trans (pow_dvd_pow 2 hm) ?_
    rw [two_mul, pow_add]
    exact mul_dvd_mul (hdv _) (hdv _)
  simp only [lpcHelperInt]
  rw [if_neg hx, if_neg (by rw [List.length_map]; omega), rInt_getD t hx]
  have hT : toeplitz ((List.range (order + 1)).map fun (k : ℕ) =>
      if k < (z.map fun (v : ℤ) => (v : ℝ)).length then t.wrap (autoCorr (z.map fun (v : ℤ) => (v : ℝ)) k) else 0) order = 0 := by
    ext i j
    simp only [toeplitz, Matrix.of_apply, Matrix.zero_apply, hw, ite_self]
    set n := ((i : ℤ) - (j : ℤ)).natAbs
    by_cases hn : n < order + 1
    · rw [getD_map_range_lt _ _ hn]
    · rw [List.getD_eq_default _ _ (by simp; omega)]
  rw [hT, if_pos]
  haveI : Nonempty (Fin order) := ⟨⟨0, by omega⟩⟩
  exact Matrix.det_zero

/-- The frames of an integer signal without pre-emphasis. -/
theorem intFrames {a : LpcArgs} (hp : a.preEmph = false) {sig : List ℤ} {l s : ℕ}
    (hl : pyInt (a.win.winLen * a.fs) = l) (hs : pyInt (a.win.winHop * a.fs) = s) (hs0 : 0 < s) {F : List (List ℝ)}
    (hF : lpcFrames a (sig.map fun (z : ℤ) => (z : ℝ)) = .ok F) : l ≤ sig.length ∧
    F = (List.range ((sig.length - l) / s + 1)).map fun (i : ℕ) =>
      ((sig.drop (i * s)).take l).map fun (z : ℤ) => (z : ℝ) := by
  obtain ⟨-, l', s', e1, e2, -, h3, -, h4⟩ := ((lpcFrames_ok_iff a _ F (by rw [hs]; exact_mod_cast hs0)).mp hF).2
  have e1 : l' = l := by rw [hl] at e1; exact_mod_cast e1.symm
  have e2 : s' = s := by rw [hs] at e2; exact_mod_cast e2.symm
  subst e1 e2
  rw [List.length_map] at h3 h4
  refine ⟨h3, h4.trans ?_⟩
  apply List.map_congr_left
  intro i _
  rw [LpcArgs.emph, hp, List.map_take, List.map_drop]
  rfl

/-- The energy of the frame of `l` samples starting at sample `t`. -/
def energyAt (sig : List ℤ) (l t : ℕ) : ℤ := ∑ j ∈ Finset.range l, sig.getD (t + j) 0 ^ 2

theorem frame_energy (sig : List ℤ) {l t : ℕ} (h : t + l ≤ sig.length) :
    autoCorr (((sig.drop t).take l).map fun (z : ℤ) => (z : ℝ)) 0 = (energyAt sig l t : ℤ) := by
  rw [autoCorr_int, energyAt]
  have : ((sig.drop t).take l).length = l := by simp; omega
  rw [this]
  congr 1
  apply Finset.sum_congr rfl
  intro n hn
  have hn := Finset.mem_range.mp hn
  rw [add_zero, getD_take_lt _ _ hn, getD_drop', sq]

/-- One row of lpcc from the result of the helper. -/
noncomputable def lpccRow (a : LpcArgs) (q : List ℝ × ℝ) : Py (List (XF ℝ)) := lpc2lpcc q.1 q.2 (a.order - 1 + 1)

/-- Liftering and normalisation in lpcc. -/
noncomputable def lpccTail (a : LpcArgs) (rows : XMat) : Py XMat := do
  let m ← (match a.lifter with
    | none => .ok rows
    | some l => if l = 0 then .ok rows else lifterCeps rows (a.order - 1 + 1) l : Py XMat)
  match a.normalize with
    | none => .ok m
    | some s => if s = "" then .ok m else normalizeCeps m (a.order - 1 + 1) s

/-- C119 (the part that holds): integer samples give the same result as the same numbers stored as floats if there is
pre-emphasis, or if the dtype is signed and every frame (of two samples or more) has energy below `2 ^ (bits - 1)`. -/
theorem C119_same_partial (t : IntType) (hsg : t.lo = -2 ^ (t.bits - 1)) (hb : 1 ≤ t.bits) (a : LpcArgs) (sig : List ℤ)
    (l s : ℕ) (hl : pyInt (a.win.winLen * a.fs) = l) (hs : pyInt (a.win.winHop * a.fs) = s) (hs0 : 0 < s) (h2 : 2 ≤ l)
    (hq : a.preEmph = true ∨ ∀ i < (sig.length - l) / s + 1, energyAt sig l (i * s) < 2 ^ (t.bits - 1)) :
    lpcInt t a sig = lpc a (sig.map fun (z : ℤ) => (z : ℝ)) ∧
    lpccInt t a sig = lpcc a (sig.map fun (z : ℤ) => (z : ℝ)) := by
  cases hp : a.preEmph with
  | true => simp only [lpcInt, lpccInt, hp, if_true, and_self]
  | false =>
    have hq : ∀ i < (sig.length - l) / s + 1, energyAt sig l (i * s) < 2 ^ (t.bits - 1) := by
      rcases hq with h | h
      · rw [hp] at h; cases h
      · exact h
    have e1 : lpcInt t a sig = (lpcFrames a (sig.map fun (z : ℤ) => (z : ℝ)) >>= fun F =>
        F.mapM (fun f => lpcHelperInt t f (a.order - 1)) >>= fun rows => .ok (rows.map Prod.fst, rows.map Prod.snd)) := by
      simp only [lpcInt, hp, Bool.false_eq_true, if_false]
    have e2 : lpccInt t a sig = (lpcFrames a (sig.map fun (z : ℤ) => (z : ℝ)) >>= fun F =>
        F.mapM (fun f => lpcHelperInt t f (a.order - 1) >>= lpccRow a) >>= lpccTail a) := by
      simp only [lpccInt, hp, Bool.false_eq_true, if_false]
      rfl
    have e3 : lpcc a (sig.map fun (z : ℤ) => (z : ℝ)) = (lpcFrames a (sig.map fun (z : ℤ) => (z : ℝ)) >>= fun F =>
        F.mapM (fun f => lpcHelper f (a.order - 1) >>= lpccRow a) >>= lpccTail a) := rfl
    rw [e1, e2, e3, lpc]
    cases hF : lpcFrames a (sig.map fun (z : ℤ) => (z : ℝ)) with
    | error e => simp only [error_bind, and_self]
    | ok F =>
      obtain ⟨hlen, hFe⟩ := intFrames hp hl hs hs0 hF
      have hsame : ∀ f ∈ F, lpcHelperInt t f (a.order - 1) = lpcHelper f (a.order - 1) := by
        intro f hf
        rw [hFe] at hf
        obtain ⟨i, hi, rfl⟩ := List.mem_map.mp hf
        have hi := List.mem_range.mp hi
        have hle : i * s + l ≤ sig.length := by
          have := Nat.div_mul_le_self (sig.length - l) s
          have := Nat.mul_le_mul_right s (Nat.lt_succ_iff.mp hi)
          omega
        refine helper_same t ⟨_, rfl⟩ (by simp; omega) _ hsg hb ?_
        rw [frame_energy sig hle]
        exact_mod_cast hq i hi
      rw [ok_bind, ok_bind, ok_bind, ok_bind, mapM_congr' _ _ F hsame,
        mapM_congr' (fun f => lpcHelperInt t f (a.order - 1) >>= lpccRow a) (fun f => lpcHelper f (a.order - 1) >>= lpccRow a)
          F fun f hf => by rw [hsame f hf]]
      exact ⟨rfl, rfl⟩

/-- C119 (violated): without pre-emphasis a signal whose samples are multiples of `2 ^ m`, `2 m ≥ bits`, always ends in
LinAlgError, though the same numbers as floats have a result unless a frame is silent. -/
theorem C119_multiples (t : IntType) (h0 : t.lo ≤ 0) (h1 : 0 < t.lo + 2 ^ t.bits) (m : ℕ) (hm : t.bits ≤ 2 * m)
    (a : LpcArgs) (hp : a.preEmph = false) (ho : 2 ≤ a.order) (sig : List ℤ) (hd : ∀ z ∈ sig, (2 : ℤ) ^ m ∣ z)
    (l s : ℕ) (hl : pyInt (a.win.winLen * a.fs) = l) (hs : pyInt (a.win.winHop * a.fs) = s) (hs0 : 0 < s) (h2 : 2 ≤ l)
    (F : List (List ℝ)) (hF : lpcFrames a (sig.map fun (z : ℤ) => (z : ℝ)) = .ok F) :
    lpcInt t a sig = .error .linAlgError ∧ lpccInt t a sig = .error .linAlgError ∧
    ((∀ i < (sig.length - l) / s + 1, energyAt sig l (i * s) ≠ 0) →
      ∃ q, lpc a (sig.map fun (z : ℤ) => (z : ℝ)) = .ok q) := by
  obtain ⟨hlen, hFe⟩ := intFrames hp hl hs hs0 hF
  have hin : ∀ i < (sig.length - l) / s + 1, i * s + l ≤ sig.length := by
    intro i hi
    have := Nat.div_mul_le_self (sig.length - l) s
    have := Nat.mul_le_mul_right s (Nat.lt_succ_iff.mp hi)
    omega
  have hsing : ∀ f ∈ F, lpcHelperInt t f (a.order - 1) = .error .linAlgError := by
    intro f hf
    rw [hFe] at hf
    obtain ⟨i, hi, rfl⟩ := List.mem_map.mp hf
    have := hin i (List.mem_range.mp hi)
    exact helper_singular t _ (by simp; omega) _ (by omega) h0 h1 m hm fun v hv =>
      hd v (List.mem_of_mem_drop (List.mem_of_mem_take hv))
  have hne : ∃ f, f ∈ F := by
    rw [hFe]
    exact ⟨_, List.mem_map.mpr ⟨0, by simp, rfl⟩⟩
  obtain ⟨f, hf⟩ := hne
  refine ⟨?_, ?_, ?_⟩
  · simp only [lpcInt, hp, Bool.false_eq_true, if_false, hF, ok_bind]
    rw [mapM_eq_error _ .linAlgError F (fun f hf => .inr (hsing f hf)) ⟨f, hf, hsing f hf⟩]
    rfl
  · simp only [lpccInt, hp, Bool.false_eq_true, if_false, hF, ok_bind]
    rw [mapM_eq_error _ .linAlgError F (fun f hf => .inr (by rw [hsing f hf]; rfl)) ⟨f, hf, by rw [hsing f hf]; rfl⟩]
    rfl
  · intro hE
    refine ((C61_lpc_defined_iff a _ F hF (by rw [hs]; exact_mod_cast hs0) (by rw [hl]; omega) ho).1).mpr ?_
    intro f hf
    by_contra hn
    rw [hFe] at hf
    obtain ⟨i, hi, rfl⟩ := List.mem_map.mp hf
    have hi := List.mem_range.mp hi
    have := frame_energy sig (hin i hi)
    rw [autoCorr_silent hn] at this
    exact hE i hi (by exact_mod_cast this.symm)

/-- One coefficient, computed with unsigned integers. -/
theorem unsigned_helper (t : IntType) (h0 : t.lo = 0) {x : List ℝ} (hi : Integral x) (h2 : 2 ≤ x.length)
    (hr0 : autoCorr x 0 < 2 ^ t.bits) (hr1 : 0 < autoCorr x 1) :
    ∃ e, lpcHelperInt t x 1 = .ok ([1, (2 ^ t.bits - autoCorr x 1) / autoCorr x 0], e) := by
  have hx : x ≠ [] := by rintro rfl; simp at h2
  have hle := abs_autoCorr_le x 1
  rw [abs_of_pos hr1] at hle
  obtain ⟨z, rfl⟩ := hi
  set y := z.map fun (v : ℤ) => (v : ℝ)
  obtain ⟨q0, hq0⟩ : ∃ q : ℤ, autoCorr y 0 = q := ⟨_, autoCorr_int z 0⟩
  obtain ⟨q1, hq1⟩ : ∃ q : ℤ, autoCorr y 1 = q := ⟨_, autoCorr_int z 1⟩
  have g1 : (0 : ℤ) < q1 := by rw [hq1] at hr1; exact_mod_cast hr1
  have g2 : q1 ≤ q0 := by rw [hq0, hq1] at hle; exact_mod_cast hle
  have g3 : q0 < 2 ^ t.bits := by rw [hq0] at hr0; exact_mod_cast hr0
  have w0 : t.wrap (autoCorr y 0) = q0 := by rw [hq0]; exact wrap_eq t _ (by omega) (by omega)
  have w1 : t.wrap (autoCorr y 1) = q1 := by rw [hq1]; exact wrap_eq t _ (by omega) (by omega)
  have w2 : t.wrap (-(q1 : ℝ)) = 2 ^ t.bits - q1 := by
    have : (-(q1 : ℝ)) = ((-q1 : ℤ) : ℝ) := by push_cast; rfl
    unfold IntType.wrap
    rw [this, Int.floor_intCast, h0, sub_zero, zero_add, ← Int.add_emod_right (-q1) (2 ^ t.bits),
      Int.emod_eq_of_lt (by omega) (by omega)]
    push_cast; ring
  simp only [lpcHelperInt]
  rw [if_neg hx, if_neg (c := 1 = 0 ∨ y.length = 1) (by omega), rInt_getD t hx]
  simp only [List.range_succ, List.range_zero, List.nil_append, List.cons_append, List.map_cons, List.map_nil]
  rw [if_pos (c := 0 < y.length) (by omega), if_pos (c := 1 < y.length) (by omega), w0, w1]
  have hq : (q0 : ℝ) ≠ 0 := by
    have : (0 : ℤ) < q0 := by omega
    exact_mod_cast this.ne'
  have hT : toeplitz [(q0 : ℝ), (q1 : ℝ)] 1 = Matrix.of fun _ _ => (q0 : ℝ) := by
    ext i j
    have : i = j := Subsingleton.elim _ _
    subst this
    simp [toeplitz]
  have hdet : (Matrix.of fun (_ _ : Fin 1) => (q0 : ℝ)).det = q0 := by simp
  have hinv : (Matrix.of fun (_ _ : Fin 1) => (q0 : ℝ))⁻¹ = Matrix.of fun _ _ => (q0 : ℝ)⁻¹ := by
    apply Matrix.inv_eq_right_inv
    ext i j
    have : i = j := Subsingleton.elim _ _
    subst this
    simp [Matrix.mul_apply, hq]
  rw [hT, hdet, if_neg hq, hinv]
  have hphi : ((Matrix.of fun (_ _ : Fin 1) => (q0 : ℝ)⁻¹).mulVec fun i => t.wrap (-[(q0 : ℝ), (q1 : ℝ)].getD (i + 1) 0)) =
      fun _ => (2 ^ t.bits - autoCorr y 1) / autoCorr y 0 := by
    funext i
    simp [Matrix.mulVec, dotProduct, w2, hq0, hq1]
    ring
  rw [hphi]
  exact ⟨_, rfl⟩

/-- C119 (violated, unsigned): for unsigned samples and one coefficient every frame without overflow in which
neighbours are positively correlated gets a coefficient that is positive instead of negative. -/
theorem C119_unsigned (t : IntType) (h0 : t.lo = 0) (a : LpcArgs) (hp : a.preEmph = false) (ho : a.order = 2)
    (sig : List ℤ) (l s : ℕ) (hl : pyInt (a.win.winLen * a.fs) = l) (hs : pyInt (a.win.winHop * a.fs) = s) (hs0 : 0 < s)
    (h2 : 2 ≤ l) (A B : List (List ℝ)) (D E : List ℝ) (hA : lpcInt t a sig = .ok (A, D))
    (hB : lpc a (sig.map fun (z : ℤ) => (z : ℝ)) = .ok (B, E)) (i : ℕ) (hi : i < (sig.length - l) / s + 1)
    (hr0 : energyAt sig l (i * s) < 2 ^ t.bits)
    (hr1 : 0 < ∑ j ∈ Finset.range (l - 1), sig.getD (i * s + j) 0 * sig.getD (i * s + j + 1) 0) :
    0 < (A.getD i []).getD 1 0 ∧ (B.getD i []).getD 1 0 < 0 := by
  simp only [lpc] at hB
  obtain ⟨F, hF, hB⟩ := (bind_ok_iff ..).mp hB
  obtain ⟨rb, hrb, hB⟩ := (bind_ok_iff ..).mp hB
  injection hB with hB
  simp only [lpcInt, hp, Bool.false_eq_true, if_false, hF, ok_bind] at hA
  obtain ⟨ra, hra, hA⟩ := (bind_ok_iff ..).mp hA
  injection hA with hA
  injection hA with hA _
  injection hB with hB _
  obtain ⟨hlen, hFe⟩ := intFrames hp hl hs hs0 hF
  have hFl : F.length = (sig.length - l) / s + 1 := by rw [hFe]; simp
  have hle : i * s + l ≤ sig.length := by
    have := Nat.div_mul_le_self (sig.length - l) s
    have := Nat.mul_le_mul_right s (Nat.lt_succ_iff.mp hi)
    omega
  have hfi : F.getD i [] = ((sig.drop (i * s)).take l).map fun (z : ℤ) => (z : ℝ) := by
    rw [hFe, getD_map_range_lt _ _ hi]
  have e0 := frame_energy sig hle
  have hlen' : ((sig.drop (i * s)).take l).length = l := by simp; omega
  have e1 : autoCorr (((sig.drop (i * s)).take l).map fun (z : ℤ) => (z : ℝ)) 1 =
      ((∑ j ∈ Finset.range (l - 1), sig.getD (i * s + j) 0 * sig.getD (i * s + j + 1) 0 : ℤ) : ℝ) := by
    rw [autoCorr_int, hlen']
    congr 1
    obtain ⟨k, rfl⟩ : ∃ k, l = k + 1 := ⟨l - 1, by omega⟩
    rw [Finset.sum_range_succ, Nat.add_sub_cancel, List.getD_eq_default (n := k + 1) _ _ (by rw [hlen']), mul_zero, add_zero]
    apply Finset.sum_congr rfl
    intro j hj
    have hj := Finset.mem_range.mp hj
    rw [getD_take_lt _ _ (by omega), getD_drop', getD_take_lt _ _ (by omega), getD_drop', add_assoc]
  have gA := mapM_getD hra (i := i) (by omega) [] ([], 0)
  have gB := mapM_getD hrb (i := i) (by omega) [] ([], 0)
  beta_reduce at gA gB
  rw [hfi, ho] at gA gB
  set y := ((sig.drop (i * s)).take l).map fun (z : ℤ) => (z : ℝ) with hy
  have r0 : autoCorr y 0 < 2 ^ t.bits := by rw [e0]; exact_mod_cast hr0
  have r1 : 0 < autoCorr y 1 := by rw [e1]; exact_mod_cast hr1
  have rle := abs_autoCorr_le y 1
  rw [abs_of_pos r1] at rle
  have hyl : y.length = l := by rw [hy, List.length_map, hlen']
  obtain ⟨e, he⟩ := unsigned_helper t h0 (x := y) ⟨_, rfl⟩ (by omega) r0 r1
  rw [he] at gA
  injection gA with gA
  have hns : NotSilent y := by
    by_contra hn
    rw [autoCorr_silent hn] at r1
    exact lt_irrefl _ r1
  have q := C59_normal_equations y 1 (rb.getD i ([], 0)).1 (rb.getD i ([], 0)).2 gB
  have q1 := q.2.2 1 le_rfl le_rfl
  rw [Finset.Icc_self, Finset.sum_singleton] at q1
  simp only [Nat.cast_one, sub_self, Int.natAbs_zero] at q1
  have pa : A.getD i [] = (ra.getD i ([], 0)).1 := by
    have := mapM_length _ _ _ hra
    rw [← hA, getD_map_lt _ _ ([], 0) _ (by omega)]
  have pb : B.getD i [] = (rb.getD i ([], 0)).1 := by
    have := mapM_length _ _ _ hrb
    rw [← hB, getD_map_lt _ _ ([], 0) _ (by omega)]
  constructor
  · rw [pa, ← gA]
    show 0 < (2 ^ t.bits - autoCorr y 1) / autoCorr y 0
    apply div_pos <;> linarith
  · rw [pb]
    by_contra hn
    have := mul_nonneg (not_lt.mp hn) (by linarith : 0 ≤ autoCorr y 0)
    linarith

/-! ### 16-bit, 32-bit and 8-bit samples -/

/-- C119: frames whose energy fits into the samples' own type are treated like floats. Missing from the property: louder
frames (`C119_loud`, `C119_violated`). -/
theorem C119_quiet_partial (a : LpcArgs) (sig : List ℤ) (l s : ℕ) (hl : pyInt (a.win.winLen * a.fs) = l)
    (hs : pyInt (a.win.winHop * a.fs) = s) (hs0 : 0 < s) (h2 : 2 ≤ l) :
    ((∀ i < (sig.length - l) / s + 1, energyAt sig l (i * s) < 32768) →
      lpcInt int16 a sig = lpc a (sig.map fun (z : ℤ) => (z : ℝ)) ∧ lpccInt int16 a sig = lpcc a (sig.map fun (z : ℤ) => (z : ℝ))) ∧
    ((∀ i < (sig.length - l) / s + 1, energyAt sig l (i * s) < 2147483648) →
      lpcInt int32 a sig = lpc a (sig.map fun (z : ℤ) => (z : ℝ)) ∧ lpccInt int32 a sig = lpcc a (sig.map fun (z : ℤ) => (z : ℝ))) :=
  ⟨fun h => C119_same_partial int16 (by norm_num [int16]) (by norm_num [int16]) a sig l s hl hs hs0 h2
      (Or.inr fun i hi => (h i hi).trans_le (by norm_num [int16])),
    fun h => C119_same_partial int32 (by norm_num [int32]) (by norm_num [int32]) a sig l s hl hs hs0 h2
      (Or.inr fun i hi => (h i hi).trans_le (by norm_num [int32]))⟩

/-- C119 (violated): all samples divisible by 16 (8 bits), 256 (16 bits) or 65536 (32 bits). -/
theorem C119_loud (a : LpcArgs) (hp : a.preEmph = false) (ho : 2 ≤ a.order) (sig : List ℤ) (l s : ℕ)
    (hl : pyInt (a.win.winLen * a.fs) = l) (hs : pyInt (a.win.winHop * a.fs) = s) (hs0 : 0 < s) (h2 : 2 ≤ l)
    (F : List (List ℝ)) (hF : lpcFrames a (sig.map fun (z : ℤ) => (z : ℝ)) = .ok F) :
    ((∀ z ∈ sig, (16 : ℤ) ∣ z) → lpcInt uint8 a sig = .error .linAlgError ∧ lpccInt uint8 a sig = .error .linAlgError) ∧
    ((∀ z ∈ sig, (256 : ℤ) ∣ z) → lpcInt int16 a sig = .error .linAlgError ∧ lpccInt int16 a sig = .error .linAlgError) ∧
    ((∀ z ∈ sig, (65536 : ℤ) ∣ z) → lpcInt int32 a sig = .error .linAlgError ∧ lpccInt int32 a sig = .error .linAlgError) := by
  refine ⟨fun h => ?_, fun h => ?_, fun h => ?_⟩
  · obtain ⟨h1, h3, -⟩ := C119_multiples uint8 (by norm_num [uint8]) (by norm_num [uint8]) 4 (by norm_num [uint8]) a hp ho sig
      (by norm_num; exact h) l s hl hs hs0 h2 F hF
    exact ⟨h1, h3⟩
  · obtain ⟨h1, h3, -⟩ := C119_multiples int16 (by norm_num [int16]) (by norm_num [int16]) 8 (by norm_num [int16]) a hp ho sig
      (by norm_num; exact h) l s hl hs hs0 h2 F hF
    exact ⟨h1, h3⟩
  · obtain ⟨h1, h3, -⟩ := C119_multiples int32 (by norm_num [int32]) (by norm_num [int32]) 16 (by norm_num [int32]) a hp ho sig
      (by norm_num; exact h) l s hl hs hs0 h2 F hF
    exact ⟨h1, h3⟩

private theorem demo_len : pyInt (lpcDemo.win.winLen * lpcDemo.fs) = (3 : ℕ) ∧ pyInt (lpcDemo.win.winHop * lpcDemo.fs) = (3 : ℕ) := by
  have : pyInt ((3 : ℝ) * 1) = ((3 : ℕ) : ℤ) := by norm_num [pyInt]
  exact ⟨this, this⟩

private theorem demo_frames (sig : List ℤ) (h : sig.length = 3) : ∃ F, lpcFrames lpcDemo (sig.map fun (z : ℤ) => (z : ℝ)) = .ok F := by
  obtain ⟨w, hw, -⟩ := (C14_window_vector "hamming" 3).1 (by simp [WindowName])
  exact ⟨_, (lpcFrames_ok_iff _ _ _ (by rw [demo_len.2]; norm_num)).mpr
    ⟨fun e => by simp [List.map_eq_nil_iff.mp e.2] at h, le_refl _, 3, 3, demo_len.1, demo_len.2, by norm_num, by simp [h], ⟨w, hw⟩, rfl⟩⟩

/-- C119 (violated, witness): the 16-bit signal `[256, 256, 256]`. -/
theorem C119_violated : lpcInt int16 lpcDemo [256, 256, 256] = .error .linAlgError ∧
    ∃ q, lpc lpcDemo ([256, 256, 256].map fun (z : ℤ) => (z : ℝ)) = .ok q := by
  obtain ⟨F, hF⟩ := demo_frames [256, 256, 256] rfl
  obtain ⟨h1, -, h2⟩ := C119_multiples int16 (by norm_num [int16]) (by norm_num [int16]) 8 (by norm_num [int16]) lpcDemo rfl
    (by norm_num [lpcDemo]) [256, 256, 256] (by norm_num) 3 3 demo_len.1 demo_len.2 (by norm_num) (by norm_num) F hF
  refine ⟨h1, h2 fun i hi => ?_⟩
  have : i = 0 := by simpa using hi
  subst this
  norm_num [energyAt, Finset.sum_range_succ]

/-- Quiet 16-bit signals are treated like floats. -/
example : lpcInt int16 lpcDemo [3, -5, 7] = lpc lpcDemo ([3, -5, 7].map fun (z : ℤ) => (z : ℝ)) := by
  refine (C119_same_partial int16 (by norm_num [int16]) (by norm_num [int16]) lpcDemo [3, -5, 7] 3 3 demo_len.1 demo_len.2
    (by norm_num) (by norm_num) (Or.inr fun i hi => ?_)).1
  have : i = 0 := by simpa using hi
  subst this
  norm_num [energyAt, Finset.sum_range_succ, int16]

/-- Three 8-bit samples: a positive coefficient instead of a negative one. -/
example : ∃ A B D E, lpcInt uint8 lpcDemo [3, 5, 7] = .ok (A, D) ∧
    lpc lpcDemo ([3, 5, 7].map fun (z : ℤ) => (z : ℝ)) = .ok (B, E) ∧ 0 < (A.getD 0 []).getD 1 0 ∧ (B.getD 0 []).getD 1 0 < 0 := by
  obtain ⟨F, hF⟩ := demo_frames [3, 5, 7] rfl
  obtain ⟨-, hFe⟩ := intFrames (a := lpcDemo) rfl demo_len.1 demo_len.2 (by norm_num) hF
  have hFe : F = [[3, 5, 7].map fun (z : ℤ) => (z : ℝ)] := by rw [hFe]; norm_num [List.range_succ]
  have r0 : autoCorr ([3, 5, 7].map fun (z : ℤ) => (z : ℝ)) 0 = 83 := by
    rw [autoCorr_int]; norm_num [Finset.sum_range_succ]
  have r1 : autoCorr ([3, 5, 7].map fun (z : ℤ) => (z : ℝ)) 1 = 50 := by
    rw [autoCorr_int]; norm_num [Finset.sum_range_succ]
  obtain ⟨e, he⟩ := unsigned_helper uint8 rfl (x := [3, 5, 7].map fun (z : ℤ) => (z : ℝ)) ⟨_, rfl⟩ (by simp)
    (by rw [r0]; norm_num [uint8]) (by rw [r1]; norm_num)
  have hns : NotSilent ([3, 5, 7].map fun (z : ℤ) => (z : ℝ)) := ⟨3, by simp, by norm_num⟩
  obtain ⟨⟨B, E⟩, hB⟩ := ((C61_lpc_defined_iff lpcDemo _ F hF (by rw [demo_len.2]; norm_num) (by rw [demo_len.1]; norm_num)
    (by norm_num [lpcDemo])).1).mpr (by rw [hFe]; simpa using hns)
  have hA : lpcInt uint8 lpcDemo [3, 5, 7] = .ok ([[1, (2 ^ uint8.bits - autoCorr ([3, 5, 7].map fun (z : ℤ) => (z : ℝ)) 1) /
      autoCorr ([3, 5, 7].map fun (z : ℤ) => (z : ℝ)) 0]], [e]) := by
    have hp : lpcDemo.preEmph = false := rfl
    have ho : lpcDemo.order - 1 = 1 := rfl
    simp only [lpcInt, hp, Bool.false_eq_true, if_false, hF, ok_bind, hFe, ho]
    rw [List.mapM_cons, he, ok_bind, List.mapM_nil]
    rfl
  obtain ⟨p1, p2⟩ := C119_unsigned uint8 rfl lpcDemo rfl rfl [3, 5, 7] 3 3 demo_len.1 demo_len.2 (by norm_num) (by norm_num)
    _ _ _ _ hA hB 0 (by norm_num) (by norm_num [energyAt, Finset.sum_range_succ, uint8])
    (by norm_num [Finset.sum_range_succ])
  exact ⟨_, _, _, _, hA, hB, p1, p2⟩

end Props
end Spafe
