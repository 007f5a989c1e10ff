import Verif.Lemmas.MelFbanks

/-! Properties C24–C32: `spafe/fbanks/mel_fbanks.py`, `spafe/fbanks/linear_fbanks.py`. -/

set_option linter.unusedSectionVars false

namespace Spafe
namespace Props
open XF Spec Model

/-! ### C24 -/

private theorem helper_params (n nfft : ℕ) (fs low high : ℝ) (hf : Option ℝ) (sc ty ap : String)
    (he : EffHigh fs hf high) (m : String) :
    melFilterBanksHelper n nfft fs low hf sc ty ap = .error (.parameterError m) ↔
      (low < 0 ∧ m = "minimal frequency cannot be less than zero.") ∨
      (0 ≤ low ∧ fs / 2 < high ∧ m = "maximum frequency cannot be greater than half sampling frequency.") := by
  unfold melFilterBanksHelper
  rw [effHigh_eq he]
  by_cases h0 : low < 0
  · simp only [h0, if_true, true_and, not_le.mpr h0, false_and, or_false]
    constructor
    · intro h; injection h with h; injection h with h; exact h.symm
    · rintro rfl; rfl
  by_cases h1 : high > fs / 2
  · simp only [h0, h1, if_true, if_false, true_and, not_lt.mp h0, false_and, false_or]
    constructor
    · intro h; injection h with h; injection h with h; exact h.symm
    · rintro rfl; rfl
  · simp only [h0, h1, if_false, false_and, and_false, or_false, iff_false]
    split_ifs
    · exact (((noParam_hz2mel _ _).bind fun _ => (noParam_hz2mel _ _).bind fun _ =>
        (NoParam.mapM _ (fun _ => noParam_mel2hz _ _) _).bind fun _ => (noParam_scale _ _).bind fun _ =>
          NoParam.ok _) : NoParam _) m
    · exact (((noParam_scale _ _).bind fun _ => NoParam.ok _) : NoParam _) m

/-- C24 (mel): `ParameterError` exactly for the documented reasons, low frequency first. -/
theorem C24_mel_validation (n nfft : ℕ) (fs low high : ℝ) (hf : Option ℝ) (sc ap : String)
    (he : EffHigh fs hf high) (m : String) :
    melFilterBanks n nfft fs low hf sc ap = .error (.parameterError m) ↔
      (low < 0 ∧ m = "minimal frequency cannot be less than zero.") ∨
      (0 ≤ low ∧ fs / 2 < high ∧ m = "maximum frequency cannot be greater than half sampling frequency.") :=
  helper_params n nfft fs low high hf sc "mel" ap he m

/-- C24 (linear). -/
theorem C24_linear_validation (n nfft : ℕ) (fs low high : ℝ) (hf : Option ℝ) (sc : String)
    (he : EffHigh fs hf high) (m : String) :
    linearFilterBanks n nfft fs low hf sc = .error (.parameterError m) ↔
      (low < 0 ∧ m = "minimal frequency cannot be less than zero.") ∨
      (0 ≤ low ∧ fs / 2 < high ∧ m = "maximum frequency cannot be greater than half sampling frequency.") := by
  rw [← helper_params n nfft fs low high hf sc "lin" "Oshaghnessy" he m]
  unfold linearFilterBanks
  cases melFilterBanksHelper n nfft fs low hf sc "lin" "Oshaghnessy" with
  | error e => simp
  | ok p => simp

/-- C24 (inverse mel): the same, provided the scale name is known (an unknown name raises `KeyError` first). -/
theorem C24_inverse_mel_validation (n nfft : ℕ) (fs low high : ℝ) (hf : Option ℝ) (sc sc' ap : String)
    (hs : SwapScale sc sc') (he : EffHigh fs hf high) (m : String) :
    inverseMelFilterBanks n nfft fs low hf sc ap = .error (.parameterError m) ↔
      (low < 0 ∧ m = "minimal frequency cannot be less than zero.") ∨
      (0 ≤ low ∧ fs / 2 < high ∧ m = "maximum frequency cannot be greater than half sampling frequency.") := by
  rw [← helper_params n nfft fs low high hf sc' "mel" ap he m]
  unfold inverseMelFilterBanks
  rw [inverseScale_ok hs, ok_bind]
  cases melFilterBanksHelper n nfft fs low hf sc' "mel" ap with
  | error e => simp
  | ok p =>
    simp only [ok_bind]
    constructor
    · intro h
      exfalso
      refine ((NoParam.mapM _ (fun _ => noParam_mel2hz _ _) p.2).bind fun hz => ?_ : NoParam _) m h
      cases hf with
      | none =>
        by_cases hz0 : hz = []
        · simp only [if_pos hz0]; exact NoParam.ok _
        · simp only [if_neg hz0]; exact NoParam.err _ (by simp)
      | some v => exact (NoParam.mapM _ (fun _ => noParam_hz2mel _ _) _).bind fun _ => NoParam.ok _
    · intro h; cases h

/-- C24: an unknown scale name given to the inverse bank raises `KeyError` whatever the other arguments are. -/
theorem C24_inverse_mel_unknown_scale (n nfft : ℕ) (fs low : ℝ) (hf : Option ℝ) (sc ap : String)
    (hs : ∀ t, ¬ SwapScale sc t) : inverseMelFilterBanks n nfft fs low hf sc ap = .error .keyError := by
  have : inverseScale sc = .error .keyError := by
    unfold inverseScale
    split_ifs with h1 h2 h3
    · exact absurd (h1 ▸ SwapScale.ascendant) (hs _)
    · exact absurd (h2 ▸ SwapScale.descendant) (hs _)
    · exact absurd (h3 ▸ SwapScale.constant) (hs _)
    · rfl
  unfold inverseMelFilterBanks
  rw [this, error_bind]

/-- C24: `0` for the upper frequency is indistinguishable from `None` (mel and linear). -/
theorem C24_zero_is_none (n nfft : ℕ) (fs low : ℝ) (sc ap : String) :
    melFilterBanks n nfft fs low (some 0) sc ap = melFilterBanks n nfft fs low none sc ap ∧
    linearFilterBanks n nfft fs low (some 0) sc = linearFilterBanks n nfft fs low none sc := by
  have : effHigh (some 0) fs = effHigh none fs := by simp [effHigh]
  constructor
  · unfold melFilterBanks melFilterBanksHelper; rw [this]
  · unfold linearFilterBanks melFilterBanksHelper; rw [this]

example : melFilterBanks 24 512 16000 (-1) none "constant" "Oshaghnessy" =
    .error (.parameterError "minimal frequency cannot be less than zero.") :=
  (C24_mel_validation 24 512 16000 (-1) _ none _ _ .none _).mpr (.inl ⟨by norm_num, rfl⟩)
example : linearFilterBanks 24 512 16000 0 (some 8001) "constant" =
    .error (.parameterError "maximum frequency cannot be greater than half sampling frequency.") :=
  (C24_linear_validation 24 512 16000 0 _ (some 8001) _ (.given _ (by norm_num)) _).mpr
    (.inr ⟨le_refl _, by norm_num, rfl⟩)

/-! ### C25 -/

private theorem helper_shape {n nfft : ℕ} {fs low : ℝ} {hf : Option ℝ} {sc ty ap : String} {bank : XMat}
    {cs : List (XF ℝ)} (h : melFilterBanksHelper n nfft fs low hf sc ty ap = .ok (bank, cs)) :
    bank.length = n ∧ (∀ row ∈ bank, row.length = nfft / 2 + 1) ∧ cs.length = n := by
  have hb : ∀ pts l hi s, (melBank pts n nfft l hi s).length = n ∧
      ∀ row ∈ melBank pts n nfft l hi s, row.length = nfft / 2 + 1 := by
    intro pts l hi s
    refine ⟨by simp [melBank], fun row hr => ?_⟩
    obtain ⟨j, _, rfl⟩ := List.mem_map.mp hr
    rw [melFreqs_eq]; simp
  have hp : ∀ a b, (((scalePoints a b n).drop 1).take n).length = n := by
    intro a b; simp [scalePoints]
  unfold melFilterBanksHelper at h
  simp only at h
  split_ifs at h
  · cases h1 : hz2mel (fin low) ap with
    | error e => rw [h1] at h; cases h
    | ok v1 =>
      rw [h1, ok_bind] at h
      cases h2 : hz2mel (fin (effHigh hf fs)) ap with
      | error e => rw [h2] at h; cases h
      | ok v2 =>
        rw [h2, ok_bind] at h
        cases h3 : (scalePoints v1 v2 n).mapM fun p => mel2hz p ap with
        | error e => rw [h3] at h; cases h
        | ok v3 =>
          rw [h3, ok_bind] at h
          cases h4 : (scaleFbank sc n : Py (List ℝ)) with
          | error e => rw [h4] at h; cases h
          | ok v4 =>
            rw [h4, ok_bind] at h
            injection h with h; injection h with ha hb'; subst ha; subst hb'
            exact ⟨(hb _ _ _ _).1, (hb _ _ _ _).2, hp _ _⟩
  · cases h4 : (scaleFbank sc n : Py (List ℝ)) with
    | error e => rw [h4] at h; cases h
    | ok v4 =>
      rw [h4, ok_bind] at h
      injection h with h; injection h with ha hb'; subst ha; subst hb'
      exact ⟨(hb _ _ _ _).1, (hb _ _ _ _).2, hp _ _⟩

/-- C25 (mel). -/
theorem C25_mel_shape {n nfft : ℕ} {fs low : ℝ} {hf : Option ℝ} {sc ap : String} {bank : XMat}
    {cs : List (XF ℝ)} (h : melFilterBanks n nfft fs low hf sc ap = .ok (bank, cs)) :
    bank.length = n ∧ (∀ row ∈ bank, row.length = nfft / 2 + 1) ∧ cs.length = n := helper_shape h

/-- C25 (linear). -/
theorem C25_linear_shape {n nfft : ℕ} {fs low : ℝ} {hf : Option ℝ} {sc : String} {bank : XMat}
    {cs : List (XF ℝ)} (h : linearFilterBanks n nfft fs low hf sc = .ok (bank, cs)) :
    bank.length = n ∧ (∀ row ∈ bank, row.length = nfft / 2 + 1) ∧ cs.length = n := by
  unfold linearFilterBanks at h
  cases h1 : melFilterBanksHelper n nfft fs low hf sc "lin" "Oshaghnessy" with
  | error e => rw [h1] at h; cases h
  | ok p =>
    rw [h1, ok_bind] at h
    injection h with h; injection h with ha hb; subst ha; subst hb
    obtain ⟨e1, e2, e3⟩ := helper_shape (bank := p.1) (cs := p.2) h1
    refine ⟨by simp [absMat, e1], fun row hr => ?_, e3⟩
    obtain ⟨r, hr1, rfl⟩ := List.mem_map.mp hr
    simp [e2 r hr1]

/-- C25 (inverse mel). -/
theorem C25_inverse_mel_shape {n nfft : ℕ} {fs low : ℝ} {hf : Option ℝ} {sc ap : String} {bank : XMat}
    {cs : List (XF ℝ)} (h : inverseMelFilterBanks n nfft fs low hf sc ap = .ok (bank, cs)) :
    bank.length = n ∧ (∀ row ∈ bank, row.length = nfft / 2 + 1) ∧ cs.length = n := by
  unfold inverseMelFilterBanks at h
  cases h0 : inverseScale sc with
  | error e => rw [h0] at h; cases h
  | ok sc' =>
    rw [h0, ok_bind] at h
    cases h1 : melFilterBanksHelper n nfft fs low hf sc' "mel" ap with
    | error e => rw [h1] at h; cases h
    | ok p =>
      obtain ⟨e1, e2, e3⟩ := helper_shape (bank := p.1) (cs := p.2) h1
      rw [h1, ok_bind] at h
      simp only at h
      cases h2 : p.2.mapM fun m => mel2hz m ap with
      | error e => rw [h2] at h; cases h
      | ok hz =>
        rw [h2, ok_bind] at h
        have l2 := mapM_length _ _ _ h2
        cases hf with
        | none =>
          simp only at h
          split_ifs at h with hz0
          injection h with h
          obtain ⟨rfl, rfl⟩ := Prod.mk.inj h
          refine ⟨by simp [absMat, e1], fun r hr => ?_, by rw [← e3, ← l2, hz0]⟩
          simp only [absMat, List.mem_map] at hr
          obtain ⟨r', ⟨r'', hr, rfl⟩, rfl⟩ := hr
          simp [e2 _ hr]
        | some v =>
          simp only at h
          cases h3 : hz.mapM fun f => hz2mel (fin v - f) ap with
          | error e => rw [h3] at h; cases h
          | ok cs' =>
            rw [h3, ok_bind] at h
            have l3 := mapM_length _ _ _ h3
            injection h with h; injection h with ha hb; subst ha; subst hb
            refine ⟨by simp [absMat, e1], fun row hr => ?_, by omega⟩
            obtain ⟨r, hr1, rfl⟩ := List.mem_map.mp hr
            obtain ⟨r', hr', rfl⟩ := List.mem_map.mp hr1
            simp [e2 r' hr']

/-! ### C26, C27 -/

section valid
variable {scale approach : String} {w : ℕ → ℕ → ℝ} {a b fs low high : ℝ} {hf : Option ℝ}

/-- C26: for `0 ≤ low < high ≤ fs/2` the call succeeds, entry `(j, k)` is the scale factor times the triangle over
three consecutive edges, and the centres are the mel values of the apexes. -/
theorem C26_mel_triangles (hs : Scale scale w) (hm : MelConst approach a b) (he : EffHigh fs hf high)
    (h0 : 0 ≤ low) (h1 : low < high) (h2 : high ≤ fs / 2) (n nfft : ℕ) :
    ∃ bank cs, melFilterBanks n nfft fs low hf scale approach = .ok (bank, cs) ∧
      IsMatrix bank n (nfft / 2 + 1) (fun j k => w n j *
        tri (melPoint a b low high n j) (melPoint a b low high n (j + 1)) (melPoint a b low high n (j + 2))
          (colFreq low high nfft k)) ∧
      IsVector cs n (fun j => mel a b (melPoint a b low high n (j + 1))) := by
  obtain ⟨ha, hb⟩ := melConst_pos hm
  refine ⟨_, _, mel_helper_eq hs hm he h0 h1 h2 n nfft, isMatrix_map_range _ _ _, ?_⟩
  have : (fun j => mel a b (melPoint a b low high n (j + 1))) =
      fun j => linPoint (mel a b low) (mel a b high) n (j + 1) := by
    funext j; exact mel_melInv ha hb
  rw [this]
  exact isVector_map_range _ _

/-- C26: the edges start at `low`, end at `high` and increase strictly. -/
theorem C26_mel_edges (hm : MelConst approach a b) (h0 : 0 ≤ low) (h1 : low < high) (n : ℕ) :
    melPoint a b low high n 0 = low ∧ melPoint a b low high n (n + 1) = high ∧
      StrictMono (melPoint a b low high n) := by
  obtain ⟨ha, hb⟩ := melConst_pos hm
  exact ⟨melPoint_zero ha hb (by linarith) n, melPoint_last ha hb (by linarith) n,
    melPoint_strictMono ha hb (by linarith) h1 n⟩

/-- C26: hence every entry is a finite number in `[0, 1]`, zero when the column's frequency is outside the two
neighbouring edges and positive strictly between them. -/
theorem C26_mel_range (hs : Scale scale w) (hm : MelConst approach a b) (he : EffHigh fs hf high)
    (h0 : 0 ≤ low) (h1 : low < high) (h2 : high ≤ fs / 2) (n nfft : ℕ) :
    ∃ bank cs, melFilterBanks n nfft fs low hf scale approach = .ok (bank, cs) ∧
      ∀ j k, j < n → k < nfft / 2 + 1 → ∃ v : ℝ, (bank.getD j []).getD k (fin 0) = fin v ∧ 0 ≤ v ∧ v ≤ 1 ∧
        (v = 0 ↔ colFreq low high nfft k ≤ melPoint a b low high n j ∨
          melPoint a b low high n (j + 2) ≤ colFreq low high nfft k) := by
  obtain ⟨bank, cs, h, hM, -⟩ := C26_mel_triangles hs hm he h0 h1 h2 n nfft
  obtain ⟨-, -, hmono⟩ := C26_mel_edges hm h0 h1 n
  refine ⟨bank, cs, h, fun j k hj hk => ⟨_, hM.2.2 j k hj hk, ?_⟩⟩
  obtain ⟨w0, w1⟩ := scale_range hs hj
  have m1 := hmono (show j < j + 1 by omega)
  have m2 := hmono (show j + 1 < j + 2 by omega)
  refine ⟨mul_nonneg w0.le (tri_nonneg _ _ _ _),
    mul_le_one₀ w1 (tri_nonneg _ _ _ _) (tri_le_one m1 m2 _), ?_, ?_⟩
  · intro hv
    by_contra hc
    push Not at hc
    exact absurd hv (mul_pos w0 (tri_pos hc.1 hc.2 m1 m2)).ne'
  · intro hv
    simp only [tri_outside m1 m2 hv, mul_zero]

/-- C26: a filter reaches its full weight (the scale factor) exactly at its centre. -/
theorem C26_apex (hm : MelConst approach a b) (h0 : 0 ≤ low) (h1 : low < high) (n j : ℕ) :
    tri (melPoint a b low high n j) (melPoint a b low high n (j + 1)) (melPoint a b low high n (j + 2))
      (melPoint a b low high n (j + 1)) = 1 := by
  obtain ⟨-, -, hmono⟩ := C26_mel_edges hm h0 h1 n
  exact tri_apex (hmono (by omega)) (hmono (by omega))

example : ∃ bank cs, melFilterBanks 24 512 16000 0 none "constant" "Oshaghnessy" = .ok (bank, cs) ∧
    IsMatrix bank 24 257 (fun j k => 1 *
      tri (melPoint 2595 700 0 (16000 / 2) 24 j) (melPoint 2595 700 0 (16000 / 2) 24 (j + 1))
        (melPoint 2595 700 0 (16000 / 2) 24 (j + 2)) (colFreq 0 (16000 / 2) 512 k)) ∧
    IsVector cs 24 (fun j => mel 2595 700 (melPoint 2595 700 0 (16000 / 2) 24 (j + 1))) :=
  C26_mel_triangles .constant .oshaghnessy .none (le_refl _) (by norm_num) (by norm_num) 24 512

/-- C27 (mel): returned centres are evenly spaced in mel, strictly increasing, strictly inside the band. -/
theorem C27_mel_centres (hs : Scale scale w) (hm : MelConst approach a b) (he : EffHigh fs hf high)
    (h0 : 0 ≤ low) (h1 : low < high) (h2 : high ≤ fs / 2) (n nfft : ℕ) :
    ∃ bank cs, melFilterBanks n nfft fs low hf scale approach = .ok (bank, cs) ∧
      IsVector cs n (fun j => mel a b low + (j + 1) * ((mel a b high - mel a b low) / (n + 1))) ∧
      (∀ j, j < n → ∃ v, cs.getD j (fin 0) = fin v ∧ mel a b low < v ∧ v < mel a b high) ∧
      ∀ i j, i < j → j < n → ∃ u v, cs.getD i (fin 0) = fin u ∧ cs.getD j (fin 0) = fin v ∧ u < v := by
  obtain ⟨ha, hb⟩ := melConst_pos hm
  have hml := mel_strictMono ha hb (by linarith) h1
  have hv := isVector_map_range n fun j => linPoint (mel a b low) (mel a b high) n (j + 1)
  have hmono := linPoint_strictMono hml n
  refine ⟨_, _, mel_helper_eq hs hm he h0 h1 h2 n nfft, ?_, ?_, ?_⟩
  · have : (fun j : ℕ => mel a b low + ((j:ℝ) + 1) * ((mel a b high - mel a b low) / (n + 1))) =
        fun j => linPoint (mel a b low) (mel a b high) n (j + 1) := by
      funext j; unfold linPoint; push_cast; ring
    rw [this]; exact hv
  · intro j hj
    refine ⟨_, hv.2 j hj, ?_, ?_⟩
    · have := hmono (show 0 < j + 1 by omega)
      rwa [linPoint_zero] at this
    · have := hmono (show j + 1 < n + 1 by omega)
      rwa [linPoint_last] at this
  · intro i j hij hj
    exact ⟨_, _, hv.2 i (by omega), hv.2 j hj, hmono (by omega)⟩

private theorem linear_eq (hs : Scale scale w) (he : EffHigh fs hf high)
    (h0 : 0 ≤ low) (h1 : low < high) (h2 : high ≤ fs / 2) (n nfft : ℕ) :
    linearFilterBanks n nfft fs low hf scale = .ok
      ((List.range n).map fun (j : ℕ) => (List.range (nfft / 2 + 1)).map fun (k : ℕ) =>
          fin (w n j * tri (linPoint low high n j) (linPoint low high n (j + 1))
            (linPoint low high n (j + 2)) (colFreq low high nfft k)),
        (List.range n).map fun (j : ℕ) => fin (linPoint low high n (j + 1))) := by
  unfold linearFilterBanks
  rw [lin_helper_eq "Oshaghnessy" hs he h0 h1 h2 n nfft]
  simp only [ok_bind]
  congr 2
  unfold absMat
  rw [List.map_map]
  apply List.map_congr_left
  intro j hj
  have hj : j < n := by simpa using hj
  simp only [Function.comp]
  rw [List.map_map]
  apply List.map_congr_left
  intro k _
  simp only [Function.comp, abs_fin]
  rw [abs_of_nonneg]
  exact mul_nonneg (scale_range hs hj).1.le (tri_nonneg _ _ _ _)

/-- C27 (linear): returned centres are evenly spaced in Hz, strictly increasing, strictly inside the band. -/
theorem C27_linear_centres (hs : Scale scale w) (he : EffHigh fs hf high)
    (h0 : 0 ≤ low) (h1 : low < high) (h2 : high ≤ fs / 2) (n nfft : ℕ) :
    ∃ bank cs, linearFilterBanks n nfft fs low hf scale = .ok (bank, cs) ∧
      IsVector cs n (fun j => low + (j + 1) * ((high - low) / (n + 1))) ∧
      ∀ j, j < n → low < low + (j + 1) * ((high - low) / (n + 1)) ∧
        low + (j + 1) * ((high - low) / (n + 1)) < high := by
  have e : (fun j : ℕ => low + ((j:ℝ) + 1) * ((high - low) / (n + 1))) = fun j => linPoint low high n (j + 1) := by
    funext j; unfold linPoint; push_cast; ring
  refine ⟨_, _, linear_eq hs he h0 h1 h2 n nfft, ?_, ?_⟩
  · rw [e]; exact isVector_map_range _ _
  · intro j hj
    have e' := congrFun e j
    rw [e']
    have m1 := linPoint_strictMono h1 n (show 0 < j + 1 by omega)
    have m2 := linPoint_strictMono h1 n (show j + 1 < n + 1 by omega)
    rw [linPoint_zero] at m1
    rw [linPoint_last] at m2
    exact ⟨m1, m2⟩

/-! ### C28 -/

/-- C28 (mel): with constant scale the weights at every column whose frequency lies between the first and the
last centre sum to one. -/
theorem C28_mel_partition_of_unity (hm : MelConst approach a b) (he : EffHigh fs hf high)
    (h0 : 0 ≤ low) (h1 : low < high) (h2 : high ≤ fs / 2) (n nfft : ℕ) :
    ∃ bank cs, melFilterBanks n nfft fs low hf "constant" approach = .ok (bank, cs) ∧
      ∀ k, k < nfft / 2 + 1 → melPoint a b low high n 1 ≤ colFreq low high nfft k →
        colFreq low high nfft k ≤ melPoint a b low high n n →
        ∑ j ∈ Finset.range n, (bank.getD j []).getD k (fin 0) = fin 1 := by
  obtain ⟨bank, cs, h, hM, -⟩ := C26_mel_triangles .constant hm he h0 h1 h2 n nfft
  obtain ⟨-, -, hmono⟩ := C26_mel_edges hm h0 h1 n
  refine ⟨bank, cs, h, fun k hk k1 k2 => ?_⟩
  rw [Finset.sum_congr rfl fun j hj => hM.2.2 j k (Finset.mem_range.mp hj) hk, sum_fin]
  simp only [one_mul]
  rw [tri_partition hmono n k1 k2]

/-- C28 (linear). -/
theorem C28_linear_partition_of_unity (he : EffHigh fs hf high)
    (h0 : 0 ≤ low) (h1 : low < high) (h2 : high ≤ fs / 2) (n nfft : ℕ) :
    ∃ bank cs, linearFilterBanks n nfft fs low hf "constant" = .ok (bank, cs) ∧
      ∀ k, k < nfft / 2 + 1 → linPoint low high n 1 ≤ colFreq low high nfft k →
        colFreq low high nfft k ≤ linPoint low high n n →
        ∑ j ∈ Finset.range n, (bank.getD j []).getD k (fin 0) = fin 1 := by
  refine ⟨_, _, linear_eq .constant he h0 h1 h2 n nfft, fun k hk k1 k2 => ?_⟩
  rw [Finset.sum_congr rfl fun j hj => (isMatrix_map_range _ _ _).2.2 j k (Finset.mem_range.mp hj) hk, sum_fin]
  simp only [one_mul]
  rw [tri_partition (linPoint_strictMono h1 n) n k1 k2]

/-- C28 is not vacuous: two filters on `0..3`, four columns; column 1 has frequency 1 = first centre. -/
example : linPoint 0 3 2 1 ≤ colFreq 0 3 6 1 ∧ colFreq 0 3 6 1 ≤ linPoint 0 3 2 2 := by
  constructor <;> norm_num [linPoint, colFreq]

/-! ### C29 -/

/-- C29 (the part that holds): with `low = 0`, `high = fs/2` and an even `nfft` column `k` of a mel bank is the
weight at the FFT bin frequency `k*fs/nfft`. The full property drops the three conditions; see the violation. -/
theorem C29_columns_are_bins_partial (hs : Scale scale w) (hm : MelConst approach a b) (hfs : 0 < fs)
    (he : EffHigh fs hf (fs / 2)) (n m : ℕ) (hpos : 0 < m) :
    ∃ bank cs, melFilterBanks n (2 * m) fs 0 hf scale approach = .ok (bank, cs) ∧
      IsMatrix bank n (m + 1) (fun j k => w n j *
        tri (melPoint a b 0 (fs / 2) n j) (melPoint a b 0 (fs / 2) n (j + 1)) (melPoint a b 0 (fs / 2) n (j + 2))
          (k * fs / (2 * m : ℕ))) := by
  obtain ⟨bank, cs, h, hM, -⟩ := C26_mel_triangles hs hm he (le_refl 0) (by linarith) (le_refl _) n (2 * m)
  refine ⟨bank, cs, h, ?_⟩
  have e : 2 * m / 2 = m := by omega
  have hm' : (m : ℝ) ≠ 0 := by positivity
  have : ∀ k : ℕ, colFreq 0 (fs / 2) (2 * m) k = k * fs / (2 * m : ℕ) := by
    intro k; unfold colFreq; rw [e]; push_cast; field_simp; ring
  simp only [this, e] at hM
  exact hM

/-- C29 (linear, the part that holds). -/
theorem C29_linear_columns_are_bins_partial (hs : Scale scale w) (hfs : 0 < fs)
    (he : EffHigh fs hf (fs / 2)) (n m : ℕ) (hpos : 0 < m) :
    ∃ bank cs, linearFilterBanks n (2 * m) fs 0 hf scale = .ok (bank, cs) ∧
      IsMatrix bank n (m + 1) (fun j k => w n j *
        tri (linPoint 0 (fs / 2) n j) (linPoint 0 (fs / 2) n (j + 1)) (linPoint 0 (fs / 2) n (j + 2))
          (k * fs / (2 * m : ℕ))) := by
  have hM := isMatrix_map_range n (2 * m / 2 + 1) (fun j k => w n j *
        tri (linPoint 0 (fs / 2) n j) (linPoint 0 (fs / 2) n (j + 1)) (linPoint 0 (fs / 2) n (j + 2))
          (colFreq 0 (fs / 2) (2 * m) k))
  refine ⟨_, _, linear_eq hs he (le_refl 0) (by linarith) (le_refl _) n (2 * m), ?_⟩
  have e : 2 * m / 2 = m := by omega
  have hm' : (m : ℝ) ≠ 0 := by positivity
  have : ∀ k : ℕ, colFreq 0 (fs / 2) (2 * m) k = k * fs / (2 * m : ℕ) := by
    intro k; unfold colFreq; rw [e]; push_cast; field_simp; ring
  simp only [this, e] at hM ⊢
  exact hM

/-- C29 characterised: the evaluation frequency of every column is its FFT bin frequency exactly when the band
starts at 0 and the grid step equals the bin distance. -/
theorem C29_bins_iff (low high fs : ℝ) (nfft : ℕ) (h2 : 2 ≤ nfft) :
    (∀ k, k < nfft / 2 + 1 → colFreq low high nfft k = k * fs / nfft) ↔
      low = 0 ∧ high = (nfft / 2 : ℕ) * fs / nfft := by
  have hp : 0 < nfft / 2 := by omega
  have hp' : ((nfft / 2 : ℕ) : ℝ) ≠ 0 := by exact_mod_cast hp.ne'
  have hn : (nfft : ℝ) ≠ 0 := by exact_mod_cast (by omega : nfft ≠ 0)
  unfold colFreq
  constructor
  · intro h
    have l0 : low = 0 := by simpa using h 0 (by omega)
    refine ⟨l0, ?_⟩
    have := h (nfft / 2) (by omega)
    rw [l0] at this
    rw [← this]; field_simp; ring
  · rintro ⟨rfl, rfl⟩ k _
    rw [zero_add, sub_zero]
    field_simp

/-- C29 violated: with `fs = 8000`, `nfft = 8`, one linear filter over `2000..4000` Hz (centre 3000 Hz), the bin
for 2000 Hz (column 2) gets weight 1 although the triangle is 0 there, and the bin for 3000 Hz (column 3) gets 1/2 instead
of 1. -/
theorem C29_violated :
    ∃ bank cs, linearFilterBanks 1 8 8000 2000 (some 4000) "constant" = .ok (bank, cs) ∧
      (bank.getD 0 []).getD 2 (fin 0) = fin 1 ∧ tri 2000 3000 4000 (2 * 8000 / 8) = 0 ∧
      (bank.getD 0 []).getD 3 (fin 0) = fin (1 / 2) ∧ tri 2000 3000 4000 (3 * 8000 / 8) = 1 := by
  refine ⟨_, _, linear_eq .constant (.given 4000 (by norm_num)) (by norm_num) (by norm_num) (by norm_num) 1 8, ?_⟩
  have hM := isMatrix_map_range 1 (8 / 2 + 1) (fun j k => 1 *
        tri (linPoint 2000 4000 1 j) (linPoint 2000 4000 1 (j + 1)) (linPoint 2000 4000 1 (j + 2))
          (colFreq 2000 4000 8 k))
  refine ⟨?_, ?_, ?_, ?_⟩
  · rw [hM.2.2 0 2 (by omega) (by omega)]; norm_num [tri, linPoint, colFreq]
  · norm_num [tri]
  · rw [hM.2.2 0 3 (by omega) (by omega)]; norm_num [tri, linPoint, colFreq]
  · norm_num [tri]

/-! ### C30 -/

/-- C30: the linear bank is the non-negative triangles over evenly spaced edges in Hz; the final `np.abs` has no
effect because the formula is already non-negative. -/
theorem C30_linear_triangles (hs : Scale scale w) (he : EffHigh fs hf high)
    (h0 : 0 ≤ low) (h1 : low < high) (h2 : high ≤ fs / 2) (n nfft : ℕ) :
    ∃ bank cs, linearFilterBanks n nfft fs low hf scale = .ok (bank, cs) ∧
      IsMatrix bank n (nfft / 2 + 1) (fun j k => w n j *
        tri (linPoint low high n j) (linPoint low high n (j + 1)) (linPoint low high n (j + 2))
          (colFreq low high nfft k)) ∧
      (∀ j k, j < n → k < nfft / 2 + 1 → ∃ v : ℝ, (bank.getD j []).getD k (fin 0) = fin v ∧ 0 ≤ v ∧ v ≤ 1) ∧
      ∃ raw, melFilterBanksHelper n nfft fs low hf scale "lin" "Oshaghnessy" = .ok (raw, cs) ∧ raw = bank := by
  have hM := isMatrix_map_range n (nfft / 2 + 1) (fun j k => w n j *
        tri (linPoint low high n j) (linPoint low high n (j + 1)) (linPoint low high n (j + 2))
          (colFreq low high nfft k))
  refine ⟨_, _, linear_eq hs he h0 h1 h2 n nfft, hM, ?_, _, lin_helper_eq _ hs he h0 h1 h2 n nfft, rfl⟩
  intro j k hj hk
  obtain ⟨w0, w1⟩ := scale_range hs hj
  have m1 := linPoint_strictMono h1 n (show j < j + 1 by omega)
  have m2 := linPoint_strictMono h1 n (show j + 1 < j + 2 by omega)
  exact ⟨_, hM.2.2 j k hj hk, mul_nonneg w0.le (tri_nonneg _ _ _ _),
    mul_le_one₀ w1 (tri_nonneg _ _ _ _) (tri_le_one m1 m2 _)⟩

example : ∃ bank cs, linearFilterBanks 3 8 8000 0 none "descendant" = .ok (bank, cs) ∧
    bank.length = 3 := by
  obtain ⟨bank, cs, h, hM, _⟩ := C30_linear_triangles (fs := 8000) (hf := none) .descendant .none (le_refl 0)
    (by norm_num) (le_refl _) 3 8
  exact ⟨bank, cs, h, hM.1⟩

/-! ### C31, C32 -/

private theorem inverse_eq {scale' : String} (hsw : SwapScale scale scale') (hs : Scale scale' w)
    (hm : MelConst approach a b) (h0 : 0 ≤ low) (h1 : low < high) (h2 : high ≤ fs / 2) (n nfft : ℕ) :
    inverseMelFilterBanks n nfft fs low (some high) scale approach =
      .ok ((melBankSpec a b low high n nfft w).map List.reverse,
        (List.range n).map fun (j : ℕ) => fin (mel a b (high - melPoint a b low high n (j + 1)))) := by
  obtain ⟨ha, hb⟩ := melConst_pos hm
  unfold inverseMelFilterBanks
  rw [inverseScale_ok hsw, ok_bind, mel_helper_eq hs hm (.given high (by linarith)) h0 h1 h2 n nfft]
  simp only [ok_bind]
  have hlast := melPoint_last (a := a) (low := low) ha hb (by linarith : -b < high) n
  rw [mapM_ok (fun p => mel2hz p approach) (fun p => fin (melInv a b p.toNum))]
  · simp only [ok_bind]
    rw [List.map_map, mapM_ok (fun f => hz2mel (fin high - f) approach) (fun f => fin (mel a b (high - f.toNum)))]
    · simp only [ok_bind]
      rw [List.map_map]
      congr 2
      unfold absMat melBankSpec
      rw [List.map_map, List.map_map, List.map_map]
      apply List.map_congr_left
      intro j hj
      have hj : j < n := by simpa using hj
      simp only [Function.comp]
      rw [← List.map_reverse, List.map_map]
      apply List.map_congr_left
      intro k _
      simp only [Function.comp, abs_fin]
      rw [abs_of_nonneg]
      exact mul_nonneg (scale_range hs hj).1.le (tri_nonneg _ _ _ _)
    · intro f hf
      obtain ⟨j, hj, rfl⟩ := List.mem_map.mp hf
      have hj : j < n := by simpa using hj
      simp only [Function.comp, toNum_fin, fin_sub]
      apply hz2mel_eq hm
      have := melPoint_strictMono ha hb (by linarith : -b < low) h1 n (show j + 1 < n + 1 by omega)
      rw [hlast] at this
      change -b < high - melPoint a b low high n (j + 1)
      linarith
  · intro p hp
    obtain ⟨j, _, rfl⟩ := List.mem_map.mp hp
    rw [mel2hz_eq hm]; rfl

/-- C31: with an explicit upper frequency the inverse bank is the mel bank for the swapped scale with every row
reversed. -/
theorem C31_inverse_mel_is_mirror {scale' : String} (hsw : SwapScale scale scale')
    (hm : MelConst approach a b) (h0 : 0 ≤ low) (h1 : low < high) (h2 : high ≤ fs / 2) (n nfft : ℕ) :
    ∃ bank cs cs', melFilterBanks n nfft fs low (some high) scale' approach = .ok (bank, cs) ∧
      inverseMelFilterBanks n nfft fs low (some high) scale approach = .ok (bank.map List.reverse, cs') := by
  obtain ⟨w, hs⟩ := swap_scale hsw
  exact ⟨_, _, _, mel_helper_eq hs hm (.given high (by linarith)) h0 h1 h2 n nfft,
    inverse_eq hsw hs hm h0 h1 h2 n nfft⟩

/-- C31: entry by entry, the inverse filter at column frequency `f` has the weight of the mel filter at
`low + high - f`. -/
theorem C31_inverse_mel_weights {scale' : String} (hsw : SwapScale scale scale') (hs : Scale scale' w)
    (hm : MelConst approach a b) (h0 : 0 ≤ low) (h1 : low < high) (h2 : high ≤ fs / 2) (n nfft : ℕ) (h3 : 2 ≤ nfft) :
    ∃ bank cs, inverseMelFilterBanks n nfft fs low (some high) scale approach = .ok (bank, cs) ∧
      IsMatrix bank n (nfft / 2 + 1) (fun j k => w n j *
        tri (melPoint a b low high n j) (melPoint a b low high n (j + 1)) (melPoint a b low high n (j + 2))
          (low + high - colFreq low high nfft k)) := by
  refine ⟨_, _, inverse_eq hsw hs hm h0 h1 h2 n nfft, ?_, ?_, ?_⟩
  · simp [melBankSpec]
  · intro row hr
    obtain ⟨r, hr1, rfl⟩ := List.mem_map.mp hr
    obtain ⟨j, _, rfl⟩ := List.mem_map.mp hr1
    simp
  · intro j k hj hk
    unfold melBankSpec
    rw [List.map_map, getD_map_range_lt _ _ hj]
    simp only [Function.comp]
    rw [getD_reverse' _ _ (by simpa using hk), List.length_map, List.length_range, getD_map_range_lt _ _ (by omega)]
    congr 3
    unfold colFreq
    have hp : 0 < nfft / 2 := by omega
    have hp' : ((nfft / 2 : ℕ) : ℝ) ≠ 0 := by exact_mod_cast hp.ne'
    rw [show nfft / 2 + 1 - 1 - k = nfft / 2 - k by omega, Nat.cast_sub (by omega)]
    field_simp; ring

/-- C32 (violated): the documented default `high_freq=None` raises `TypeError` on otherwise valid parameters. -/
theorem C32_default_raises_type_error {scale' : String} (hsw : SwapScale scale scale')
    (hm : MelConst approach a b) (h0 : 0 ≤ low) (h1 : low < fs / 2) (n nfft : ℕ) (hn : 1 ≤ n) :
    inverseMelFilterBanks n nfft fs low none scale approach = .error .typeError := by
  obtain ⟨ha, hb⟩ := melConst_pos hm
  obtain ⟨w, hs⟩ := swap_scale hsw
  unfold inverseMelFilterBanks
  rw [inverseScale_ok hsw, ok_bind, mel_helper_eq hs hm .none h0 h1 (le_refl _) n nfft]
  simp only [ok_bind]
  rw [mapM_ok (fun p => mel2hz p approach) (fun p => fin (melInv a b p.toNum))]
  · rw [ok_bind]
    exact if_neg (by simp; omega)
  · intro p hp
    obtain ⟨j, _, rfl⟩ := List.mem_map.mp hp
    rw [mel2hz_eq hm]; rfl

example : inverseMelFilterBanks 24 512 16000 0 none "constant" "Oshaghnessy" = .error .typeError :=
  C32_default_raises_type_error .constant .oshaghnessy (le_refl _) (by norm_num) 24 512 (by norm_num)

/-- C32: what the returned centres are, `mel(high - f_c)` for the mel centres `f_c`. -/
theorem C32_inverse_centres {scale' : String} (hsw : SwapScale scale scale')
    (hm : MelConst approach a b) (h0 : 0 ≤ low) (h1 : low < high) (h2 : high ≤ fs / 2) (n nfft : ℕ) :
    ∃ bank cs, inverseMelFilterBanks n nfft fs low (some high) scale approach = .ok (bank, cs) ∧
      IsVector cs n (fun j => mel a b (high - melPoint a b low high n (j + 1))) := by
  obtain ⟨w, hs⟩ := swap_scale hsw
  exact ⟨_, _, inverse_eq hsw hs hm h0 h1 h2 n nfft, isVector_map_range _ _⟩

/-- C32 (the part that holds): with explicit `high_freq` and `low_freq = 0` the centres are those of the mirrored
filters, whose apex is at `low + high - f_c` (see `C31_inverse_mel_weights`). Missing: `high_freq=None`, and
`low_freq > 0`. -/
theorem C32_centres_partial {scale' : String} (hsw : SwapScale scale scale')
    (hm : MelConst approach a b) (h1 : 0 < high) (h2 : high ≤ fs / 2) (n nfft : ℕ) :
    ∃ bank cs, inverseMelFilterBanks n nfft fs 0 (some high) scale approach = .ok (bank, cs) ∧
      IsVector cs n (fun j => mel a b (0 + high - melPoint a b 0 high n (j + 1))) := by
  simp only [zero_add]
  exact C32_inverse_centres hsw hm (le_refl 0) h1 h2 n nfft

/-- C32 (violated): for `low_freq > 0` every returned centre is strictly below the mirrored filter's centre. -/
theorem C32_centres_off {scale' : String} (hsw : SwapScale scale scale')
    (hm : MelConst approach a b) (h0 : 0 < low) (h1 : low < high) (h2 : high ≤ fs / 2) (n nfft : ℕ) :
    ∃ bank cs, inverseMelFilterBanks n nfft fs low (some high) scale approach = .ok (bank, cs) ∧
      ∀ j, j < n → ∃ v : ℝ, cs.getD j (fin 0) = fin v ∧
        v < mel a b (low + high - melPoint a b low high n (j + 1)) := by
  obtain ⟨ha, hb⟩ := melConst_pos hm
  obtain ⟨bank, cs, h, hv⟩ := C32_inverse_centres hsw hm h0.le h1 h2 n nfft
  refine ⟨bank, cs, h, fun j hj => ⟨_, hv.2 j hj, ?_⟩⟩
  apply mel_strictMono ha hb
  · have := melPoint_strictMono ha hb (by linarith : -b < low) h1 n (show j + 1 < n + 1 by omega)
    rw [melPoint_last ha hb (by linarith : -b < high) n] at this
    linarith
  · linarith

end valid

end Props
end Spafe
