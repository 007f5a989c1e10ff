import Verif.Lemmas.BarkFbanks

/-! Properties C24, C25, C33, C34: `spafe/fbanks/bark_fbanks.py`. -/

set_option linter.unusedSectionVars false

namespace Spafe
namespace Props
open XF Spec Model

/-! ### C24, C25 -/

private theorem noParam_toInt (x : XF ℝ) : NoParam (toInt x) := by
  cases x
  · exact NoParam.err _ (by simp)
  · exact NoParam.err _ (by simp)
  · exact NoParam.err _ (by simp)
  · exact NoParam.ok _

private theorem noParam_pySet {β : Type} (l : List β) (i : ℤ) (v : β) : NoParam (pySet l i v) := by
  unfold pySet
  split_ifs
  · exact NoParam.ok _
  · exact NoParam.err _ (by simp)
  · exact NoParam.ok _
  · exact NoParam.err _ (by simp)

private theorem noParam_foldlM {β γ : Type} (f : γ → β → Py γ) (hf : ∀ a b, NoParam (f a b)) (l : List β) (i : γ) :
    NoParam (l.foldlM f i) := by
  induction l generalizing i with
  | nil => exact NoParam.ok _
  | cons a l ih => rw [List.foldlM_cons]; exact (hf _ _).bind fun b => ih b

/-- C24 (bark): `ParameterError` exactly for the documented reasons, low frequency first. -/
theorem C24_bark_validation (n nfft : ℕ) (fs low high : ℝ) (hf : Option ℝ) (sc ap : String)
    (he : EffHigh fs hf high) (m : String) :
    barkFilterBanks n nfft fs low hf sc ap = .error (.parameterError m) ↔
      (low < 0 ∧ m = "minimal frequency cannot be less than zero.") ∨
      (0 ≤ low ∧ fs / 2 < high ∧ m = "maximum frequency cannot be greater than half sampling frequency.") := by
  unfold barkFilterBanks
  simp only [effHigh_eq he]
  by_cases h0 : low < 0
  · simp only [h0, if_true, true_and, not_le.mpr h0, false_and, or_false]
    constructor
    · intro h; injection h with h; injection h with h; exact h.symm
    · rintro rfl; rfl
  by_cases h1 : high > fs / 2
  · simp only [h0, h1, if_true, if_false, true_and, not_lt.mp h0, false_and, false_or]
    constructor
    · intro h; injection h with h; injection h with h; exact h.symm
    · rintro rfl; rfl
  · simp only [h0, h1, if_false, false_and, and_false, or_false, iff_false]
    refine (((NoParam.mapM _ (fun j => ?_) _).bind fun _ => (noParam_scale _ _).bind fun _ => NoParam.ok _) :
      NoParam _) m
    exact (noParam_toInt _).bind fun _ => (noParam_toInt _).bind fun _ =>
      noParam_foldlM _ (fun _ _ => noParam_pySet _ _ _) _ _

example : barkFilterBanks 24 512 16000 0 (some 9000) "constant" "Wang" =
    .error (.parameterError "maximum frequency cannot be greater than half sampling frequency.") :=
  (C24_bark_validation 24 512 16000 0 _ (some 9000) _ _ (.given _ (by norm_num)) _).mpr
    (.inr ⟨le_refl _, by norm_num, rfl⟩)

private theorem barkRow_length {nfft : ℕ} {fs : ℝ} {ap : String} {b0 bN : ℤ} {fc : XF ℝ} {row : List (XF ℝ)}
    (h : barkRow nfft fs ap b0 bN fc = .ok row) : row.length = nfft / 2 + 1 := by
  have key : ∀ (v : ℤ → XF ℝ) (l : List ℤ) (init row : List (XF ℝ)),
      l.foldlM (fun row i => pySet row i (v i)) init = (.ok row : Py _) → row.length = init.length := by
    intro v l
    induction l with
    | nil => intro init row h; injection h with h; rw [h]
    | cons a l ih =>
      intro init row h
      rw [List.foldlM_cons] at h
      cases h1 : pySet init a (v a) with
      | error e => rw [h1] at h; cases h
      | ok r =>
        rw [h1, ok_bind] at h
        rw [ih r row h]
        unfold pySet at h1
        split_ifs at h1 <;> injection h1 with h1 <;> rw [← h1] <;> simp
  rw [key _ _ _ _ h]; simp

/-- C25 (bark): shape of the result of every successful call. -/
theorem C25_bark_shape {n nfft : ℕ} {fs low : ℝ} {hf : Option ℝ} {sc ap : String} {bank : XMat}
    {cs : List (XF ℝ)} (h : barkFilterBanks n nfft fs low hf sc ap = .ok (bank, cs)) :
    bank.length = n ∧ (∀ row ∈ bank, row.length = nfft / 2 + 1) ∧ cs.length = n := by
  unfold barkFilterBanks at h
  simp only at h
  split_ifs at h
  generalize hcs : xlinspace (hz2bark (fin low) ap) (hz2bark (fin (effHigh hf fs)) ap) n = centers at h
  have hlen : centers.length = n := by
    rw [← hcs]; unfold xlinspace; split_ifs with h1
    · simp [h1]
    · simp
  generalize (centers.map fun f => XF.floor (fin ((nfft : ℝ) + 1) * (bark2hz f ap / fin fs))) = bins at h
  cases h1 : (List.range n).mapM (fun (j : ℕ) => do
      let b0 ← toInt (bins.getD 0 0)
      let bN ← toInt (bins.getD (n - 1) 0)
      barkRow nfft fs ap b0 bN (centers.getD j 0)) with
  | error e => rw [h1] at h; cases h
  | ok rows =>
    rw [h1, ok_bind] at h
    cases h2 : (scaleFbank sc n : Py (List ℝ)) with
    | error e => rw [h2] at h; cases h
    | ok s =>
      rw [h2, ok_bind] at h
      injection h with h; injection h with ha hb; subst ha; subst hb
      have hs : s.length = n := by
        unfold scaleFbank at h2
        split_ifs at h2 <;> injection h2 with h2 <;> rw [← h2] <;> simp
      have hr := mapM_length _ _ _ h1
      rw [List.length_range] at hr
      refine ⟨by simp [hr, hs], ?_, hlen⟩
      intro row hrow
      obtain ⟨i, hi, rfl⟩ := List.mem_iff_getElem.mp hrow
      have hi' : i < n := by simp [hr, hs] at hi; exact hi
      rw [List.getElem_zipWith, List.length_map]
      have hf2 := (mapM_ok_iff _ _ _).mp h1
      have hi2 : i < (List.range n).length := by simpa using hi'
      have := List.Forall₂.get hf2 hi2 (by omega)
      simp only [List.get_eq_getElem] at this
      cases t1 : toInt (bins.getD 0 0) with
      | error e => rw [t1] at this; cases this
      | ok b0 =>
        rw [t1, ok_bind] at this
        cases t2 : toInt (bins.getD (n - 1) 0) with
        | error e => rw [t2] at this; cases this
        | ok bN =>
          rw [t2, ok_bind] at this
          exact barkRow_length this

/-! ### C33 -/

/-- C33: the filter curve `Fm` on finite Bark values: in `[0,1]`, exactly 1 on the plateau, exactly 0 outside
`[-1.3, 2.5]`, positive inside. -/
theorem C33_curve (x c : ℝ) : ∃ v, fm (fin x) (fin c) = fin v ∧ 0 ≤ v ∧ v ≤ 1 ∧
    (|x - c| < 0.5 → v = 1) ∧ (v = 0 ↔ x - c < -1.3 ∨ 2.5 < x - c) := by
  refine ⟨_, fm_fin x c, barkCurve_nonneg _, barkCurve_le_one _, ?_, ?_⟩
  · intro h
    rw [abs_lt] at h
    unfold barkCurve
    norm_num at h ⊢
    rw [if_neg (by push Not; constructor <;> linarith), if_neg (by linarith), if_pos (by linarith)]
  · unfold barkCurve
    split_ifs with h1 h2 h3
    · simp [h1]
    · exact ⟨fun h => absurd h (by positivity), fun h => absurd h h1⟩
    · exact ⟨fun h => absurd h one_ne_zero, fun h => absurd h h1⟩
    · exact ⟨fun h => absurd h (by positivity), fun h => absurd h h1⟩

/-- C33: the curve rises (10 dB·2.5 per Bark) up to the plateau and falls after it. -/
theorem C33_monotone (c x y : ℝ) (h : x ≤ y) :
    ∃ u v, fm (fin x) (fin c) = fin u ∧ fm (fin y) (fin c) = fin v ∧
      (y - c < 0.5 → u ≤ v) ∧ (-0.5 < x - c → v ≤ u) := by
  refine ⟨_, _, fm_fin x c, fm_fin y c, ?_, ?_⟩
  · intro hy
    have hx : x - c ≤ y - c := by linarith
    generalize x - c = d at *
    generalize y - c = e at *
    unfold barkCurve
    norm_num at *
    by_cases a1 : d < -(13/10) ∨ 5/2 < d
    · rw [if_pos a1]; split_ifs <;> positivity
    · push Not at a1
      rw [if_neg (by push Not; exact a1)]
      rw [if_neg (show ¬ (e < -(13/10) ∨ 5/2 < e) by push Not; constructor <;> linarith)]
      by_cases a2 : d ≤ -(1/2)
      · rw [if_pos a2]
        split_ifs with b1
        · exact Real.rpow_le_rpow_of_exponent_le (by norm_num) (by linarith)
        · exact Real.rpow_le_one_of_one_le_of_nonpos (by norm_num) (by linarith)
      · rw [if_neg a2, if_pos (show d < 1 / 2 by linarith), if_neg (show ¬ e ≤ -(1/2) by linarith), if_pos hy]
  · intro hx0
    have hx : x - c ≤ y - c := by linarith
    generalize x - c = d at *
    generalize y - c = e at *
    unfold barkCurve
    norm_num at *
    by_cases a1 : e < -(13/10) ∨ 5/2 < e
    · rw [if_pos a1]; split_ifs <;> positivity
    · push Not at a1
      rw [if_neg (show ¬ (e < -(13/10) ∨ 5/2 < e) by push Not; exact a1)]
      rw [if_neg (show ¬ (d < -(13/10) ∨ 5/2 < d) by push Not; constructor <;> linarith)]
      rw [if_neg (show ¬ e ≤ -(1/2) by linarith), if_neg (show ¬ d ≤ -(1/2) by linarith)]
      split_ifs with b1 b2 b2
      · exact le_refl _
      · linarith
      · exact Real.rpow_le_one_of_one_le_of_nonpos (by norm_num) (by linarith)
      · exact Real.rpow_le_rpow_of_exponent_le (by norm_num) (by linarith)

example : fm (fin 3) (fin 3.4) = fin 1 := by
  obtain ⟨v, h, -, -, h1, -⟩ := C33_curve 3 3.4
  rw [h, h1 (by rw [abs_lt]; norm_num)]

/-! ### C34 -/

section
variable {scale ap : String} {w : ℕ → ℕ → ℝ} {B : ℝ → ℝ} {fs low high : ℝ} {hf : Option ℝ}

/-- C34 (Wang, Tjomov, Schroeder): for every `0 ≤ low`, `high ≤ fs/2` the bank is built; centres are evenly spaced
in Bark from `low` to `high`; entry `(j, k)` is the scale factor times the critical-band curve at the Bark distance
of bin frequency `k*fs/(nfft+1)` to centre `j`, restricted to the bins of the band; a single filter is all zero. -/
theorem C34_bark_ok_partial (hs : Scale scale w) (hB : BarkScale ap B) (he : EffHigh fs hf high) (hfs : 0 < fs)
    (h0 : 0 ≤ low) (h2 : high ≤ fs / 2) (n nfft : ℕ) :
    ∃ bank cs, barkFilterBanks n nfft fs low hf scale ap = .ok (bank, cs) ∧
      IsVector cs n (gridPoint (B low) (B high) n) ∧
      IsMatrix bank n (nfft / 2 + 1) (fun j k => w n j *
        if 2 ≤ n ∧ ⌊((nfft : ℝ) + 1) * (low / fs)⌋ ≤ k ∧ (k : ℤ) < ⌊((nfft : ℝ) + 1) * (high / fs)⌋
          then barkCurve (B (k * fs / (nfft + 1)) - gridPoint (B low) (B high) n j) else 0) := by
  obtain ⟨bank, h, hM⟩ := bark_eq (n := n) (nfft := nfft) hs he hfs h0 h2 (barkScale_eq hB low).1
    (barkScale_eq hB low).2 (barkScale_eq hB high).1 (barkScale_eq hB high).2
    (fun k c => barkCurve (B (k * fs / (nfft + 1)) - c))
    (fun k c => by rw [(barkScale_eq hB _).1, fm_fin])
  exact ⟨bank, _, h, isVector_map_range _ _, hM⟩

/-- C34 (Zwicker, `low > 0`): the bank is built. Missing from the full claim: Zwicker with `low = 0`, Terhardt,
Traunmueller, for which it is false (next theorems). -/
theorem C34_zwicker_ok_partial (hs : Scale scale w) (he : EffHigh fs hf high) (hfs : 0 < fs)
    (h0 : 0 < low) (h1 : 0 < high) (h2 : high ≤ fs / 2) (n nfft : ℕ) :
    ∃ bank cs, barkFilterBanks n nfft fs low hf scale "Zwicker" = .ok (bank, cs) ∧
      ∀ j k, j < n → k < nfft / 2 + 1 → ∃ v : ℝ, (bank.getD j []).getD k (fin 0) = fin v ∧ 0 ≤ v ∧ v ≤ 1 := by
  let g : ℕ → ℝ → ℝ := fun k c => if k = 0 then 0 else
    barkCurve (8.7 + 14.2 * Real.logb 10 (((k : ℝ) * fs / ((nfft : ℝ) + 1)) / 1000) - c)
  have hg : ∀ (k : ℕ) (c : ℝ), fm (hz2bark (fin (((k : ℝ) * fs) / ((nfft : ℝ) + 1))) "Zwicker") (fin c) =
      fin (g k c) := by
    intro k c
    by_cases hk : k = 0
    · subst hk
      simp only [g, if_true, Nat.cast_zero, zero_mul, zero_div]
      have : hz2bark (fin 0) "Zwicker" = ninf := by
        rw [hz2bark, if_neg (by decide), if_neg (by decide), if_neg (by decide), if_neg (by decide), if_pos rfl,
          fin_div _ _ (by norm_num), zero_div]
        norm_num [log10, mul_def, XF.mul, infMul, add_def, XF.add]
      rw [this, fm_ninf]
    · have : (0:ℝ) < k := by exact_mod_cast Nat.pos_of_ne_zero hk
      rw [hz2bark_zwicker (by positivity), fm_fin]
      simp only [g, if_neg hk]
  obtain ⟨bank, h, hM⟩ := bark_eq (n := n) (nfft := nfft) hs he hfs h0.le h2 (hz2bark_zwicker h0)
    (zwicker_roundtrip h0) (hz2bark_zwicker h1) (zwicker_roundtrip h1) g hg
  refine ⟨bank, _, h, fun j k hj hk => ⟨_, hM.2.2 j k hj hk, ?_⟩⟩
  obtain ⟨w0, w1⟩ := scale_range hs hj
  have hgr : ∀ k c, 0 ≤ g k c ∧ g k c ≤ 1 := by
    intro k c
    simp only [g]
    split_ifs
    · exact ⟨le_refl _, zero_le_one⟩
    · exact ⟨barkCurve_nonneg _, barkCurve_le_one _⟩
  beta_reduce
  split_ifs
  · exact ⟨mul_nonneg w0.le (hgr _ _).1, mul_le_one₀ w1 (hgr _ _).1 (hgr _ _).2⟩
  · simp

/-- C33: all entries of a Bark bank are finite numbers in `[0, 1]`. -/
theorem C33_bank_range (hs : Scale scale w) (hB : BarkScale ap B) (he : EffHigh fs hf high) (hfs : 0 < fs)
    (h0 : 0 ≤ low) (h2 : high ≤ fs / 2) (n nfft : ℕ) :
    ∃ bank cs, barkFilterBanks n nfft fs low hf scale ap = .ok (bank, cs) ∧
      ∀ j k, j < n → k < nfft / 2 + 1 → ∃ v : ℝ, (bank.getD j []).getD k (fin 0) = fin v ∧ 0 ≤ v ∧ v ≤ 1 := by
  obtain ⟨bank, cs, h, -, hM⟩ := C34_bark_ok_partial hs hB he hfs h0 h2 n nfft
  refine ⟨bank, cs, h, fun j k hj hk => ⟨_, hM.2.2 j k hj hk, ?_⟩⟩
  obtain ⟨w0, w1⟩ := scale_range hs hj
  simp only
  split_ifs
  · exact ⟨mul_nonneg w0.le (barkCurve_nonneg _), mul_le_one₀ w1 (barkCurve_nonneg _) (barkCurve_le_one _)⟩
  · simp

example : ∃ bank cs, barkFilterBanks 24 512 16000 0 none "constant" "Wang" = .ok (bank, cs) := by
  obtain ⟨bank, cs, h, -⟩ := C34_bark_ok_partial (fs := 16000) (low := 0) .constant .wang .none (by norm_num)
    (le_refl _) (le_refl _) 24 512
  exact ⟨bank, cs, h⟩

end

/-- C34 (violation): Zwicker with the default `low_freq = 0` raises `ValueError` (`int(nan)`), whatever the
other valid arguments. -/
theorem C34_zwicker_value_error (n nfft : ℕ) (hn : 1 ≤ n) (fs high : ℝ) (hf : Option ℝ) (he : EffHigh fs hf high)
    (h1 : 0 < high) (h2 : high ≤ fs / 2) (scale : String) :
    barkFilterBanks n nfft fs 0 hf scale "Zwicker" = .error .valueError := by
  have hz : hz2bark (fin 0) "Zwicker" = ninf := by
    rw [hz2bark, if_neg (by decide), if_neg (by decide), if_neg (by decide), if_neg (by decide), if_pos rfl,
      fin_div _ _ (by norm_num), zero_div]
    norm_num [log10, mul_def, XF.mul, infMul, add_def, XF.add]
  unfold barkFilterBanks
  simp only [effHigh_eq he]
  rw [if_neg (lt_irrefl _), if_neg (by linarith)]
  simp only [hz, hz2bark_zwicker h1]
  generalize 8.7 + 14.2 * Real.logb 10 (high / 1000) = bh
  have hsub : (fin bh : XF ℝ) - ninf = pinf := rfl
  have hfirst : (xlinspace ninf (fin bh) n).getD 0 0 = if n = 1 then nan else nan := by
    unfold xlinspace
    by_cases h : n = 1
    · rw [if_pos h, if_pos h, hsub]
      simp [mul_def, XF.mul, infMul, add_def, XF.add]
    · rw [if_neg h, if_neg h, getD_map_range_lt _ _ (by omega), if_neg (by omega), hsub]
      have hpos : (0:ℝ) < (n:ℝ) - 1 := by
        have : (1:ℝ) < n := by exact_mod_cast (by omega : 1 < n)
        linarith
      have : (pinf : XF ℝ) / fin ((n:ℝ) - 1) = pinf := by
        rw [div_def]; simp [inv, XF.mul, infMul, hpos.ne', hpos]
      rw [this]
      simp [mul_def, XF.mul, infMul]
  rw [ite_self] at hfirst
  have hlen : 0 < (xlinspace (ninf : XF ℝ) (fin bh) n).length := by
    unfold xlinspace; split_ifs <;> simp; omega
  have hb0 : toInt (((xlinspace (ninf : XF ℝ) (fin bh) n).map fun f =>
      XF.floor (fin ((nfft : ℝ) + 1) * (bark2hz f "Zwicker" / fin fs))).getD 0 0) = .error .valueError := by
    rw [getD_map_lt _ _ 0 _ hlen, hfirst]
    have : bark2hz (nan : XF ℝ) "Zwicker" = nan := by
      rw [bark2hz, if_neg (by decide), if_neg (by decide), if_neg (by decide), if_neg (by decide), if_pos rfl]
      simp [exp10]
    rw [this]; simp [XF.floor, toInt]
  obtain ⟨m, rfl⟩ : ∃ m, n = m + 1 := ⟨n - 1, by omega⟩
  rw [List.range_succ_eq_map, mapM_error _ .valueError]
  · rfl
  · rw [hb0]; rfl

example : barkFilterBanks 24 512 16000 0 none "constant" "Zwicker" = .error .valueError :=
  C34_zwicker_value_error 24 512 (by norm_num) 16000 _ none .none (by norm_num) (by norm_num) _

/-- `tan` of the Terhardt argument for 8000 Hz exceeds `6.1`. -/
private theorem terhardt_tan : (6.1 : ℝ) < Real.tan (13.3 * Real.arctan 6 / 13) := by
  have hpi := Real.pi_gt_three
  have hpi' := Real.pi_lt_d2
  -- bounds on arctan 6 = π/2 - arctan (1/6)
  have hinv : Real.arctan (6:ℝ)⁻¹ = Real.pi / 2 - Real.arctan 6 := Real.arctan_inv_of_pos (by norm_num)
  have hle : Real.arctan (6:ℝ)⁻¹ ≤ (6:ℝ)⁻¹ := by
    have h1 : 0 ≤ Real.arctan (6:ℝ)⁻¹ := Real.arctan_nonneg.mpr (by norm_num)
    calc Real.arctan (6:ℝ)⁻¹ ≤ Real.tan (Real.arctan (6:ℝ)⁻¹) :=
          Real.le_tan h1 (Real.arctan_lt_pi_div_two _)
      _ = _ := Real.tan_arctan _
  have hge : (0.1 : ℝ) < Real.arctan (6:ℝ)⁻¹ := by
    rw [← Real.arctan_tan (x := 0.1) (by linarith) (by linarith)]
    apply Real.arctan_strictMono
    rw [Real.tan_eq_sin_div_cos]
    have hs := Real.sin_lt (show (0:ℝ) < 0.1 by norm_num)
    have hc := Real.one_sub_sq_div_two_le_cos (x := (0.1:ℝ))
    rw [div_lt_iff₀ (by norm_num at hc ⊢; linarith)]
    norm_num at hs hc ⊢
    linarith
  have ha1 : 1.33 < Real.arctan 6 := by norm_num at *; linarith
  have ha2 : Real.arctan 6 < Real.pi / 2 - 0.1 := by linarith
  generalize hA : Real.arctan 6 = A at *
  have htA : Real.tan A = 6 := by rw [← hA, Real.tan_arctan]
  have hy : 13.3 * A / 13 < Real.pi / 2 := by norm_num at *; linarith
  -- tan is strictly above its value at A + 0.01
  have h1 : Real.tan (A + 0.01) ≤ Real.tan (13.3 * A / 13) := by
    apply (Real.strictMonoOn_tan.monotoneOn)
    · constructor <;> norm_num at * <;> linarith
    · constructor <;> norm_num at * <;> linarith
    · norm_num at *; linarith
  refine lt_of_lt_of_le ?_ h1
  have hcA : 0 < Real.cos A := Real.cos_pos_of_mem_Ioo ⟨by linarith, by linarith⟩
  have hsA : Real.sin A = 6 * Real.cos A := by
    rw [Real.tan_eq_sin_div_cos] at htA; field_simp at htA; linarith
  have hs := Real.sin_lt (show (0:ℝ) < 0.01 by norm_num)
  have hs' := Real.sin_gt_sub_cube (show (0:ℝ) < 0.01 by norm_num)
  have hc := Real.one_sub_sq_div_two_le_cos (x := (0.01:ℝ))
  have hc' := Real.cos_le_one (0.01:ℝ)
  rw [Real.tan_eq_sin_div_cos, Real.sin_add, Real.cos_add, hsA]
  generalize Real.sin 0.01 = s at *
  generalize Real.cos 0.01 = c at *
  generalize Real.cos A = x at *
  have hden : 0 < x * c - 6 * x * s := by
    have : 0 < x * (c - 6 * s) := mul_pos hcA (by norm_num at *; linarith)
    linarith
  rw [lt_div_iff₀ hden]
  have : 0 < x * (6 * c + s - 6.1 * (c - 6 * s)) := mul_pos hcA (by norm_num at *; linarith)
  linarith

/-- C34 (violation): with the default `nfft = 512`, `fs = 16000`, `low_freq = 0`, `high_freq = None`, approach
Terhardt writes past the last column and raises `IndexError`, for every number of filters from 2 on. -/
theorem C34_terhardt_index_error (n : ℕ) (hn : 2 ≤ n) (scale : String) :
    barkFilterBanks n 512 16000 0 none scale "Terhardt" = .error .indexError := by
  have ht := terhardt_tan
  have e6 : (16000 : ℝ) / 2 * 0.75 / 1000 = 6 := by norm_num
  unfold barkFilterBanks
  simp only [effHigh_eq EffHigh.none]
  rw [if_neg (lt_irrefl _), if_neg (lt_irrefl _)]
  simp only [hz2bark_terhardt, zero_mul, zero_div, Real.arctan_zero, mul_zero, e6, xlinspace_fin, List.map_map]
  obtain ⟨m, rfl⟩ : ∃ m, n = m + 1 := ⟨n - 1, by omega⟩
  rw [List.range_succ_eq_map (n := m), mapM_error _ .indexError]
  · rfl
  rw [← List.range_succ_eq_map, getD_map_range_lt _ _ (by omega : 0 < m + 1),
    getD_map_range_lt _ _ (by omega : m + 1 - 1 < m + 1)]
  simp only [Function.comp]
  rw [gridPoint_zero, gridPoint_last _ _ hn, bark2hz_terhardt, bark2hz_terhardt, fin_div _ _ (by norm_num),
    fin_div _ _ (by norm_num), fin_mul, fin_mul, toInt_floor, toInt_floor, ok_bind, ok_bind]
  have e0 : ⌊(((512:ℕ):ℝ) + 1) * (1000 / 0.75 * Real.tan (0 / 13) / 16000)⌋ = ((0:ℕ):ℤ) := by simp
  rw [e0]
  have eN : (258 : ℤ) ≤ ⌊(((512:ℕ):ℝ) + 1) * (1000 / 0.75 * Real.tan (13.3 * Real.arctan 6 / 13) / 16000)⌋ := by
    rw [Int.le_floor]
    norm_num at ht ⊢
    linarith
  generalize ⌊(((512:ℕ):ℝ) + 1) * (1000 / 0.75 * Real.tan (13.3 * Real.arctan 6 / 13) / 16000)⌋ = bN at eN
  unfold barkRow
  rw [pyRange_nonneg]
  exact foldlM_set_oob (fun i => fm (hz2bark (fin (((i : ℝ) * 16000) / (((512:ℕ) : ℝ) + 1))) "Terhardt") _) (fin 0) 0 _ _
    (Nat.zero_le _) (by rw [List.length_replicate]; omega)

private theorem zero_bank (n c : ℕ) (w : ℕ → ℝ) : IsMatrix
    (List.zipWith (fun r (s : ℝ) => r.map (· * fin s)) ((List.range n).map fun _ => List.replicate c (fin 0))
      ((List.range n).map w)) n c (fun _ _ => 0) := by
  refine ⟨by simp, ?_, ?_⟩
  · intro row hr
    obtain ⟨i, hi, rfl⟩ := List.mem_iff_getElem.mp hr
    simp
  · intro j k hj hk
    rw [getD_zipWith_lt _ _ _ _ [] 0 (by simpa using hj) (by simpa using hj),
      getD_map_range_lt (fun _ => List.replicate c (fin 0)) _ hj,
      getD_map_lt _ _ (fin 0) _ (by simpa using hk), getD_replicate', if_pos hk, fin_mul, zero_mul]

/-- Traunmueller conversion of the two ends of the default band. -/
private theorem traun_ends :
    (∃ v, bark2hz (fin (26.28 * 0 / (1 + 1960) - 0.53)) "Traunmueller" = fin v ∧ v < 0 ∧ -33 < v) ∧
    ∃ v, bark2hz (fin (26.28 * (16000 / 2) / (1 + 1960) - 0.53)) "Traunmueller" = fin v ∧ v < -100 := by
  constructor
  · generalize hb : (26.28 * 0 / (1 + 1960) - 0.53 : ℝ) = b
    have hb' : b = -0.53 := by rw [← hb]; norm_num
    have hh : traunmuellerHelper (fin b) = fin ((b - 0.3) / 0.85) := by
      have : b < 2 := by rw [hb']; norm_num
      simp only [traunmuellerHelper, ltb_fin, decide_eq_true_eq, if_pos this]
      rw [fin_sub, fin_div _ _ (by norm_num)]
    refine ⟨1960 * (((b - 0.3) / 0.85 + 0.53) / (26.28 - (b - 0.3) / 0.85)), ?_, ?_, ?_⟩
    · rw [bark2hz, if_neg (by decide), if_neg (by decide), if_neg (by decide), if_neg (by decide),
        if_neg (by decide), if_pos rfl, hh, fin_add, fin_sub, fin_div _ _ (by rw [hb']; norm_num), fin_mul]
    · rw [hb']; norm_num
    · rw [hb']; norm_num
  · generalize hb : (26.28 * (16000 / 2) / (1 + 1960) - 0.53 : ℝ) = b
    have hh : traunmuellerHelper (fin b) = fin ((b + 4.422) / 1.22) := by
      have h1 : ¬ b < 2 := by rw [← hb]; norm_num
      have h2 : 20.1 < b := by rw [← hb]; norm_num
      simp only [traunmuellerHelper, ltb_fin, decide_eq_true_eq, if_neg h1, if_pos h2]
      rw [fin_add, fin_div _ _ (by norm_num)]
    refine ⟨1960 * (((b + 4.422) / 1.22 + 0.53) / (26.28 - (b + 4.422) / 1.22)), ?_, ?_⟩
    · rw [bark2hz, if_neg (by decide), if_neg (by decide), if_neg (by decide), if_neg (by decide),
        if_neg (by decide), if_pos rfl, hh, fin_add, fin_sub, fin_div _ _ (by rw [← hb]; norm_num), fin_mul]
    · rw [← hb]; norm_num

/-- C34 (violation): with the default arguments approach Traunmueller returns an all-zero bank. -/
theorem C34_traunmueller_zero_bank (n : ℕ) (scale : String) (w : ℕ → ℕ → ℝ) (hs : Scale scale w) :
    ∃ bank cs, barkFilterBanks n 512 16000 0 none scale "Traunmueller" = .ok (bank, cs) ∧
      IsMatrix bank n 257 (fun _ _ => 0) := by
  obtain ⟨⟨v0, hv0, hv0n, hv0l⟩, v1, hv1, hv1l⟩ := traun_ends
  unfold barkFilterBanks
  simp only [effHigh_eq EffHigh.none]
  rw [if_neg (lt_irrefl _), if_neg (lt_irrefl _)]
  simp only [hz2bark_traun, xlinspace_fin, List.map_map]
  rw [mapM_ok _ (fun _ => List.replicate 257 (fin 0)), ok_bind, scale_ok hs, ok_bind]
  · exact ⟨_, _, rfl, zero_bank n 257 (w n)⟩
  · intro j hj
    have hj : j < n := by simpa using hj
    rw [getD_map_range_lt _ _ (by omega : 0 < n), getD_map_range_lt _ _ (by omega : n - 1 < n)]
    simp only [Function.comp]
    rw [gridPoint_zero, hv0, fin_div _ _ (by norm_num), fin_mul, toInt_floor, ok_bind]
    by_cases hn : 2 ≤ n
    · rw [gridPoint_last _ _ hn, hv1, fin_div _ _ (by norm_num), fin_mul, toInt_floor, ok_bind]
      have : ⌊(((512:ℕ):ℝ) + 1) * (v1 / 16000)⌋ ≤ ⌊(((512:ℕ):ℝ) + 1) * (v0 / 16000)⌋ := by
        apply Int.floor_le_floor
        push_cast; linarith
      unfold barkRow pyRange
      rw [show (⌊(((512:ℕ):ℝ) + 1) * (v1 / 16000)⌋ - ⌊(((512:ℕ):ℝ) + 1) * (v0 / 16000)⌋).toNat = 0 by omega]
      rfl
    · have : n - 1 = 0 := by omega
      rw [this, gridPoint_zero, hv0, fin_div _ _ (by norm_num), fin_mul, toInt_floor, ok_bind]
      unfold barkRow pyRange
      rw [sub_self]; rfl

end Props
end Spafe
