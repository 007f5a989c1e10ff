import Verif.Model.BarkFbanks
import Verif.Lemmas.MelFbanks

/-! Helper lemmas for `bark_fbanks.py`. -/

set_option linter.unusedSectionVars false

namespace Spafe
open XF Spec Model

theorem fm_fin (x c : ℝ) : fm (fin x) (fin c) = fin (barkCurve (x - c)) := by
  unfold fm barkCurve
  simp only [fin_sub, ltb_fin, leb_fin, Bool.or_eq_true, decide_eq_true_eq, Bool.and_eq_true, fin_add, fin_mul]
  generalize x - c = d
  by_cases h1 : d < -1.3 ∨ 2.5 < d
  · rw [if_pos h1, if_pos h1]
  rw [if_neg h1, if_neg h1]
  push Not at h1
  by_cases h2 : d ≤ -0.5
  · rw [if_pos ⟨h1.1, h2⟩, if_pos h2]; rfl
  rw [if_neg (by tauto), if_neg h2]
  push Not at h2
  by_cases h3 : d < 0.5
  · rw [if_pos ⟨h2, h3⟩, if_pos h3]
  · rw [if_neg (by tauto), if_neg h3]
    show fin _ = fin _
    congr 2; ring

theorem fm_ninf (c : ℝ) : fm ninf (fin c) = fin 0 := by
  have : (ninf : XF ℝ) - fin c = ninf := rfl
  unfold fm
  rw [this]; simp [ltb]

theorem barkCurve_nonneg (d : ℝ) : 0 ≤ barkCurve d := by
  unfold barkCurve; split_ifs
  · exact le_refl _
  · positivity
  · exact zero_le_one
  · positivity

theorem barkCurve_le_one (d : ℝ) : barkCurve d ≤ 1 := by
  unfold barkCurve; split_ifs with h1 h2 h3
  · exact zero_le_one
  · exact Real.rpow_le_one_of_one_le_of_nonpos (by norm_num) (by linarith)
  · exact le_refl _
  · exact Real.rpow_le_one_of_one_le_of_nonpos (by norm_num) (by push Not at h3; linarith)

theorem pySet_nonneg {β : Type} (l : List β) (i : ℕ) (v : β) (h : i < l.length) :
    pySet l (i : ℤ) v = .ok (l.set i v) := by
  unfold pySet
  rw [if_pos (by omega), if_pos (by omega)]; rfl

theorem getD_set' {β : Type} (l : List β) (i k : ℕ) (v d : β) :
    (l.set i v).getD k d = if i = k ∧ k < l.length then v else l.getD k d := by
  by_cases h : i = k
  · subst h
    by_cases h2 : i < l.length
    · simp [List.getD, h2]
    · simp [List.getD, h2]
  · simp [List.getD, h]

/-- The assignment loop over an in-bounds range. -/
theorem foldlM_set {β : Type} (v : ℤ → β) (d : β) (b0 : ℕ) (m : ℕ) (init : List β) (h : b0 + m ≤ init.length) :
    ∃ row, ((List.range m).map fun (i : ℕ) => (b0 : ℤ) + (i : ℤ)).foldlM (fun row i => pySet row i (v i)) init =
        (.ok row : Py (List β)) ∧ row.length = init.length ∧
      ∀ k, row.getD k d = if b0 ≤ k ∧ k < b0 + m then v k else init.getD k d := by
  induction m with
  | zero =>
    refine ⟨init, rfl, rfl, fun k => ?_⟩
    rw [if_neg (by omega)]
  | succ m ih =>
    obtain ⟨row, h1, h2, h3⟩ := ih (by omega)
    rw [List.range_succ, List.map_append, List.foldlM_append, h1, ok_bind]
    refine ⟨row.set (b0 + m) (v ((b0 + m : ℕ) : ℤ)), ?_, by simp [h2], ?_⟩
    · have := pySet_nonneg row (b0 + m) (v ((b0 + m : ℕ) : ℤ)) (by omega)
      simp only [List.map_cons, List.map_nil, List.foldlM_cons, List.foldlM_nil]
      push_cast at this ⊢
      rw [this]; rfl
    · intro k
      rw [getD_set', h3]
      by_cases hk : b0 + m = k
      · subst hk
        rw [if_pos ⟨rfl, by omega⟩, if_pos (by omega)]
      · rw [if_neg (by tauto)]
        by_cases hk2 : b0 ≤ k ∧ k < b0 + m
        · rw [if_pos hk2, if_pos (by omega)]
        · rw [if_neg hk2, if_neg (by omega)]

/-- The loop raises `IndexError` when the range runs past the row. -/
theorem foldlM_set_oob {β : Type} (v : ℤ → β) (d : β) (b0 : ℕ) (m : ℕ) (init : List β) (h0 : b0 ≤ init.length)
    (h : init.length < b0 + m) :
    ((List.range m).map fun (i : ℕ) => (b0 : ℤ) + (i : ℤ)).foldlM (fun row i => pySet row i (v i)) init =
        (.error .indexError : Py (List β)) := by
  obtain ⟨p, hp⟩ := Nat.exists_eq_add_of_le h0
  obtain ⟨q, hq⟩ : ∃ q, m = p + (q + 1) := ⟨m - p - 1, by omega⟩
  obtain ⟨row, h1, h2, -⟩ := foldlM_set v d b0 p init (by omega)
  rw [hq, List.range_add, List.map_append, List.foldlM_append, h1, ok_bind, List.range_succ_eq_map]
  simp only [List.map_cons, List.foldlM_cons]
  have : pySet row ((b0 : ℤ) + ((p + 0 : ℕ) : ℤ)) (v ((b0 : ℤ) + ((p + 0 : ℕ) : ℤ))) = .error .indexError := by
    unfold pySet
    rw [if_pos (by omega), if_neg (by push_cast; omega)]
  rw [this]; rfl

theorem pyRange_nonneg (b0 : ℕ) (bN : ℤ) :
    pyRange (b0 : ℤ) bN = (List.range (bN - b0).toNat).map fun (i : ℕ) => (b0 : ℤ) + (i : ℤ) := rfl

theorem toInt_floor (x : ℝ) : toInt (XF.floor (fin x)) = .ok ⌊x⌋ := by
  show Except.ok (pyInt ((⌊x⌋ : ℤ) : ℝ)) = _
  congr 1
  unfold pyInt
  split_ifs <;> simp

theorem barkRow_ok {nfft : ℕ} {fs : ℝ} {ap : String} (b0 : ℕ) (bN : ℤ) (fc : XF ℝ) (h0 : b0 ≤ nfft / 2 + 1)
    (h : bN ≤ (nfft / 2 + 1 : ℕ)) :
    ∃ row, barkRow nfft fs ap (b0 : ℤ) bN fc = .ok row ∧ row.length = nfft / 2 + 1 ∧
      ∀ k, row.getD k (fin 0) = if b0 ≤ k ∧ (k : ℤ) < bN then
        fm (hz2bark (fin (((k : ℝ) * fs) / ((nfft : ℝ) + 1))) ap) fc else fin 0 := by
  unfold barkRow
  rw [pyRange_nonneg]
  obtain ⟨row, h1, h2, h3⟩ := foldlM_set
    (fun i => fm (hz2bark (fin (((i : ℝ) * fs) / ((nfft : ℝ) + 1))) ap) fc) (fin 0) b0 (bN - b0).toNat
    (List.replicate (nfft / 2 + 1) (fin 0)) (by simp; omega)
  refine ⟨row, h1, by simpa using h2, fun k => ?_⟩
  rw [h3]
  by_cases hk : b0 ≤ k ∧ (k : ℤ) < bN
  · rw [if_pos hk, if_pos (by omega)]; simp
  · rw [if_neg hk, if_neg (by omega), getD_replicate']; split_ifs <;> rfl

theorem xlinspace_fin (x y : ℝ) (n : ℕ) :
    xlinspace (fin x) (fin y) n = (List.range n).map fun (j : ℕ) => fin (gridPoint x y n j) := by
  unfold xlinspace gridPoint
  by_cases h1 : n = 1
  · subst h1; simp
  · rw [if_neg h1]
    apply List.map_congr_left
    intro j hj
    have hj : j < n := by simpa using hj
    have hn : ((n:ℝ) - 1) ≠ 0 := by
      have : (1:ℝ) < n := by exact_mod_cast (by omega : 1 < n)
      linarith
    rw [Nat.cast_sub (by omega)]
    split_ifs with h2
    · subst h2
      rw [Nat.cast_sub (by omega)]
      push_cast
      congr 1; field_simp; ring
    · rw [fin_sub, fin_div _ _ hn, fin_mul, fin_add]
      congr 1; push_cast; ring

theorem gridPoint_zero (x y : ℝ) (n : ℕ) : gridPoint x y n 0 = x := by simp [gridPoint]
theorem gridPoint_last (x y : ℝ) {n : ℕ} (h : 2 ≤ n) : gridPoint x y n (n - 1) = y := by
  unfold gridPoint
  have : ((n - 1 : ℕ) : ℝ) ≠ 0 := by exact_mod_cast (by omega : n - 1 ≠ 0)
  field_simp; ring

/-- Bin number of a frequency. -/
noncomputable def barkBin (nfft : ℕ) (fs f : ℝ) : ℤ := ⌊((nfft : ℝ) + 1) * (f / fs)⌋

theorem barkBin_nonneg {nfft : ℕ} {fs f : ℝ} (hfs : 0 < fs) (hf : 0 ≤ f) : 0 ≤ barkBin nfft fs f :=
  Int.floor_nonneg.mpr (by positivity)

theorem barkBin_le {nfft : ℕ} {fs f : ℝ} (hfs : 0 < fs) (hf : f ≤ fs / 2) :
    barkBin nfft fs f ≤ (nfft / 2 + 1 : ℕ) := by
  have h1 : f / fs ≤ 1 / 2 := by rw [div_le_iff₀ hfs]; linarith
  have h2 : (nfft : ℝ) ≤ 2 * (nfft / 2 : ℕ) + 1 := by exact_mod_cast (by omega : nfft ≤ 2 * (nfft / 2) + 1)
  have : ((nfft : ℝ) + 1) * (f / fs) ≤ (nfft / 2 + 1 : ℕ) := by
    push_cast
    have hn : (0:ℝ) ≤ (nfft : ℝ) + 1 := by positivity
    nlinarith
  have h3 := (Int.floor_le (((nfft : ℝ) + 1) * (f / fs))).trans this
  have h4 : ((barkBin nfft fs f : ℤ) : ℝ) ≤ (((nfft / 2 + 1 : ℕ) : ℤ) : ℝ) := by
    rw [Int.cast_natCast]; exact h3
  exact_mod_cast h4

/-- Whenever the two ends of the band convert to finite Bark values and back, the bank is built and has the
stated entries. -/
theorem bark_eq {n nfft : ℕ} {fs low high bl bh : ℝ} {hf : Option ℝ} {scale ap : String} {w : ℕ → ℕ → ℝ}
    (hs : Scale scale w) (he : EffHigh fs hf high) (hfs : 0 < fs) (h0 : 0 ≤ low) (h2 : high ≤ fs / 2)
    (hl : hz2bark (fin low) ap = fin bl) (hl' : bark2hz (fin bl) ap = fin low)
    (hh : hz2bark (fin high) ap = fin bh) (hh' : bark2hz (fin bh) ap = fin high)
    (g : ℕ → ℝ → ℝ)
    (hg : ∀ (k : ℕ) (c : ℝ), fm (hz2bark (fin (((k : ℝ) * fs) / ((nfft : ℝ) + 1))) ap) (fin c) = fin (g k c)) :
    ∃ bank, barkFilterBanks n nfft fs low hf scale ap = .ok (bank,
        (List.range n).map fun (j : ℕ) => fin (gridPoint bl bh n j)) ∧
      IsMatrix bank n (nfft / 2 + 1) (fun j k =>
        w n j * if 2 ≤ n ∧ barkBin nfft fs low ≤ k ∧ (k : ℤ) < barkBin nfft fs high
          then g k (gridPoint bl bh n j) else 0) := by
  unfold barkFilterBanks
  simp only [effHigh_eq he]
  have e1 : ¬ low < 0 := by linarith
  have e2 : ¬ high > fs / 2 := by linarith
  rw [if_neg e1, if_neg e2]
  simp only [hl, hh, xlinspace_fin, List.map_map]
  -- the two bins
  have hbin : ∀ (f b : ℝ), bark2hz (fin b) ap = fin f →
      toInt (XF.floor (fin ((nfft : ℝ) + 1) * (bark2hz (fin b) ap / fin fs))) = .ok (barkBin nfft fs f) := by
    intro f b hb
    rw [hb, fin_div _ _ hfs.ne', fin_mul, toInt_floor]; rfl
  have hrow : ∀ j, j < n → ∃ row : List (XF ℝ), (do
      let b0 ← toInt (((List.range n).map ((fun f => XF.floor (fin ((nfft : ℝ) + 1) * (bark2hz f ap / fin fs))) ∘
        fun (j : ℕ) => fin (gridPoint bl bh n j))).getD 0 0)
      let bN ← toInt (((List.range n).map ((fun f => XF.floor (fin ((nfft : ℝ) + 1) * (bark2hz f ap / fin fs))) ∘
        fun (j : ℕ) => fin (gridPoint bl bh n j))).getD (n - 1) 0)
      barkRow nfft fs ap b0 bN (((List.range n).map fun (j : ℕ) => fin (gridPoint bl bh n j)).getD j 0)) =
        (.ok row : Py (List (XF ℝ))) ∧
      row.length = nfft / 2 + 1 ∧ ∀ k, row.getD k (fin 0) =
        fin (if 2 ≤ n ∧ barkBin nfft fs low ≤ k ∧ (k : ℤ) < barkBin nfft fs high
          then g k (gridPoint bl bh n j) else 0) := by
    intro j hj
    rw [getD_map_range_lt _ _ (by omega : 0 < n), getD_map_range_lt _ _ (by omega : n - 1 < n),
      getD_map_range_lt _ _ hj]
    simp only [Function.comp]
    rw [gridPoint_zero, hbin low bl hl', ok_bind]
    obtain ⟨b0, hb0⟩ := Int.eq_ofNat_of_zero_le (barkBin_nonneg (nfft := nfft) hfs h0)
    by_cases hn : 2 ≤ n
    · rw [gridPoint_last _ _ hn, hbin high bh hh', ok_bind]
      by_cases hle : b0 ≤ nfft / 2 + 1
      · obtain ⟨row, r1, r2, r3⟩ := barkRow_ok (fs := fs) (ap := ap) b0 (barkBin nfft fs high)
          (fin (gridPoint bl bh n j)) hle (barkBin_le hfs h2)
        refine ⟨row, by rw [hb0]; exact r1, r2, fun k => ?_⟩
        rw [r3, hg]
        by_cases hc : b0 ≤ k ∧ (k : ℤ) < barkBin nfft fs high
        · rw [if_pos hc, if_pos ⟨hn, by omega, hc.2⟩]
        · rw [if_neg hc, if_neg (by rw [hb0]; omega)]
      · have hbh := barkBin_le (nfft := nfft) hfs h2
        refine ⟨List.replicate (nfft / 2 + 1) (fin 0), ?_, by simp, fun k => ?_⟩
        · unfold barkRow pyRange
          rw [hb0, show (barkBin nfft fs high - (b0:ℤ)).toNat = 0 by omega]; rfl
        · rw [if_neg (by rw [hb0]; omega), getD_replicate']; split_ifs <;> rfl
    · have hn1 : n = 1 := by omega
      subst hn1
      simp only [Nat.sub_self, gridPoint_zero]
      rw [hbin low bl hl', ok_bind]
      refine ⟨List.replicate (nfft / 2 + 1) (fin 0), ?_, by simp, fun k => ?_⟩
      · unfold barkRow pyRange
        rw [sub_self]; rfl
      · rw [if_neg (by omega), getD_replicate']; split_ifs <;> rfl
  choose! rows hrows using hrow
  rw [mapM_ok _ rows _ fun j hj => (hrows j (by simpa using hj)).1, ok_bind, scale_ok hs, ok_bind]
  refine ⟨_, rfl, by simp, ?_, ?_⟩
  · intro row hr
    rw [List.mem_iff_getElem] at hr
    obtain ⟨i, hi, rfl⟩ := hr
    have hi : i < n := by simpa using hi
    simp [(hrows i hi).2.1]
  · intro j k hj hk
    rw [getD_zipWith_lt _ _ _ _ [] 0 (by simpa using hj) (by simpa using hj), getD_map_range_lt _ _ hj,
      getD_map_range_lt _ _ hj, getD_map_lt _ _ (fin 0) _ (by rw [(hrows j hj).2.1]; exact hk),
      (hrows j hj).2.2, fin_mul, mul_comm]

theorem barkScale_eq {ap : String} {B : ℝ → ℝ} (h : BarkScale ap B) (f : ℝ) :
    hz2bark (fin f) ap = fin (B f) ∧ bark2hz (fin (B f)) ap = fin f := by
  cases h
  · refine ⟨hz2bark_wang f, ?_⟩
    rw [bark2hz_wang, mul_div_cancel_left₀ _ (by norm_num), Real.sinh_arsinh]
    congr 1; ring
  · refine ⟨hz2bark_tjomov f, ?_⟩
    rw [bark2hz_tjomov, mul_div_cancel_left₀ _ (by norm_num), Real.sinh_arsinh]
    congr 1; ring
  · refine ⟨hz2bark_schroeder f, ?_⟩
    rw [bark2hz_schroeder, mul_div_cancel_left₀ _ (by norm_num), Real.sinh_arsinh]
    congr 1; ring

theorem zwicker_roundtrip {f : ℝ} (hf : 0 < f) :
    bark2hz (fin (8.7 + 14.2 * Real.logb 10 (f / 1000))) "Zwicker" = fin f := by
  rw [bark2hz_zwicker, add_sub_cancel_left, mul_div_cancel_left₀ _ (by norm_num),
      Real.rpow_add (by norm_num), Real.rpow_logb (by norm_num) (by norm_num) (by positivity)]
  congr 1
  have : (10:ℝ) ^ (3:ℝ) = 1000 := by
    rw [show (3:ℝ) = ((3:ℕ):ℝ) by norm_num, Real.rpow_natCast]; norm_num
  rw [this]; ring

end Spafe
