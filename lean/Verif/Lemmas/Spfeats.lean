import Verif.Model.Spfeats
import Verif.Spec.Spfeats
import Verif.Lemmas.ListAux
import Verif.Lemmas.Plp

/-! Lemmas about the spectral descriptors. -/

set_option linter.unusedSectionVars false

namespace Spafe
open Model XF

theorem magSpec_length (s : List ℂ) : (magSpec s).length = s.length := by simp [magSpec]

theorem magSpec_getD (s : List ℂ) {k : ℕ} (h : k < s.length) : (magSpec s).getD k 0 = Spec.mag s k :=
  getD_map_lt _ _ 0 _ h

theorem magSpec_sum (s : List ℂ) : (magSpec s).sum = Spec.total s := by
  rw [sum_eq_sum_getD, magSpec_length]
  exact Finset.sum_congr rfl fun k hk => magSpec_getD s (Finset.mem_range.mp hk)

theorem mag_nonneg (s : List ℂ) (k : ℕ) : 0 ≤ Spec.mag s k := norm_nonneg _

theorem total_nonneg (s : List ℂ) : 0 ≤ Spec.total s := Finset.sum_nonneg fun _ _ => mag_nonneg _ _

theorem total_pos_iff (s : List ℂ) : 0 < Spec.total s ↔ ∃ z ∈ s, z ≠ 0 := by
  constructor
  · intro h
    obtain ⟨k, hk, hne⟩ := Finset.exists_ne_zero_of_sum_ne_zero h.ne'
    exact ⟨s.getD k 0, getD_mem 0 (Finset.mem_range.mp hk), fun h0 => hne (by rw [Spec.mag, h0, norm_zero])⟩
  · rintro ⟨z, hz, hne⟩
    obtain ⟨k, hk, rfl⟩ := (mem_iff_getD 0 z).mp hz
    exact Finset.sum_pos' (fun _ _ => mag_nonneg _ _) ⟨k, Finset.mem_range.mpr hk, norm_pos_iff.mpr hne⟩

theorem total_eq_zero_iff (s : List ℂ) : Spec.total s = 0 ↔ ∀ z ∈ s, z = 0 := by
  rw [← not_iff_not, ← ne_eq, ← (total_nonneg s).lt_iff_ne', total_pos_iff]; push Not; rfl

theorem fftfreq_length (n : ℕ) (fs : ℝ) : (Np.fftfreq n fs).length = n := by simp [Np.fftfreq]

theorem abs_fftfreq_getD (fs : ℝ) (hfs : 0 < fs) {n k : ℕ} (hk : k < n) :
    ((Np.fftfreq n fs).map fun f => |f|).getD k 0 = Spec.binFreq fs n k := by
  rw [getD_map_lt _ _ 0 _ (by rw [fftfreq_length]; exact hk), Np.fftfreq, getD_map_range_lt _ _ hk, Spec.binFreq]
  have hn : (0 : ℝ) < n := by exact_mod_cast (by omega : 0 < n)
  have hkn : (k : ℝ) < n := by exact_mod_cast hk
  rw [abs_div, abs_mul, abs_of_pos hn, abs_of_pos hfs]
  congr 2
  split_ifs with h
  · have h2 : (2 * k : ℝ) < n + 1 := by
      have : 2 * k < n + 1 := by omega
      exact_mod_cast this
    have h3 : (2 * k : ℝ) ≤ n := by
      have : 2 * k ≤ n := by omega
      exact_mod_cast this
    rw [abs_of_nonneg (by positivity), min_eq_left (by linarith)]
  · have h3 : (n : ℝ) ≤ 2 * k := by
      have : n ≤ 2 * k := by omega
      exact_mod_cast this
    rw [abs_of_neg (by linarith), min_eq_right (by linarith)]; ring

theorem absFreqs_ok (fs : ℝ) (hfs : 0 < fs) {n : ℕ} (hn : 0 < n) :
    absFreqs fs n = .ok ((Np.fftfreq n fs).map fun f => |f|) := by
  rw [absFreqs, if_neg (by rintro (h | h) <;> linarith [hfs])]

theorem binFreq_nonneg (fs : ℝ) (hfs : 0 < fs) {n k : ℕ} (hk : k < n) : 0 ≤ Spec.binFreq fs n k := by
  have hkn : (k : ℝ) < n := by exact_mod_cast hk
  have : 0 ≤ min (k : ℝ) ((n : ℝ) - k) := le_min (by positivity) (by linarith)
  unfold Spec.binFreq; positivity

theorem binFreq_le (fs : ℝ) (hfs : 0 < fs) {n k : ℕ} (hk : k < n) : Spec.binFreq fs n k ≤ fs / 2 := by
  have hn : (0 : ℝ) < n := by exact_mod_cast (by omega : 0 < n)
  have h : min (k : ℝ) ((n : ℝ) - k) ≤ n / 2 := by
    rcases le_total (k : ℝ) (n / 2) with h | h
    · exact (min_le_left _ _).trans h
    · exact (min_le_right _ _).trans (by linarith)
  rw [Spec.binFreq, div_le_div_iff₀ hn two_pos]
  nlinarith

theorem zip_sum (g : ℝ → ℝ → ℝ) (fs : ℝ) (hfs : 0 < fs) (s : List ℂ) :
    (List.zipWith g (magSpec s) ((Np.fftfreq s.length fs).map fun f => |f|)).sum =
      ∑ k ∈ Finset.range s.length, g (Spec.mag s k) (Spec.binFreq fs s.length k) := by
  rw [sum_eq_sum_getD]
  have hl : (List.zipWith g (magSpec s) ((Np.fftfreq s.length fs).map fun f => |f|)).length = s.length := by
    simp [magSpec_length, fftfreq_length]
  rw [hl]
  refine Finset.sum_congr rfl fun k hk => ?_
  have hk := Finset.mem_range.mp hk
  rw [getD_zipWith_lt _ _ _ _ 0 0 (by rwa [magSpec_length]) (by simpa [fftfreq_length] using hk),
    magSpec_getD s hk, abs_fftfreq_getD fs hfs hk]

theorem centroid_raw (fs : ℝ) (hfs : 0 < fs) (s : List ℂ) (hn : 0 < s.length) (i : ℕ) :
    spectralCentroid fs s i =
      .ok (fin (∑ k ∈ Finset.range s.length, Spec.mag s k * Spec.binFreq fs s.length k ^ i) / fin (Spec.total s)) := by
  rw [spectralCentroid, absFreqs_ok fs hfs hn, ok_bind, magSpec_sum, zip_sum (fun m f => m * f ^ i) fs hfs]

theorem length_pos_of_ex {s : List ℂ} (hs : ∃ z ∈ s, z ≠ 0) : 0 < s.length := by
  obtain ⟨z, hz, -⟩ := hs; exact List.length_pos_of_mem hz

theorem centroid_eq (fs : ℝ) (hfs : 0 < fs) (s : List ℂ) (hs : ∃ z ∈ s, z ≠ 0) (i : ℕ) :
    spectralCentroid fs s i = .ok (fin (Spec.barycenter fs s i)) := by
  rw [centroid_raw fs hfs s (length_pos_of_ex hs), fin_div _ _ ((total_pos_iff s).mpr hs).ne', Spec.barycenter]

theorem zip_fin_sum (g : ℝ → ℝ → ℝ) (a b : List ℝ) :
    (List.zipWith (fun x y => fin (g x y)) a b).sum = fin (List.zipWith g a b).sum := by
  rw [← list_sum_fin, List.map_zipWith]

theorem moment_raw (p : ℕ) (fs : ℝ) (hfs : 0 < fs) (s : List ℂ) (hs : ∃ z ∈ s, z ≠ 0) :
    spectralMoment p fs s = .ok
      (fin (∑ k ∈ Finset.range s.length, Spec.mag s k * (Spec.binFreq fs s.length k - Spec.barycenter fs s 1) ^ p) /
        fin (Spec.total s * Spec.barycenter fs s 2 ^ p)) := by
  rw [spectralMoment, centroid_eq fs hfs s hs, ok_bind, centroid_eq fs hfs s hs, ok_bind,
    absFreqs_ok fs hfs (length_pos_of_ex hs), ok_bind, magSpec_sum]
  simp only [fin_sub, powNat_fin, fin_mul]
  rw [zip_fin_sum (fun m f => m * (f - Spec.barycenter fs s 1) ^ p),
    zip_sum (fun m f => m * (f - Spec.barycenter fs s 1) ^ p) fs hfs]

theorem mag_scale (c : ℂ) (s : List ℂ) (k : ℕ) : Spec.mag (s.map (c * ·)) k = ‖c‖ * Spec.mag s k := by
  have : (s.map (c * ·)).getD k 0 = c * s.getD k 0 := by
    by_cases h : k < s.length
    · rw [getD_map_lt (c * ·) s 0 0 h]
    · simp [List.getD, List.getElem?_eq_none (not_lt.mp h)]
  rw [Spec.mag, this, norm_mul, Spec.mag]

theorem total_scale (c : ℂ) (s : List ℂ) : Spec.total (s.map (c * ·)) = ‖c‖ * Spec.total s := by
  simp only [Spec.total, List.length_map, mag_scale, Finset.mul_sum]

theorem div_scale (c a b : ℝ) (hc : 0 < c) (_hb : 0 ≤ b) : fin (c * a) / fin (c * b) = fin a / fin b := by
  by_cases h : b = 0
  · subst h
    rw [mul_zero]
    rcases lt_trichotomy a 0 with h | h | h
    · rw [fin_div_zero_of_neg _ h, fin_div_zero_of_neg _ (mul_neg_of_pos_of_neg hc h)]
    · simp [h]
    · rw [fin_div_zero_of_pos _ h, fin_div_zero_of_pos _ (mul_pos hc h)]
  · rw [fin_div _ _ h, fin_div _ _ (mul_ne_zero hc.ne' h), mul_div_mul_left _ _ hc.ne']

theorem magSpec_scale (c : ℂ) (s : List ℂ) : magSpec (s.map (c * ·)) = (magSpec s).map (‖c‖ * ·) := by
  simp [magSpec, Function.comp_def]

theorem zip_mul_sum (c : ℝ) (g : ℝ → ℝ) (a b : List ℝ) :
    (List.zipWith (fun m f => m * g f) (a.map (c * ·)) b).sum = c * (List.zipWith (fun m f => m * g f) a b).sum := by
  induction a generalizing b with
  | nil => simp
  | cons x a ih =>
    cases b with
    | nil => simp
    | cons y b => simp only [List.map_cons, List.zipWith_cons_cons, List.sum_cons, ih]; ring

theorem centroid_scale (fs : ℝ) (s : List ℂ) (i : ℕ) (c : ℂ) (hc : c ≠ 0) :
    spectralCentroid fs (s.map (c * ·)) i = spectralCentroid fs s i := by
  unfold spectralCentroid
  rw [List.length_map, magSpec_scale]
  congr 1; funext freqs
  rw [zip_mul_sum ‖c‖ (· ^ i), List.sum_map_mul_left, List.map_id',
    div_scale _ _ _ (norm_pos_iff.mpr hc) (by rw [magSpec_sum]; exact total_nonneg s)]

theorem barycenter_mem (fs : ℝ) (hfs : 0 < fs) (s : List ℂ) (hs : ∃ z ∈ s, z ≠ 0) (i : ℕ) :
    0 ≤ Spec.barycenter fs s i ∧ Spec.barycenter fs s i ≤ (fs / 2) ^ i := by
  have ht := (total_pos_iff s).mpr hs
  constructor
  · refine div_nonneg (Finset.sum_nonneg fun k hk => mul_nonneg (mag_nonneg _ _) (pow_nonneg ?_ _)) ht.le
    exact binFreq_nonneg fs hfs (Finset.mem_range.mp hk)
  · rw [Spec.barycenter, div_le_iff₀ ht, Spec.total, Finset.mul_sum]
    refine Finset.sum_le_sum fun k hk => ?_
    rw [mul_comm]
    exact mul_le_mul_of_nonneg_right (pow_le_pow_left₀ (binFreq_nonneg fs hfs (Finset.mem_range.mp hk))
      (binFreq_le fs hfs (Finset.mem_range.mp hk)) _) (mag_nonneg _ _)

/-! ### Flatness -/

theorem sum_log_pos (l : List ℝ) (h : ∀ x ∈ l, 0 < x) :
    (l.map fun m => XF.log (fin m)).sum = fin (l.map Real.log).sum := by
  rw [← list_sum_fin, List.map_map]
  congr 1
  exact List.map_congr_left fun x hx => log_pos (h x hx)

theorem ninf_add_log (x : ℝ) (hx : 0 ≤ x) (a : XF ℝ) (ha : a = ninf ∨ ∃ y, a = fin y) :
    XF.log (fin x) + a = ninf ∨ ∃ y, XF.log (fin x) + a = fin y := by
  rcases hx.lt_or_eq with h | h
  · rw [log_pos h]
    rcases ha with rfl | ⟨y, rfl⟩
    · left; rfl
    · right; exact ⟨_, rfl⟩
  · subst h; rw [log_zero]
    rcases ha with rfl | ⟨y, rfl⟩ <;> (left; rfl)

theorem sum_log_cases (l : List ℝ) (h : ∀ x ∈ l, 0 ≤ x) :
    (l.map fun m => XF.log (fin m)).sum = ninf ∨ ∃ y, (l.map fun m => XF.log (fin m)).sum = fin y := by
  induction l with
  | nil => right; exact ⟨0, rfl⟩
  | cons x l ih =>
    rw [List.map_cons, List.sum_cons]
    exact ninf_add_log x (h x (by simp)) _ (ih fun y hy => h y (by simp [hy]))

theorem sum_log_zero (l : List ℝ) (h : ∀ x ∈ l, 0 ≤ x) (h0 : (0 : ℝ) ∈ l) :
    (l.map fun m => XF.log (fin m)).sum = ninf := by
  induction l with
  | nil => simp at h0
  | cons x l ih =>
    have hl : ∀ y ∈ l, 0 ≤ y := fun y hy => h y (by simp [hy])
    rw [List.map_cons, List.sum_cons]
    rcases List.mem_cons.mp h0 with hx | hx
    · rw [← hx, log_zero]
      rcases sum_log_cases l hl with h | ⟨y, h⟩ <;> rw [h] <;> rfl
    · rw [ih hl hx]
      rcases (h x (by simp)).lt_or_eq with h | h
      · rw [log_pos h]; rfl
      · rw [← h, log_zero]; rfl

theorem magSpec_nonneg (s : List ℂ) : ∀ x ∈ magSpec s, 0 ≤ x := by
  simp [magSpec]

theorem ninf_div_pos (n : ℝ) (hn : 0 < n) : (ninf : XF ℝ) / fin n = ninf := by
  have : ¬ (0 < -n⁻¹) := by have := inv_pos.mpr hn; linarith
  rw [div_def]; simp [inv, mul, infMul, hn.ne', hn.not_gt, this, hn.le]

theorem flatness_eq (s : List ℂ) (hs : ∃ z ∈ s, z ≠ 0) : spectralFlatness s = fin (Spec.flatness s) := by
  have hn : 0 < s.length := length_pos_of_ex hs
  have hn' : (0 : ℝ) < s.length := by exact_mod_cast hn
  have ht := (total_pos_iff s).mpr hs
  rw [spectralFlatness, magSpec_sum, fin_div _ _ hn'.ne', Spec.flatness]
  by_cases h0 : (0 : ℝ) ∈ magSpec s
  · rw [sum_log_zero _ (magSpec_nonneg s) h0, ninf_div_pos _ hn', XF.exp, fin_div _ _ (by positivity)]
    congr 2
    obtain ⟨k, hk, hk0⟩ := (mem_iff_getD 0 _).mp h0
    rw [magSpec_length] at hk
    rw [Finset.prod_eq_zero (Finset.mem_range.mpr hk) ((magSpec_getD s hk).symm.trans hk0),
      Real.zero_rpow (by positivity)]
  · have hp : ∀ x ∈ magSpec s, 0 < x := fun x hx =>
      (magSpec_nonneg s x hx).lt_of_ne fun h => h0 (h ▸ hx)
    have hp' : ∀ k, k < s.length → 0 < Spec.mag s k := fun k hk => by
      rw [← magSpec_getD s hk]; exact hp _ (getD_mem 0 (by rwa [magSpec_length]))
    rw [sum_log_pos _ hp, fin_div _ _ hn'.ne', XF.exp, fin_div _ _ (by positivity)]
    congr 2
    rw [sum_eq_sum_getD, List.length_map, magSpec_length, div_eq_mul_one_div, Real.exp_mul, Real.exp_sum]
    congr 1
    refine Finset.prod_congr rfl fun k hk => ?_
    have hk := Finset.mem_range.mp hk
    rw [getD_map_lt _ _ 0 _ (by rwa [magSpec_length]), magSpec_getD s hk, Real.exp_log (hp' k hk)]

theorem amgm (s : List ℂ) (hs : ∃ z ∈ s, z ≠ 0) :
    0 ≤ Spec.flatness s ∧ Spec.flatness s ≤ 1 ∧
      (Spec.flatness s = 1 ↔ ∀ k < s.length, Spec.mag s k = Spec.total s / s.length) := by
  have hn : 0 < s.length := length_pos_of_ex hs
  have hn' : (0 : ℝ) < s.length := by exact_mod_cast hn
  have ht := (total_pos_iff s).mpr hs
  set A := Spec.total s / s.length with hA
  have hApos : 0 < A := by positivity
  refine ⟨div_nonneg (Real.rpow_nonneg (Finset.prod_nonneg fun _ _ => mag_nonneg _ _) _) hApos.le, ?_⟩
  by_cases h0 : ∃ k < s.length, Spec.mag s k = 0
  · obtain ⟨k, hk, hk0⟩ := h0
    have : Spec.flatness s = 0 := by
      rw [Spec.flatness, Finset.prod_eq_zero (Finset.mem_range.mpr hk) hk0, Real.zero_rpow (by positivity), zero_div]
    rw [this]
    refine ⟨zero_le_one, by norm_num, fun h => ?_⟩
    have := h k hk; rw [hk0] at this; exact absurd this hApos.ne
  · push Not at h0
    have hp : ∀ k < s.length, 0 < Spec.mag s k := fun k hk => (mag_nonneg _ _).lt_of_ne (h0 k hk).symm
    have hpp : 0 < ∏ k ∈ Finset.range s.length, Spec.mag s k :=
      Finset.prod_pos fun k hk => hp k (Finset.mem_range.mp hk)
    -- logarithm of the flatness times the length
    have hfpos : 0 < Spec.flatness s := div_pos (Real.rpow_pos_of_pos hpp _) hApos
    have hlog : s.length * Real.log (Spec.flatness s) =
        ∑ k ∈ Finset.range s.length, Real.log (Spec.mag s k / A) := by
      rw [Spec.flatness, ← hA, Real.log_div (Real.rpow_pos_of_pos hpp _).ne' hApos.ne', Real.log_rpow hpp,
        Real.log_prod (fun k hk => (hp k (Finset.mem_range.mp hk)).ne')]
      rw [Finset.sum_congr rfl fun k hk =>
        Real.log_div (hp k (Finset.mem_range.mp hk)).ne' hApos.ne', Finset.sum_sub_distrib]
      simp only [Finset.sum_const, Finset.card_range, nsmul_eq_mul]
      field_simp
    have hsum : ∑ k ∈ Finset.range s.length, (Spec.mag s k / A - 1) = 0 := by
      rw [Finset.sum_sub_distrib, ← Finset.sum_div, ← Spec.total, hA]
      simp only [Finset.sum_const, Finset.card_range, nsmul_eq_mul, mul_one]
      field_simp; ring
    have hle : ∀ k ∈ Finset.range s.length, Real.log (Spec.mag s k / A) ≤ Spec.mag s k / A - 1 := fun k hk =>
      Real.log_le_sub_one_of_pos (div_pos (hp k (Finset.mem_range.mp hk)) hApos)
    have h1 : s.length * Real.log (Spec.flatness s) ≤ 0 := by
      rw [hlog]; exact (Finset.sum_le_sum hle).trans hsum.le
    have h2 : Real.log (Spec.flatness s) ≤ 0 := by
      by_contra h; push Not at h; have := mul_pos hn' h; linarith
    refine ⟨(Real.log_nonpos_iff hfpos.le).mp h2, fun h => ?_, fun h => ?_⟩
    · rw [h, Real.log_one, mul_zero] at hlog
      intro k hk
      by_contra hne
      have hk' := Finset.mem_range.mpr hk
      have hlt : Real.log (Spec.mag s k / A) < Spec.mag s k / A - 1 :=
        Real.log_lt_sub_one_of_pos (div_pos (hp k hk) hApos) (fun h => hne (by rwa [div_eq_one_iff_eq hApos.ne'] at h))
      have := Finset.sum_lt_sum hle ⟨k, hk', hlt⟩
      linarith
    · have : s.length * Real.log (Spec.flatness s) = 0 := by
        rw [hlog]
        refine Finset.sum_eq_zero fun k hk => ?_
        rw [h k (Finset.mem_range.mp hk), div_self hApos.ne', Real.log_one]
      have h3 : Real.log (Spec.flatness s) = 0 := by
        rcases mul_eq_zero.mp this with h | h
        · exact absurd h hn'.ne'
        · exact h
      exact Real.eq_one_of_pos_of_log_eq_zero hfpos h3

theorem flatness_scale (c : ℂ) (hc : c ≠ 0) (s : List ℂ) (hs : ∃ z ∈ s, z ≠ 0) :
    Spec.flatness (s.map (c * ·)) = Spec.flatness s := by
  have hn' : (0 : ℝ) < s.length := by exact_mod_cast length_pos_of_ex hs
  have hc' : 0 < ‖c‖ := norm_pos_iff.mpr hc
  simp only [Spec.flatness, total_scale, mag_scale, List.length_map, Finset.prod_mul_distrib, Finset.prod_const,
    Finset.card_range]
  rw [Real.mul_rpow (by positivity) (Finset.prod_nonneg fun _ _ => mag_nonneg _ _), ← Real.rpow_natCast,
    ← Real.rpow_mul hc'.le, mul_one_div_cancel hn'.ne', Real.rpow_one, mul_div_assoc ‖c‖ (Spec.total s), mul_div_mul_left _ _ hc'.ne']

theorem map_zero_eq (c : ℂ) (s : List ℂ) (h : ∀ z ∈ s, z = 0) : s.map (c * ·) = s := by
  conv_rhs => rw [← List.map_id s]
  exact List.map_congr_left fun z hz => by simp [h z hz]

/-! ### Flux -/

theorem zip_tail_sum (g : ℝ → ℝ → ℝ) (l : List ℝ) :
    (List.zipWith g l l.tail).sum = ∑ k ∈ Finset.range (l.length - 1), g (l.getD k 0) (l.getD (k + 1) 0) := by
  rw [sum_eq_sum_getD, List.length_zipWith, List.length_tail, min_eq_right (Nat.sub_le _ _)]
  refine Finset.sum_congr rfl fun k hk => ?_
  have hk := Finset.mem_range.mp hk
  rw [getD_zipWith_lt _ _ _ _ 0 0 (by omega) (by rw [List.length_tail]; omega), ← List.drop_one, getD_drop', add_comm 1]

theorem flux_eq (s : List ℂ) (p : ℕ) (hp : p ≠ 0) : spectralFlux s p = .ok (Spec.flux s p) := by
  rw [spectralFlux, if_neg hp, zip_tail_sum (fun a b => |b - a| ^ p), Spec.flux, magSpec_length]
  congr 2
  refine Finset.sum_congr rfl fun k hk => ?_
  have hk := Finset.mem_range.mp hk
  rw [magSpec_getD s (by omega), magSpec_getD s (by omega)]

theorem flux_sum_nonneg (s : List ℂ) (p : ℕ) :
    0 ≤ ∑ k ∈ Finset.range (s.length - 1), |Spec.mag s (k + 1) - Spec.mag s k| ^ p :=
  Finset.sum_nonneg fun _ _ => by positivity

theorem flux_zero_iff (s : List ℂ) (p : ℕ) (hp : p ≠ 0) :
    Spec.flux s p = 0 ↔ ∀ k < s.length, Spec.mag s k = Spec.mag s 0 := by
  have hp' : (p : ℝ) ≠ 0 := by exact_mod_cast hp
  rw [Spec.flux, Real.rpow_eq_zero (flux_sum_nonneg s p) (by positivity),
    Finset.sum_eq_zero_iff_of_nonneg (fun _ _ => by positivity)]
  constructor
  · intro h k hk
    induction k with
    | zero => rfl
    | succ k ih =>
      have := h k (Finset.mem_range.mpr (by omega))
      rw [pow_eq_zero_iff hp, abs_eq_zero, sub_eq_zero] at this
      rw [this, ih (by omega)]
  · intro h k hk
    have hk := Finset.mem_range.mp hk
    rw [h k (by omega), h (k + 1) (by omega), sub_self, abs_zero, zero_pow hp]

theorem flux_scale (c : ℂ) (s : List ℂ) (p : ℕ) (hp : p ≠ 0) :
    Spec.flux (s.map (c * ·)) p = ‖c‖ * Spec.flux s p := by
  have hp' : (0 : ℝ) < p := by exact_mod_cast Nat.pos_of_ne_zero hp
  simp only [Spec.flux, mag_scale, List.length_map, ← mul_sub, abs_mul, abs_norm, mul_pow, ← Finset.mul_sum]
  rw [Real.mul_rpow (by positivity) (flux_sum_nonneg s p), ← Real.rpow_natCast,
    ← Real.rpow_mul (norm_nonneg _), mul_one_div_cancel hp'.ne', Real.rpow_one]

/-! ### Entropy -/

theorem fin_mul_log_zero : fin (0 : ℝ) * XF.log (fin 0) = nan := by
  rw [log_zero]; simp [mul_def, mul, infMul]

theorem sum_nan_of_mem (l : List (XF ℝ)) (h : nan ∈ l) : l.sum = nan := by
  induction l with
  | nil => simp at h
  | cons x l ih =>
    rw [List.sum_cons]
    rcases List.mem_cons.mp h with rfl | h
    · simp
    · rw [ih h]; simp

theorem entropy_sum_pos (l : List ℝ) (h : ∀ x ∈ l, 0 < x) :
    (l.map fun m => fin m * XF.log (fin m)).sum = fin (l.map fun m => m * Real.log m).sum := by
  rw [← list_sum_fin, List.map_map]
  congr 1
  exact List.map_congr_left fun x hx => by rw [log_pos (h x hx)]; rfl

end Spafe
