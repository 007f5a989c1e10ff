import Verif.Spec.LpMeaning
import Verif.Props.Lpc
import Verif.Props.Plp
import Verif.Props.Meaning

/-! C107: what `lpc`, `lpcc`, `plp` and `rplp` compute, end to end. -/

set_option linter.unusedSectionVars false

namespace Spafe
namespace Props
open Model XF Spec

theorem correlateFull_all {x : List ℝ} (hx : x ≠ []) {i : ℕ} (hi : i < 2 * x.length - 1) :
    (correlateFull x).getD i 0 = autoCorr x ((x.length : ℤ) - 1 - i).natAbs := by
  by_cases h : i ≤ x.length - 1
  · rw [correlateFull_neg h hx]; congr 1; omega
  · have := correlateFull_pos (x := x) (k := i - (x.length - 1)) (by omega)
    rw [show x.length - 1 + (i - (x.length - 1)) = i by omega] at this
    rw [this]; congr 1; omega

/-- C63: the exact second value, for frames of every length. -/
theorem C63_code_value_all (frame : List ℝ) (order : ℕ) (a : List ℝ) (e : ℝ) (h : lpcHelper frame order = .ok (a, e)) :
    e = lpResidual frame order (fun k => a.getD k 0) := by
  obtain ⟨hp, hx⟩ := helper_cases h
  have h0 := notSilent_ne_nil hx
  have hN : 0 < frame.length := List.length_pos_iff.mpr h0
  obtain ⟨phi, h1, -⟩ := lpcHelper_ok hx hp
  rw [h] at h1
  injection h1 with h1
  injection h1 with h1 h2
  rw [h2, ← h1, lpcErr, lpResidual]
  congr 2
  · rw [correlateFull_all h0 (by omega)]; congr 1; omega
  · have ha : a.length = order + 1 := by rw [h1]; simp
    rw [sum_eq_sum_getD]
    have hl : (List.zipWith (· * ·) ((correlateFull frame).drop 1) a).length = min (order + 1) (2 * frame.length - 2) := by
      rw [List.length_zipWith, List.length_drop, correlateFull_length, ha]; omega
    rw [hl]
    apply Finset.sum_congr rfl
    intro k hk
    have hk := Finset.mem_range.mp hk
    rw [getD_zipWith_lt _ _ _ 0 0 _ (by rw [List.length_drop, correlateFull_length]; omega) (by omega), getD_drop',
      correlateFull_all h0 (by omega), mul_comm]
    congr 2; omega

/-- One frame through `__lpc_helper` and `lpc2lpcc`. -/
theorem lp_row {x : List ℝ} {p : ℕ} {co : List ℝ} {e : ℝ} (h : lpcHelper x p = .ok (co, e)) :
    IsPredictor x p (fun k => co.getD k 0) ∧
    lpc2lpcc co e (p + 1) = .ok ((List.range (p + 1)).map fun (m : ℕ) =>
      fin (lpCoefficient (fun k => co.getD k 0) (lpResidual x p fun k => co.getD k 0) m)) := by
  obtain ⟨h1, h2, h3⟩ := C59_normal_equations x p co e h
  refine ⟨⟨h2, h3⟩, ?_⟩
  obtain ⟨c, h4, h5, h6, h7, -⟩ := C65_lpc2lpcc_partial co e (p + 1) (by omega) (by omega) (by omega)
  rw [h4]
  congr 1
  apply ext_getD 0 (by simp [h5])
  intro m hm
  rw [h5] at hm
  rw [getD_map_range_lt _ _ hm]
  by_cases hm0 : m = 0
  · subst hm0
    have he := C63_code_value_all x p co e h
    have he0 : 0 ≤ e := by rw [he]; exact abs_nonneg _
    have hpos : 0 < (if e = 0 then (1 / 2 ^ 52 : ℝ) else e) := by
      split_ifs with h0
      · positivity
      · exact lt_of_le_of_ne he0 (Ne.symm h0)
    rw [h6, XF.log_pos hpos, ← he]
    simp [lpCoefficient, logFloor]
  · rw [h7 m (by omega) (by omega)]
    simp [lpCoefficient, hm0]

theorem lpcEmph_getD (a : LpcArgs) (sig : List ℝ) {t : ℕ} (ht : t < sig.length) :
    (a.emph sig).getD t 0 = emphasised a.preEmph 0.97 sig t := by
  unfold LpcArgs.emph emphasised
  split_ifs with h1 h2
  · subst h2; rw [sub_zero]; exact (C09_pre_emphasis sig 0.97).2.1 ht
  · exact (C09_pre_emphasis sig 0.97).2.2 t (by omega) ht
  · rfl

/-- The frames of `lpc` and `lpcc`: no window, the literal coefficient 0.97. -/
theorem lpcFrames_meaning {a : LpcArgs} {sig : List ℝ} {l s : ℕ} (hl : pyInt (a.win.winLen * a.fs) = l)
    (hs : pyInt (a.win.winHop * a.fs) = s) (hs0 : 0 < s) {F : List (List ℝ)} (hF : lpcFrames a sig = .ok F) :
    l ≤ sig.length ∧ F = (List.range ((sig.length - l) / s + 1)).map fun (i : ℕ) =>
      (List.range l).map fun (j : ℕ) => emphasised a.preEmph 0.97 sig (i * s + j) := by
  obtain ⟨-, l', s', h1, h2, h3, h4, -, rfl⟩ := ((lpcFrames_ok_iff a sig F (by rw [hs]; exact_mod_cast hs0)).mp hF).2
  obtain rfl : l = l' := by rw [hl] at h1; exact_mod_cast h1
  obtain rfl : s = s' := by rw [hs] at h2; exact_mod_cast h2
  refine ⟨h4, List.map_congr_left fun i hi => ?_⟩
  have hi := List.mem_range.mp hi
  have h5 := (Nat.le_div_iff_mul_le hs0).mp (Nat.lt_succ_iff.mp hi)
  have hlen : (a.emph sig).length = sig.length := by unfold LpcArgs.emph; split_ifs <;> simp [(C09_pre_emphasis sig 0.97).1]
  apply ext_getD 0 (by simp [hlen]; omega)
  intro j hj
  have hj : j < l := by simp [hlen] at hj; omega
  rw [getD_map_range_lt _ _ hj, List.getD_eq_getElem?_getD, List.getElem?_take_of_lt hj, List.getElem?_drop,
    ← List.getD_eq_getElem?_getD, lpcEmph_getD a sig (by omega)]

/-- C107 for `lpc`: row `i` holds the prediction coefficients of the samples `i*s, ..., i*s+l-1` of the signal, after
pre-emphasis with 0.97 and without any window; the error column holds `lpResidual`. -/
theorem C107_lpc_meaning (a : LpcArgs) (sig : List ℝ) (l s : ℕ) (hl : pyInt (a.win.winLen * a.fs) = l)
    (hs : pyInt (a.win.winHop * a.fs) = s) (hs0 : 0 < s) (A : List (List ℝ)) (E : List ℝ) (h : lpc a sig = .ok (A, E)) :
    HasShape A ((sig.length - l) / s + 1) (a.order - 1 + 1) ∧ E.length = (sig.length - l) / s + 1 ∧
      ∀ i < (sig.length - l) / s + 1, ∀ x : List ℝ,
        x = ((List.range l).map fun (j : ℕ) => emphasised a.preEmph 0.97 sig (i * s + j)) →
        IsPredictor x (a.order - 1) (fun k => (A.getD i []).getD k 0) ∧
        E.getD i 0 = lpResidual x (a.order - 1) (fun k => (A.getD i []).getD k 0) := by
  simp only [lpc, bind_ok_iff] at h
  obtain ⟨F, hF, rows, hr, h⟩ := h
  injection h with h
  injection h with h1 h2
  subst h1; subst h2
  obtain ⟨hle, hFe⟩ := lpcFrames_meaning hl hs hs0 hF
  have hlen : rows.length = (sig.length - l) / s + 1 := by rw [mapM_length _ _ _ hr, hFe]; simp
  have hFl : F.length = (sig.length - l) / s + 1 := by rw [hFe]; simp
  have hrow := (mapM_ok_iff _ _ _).mp hr
  have hget : ∀ i (hi : i < rows.length), lpcHelper (F.getD i []) (a.order - 1) = .ok (rows.getD i ([], 0)) := by
    intro i hi
    rw [List.getD_eq_getElem _ _ (by omega), List.getD_eq_getElem _ _ hi]
    exact (List.forall₂_iff_get.mp hrow).2 i (by omega) hi
  refine ⟨⟨by simp [hlen], ?_⟩, by simp [hlen], ?_⟩
  · intro r hr'
    obtain ⟨q, hq, rfl⟩ := List.mem_map.mp hr'
    obtain ⟨i, hi, rfl⟩ := (mem_iff_getD ([], 0) q).mp hq
    exact (C59_normal_equations _ _ _ _ (hget i hi)).1
  · rintro i hi x rfl
    have hx := hget i (by omega)
    rw [hFe, getD_map_range_lt _ _ hi] at hx
    rw [getD_map_lt _ rows ([], 0) _ (by omega), getD_map_lt _ rows ([], 0) _ (by omega)]
    obtain ⟨h2, h3, h4⟩ := C59_normal_equations _ _ _ _ hx
    exact ⟨⟨h3, h4⟩, C63_code_value_all _ _ _ _ hx⟩

/-- C107 for `lpcc`: row `i` holds `lpCoefficient` of the predictor of the frame described in `C107_lpc_meaning`. -/
theorem C107_lpcc_meaning (a : LpcArgs) (sig : List ℝ) (l s : ℕ) (hl : pyInt (a.win.winLen * a.fs) = l)
    (hs : pyInt (a.win.winHop * a.fs) = s) (hs0 : 0 < s) (hlift : a.lifter = none) (hnorm : a.normalize = none) (m : XMat)
    (h : lpcc a sig = .ok m) :
    HasShape m ((sig.length - l) / s + 1) (a.order - 1 + 1) ∧
      ∀ i < (sig.length - l) / s + 1, ∀ x : List ℝ,
        x = ((List.range l).map fun (j : ℕ) => emphasised a.preEmph 0.97 sig (i * s + j)) →
        ∃ p, IsPredictor x (a.order - 1) p ∧ ∀ k < a.order - 1 + 1,
          (m.getD i []).getD k nan = fin (lpCoefficient p (lpResidual x (a.order - 1) p) k) := by
  simp only [lpcc, bind_ok_iff, hlift, hnorm] at h
  obtain ⟨F, hF, rows, hr, m', h1, h⟩ := h
  injection h1 with h1
  injection h with h
  subst h1; subst h
  obtain ⟨hle, hFe⟩ := lpcFrames_meaning hl hs hs0 hF
  have hlen : rows.length = (sig.length - l) / s + 1 := by rw [mapM_length _ _ _ hr, hFe]; simp
  have hFl : F.length = (sig.length - l) / s + 1 := by rw [hFe]; simp
  have hrow := (mapM_ok_iff _ _ _).mp hr
  have hget : ∀ i < rows.length, ∃ p, IsPredictor (F.getD i []) (a.order - 1) p ∧
      rows.getD i [] = (List.range (a.order - 1 + 1)).map fun (k : ℕ) =>
        fin (lpCoefficient p (lpResidual (F.getD i []) (a.order - 1) p) k) := by
    intro i hi
    have h2 := (List.forall₂_iff_get.mp hrow).2 i (by omega) hi
    simp only [List.get_eq_getElem] at h2
    rw [← List.getD_eq_getElem F [] (by omega), ← List.getD_eq_getElem rows [] hi] at h2
    obtain ⟨⟨co, e⟩, h3, h4⟩ := (bind_ok_iff ..).mp h2
    obtain ⟨h5, h6⟩ := lp_row h3
    refine ⟨_, h5, ?_⟩
    rw [h6] at h4
    injection h4 with h4
    exact h4.symm
  refine ⟨⟨hlen, ?_⟩, ?_⟩
  · intro r hr'
    obtain ⟨i, hi, rfl⟩ := (mem_iff_getD [] r).mp hr'
    obtain ⟨p, -, h2⟩ := hget i hi
    rw [h2]; simp
  · rintro i hi x rfl
    obtain ⟨p, h1, h2⟩ := hget i (by omega)
    rw [hFe, getD_map_range_lt _ _ hi] at h1 h2
    refine ⟨p, h1, fun k hk => ?_⟩
    rw [h2, getD_map_range_lt _ _ hk]

/-! ### `plp` and `rplp` -/

theorem ifftAbs_eq (n N : ℕ) (L : ℕ → ℝ) :
    ifftAbs n ((List.range N).map L) = (List.range n).map (inverseDft n N L) := by
  apply List.map_congr_left
  intro t _
  unfold inverseDft
  rw [norm_mul, norm_div, norm_one, Complex.norm_natCast, one_div, inv_mul_eq_div]
  congr 2
  rw [← Finset.sum_subset (s₁ := Finset.range (min n N)) (s₂ := Finset.range n)]
  · apply Finset.sum_congr rfl
    intro j hj
    have hj : j < N := by simp at hj; omega
    rw [getD_map_range_lt _ _ hj]
  · intro j hj; simp at hj ⊢; omega
  · intro j hj1 hj2
    have : N ≤ j := by simp at hj1 hj2; omega
    rw [List.getD_eq_default _ _ (by simpa using this)]
    simp

/-- What one row of band values `L` becomes. -/
theorem plpRow_meaning {nfft order N : ℕ} {L : ℕ → ℝ} {c : List (XF ℝ)} (ho : 2 ≤ order)
    (h : plpRow nfft order (((List.range N).map L).map fin) = .ok c) :
    ∃ p, IsPredictor ((List.range nfft).map (inverseDft nfft N L)) (order - 1) p ∧
      c = (List.range order).map fun (k : ℕ) =>
        fin (lpCoefficient p (lpResidual ((List.range nfft).map (inverseDft nfft N L)) (order - 1) p) k) := by
  have hall : ((((List.range N).map L).map fin).take nfft).all XF.isFinite = true := by
    rw [← List.map_take, List.all_map]; simp [Function.comp_def]
  have hmap : (((List.range N).map L).map fin).map XF.toNum = (List.range N).map L := by
    rw [List.map_map, Function.comp_def]; simp
  rw [plpRow, if_neg (by omega), if_pos hall, hmap, ifftAbs_eq] at h
  obtain ⟨⟨co, e⟩, h1, h2⟩ := (bind_ok_iff ..).mp h
  obtain ⟨h3, h4⟩ := lp_row h1
  rw [show order - 1 + 1 = order by omega] at h4
  refine ⟨_, h3, ?_⟩
  simp only [h4] at h2
  injection h2 with h2
  exact h2.symm

theorem Setup.spectrogram {a : Args} {fb : List (List ℝ)} {sig : List ℝ} {l s : ℕ} (h : Setup a fb sig l s) (c : ℝ) :
    ∃ ft, Model.spectrogram a c (finMat fb) sig = .ok ((List.range ((sig.length - l) / s + 1)).map fun (i : ℕ) =>
      ((List.range fb.length).map (energyOf a c fb sig l s i)).map fin, ft) := by
  refine ⟨_, (spectrogram_ok_iff ..).mpr ⟨_, h.front c, h.nfft, finMat_cols h.cols, ?_, rfl⟩⟩
  rw [List.map_map]
  apply List.map_congr_left
  intro i hi
  exact (h.specRow (List.mem_range.mp hi) c).symm

theorem Setup.plpBank {a : Args} {fb : List (List ℝ)} {sig : List ℝ} {l s : ℕ} (h : Setup a fb sig l s) :
    Props.plpBank a = .ok (finMat fb) := by
  unfold Props.plpBank getFbanks; rw [h.bank]

/-- The rows of a matrix of band values, one after the other. -/
theorem plpRows_meaning {nfft order N R : ℕ} {L : ℕ → ℕ → ℝ} {m : XMat} (ho : 2 ≤ order)
    (h : ((List.range R).map fun (i : ℕ) => ((List.range N).map (L i)).map fin).mapM (plpRow nfft order) = .ok m) :
    HasShape m R order ∧ ∀ i < R, ∃ p,
      IsPredictor ((List.range nfft).map (inverseDft nfft N (L i))) (order - 1) p ∧ ∀ k < order,
        (m.getD i []).getD k nan = fin (lpCoefficient p
          (lpResidual ((List.range nfft).map (inverseDft nfft N (L i))) (order - 1) p) k) := by
  have hlen : m.length = R := by rw [mapM_length _ _ _ h]; simp
  have hget : ∀ i < R, ∃ p, IsPredictor ((List.range nfft).map (inverseDft nfft N (L i))) (order - 1) p ∧
      m.getD i [] = (List.range order).map fun (k : ℕ) => fin (lpCoefficient p
        (lpResidual ((List.range nfft).map (inverseDft nfft N (L i))) (order - 1) p) k) := by
    intro i hi
    have h2 := (List.forall₂_iff_get.mp ((mapM_ok_iff ..).mp h)).2 i (by simpa using hi) (by omega)
    simp only [List.get_eq_getElem, List.getElem_map, List.getElem_range] at h2
    rw [← List.getD_eq_getElem m [] (by omega)] at h2
    exact plpRow_meaning ho h2
  refine ⟨⟨hlen, fun r hr => ?_⟩, fun i hi => ?_⟩
  · obtain ⟨i, hi, rfl⟩ := (mem_iff_getD [] r).mp hr
    obtain ⟨p, -, h2⟩ := hget i (by omega)
    rw [h2]; simp
  · obtain ⟨p, h1, h2⟩ := hget i hi
    exact ⟨p, h1, fun k hk => by rw [h2, getD_map_range_lt _ _ hk]⟩

/-- C107 for `plp`: the band energies of frame `i` are compressed by the intensity-loudness law, the magnitude of their
inverse DFT of length `nfft` is taken as a frame, and row `i` holds `lpCoefficient` of its predictor. -/
theorem C107_plp_meaning (a : Args) (fb : List (List ℝ)) (sig : List ℝ) (l s : ℕ) (h : Setup a fb sig l s)
    (ho : 2 ≤ a.numCeps) (hl : a.lifter = none) (hn : a.normalize = none) (E : ℕ → ℕ → ℝ)
    (hE : E = bandEnergy fb (windowWeight a.win.winType l) (emphasised a.preEmph a.preEmphCoeff sig) l s a.nfft)
    (hpos : ∀ i < (sig.length - l) / s + 1, ∃ n < min a.nfft fb.length, E i n ≠ 0) :
    ∃ m, plp a sig = .ok m ∧ HasShape m ((sig.length - l) / s + 1) a.numCeps ∧
      ∀ i < (sig.length - l) / s + 1, ∀ x : List ℝ,
        x = (List.range a.nfft).map (inverseDft a.nfft fb.length fun n => intensity (E i n)) →
        ∃ p, IsPredictor x (a.numCeps - 1) p ∧ ∀ k < a.numCeps,
          (m.getD i []).getD k nan = fin (lpCoefficient p (lpResidual x (a.numCeps - 1) p) k) := by
  subst hE
  obtain ⟨ft, hx⟩ := h.spectrogram a.preEmphCoeff
  have hb := h.plpBank
  have hdef := (C66_plp_defined a sig _ _ ft hb hx ?_ ho h.ceps hl hn).1 ?_
  · obtain ⟨m, hm, -⟩ := hdef
    have hp : plp a sig = _ := rastaplp_eq (b := false) hb hx h.ceps
    rw [hm] at hp
    simp only [plpRasta, Bool.false_eq_true, if_false, ok_bind] at hp
    obtain ⟨rows, hr, ht⟩ := (bind_ok_iff ..).mp hp.symm
    rw [plpTail_none hl hn] at ht
    injection ht with ht
    subst ht
    refine ⟨rows, hm, ?_⟩
    have e : (((List.range ((sig.length - l) / s + 1)).map fun (i : ℕ) =>
          ((List.range fb.length).map (energyOf a a.preEmphCoeff fb sig l s i)).map fin).map fun r => r.map loudness) =
        (List.range ((sig.length - l) / s + 1)).map fun (i : ℕ) => ((List.range fb.length).map fun (n : ℕ) =>
          intensity (energyOf a a.preEmphCoeff fb sig l s i n)).map fin := by
      simp only [List.map_map]
      apply List.map_congr_left
      intro i _
      simp only [Function.comp, List.map_map]
      apply List.map_congr_left
      intro n _
      exact loudness_fin _
    rw [e] at hr
    obtain ⟨h1, h2⟩ := plpRows_meaning ho hr
    refine ⟨h1, ?_⟩
    rintro i hi x rfl
    exact h2 i hi
  · intro r hr v hv
    obtain ⟨i, -, rfl⟩ := List.mem_map.mp hr
    obtain ⟨e, he, rfl⟩ := List.mem_map.mp hv
    obtain ⟨n, -, rfl⟩ := List.mem_map.mp he
    exact ⟨_, bandEnergy_nonneg h.nonneg .., rfl⟩
  · intro r hr
    obtain ⟨i, hi, rfl⟩ := List.mem_map.mp hr
    obtain ⟨n, hn, hne⟩ := hpos i (List.mem_range.mp hi)
    refine ⟨fin (energyOf a a.preEmphCoeff fb sig l s i n), ?_, fun h => hne (XF.fin_injective h)⟩
    refine (mem_iff_getD (fin 0) _).mpr ⟨n, by simpa using hn, ?_⟩
    rw [getD_take_lt _ _ (by omega), getD_map_lt fin _ 0 _ (by simp; omega), getD_map_range_lt _ _ (by omega)]

/-- C107 for `rplp`: as for `plp`, with the logarithms of the band energies of each frame passed through the RASTA
filter first — along the bands of the frame. -/
theorem C107_rplp_meaning (a : Args) (fb : List (List ℝ)) (sig : List ℝ) (l s : ℕ) (h : Setup a fb sig l s)
    (ho : 2 ≤ a.numCeps) (hl : a.lifter = none) (hn : a.normalize = none) (E : ℕ → ℕ → ℝ)
    (hE : E = bandEnergy fb (windowWeight a.win.winType l) (emphasised a.preEmph a.preEmphCoeff sig) l s a.nfft)
    (hpos : ∀ i < (sig.length - l) / s + 1, ∀ n < fb.length, 0 < E i n) :
    ∃ m, rplp a sig = .ok m ∧ HasShape m ((sig.length - l) / s + 1) a.numCeps ∧
      ∀ i < (sig.length - l) / s + 1, ∀ y x : List ℝ,
        Rasta ((List.range fb.length).map fun (n : ℕ) => Real.log (E i n)) y →
        x = (List.range a.nfft).map (inverseDft a.nfft fb.length fun n => intensity (Real.exp (y.getD n 0))) →
        ∃ p, IsPredictor x (a.numCeps - 1) p ∧ ∀ k < a.numCeps,
          (m.getD i []).getD k nan = fin (lpCoefficient p (lpResidual x (a.numCeps - 1) p) k) := by
  subst hE
  obtain ⟨ft, hx⟩ := h.spectrogram a.preEmphCoeff
  have hb := h.plpBank
  have hr1 := h.rows
  have hfb : finMat fb ≠ [] := by
    intro h0
    have : (finMat fb).length = 0 := by rw [h0]; rfl
    simp [finMat] at this
    rw [this] at hr1; simp at hr1
  have hx0 : AllPos ((List.range ((sig.length - l) / s + 1)).map fun (i : ℕ) =>
      ((List.range fb.length).map (energyOf a a.preEmphCoeff fb sig l s i)).map (fin : ℝ → XF ℝ)) := by
    intro r hr v hv
    obtain ⟨i, hi, rfl⟩ := List.mem_map.mp hr
    obtain ⟨e, he, rfl⟩ := List.mem_map.mp hv
    obtain ⟨n, hn, rfl⟩ := List.mem_map.mp he
    exact ⟨_, hpos i (List.mem_range.mp hi) n (List.mem_range.mp hn), rfl⟩
  obtain ⟨m, hm, -⟩ := C66_rplp_defined a sig _ _ ft hb hfb hx hx0 ho h.ceps hl hn
  have hp := rplp_form hb hfb hx hx0 h.ceps
  rw [hm] at hp
  obtain ⟨rows, hr, ht⟩ := (bind_ok_iff ..).mp hp.symm
  rw [plpTail_none hl hn] at ht
  injection ht with ht
  subst ht
  refine ⟨rows, hm, ?_⟩
  have hY : ∀ i, Rasta ((List.range fb.length).map fun (n : ℕ) => Real.log (energyOf a a.preEmphCoeff fb sig l s i n))
      (rastaRowOut ((List.range fb.length).map fun (n : ℕ) => Real.log (energyOf a a.preEmphCoeff fb sig l s i n))) :=
    fun i => rastaRowOut_spec (by
      intro h0
      have : ((List.range fb.length).map fun (n : ℕ) => Real.log (energyOf a a.preEmphCoeff fb sig l s i n)).length = 0 := by
        rw [h0]; rfl
      simp at this
      rw [this] at hr1; simp at hr1)
  have e : (((List.range ((sig.length - l) / s + 1)).map fun (i : ℕ) =>
        ((List.range fb.length).map (energyOf a a.preEmphCoeff fb sig l s i)).map (fin : ℝ → XF ℝ)).map fun r =>
          (rastaRowOut (r.map fun v => Real.log v.toNum)).map fun y => loudness (fin (Real.exp y))) =
      (List.range ((sig.length - l) / s + 1)).map fun (i : ℕ) => ((List.range fb.length).map fun (n : ℕ) =>
        intensity (Real.exp ((rastaRowOut ((List.range fb.length).map fun (n : ℕ) =>
          Real.log (energyOf a a.preEmphCoeff fb sig l s i n))).getD n 0))).map fin := by
    rw [List.map_map]
    apply List.map_congr_left
    intro i _
    simp only [Function.comp, List.map_map]
    have hlen := (hY i).length
    rw [List.length_map, List.length_range] at hlen
    apply ext_getD (fin 0)
    · simp only [List.length_map, List.length_range]; exact hlen
    · intro n hn'
      have hn' : n < fb.length := by
        have := hn'
        simp only [List.length_map] at this
        exact hlen ▸ this
      rw [getD_map_range_lt _ _ hn']
      refine (getD_map_lt _ _ 0 _ (lt_of_lt_of_eq hn' hlen.symm)).trans ?_
      exact loudness_fin _
  rw [e] at hr
  obtain ⟨h1, h2⟩ := plpRows_meaning ho hr
  refine ⟨h1, ?_⟩
  rintro i hi y x hy rfl
  obtain rfl := C07_rasta_unique _ _ _ hy (hY i)
  exact h2 i hi

/-- C107: the predictor of a frame that is not silent is unique, so the rows above are determined by the signal. -/
theorem C107_predictor_unique (x : List ℝ) (hx : NotSilent x) (p : ℕ) (a b : ℕ → ℝ) (ha : IsPredictor x p a)
    (hb : IsPredictor x p b) : ∀ k ≤ p, a k = b k := by
  intro k hk
  rcases Nat.eq_zero_or_pos k with h0 | h0
  · subst h0; rw [ha.one, hb.one]
  · exact normal_unique hx ha.normal hb.normal k h0 hk

theorem demo2_energy (i n : ℕ) (hi : i < 2) (hn : n < 2) : 0 < bandEnergy [[1, 2], [3, 1]]
    (windowWeight demo2.win.winType 2) (emphasised demo2.preEmph demo2.preEmphCoeff [5, 1, 4]) 2 1 demo2.nfft i n := by
  unfold bandEnergy
  refine Finset.sum_pos' (fun k _ => ?_) ⟨0, by simp, ?_⟩
  · apply mul_nonneg (by unfold framePower; positivity)
    rcases n with _ | _ | n
    · rcases k with _ | _ | k <;> simp
    · rcases k with _ | _ | k <;> simp
    · omega
  · have hz : frameBin (windowWeight demo2.win.winType 2)
        (emphasised demo2.preEmph demo2.preEmphCoeff [5, 1, 4]) 2 1 demo2.nfft i 0 ≠ 0 := by
      unfold frameBin
      rcases i with _ | _ | i
      · simp [demo2, Args.win, windowWeight, emphasised, Finset.sum_range_succ]
        norm_cast
        norm_num
      · simp [demo2, Args.win, windowWeight, emphasised, Finset.sum_range_succ]
        norm_cast
        norm_num
      · omega
    have h1 : (0 : ℝ) < ‖frameBin (windowWeight demo2.win.winType 2)
        (emphasised demo2.preEmph demo2.preEmphCoeff [5, 1, 4]) 2 1 demo2.nfft i 0‖ := norm_pos_iff.mpr hz
    have h2 : (0 : ℝ) < demo2.nfft := by simp [demo2]
    unfold framePower
    rcases n with _ | _ | n
    · simp only [List.getD_cons_zero]; positivity
    · simp only [List.getD_cons_succ, List.getD_cons_zero]; positivity
    · omega

/-- The hypotheses are met: two frames, two bands, order 2. -/
example : (∃ m, plp demo2 [5, 1, 4] = .ok m ∧ HasShape m 2 2) ∧ ∃ m, rplp demo2 [5, 1, 4] = .ok m ∧ HasShape m 2 2 := by
  constructor
  · obtain ⟨m, h1, h2, -⟩ := C107_plp_meaning demo2 _ _ 2 1 demo2_setup le_rfl rfl rfl _ rfl
      (fun i hi => ⟨0, by simp [demo2], (demo2_energy i 0 hi (by norm_num)).ne'⟩)
    exact ⟨m, h1, h2⟩
  · obtain ⟨m, h1, h2, -⟩ := C107_rplp_meaning demo2 _ _ 2 1 demo2_setup le_rfl rfl rfl _ rfl
      (fun i hi n hn => demo2_energy i n hi hn)
    exact ⟨m, h1, h2⟩

/-- `lpcc` of three ones: one frame, predictor `1, -2/3`. -/
example : ∃ m, lpcc lpcDemo [1, 1, 1] = .ok m ∧ (m.getD 0 []).getD 1 nan = fin (-2 / 3) := by
  obtain ⟨e, he⟩ := ones_helper
  have hf : lpcFrames lpcDemo [1, 1, 1] = .ok [[1, 1, 1]] := lpcDemo_frames 0.97 false
  obtain ⟨h1, h2⟩ := lp_row he
  have hm : lpcc lpcDemo [1, 1, 1] = .ok [(List.range 2).map fun (m : ℕ) =>
      fin (lpCoefficient (fun k => [1, -2 / 3].getD k 0) (lpResidual [1, 1, 1] 1 fun k => [1, -2 / 3].getD k 0) m)] := by
    simp only [lpcc, hf, ok_bind]
    show (List.mapM (fun f => lpcHelper f 1 >>= fun x => lpc2lpcc x.1 x.2 2) [[1, 1, 1]] >>= _) = _
    rw [List.mapM_cons, he, ok_bind]
    show (lpc2lpcc [1, -2 / 3] e (1 + 1) >>= _) >>= _ = _
    rw [h2]
    rfl
  have h3 : pyInt ((3 : ℝ) * 1) = ((3 : ℕ) : ℤ) := by norm_num [pyInt]
  obtain ⟨-, h4⟩ := C107_lpcc_meaning lpcDemo [1, 1, 1] 3 3 h3 h3 (by norm_num) rfl rfl _ hm
  obtain ⟨p, h5, h6⟩ := h4 0 (by simp) [1, 1, 1] (by simp [lpcDemo, emphasised, List.range_succ])
  refine ⟨_, hm, ?_⟩
  rw [h6 1 (by simp [lpcDemo])]
  have := C107_predictor_unique [1, 1, 1] ⟨1, by simp, one_ne_zero⟩ 1 _ _ h5 h1 1 le_rfl
  simp [lpCoefficient, this]

end Props
end Spafe
