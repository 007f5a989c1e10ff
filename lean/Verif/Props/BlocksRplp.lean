import Verif.Props.Blocks

/-! C170 for `rplp`. -/

set_option linter.unusedSectionVars false

namespace Spafe
namespace Props
open Model XF Spec

/-- `inBlocks_eq` for functions that treat the frames one by one only when all of them satisfy `P`. -/
theorem inBlocks_eq_of {β : Type} {f : List ℝ → Py (List β)} {l s : ℕ} {P : List ℝ → Prop} {h : List ℝ → Py β}
    (hf : ∀ x, l ≤ x.length → (∀ fr ∈ framesOf l s x, P fr) → f x = (framesOf l s x).mapM h) (h0 : 0 < s) (hsl : s ≤ l)
    (cs : List (List ℝ)) : ∀ buf : List ℝ, buf.length < l →
      (l ≤ (buf ++ cs.flatten).length → ∀ fr ∈ framesOf l s (buf ++ cs.flatten), P fr) →
      inBlocks f l s buf cs = if (buf ++ cs.flatten).length < l then .ok [] else f (buf ++ cs.flatten) := by
  induction cs with
  | nil =>
    intro buf hb _
    rw [List.flatten_nil, List.append_nil, if_pos hb]
    rfl
  | cons c cs ih =>
    intro buf hb hP
    rw [List.flatten_cons, ← List.append_assoc] at hP ⊢
    unfold inBlocks
    by_cases hl : (buf ++ c).length < l
    · rw [if_pos hl, ih _ hl hP]
    · have hl' : l ≤ (buf ++ c).length := by omega
      have hll : ¬ ((buf ++ c) ++ cs.flatten).length < l := by
        rw [List.length_append]; omega
      have hP' := hP (by omega)
      have hfr := framesOf_append h0 (buf ++ c) cs.flatten hl' hsl
      rw [if_neg hl, if_neg hll, hf _ hl' fun fr hm => hP' fr (by rw [hfr]; exact List.mem_append_left _ hm), hf _ (by omega) hP', hfr,
        List.mapM_append]
      cases hm : (framesOf l s (buf ++ c)).mapM h with
      | error e => rfl
      | ok m =>
        have hml := mapM_length _ _ _ hm
        have hk : (framesOf l s (buf ++ c)).length = ((buf ++ c).length - l) / s + 1 := by simp [framesOf]
        have h1 := Nat.div_mul_le_self ((buf ++ c).length - l) s
        have h2 := Nat.lt_div_mul_add (a := (buf ++ c).length - l) h0
        have h3 : (framesOf l s (buf ++ c)).length * s = ((buf ++ c).length - l) / s * s + s := by
          rw [hk]; ring
        simp only [ok_bind]
        have hrest : l ≤ (((buf ++ c) ++ cs.flatten).drop ((framesOf l s (buf ++ c)).length * s)).length →
            ∀ fr ∈ framesOf l s (((buf ++ c) ++ cs.flatten).drop ((framesOf l s (buf ++ c)).length * s)), P fr := by
          intro hle fr hm
          refine hP' fr ?_
          rw [hfr, if_neg (by omega)]
          exact List.mem_append_right _ hm
        rw [hml, ih _ (by rw [List.length_drop]; omega) (by rw [← List.drop_append_of_le_length (by omega)]; exact hrest),
          ← List.drop_append_of_le_length (by omega)]
        split_ifs with hc
        · rfl
        · rw [hf _ (by omega) (hrest (by omega))]
          rfl

/-- **C170** for `rplp` without pre-emphasis and normalisation, on recordings whose filter outputs are positive: the state of the RASTA filter
is passed from frame to frame, but the next frame overwrites all of it. Exceptions included. -/
theorem C170_rplp (a : Args) (hn : a.normalize = none) (hp : a.preEmph = false)
    (l s : ℕ) (hl : pyInt (a.win.winLen * a.fs) = l) (hs : pyInt (a.win.winHop * a.fs) = s) (h0 : 0 < s) (hsl : s ≤ l)
    (hok : Accepted (rplp a)) (blocks : List (List ℝ)) (hlen : l ≤ blocks.flatten.length) {fb x : XMat} {ft : List (List ℝ)}
    (hb : plpBank a = .ok fb) (hfb : fb ≠ []) (hx : spectrogram a a.preEmphCoeff fb blocks.flatten = .ok (x, ft)) (hx0 : AllPos x) :
    inBlocks (rplp a) l s [] blocks = rplp a blocks.flatten := by
  obtain ⟨sig, m, h⟩ := hok
  obtain ⟨hc, fb', W, hfb', -, hx'⟩ := plp_bank_of_ok (b := true) h
  have hS : 0 < pyInt (a.win.winHop * a.fs) := by omega
  obtain ⟨W', hW', hn0, hcols, rfl, -⟩ := (spectrogram_ok_iff ..).mp hx
  obtain ⟨hle, l1, s1, w, e1, e2, -, e3, e4, e5, rfl⟩ := ((frontEnd_ok_iff a _ _ W' hS).mp hW').2
  obtain rfl : l1 = l := by omega
  obtain rfl : s1 = s := by omega
  have hm := h
  rw [rplp, rastaplp_eq hfb' hx' hc] at hm
  obtain ⟨r0, -, hm⟩ := (bind_ok_iff ..).mp hm
  obtain ⟨r, -, ht⟩ := (bind_ok_iff ..).mp hm
  obtain ⟨g, hg⟩ := plpTail_total hn ht
  have key : ∀ y : List ℝ, l1 ≤ y.length →
      (∀ fr ∈ framesOf l1 s1 y, ∀ v ∈ specRow a.nfft fb (List.zipWith (· * ·) w fr), ∃ e, 0 < e ∧ v = fin e) →
      rplp a y = (framesOf l1 s1 y).mapM fun fr => plpRow a.nfft a.numCeps
        ((rastaRowOut ((specRow a.nfft fb (List.zipWith (· * ·) w fr)).map fun v => Real.log v.toNum)).map fun y => loudness (fin (Real.exp y)))
          >>= fun v => .ok (g v) := by
    intro y hyl hP
    have hfe := (frontEnd_ok_iff a a.preEmphCoeff y _ hS).mpr ⟨by simp [hp], hle, l1, s1, w, hl, hs, h0, hyl, e4, e5, rfl⟩
    have hsp := (spectrogram_ok_iff ..).mpr ⟨_, hfe, hn0, hcols, rfl, rfl⟩
    have hpos : AllPos (((List.range ((y.length - l1) / s1 + 1)).map fun (i : ℕ) =>
        List.zipWith (· * ·) w (((emph a a.preEmphCoeff y).drop (i * s1)).take l1)).map (specRow a.nfft fb)) := fun r hr v hv => by
      obtain ⟨W, hW, rfl⟩ := List.mem_map.mp hr
      obtain ⟨i, hi, rfl⟩ := List.mem_map.mp hW
      exact hP _ (List.mem_map.mpr ⟨i, hi, rfl⟩) v (by simpa [emph, hp] using hv)
    rw [rplp_form hb hfb hsp hpos hc, show plpTail a = fun z => .ok (z.map g) from funext hg, ← mapM_map_ok]
    simp only [List.map_map]
    simp only [framesOf, List.mapM_map, emph, hp, Bool.false_eq_true, if_false, Function.comp_def]
  have hfin : ∀ fr ∈ framesOf l1 s1 blocks.flatten, ∀ v ∈ specRow a.nfft fb (List.zipWith (· * ·) w fr), ∃ e, 0 < e ∧ v = fin e := by
    intro fr hfr v hv
    obtain ⟨i, hi, rfl⟩ := List.mem_map.mp hfr
    exact hx0 _ (List.mem_map.mpr ⟨_, List.mem_map.mpr ⟨i, hi, rfl⟩, rfl⟩) v (by simpa [emph, hp] using hv)
  rw [inBlocks_eq_of key h0 hsl blocks [] (by simp; omega) (by simpa using fun _ => hfin), List.nil_append, if_neg (by omega)]

/-- **C170** with pre-emphasis for `plp`, `rplp`, `lpc` and `lpcc`: the filter is applied outside, its last sample carried over from block to block,
with the coefficient of the arguments for `plp` and `rplp` and 0.97 for `lpc` and `lpcc` (C47). -/
theorem C170_emphasis_lp (l s : ℕ) (h0 : 0 < s) (hsl : s ≤ l) (blocks : List (List ℝ)) (hlen : l ≤ blocks.flatten.length) :
    (∀ (a : Args) (c : ℝ), a.normalize = none → pyInt (a.win.winLen * a.fs) = l → pyInt (a.win.winHop * a.fs) = s →
      (Accepted (plp { a with preEmph := false }) →
        inBlocks (plp { a with preEmph := false }) l s [] (emphBlocks c 0 blocks) = plp { a with preEmph := true, preEmphCoeff := c } blocks.flatten) ∧
      ∀ fb x ft, Accepted (rplp { a with preEmph := false }) → plpBank a = .ok fb → fb ≠ [] →
        spectrogram { a with preEmph := true, preEmphCoeff := c } c fb blocks.flatten = .ok (x, ft) → AllPos x →
        inBlocks (rplp { a with preEmph := false }) l s [] (emphBlocks c 0 blocks) = rplp { a with preEmph := true, preEmphCoeff := c } blocks.flatten) ∧
    ∀ a : LpcArgs, pyInt (a.win.winLen * a.fs) = l → pyInt (a.win.winHop * a.fs) = s → Accepted (lpcFrames { a with preEmph := false }) →
      inBlocks (lpcRows { a with preEmph := false }) l s [] (emphBlocks 0.97 0 blocks) = lpcRows { a with preEmph := true } blocks.flatten ∧
      (a.normalize = none →
        inBlocks (lpcc { a with preEmph := false }) l s [] (emphBlocks 0.97 0 blocks) = lpcc { a with preEmph := true } blocks.flatten) := by
  have he : ∀ c, (emphBlocks c 0 blocks).flatten = preEmphasis blocks.flatten c := fun c => by rw [emphBlocks_flatten, emphBlock_eq]
  have hl' : ∀ c, l ≤ (emphBlocks c 0 blocks).flatten.length := fun c => by rw [he, preEmphasis_length]; exact hlen
  have hne : blocks.flatten ≠ [] := fun e => by
    rw [e] at hlen
    simp at hlen
    omega
  refine ⟨fun a c hn hl hs => ⟨fun hok => ?_, fun fb x ft hok hb hfb hx hx0 => ?_⟩, fun a hl hs hok => ?_⟩
  · rw [C170_plp { a with preEmph := false } hn rfl l s hl hs h0 hsl hok _ (hl' c), he,
      C47_plp_pre_emph_coeff plp (by simp) a c _ hne]
  · rw [C47_plp_pre_emph_coeff rplp (by simp) a c _ hne, ← he]
    refine C170_rplp { a with preEmph := false } hn rfl l s hl hs h0 hsl hok _ (hl' c) hb hfb (x := x) (ft := ft) ?_ hx0
    rw [← hx, he]
    obtain ⟨y, ys, hy⟩ := List.exists_cons_of_ne_nil hne
    rw [hy]
    rfl
  · have h := C170_lpc { a with preEmph := false } rfl l s hl hs h0 hsl hok _ (hl' 0.97)
    rw [he] at h
    obtain ⟨y, ys, hy⟩ := List.exists_cons_of_ne_nil hne
    rw [hy] at h ⊢
    exact h

/-- Two samples, one per block, in frames of one sample. -/
example : inBlocks (rplp tinyPlp) 1 1 [] [[1], [], [2]] = rplp tinyPlp [1, 2] := by
  have hb : plpBank tinyPlp = .ok (List.replicate 5 [fin 1]) := rfl
  have hne : (List.replicate 5 [fin (1 : ℝ)]) ≠ [] := by simp
  obtain ⟨ft, hx⟩ := tinyPlp_spec 1 2
  have hpos : AllPos [List.replicate 5 (fin ((1 : ℝ) * 1)), List.replicate 5 (fin (2 * 2))] := by
    intro r hr w hw
    simp only [List.mem_cons, List.not_mem_nil, or_false] at hr
    rcases hr with rfl | rfl
    · exact ⟨1 * 1, by norm_num, List.eq_of_mem_replicate hw⟩
    · exact ⟨2 * 2, by norm_num, List.eq_of_mem_replicate hw⟩
  obtain ⟨m, hm, -⟩ := C66_rplp_defined tinyPlp _ _ _ ft hb hne hx hpos le_rfl (by decide) rfl rfl
  have hp : pyInt ((1 : ℝ) * 1) = ((1 : ℕ) : ℤ) := by norm_num [pyInt]
  exact C170_rplp tinyPlp rfl rfl 1 1 hp hp one_pos le_rfl ⟨_, m, hm⟩ [[1], [], [2]] (by simp) hb hne hx hpos

end Props
end Spafe
