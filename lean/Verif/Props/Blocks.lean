import Verif.Props.ColumnInput
import Verif.Props.Locality
import Verif.Spec.Blocks

/-! C170: features of a recording that arrives in blocks. -/

set_option linter.unusedSectionVars false

namespace Spafe
namespace Props
open Model XF Spec

/-- The frames of `x`: `l` samples every `s` samples. -/
def framesOf (l s : ℕ) (x : List ℝ) : List (List ℝ) :=
  (List.range ((x.length - l) / s + 1)).map fun (i : ℕ) => (x.drop (i * s)).take l

/-- `f` treats the frames of a long enough signal one after the other, each on its own. -/
def FrameByFrame {β : Type} (f : List ℝ → Py (List β)) (l s : ℕ) : Prop :=
  ∃ h : List ℝ → Py β, ∀ x, l ≤ x.length → f x = (framesOf l s x).mapM h

theorem framesOf_append {l s : ℕ} (h0 : 0 < s) (b c : List ℝ) (hb : l ≤ b.length) (hsl : s ≤ l) :
    framesOf l s (b ++ c) = framesOf l s b ++
      (if ((b ++ c).drop ((framesOf l s b).length * s)).length < l then []
        else framesOf l s ((b ++ c).drop ((framesOf l s b).length * s))) := by
  have hk : (framesOf l s b).length = (b.length - l) / s + 1 := by simp [framesOf]
  rw [hk]
  set k := (b.length - l) / s + 1 with hkd
  have hk1 : 1 ≤ k := Nat.succ_le_succ (Nat.zero_le _)
  have h1 : (k - 1) * s ≤ b.length - l := by
    have := Nat.div_mul_le_self (b.length - l) s
    simpa [hkd] using this
  have h2 : b.length - l < k * s := by
    have := Nat.lt_div_mul_add (a := b.length - l) h0
    rw [hkd, Nat.add_mul]
    omega
  have hks : k * s = (k - 1) * s + s := by
    have : k = (k - 1) + 1 := by omega
    conv_lhs => rw [this]
    ring
  have hpre : ∀ i < k, ((b ++ c).drop (i * s)).take l = (b.drop (i * s)).take l := by
    intro i hi
    have h3 : i * s ≤ (k - 1) * s := Nat.mul_le_mul_right s (by omega)
    rw [List.drop_append_of_le_length (by omega), List.take_append_of_le_length (by simp; omega)]
  have hN : (b ++ c).length = b.length + c.length := List.length_append
  rw [List.length_drop]
  split_ifs with hc
  · rw [List.append_nil]
    have h4 : ((b ++ c).length - l) / s = k - 1 := by
      apply Nat.div_eq_of_lt_le
      · omega
      · rw [Nat.sub_add_cancel (by omega : 1 ≤ k)]; omega
    unfold framesOf
    rw [h4, Nat.sub_add_cancel (by omega : 1 ≤ k), ← hkd]
    apply List.map_congr_left
    intro i hi
    exact hpre i (by simpa using hi)
  · have h4 : ((b ++ c).length - l) / s = k + ((b ++ c).length - k * s - l) / s := by
      have : (b ++ c).length - l = ((b ++ c).length - k * s - l) + k * s := by omega
      rw [this, Nat.add_mul_div_right _ _ h0]
      omega
    unfold framesOf
    rw [h4, ← hkd, List.length_drop, Nat.add_assoc, List.range_add, List.map_append, List.map_map]
    congr 1
    · apply List.map_congr_left
      intro i hi
      exact hpre i (by simpa using hi)
    · apply List.map_congr_left
      intro i _
      simp only [Function.comp, List.drop_drop]
      congr 2
      ring

theorem inBlocks_eq {β : Type} {f : List ℝ → Py (List β)} {l s : ℕ} (hf : FrameByFrame f l s) (h0 : 0 < s) (hsl : s ≤ l)
    (cs : List (List ℝ)) : ∀ buf : List ℝ, buf.length < l →
      inBlocks f l s buf cs = if (buf ++ cs.flatten).length < l then .ok [] else f (buf ++ cs.flatten) := by
  obtain ⟨h, hf⟩ := hf
  induction cs with
  | nil =>
    intro buf hb
    rw [List.flatten_nil, List.append_nil, if_pos hb]
    rfl
  | cons c cs ih =>
    intro buf hb
    rw [List.flatten_cons, ← List.append_assoc]
    unfold inBlocks
    by_cases hl : (buf ++ c).length < l
    · rw [if_pos hl, ih _ hl]
    · have hl' : l ≤ (buf ++ c).length := by omega
      have hll : ¬ ((buf ++ c) ++ cs.flatten).length < l := by
        rw [List.length_append]; omega
      rw [if_neg hl, if_neg hll, hf _ hl', hf _ (by omega), framesOf_append h0 (buf ++ c) cs.flatten hl' hsl, List.mapM_append]
      cases hm : (framesOf l s (buf ++ c)).mapM h with
      | error e => rfl
      | ok m =>
        have hml := mapM_length _ _ _ hm
        have hk : (framesOf l s (buf ++ c)).length = ((buf ++ c).length - l) / s + 1 := by simp [framesOf]
        have h1 := Nat.div_mul_le_self ((buf ++ c).length - l) s
        have h2 := Nat.lt_div_mul_add (a := (buf ++ c).length - l) h0
        have h3 : (framesOf l s (buf ++ c)).length * s = ((buf ++ c).length - l) / s * s + s := by
          rw [hk]; ring
        simp only [ok_bind]
        rw [hml, ih _ (by rw [List.length_drop]; omega), ← List.drop_append_of_le_length (by omega)]
        split_ifs with hc
        · rfl
        · rw [hf _ (by omega)]
          rfl

/-- `f` accepts its parameters: it returns for some signal. -/
def Accepted {β : Type} (f : List ℝ → Py β) : Prop := ∃ sig m, f sig = .ok m

theorem frameByFrame_rowwise (f : Feature) (hf : f ∈ rowwiseFeatures) (a : Args) (hn : a.normalize = none)
    (hp : a.preEmph = false) (l s : ℕ) (hl : pyInt (a.win.winLen * a.fs) = l) (hs : pyInt (a.win.winHop * a.fs) = s)
    (h0 : 0 < s) (hok : Accepted (f a)) : FrameByFrame (f a) l s := by
  obtain ⟨sig, m, h⟩ := hok
  obtain ⟨bank, coeff, g, he, -⟩ := rowwise_form hf
  rw [he] at h
  split_ifs at h with hc
  obtain ⟨fb, hfb, h⟩ := (bind_ok_iff ..).mp h
  obtain ⟨W, hW, h1, h2, h3, rfl⟩ := (featCore_ok_iff' hn ..).mp h
  have hS : 0 < pyInt (a.win.winHop * a.fs) := by omega
  obtain ⟨hle, l1, s1, w, e1, e2, -, e3, e4, e5, rfl⟩ := ((frontEnd_ok_iff a (coeff a) sig W hS).mp hW).2
  obtain rfl : l1 = l := by omega
  obtain rfl : s1 = s := by omega
  refine ⟨fun fr => .ok (featRow a fb (g a) (List.zipWith (· * ·) w fr)), fun x hx => ?_⟩
  rw [mapM_ok _ (fun fr => featRow a fb (g a) (List.zipWith (· * ·) w fr)) _ (fun _ _ => rfl), he, if_neg hc, hfb, ok_bind]
  refine (featCore_ok_iff' hn ..).mpr ⟨_, (frontEnd_ok_iff a (coeff a) x _ hS).mpr
    ⟨by simp [hp], hle, l1, s1, w, hl, hs, h0, hx, e4, e5, rfl⟩, h1, h2, h3, ?_⟩
  simp [framesOf, List.map_map, emph, hp, Function.comp_def]

/-- **C170**: for mfcc, imfcc, lfcc, bfcc, gfcc, ngcc and msrcc without pre-emphasis and normalisation the blocks make no difference: any
division of a recording into blocks (some of them possibly empty, or shorter than a frame) gives the rows of the whole recording. -/
theorem C170_blocks (f : Feature) (hf : f ∈ rowwiseFeatures) (a : Args) (hn : a.normalize = none) (hp : a.preEmph = false)
    (l s : ℕ) (hl : pyInt (a.win.winLen * a.fs) = l) (hs : pyInt (a.win.winHop * a.fs) = s) (h0 : 0 < s) (hsl : s ≤ l)
    (hok : Accepted (f a)) (blocks : List (List ℝ)) (hlen : l ≤ blocks.flatten.length) :
    inBlocks (f a) l s [] blocks = f a blocks.flatten := by
  rw [inBlocks_eq (frameByFrame_rowwise f hf a hn hp l s hl hs h0 hok) h0 hsl blocks [] (by simp; omega), List.nil_append,
    if_neg (by omega)]

theorem mapM_map_ok {β γ δ : Type} (h : β → Py γ) (g : γ → δ) (x : List β) :
    (x.mapM h >>= fun r => (.ok (r.map g) : Py (List δ))) = x.mapM fun b => h b >>= fun v => .ok (g v) := by
  induction x with
  | nil => rfl
  | cons b x ih =>
    rw [List.mapM_cons, List.mapM_cons, ← ih]
    cases h b with
    | error e => rfl
    | ok v =>
      cases x.mapM h with
      | error e => rfl
      | ok vs => rfl

theorem frameByFrame_lpcFrames {a : LpcArgs} (hp : a.preEmph = false) {l s : ℕ} (hl : pyInt (a.win.winLen * a.fs) = l)
    (hs : pyInt (a.win.winHop * a.fs) = s) (h0 : 0 < s) {sig : List ℝ} {F : List (List ℝ)} (h : lpcFrames a sig = .ok F)
    (x : List ℝ) (hx : l ≤ x.length) : lpcFrames a x = .ok (framesOf l s x) := by
  have hS : 0 < pyInt (a.win.winHop * a.fs) := by omega
  obtain ⟨hle, l1, s1, e1, e2, -, e3, e4, rfl⟩ := ((lpcFrames_ok_iff a sig F hS).mp h).2
  obtain rfl : l1 = l := by omega
  obtain rfl : s1 = s := by omega
  refine (lpcFrames_ok_iff a x _ hS).mpr ⟨by simp [hp], hle, l1, s1, hl, hs, h0, hx, e4, ?_⟩
  simp [framesOf, Model.LpcArgs.emph, hp]

/-- The rows of `lpc` with their errors. -/
noncomputable def lpcRows (a : LpcArgs) (sig : List ℝ) : Py (List (List ℝ × ℝ)) := do
  let (m, e) ← lpc a sig
  .ok (m.zip e)

/-- **C170** for `lpc` (coefficients and errors) and `lpcc` without pre-emphasis and normalisation, including exceptions: if a frame makes `lpc`
raise, the blocks raise the same exception. -/
theorem C170_lpc (a : LpcArgs) (hp : a.preEmph = false) (l s : ℕ) (hl : pyInt (a.win.winLen * a.fs) = l)
    (hs : pyInt (a.win.winHop * a.fs) = s) (h0 : 0 < s) (hsl : s ≤ l) (hok : Accepted (lpcFrames a))
    (blocks : List (List ℝ)) (hlen : l ≤ blocks.flatten.length) :
    inBlocks (lpcRows a) l s [] blocks = lpcRows a blocks.flatten ∧
      (a.normalize = none → inBlocks (lpcc a) l s [] blocks = lpcc a blocks.flatten) := by
  obtain ⟨sig, F, hF⟩ := hok
  have hfr := frameByFrame_lpcFrames hp hl hs h0 hF
  constructor
  · rw [inBlocks_eq (f := lpcRows a) ⟨fun f => lpcHelper f (a.order - 1), fun x hx => ?_⟩ h0 hsl blocks [] (by simp; omega),
      List.nil_append, if_neg (by omega)]
    unfold lpcRows lpc
    rw [hfr x hx, ok_bind]
    cases (framesOf l s x).mapM fun f => lpcHelper f (a.order - 1) with
    | error e => rfl
    | ok r =>
      simp only [ok_bind]
      congr 1
      rw [← List.map_id r, List.map_map, List.map_map, List.zip_map']
      simp
  · intro hn
    have key : ∃ g : List (XF ℝ) → List (XF ℝ), ∀ x, l ≤ x.length → lpcc a x =
        ((framesOf l s x).mapM fun f => lpcHelper f (a.order - 1) >>= fun p => lpc2lpcc p.1 p.2 (a.order - 1 + 1)) >>=
          fun r => .ok (r.map g) := by
      have hid : ∀ (y : Py XMat), y = y >>= fun r => .ok (r.map id) := by
        intro y
        cases y <;> simp
      cases hli : a.lifter with
      | none =>
        refine ⟨id, fun x hx => ?_⟩
        unfold lpcc
        simp only [hfr x hx, ok_bind, hli, hn]
        rw [← hid]
        cases h : (framesOf l s x).mapM fun f => lpcHelper f (a.order - 1) >>= fun p => lpc2lpcc p.1 p.2 (a.order - 1 + 1) with
        | error e => rfl
        | ok r => rfl
      | some v =>
        refine ⟨if v = 0 then id else liftRow v (a.order - 1 + 1), fun x hx => ?_⟩
        unfold lpcc
        simp only [hfr x hx, ok_bind, hli, hn]
        show (List.mapM (fun f => lpcHelper f (a.order - 1) >>= fun p => lpc2lpcc p.1 p.2 (a.order - 1 + 1)) (framesOf l s x) >>= _) = _
        congr 1
        funext r
        split_ifs with hv
        · simp
        · have := (lifterCeps_ok_iff r (a.order - 1 + 1) v (r.map (liftRow v (a.order - 1 + 1)))).mpr
          rw [this]
          · rfl
          · exact ⟨by simp, rfl⟩
    obtain ⟨g, hg⟩ := key
    rw [inBlocks_eq (f := lpcc a) ⟨_, fun x hx => (hg x hx).trans (mapM_map_ok _ _ _)⟩ h0 hsl blocks [] (by simp; omega),
      List.nil_append, if_neg (by omega)]

theorem emphBlock_length (c prev : ℝ) (x : List ℝ) : (emphBlock c prev x).length = x.length := by
  simp [emphBlock]

theorem emphBlock_append (c prev : ℝ) (x y : List ℝ) :
    emphBlock c prev (x ++ y) = emphBlock c prev x ++ emphBlock c (x.getLast?.getD prev) y := by
  induction x generalizing prev with
  | nil => simp [emphBlock]
  | cons v x ih =>
    have e : ∀ z, emphBlock c prev (v :: z) = (v - c * prev) :: emphBlock c v z := fun z => rfl
    rw [List.cons_append, e, e, ih, List.cons_append]
    congr 3
    cases x <;> simp [List.getLast?_cons]

theorem emphBlock_eq (c : ℝ) (x : List ℝ) : emphBlock c 0 x = preEmphasis x c := by
  apply ext_getD 0
  · rw [emphBlock_length, preEmphasis_length]
  · intro t ht
    rw [emphBlock_length] at ht
    rw [emph_at c x ht, emphBlock, getD_zipWith_lt _ _ _ 0 0 0 ht (by simp; omega)]
    congr 2
    cases t <;> simp [before]

theorem emphBlocks_flatten (c : ℝ) (blocks : List (List ℝ)) : ∀ prev, (emphBlocks c prev blocks).flatten =
    emphBlock c prev blocks.flatten := by
  induction blocks with
  | nil => intro prev; rfl
  | cons x xs ih =>
    intro prev
    rw [emphBlocks, List.flatten_cons, List.flatten_cons, ih, ← emphBlock_append]

/-- **C170**, with pre-emphasis: carrying the last sample of a block over to the next one gives the rows of the whole recording. The coefficient is
the one of the arguments, or 0.97 for the features that ignore it (C47). -/
theorem C170_emphasis (f : Feature) (a : Args) (c : ℝ)
    (hf : f ∈ [mfcc, imfcc, ngcc, msrcc] ∨ (f ∈ [lfcc, bfcc, gfcc] ∧ c = 0.97)) (hn : a.normalize = none)
    (l s : ℕ) (hl : pyInt (a.win.winLen * a.fs) = l) (hs : pyInt (a.win.winHop * a.fs) = s) (h0 : 0 < s) (hsl : s ≤ l)
    (hok : Accepted (f { a with preEmph := false })) (blocks : List (List ℝ)) (hlen : l ≤ blocks.flatten.length) :
    inBlocks (f { a with preEmph := false }) l s [] (emphBlocks c 0 blocks) =
      f { a with preEmph := true, preEmphCoeff := c } blocks.flatten := by
  have hr : f ∈ rowwiseFeatures := by
    simp only [rowwiseFeatures, List.mem_cons, List.not_mem_nil, or_false] at hf ⊢
    rcases hf with (h | h | h | h) | ⟨h | h | h, -⟩ <;> simp [h]
  have he : (emphBlocks c 0 blocks).flatten = preEmphasis blocks.flatten c := by
    rw [emphBlocks_flatten, emphBlock_eq]
  rw [C170_blocks f hr { a with preEmph := false } hn rfl l s hl hs h0 hsl hok _ (by rw [he, preEmphasis_length]; exact hlen), he]
  refine (C47_pre_emph_coeff_partial f a c blocks.flatten ?_ ?_).symm
  · intro e
    rw [e] at hlen
    simp at hlen
    omega
  · rcases hf with h | h
    · left
      simp only [List.mem_cons, List.not_mem_nil, or_false] at h ⊢
      rcases h with h | h | h | h <;> simp [h]
    · exact Or.inr h

theorem plpTail_total {a : Args} (hn : a.normalize = none) {x y : XMat} (h : plpTail a x = .ok y) :
    ∃ g : List (XF ℝ) → List (XF ℝ), ∀ z, plpTail a z = .ok (z.map g) := by
  cases hl : a.lifter with
  | none => exact ⟨id, fun z => by rw [plpTail_none hl hn, List.map_id]⟩
  | some l =>
    simp only [plpTail, hl, hn] at h
    obtain ⟨w, h1, -⟩ := (bind_ok_iff ..).mp h
    have h2 := ((lifterCeps_ok_iff ..).mp h1).1
    refine ⟨liftRow l a.numCeps, fun z => ?_⟩
    simp only [plpTail, hl, hn]
    rw [(lifterCeps_ok_iff z a.numCeps l _).mpr ⟨h2, rfl⟩]
    rfl

/-- **C170** for `plp` without pre-emphasis and normalisation, including exceptions. -/
theorem C170_plp (a : Args) (hn : a.normalize = none) (hp : a.preEmph = false)
    (l s : ℕ) (hl : pyInt (a.win.winLen * a.fs) = l) (hs : pyInt (a.win.winHop * a.fs) = s) (h0 : 0 < s) (hsl : s ≤ l)
    (hok : Accepted (plp a)) (blocks : List (List ℝ)) (hlen : l ≤ blocks.flatten.length) :
    inBlocks (plp a) l s [] blocks = plp a blocks.flatten := by
  obtain ⟨sig, m, h⟩ := hok
  obtain ⟨hc, fb, W, hfb, hW, hx⟩ := plp_bank_of_ok (b := false) h
  obtain ⟨-, -, hn0, hcols, -, -⟩ := (spectrogram_ok_iff ..).mp hx
  have hS : 0 < pyInt (a.win.winHop * a.fs) := by omega
  obtain ⟨hle, l1, s1, w, e1, e2, -, e3, e4, e5, rfl⟩ := ((frontEnd_ok_iff a _ sig W hS).mp hW).2
  obtain rfl : l1 = l := by omega
  obtain rfl : s1 = s := by omega
  have hm := h
  rw [plp, rastaplp_eq hfb hx hc] at hm
  simp only [plpRasta, Bool.false_eq_true, if_false, ok_bind] at hm
  obtain ⟨r, -, ht⟩ := (bind_ok_iff ..).mp hm
  obtain ⟨g, hg⟩ := plpTail_total hn ht
  have key : ∀ x : List ℝ, l1 ≤ x.length → plp a x = (framesOf l1 s1 x).mapM fun fr =>
      plpRow a.nfft a.numCeps ((specRow a.nfft fb (List.zipWith (· * ·) w fr)).map loudness) >>= fun v => .ok (g v) := by
    intro x hxl
    have hfe := (frontEnd_ok_iff a a.preEmphCoeff x _ hS).mpr ⟨by simp [hp], hle, l1, s1, w, hl, hs, h0, hxl, e4, e5, rfl⟩
    have hsp := (spectrogram_ok_iff ..).mpr ⟨_, hfe, hn0, hcols, rfl, rfl⟩
    rw [plp, rastaplp_eq hfb hsp hc, ← mapM_map_ok]
    rw [show plpTail a = fun z => .ok (z.map g) from funext hg]
    simp only [plpRasta, Bool.false_eq_true, if_false, ok_bind, List.map_map]
    simp only [framesOf, List.mapM_map, emph, hp, Bool.false_eq_true, if_false, Function.comp_def]
  rw [inBlocks_eq ⟨_, key⟩ h0 hsl blocks [] (by simp; omega), List.nil_append, if_neg (by omega)]

theorem blocksDemo_setup : Setup (columnDemo true) [[1, 1]] [1, 1, 1, 1] 2 2 where
  bank := rfl
  cols := by simp [columnDemo, cropDemo]
  nonneg := by simp
  rows := by simp
  ceps := (cropDemo_setup 2 (by norm_num) 1 1).ceps
  nfft := (cropDemo_setup 2 (by norm_num) 1 1).nfft
  window := (cropDemo_setup 2 (by norm_num) 1 1).window
  hopLe := (cropDemo_setup 2 (by norm_num) 1 1).hopLe
  len := (cropDemo_setup 2 (by norm_num) 1 1).len
  hop := (cropDemo_setup 2 (by norm_num) 1 1).hop
  pos := by norm_num
  long := by simp
  samples := by simp

theorem blocksDemo_energy :
    bandEnergy [[1, 1]] (windowWeight (columnDemo true).win.winType 2) (emphasised true 0.97 [1, 1, 1, 1]) 2 2 2 1 0 =
      0.00001152 := by
  have e : Complex.exp (-(2 * Real.pi * Complex.I / 2)) = -1 := by
    rw [show -(2 * (Real.pi : ℂ) * Complex.I / 2) = -(Real.pi * Complex.I) by ring, Complex.exp_neg, Complex.exp_pi_mul_I]
    norm_num
  have hb : ∀ k < 2, frameBin (windowWeight (columnDemo true).win.winType 2) (emphasised true 0.97 [1, 1, 1, 1]) 2 2 2 1 k =
      ((if k = 0 then 0.0048 else 0 : ℝ) : ℂ) := by
    intro k hk
    unfold frameBin
    rw [show min 2 2 = 2 from rfl, Finset.sum_range_succ, Finset.sum_range_one, columnDemo_weight true 0 (by norm_num),
      columnDemo_weight true 1 (by norm_num)]
    obtain rfl | rfl : k = 0 ∨ k = 1 := by omega
    · simp [emphasised]; norm_num
    · simp [emphasised, e]
  unfold bandEnergy framePower
  rw [show 2 / 2 + 1 = 2 from rfl, Finset.sum_range_succ, Finset.sum_range_one, hb 0 (by norm_num), hb 1 (by norm_num)]
  simp only [Complex.norm_real, Real.norm_eq_abs, sq_abs]
  norm_num

/-- **C170**: with the library's own pre-emphasis (`pre_emph=True`, the default) the blocks do make a difference, because every call takes the sample
before its first one to be 0: four ones in two blocks of two. The second row is that of the first block again, in the whole recording it is
smaller. -/
theorem C170_naive_differs : ∃ u v w, inBlocks (mfcc (columnDemo true)) 2 2 [] [[1, 1], [1, 1]] = .ok [[fin u], [fin v]] ∧
    mfcc (columnDemo true) [1, 1, 1, 1] = .ok [[fin u], [fin w]] ∧ w < v := by
  obtain ⟨v0, v, -, hv, -, hv', -⟩ := C166_differs
  have hs : √2 * (1 / √2) = (1 : ℝ) := by field_simp
  have hc : Real.cos (Real.pi * ((0 : ℕ) : ℝ) * (2 * ((0 : ℕ) : ℝ) + 1) / (2 * 1)) = 1 := by simp
  obtain ⟨m, hm, ⟨h1, h2⟩, h3⟩ := C101_meaning (columnDemo true) mfcc 0.97 logFloor (by simp [compressions, columnDemo, cropDemo]) [[1, 1]]
    [1, 1, 1, 1] 2 2 blocksDemo_setup rfl rfl rfl rfl
  have h4 := h3 1 0 (by simp) (by simp [columnDemo, cropDemo])
  rw [show (columnDemo true).preEmph = true from rfl, show (columnDemo true).nfft = 2 from rfl] at h4
  simp only [dctII, List.length_singleton, Finset.sum_range_one, blocksDemo_energy, Nat.cast_one, div_one, if_true, hs, hc] at h4
  have h1' : m.length = 2 := by simpa using h1
  obtain ⟨r0, r1, rfl⟩ := List.length_eq_two.mp h1'
  have h5 : r0 = [fin v] := by
    obtain ⟨m', hm', hpre⟩ := C46_prefix mfcc (by simp [rowwiseFeatures]) (columnDemo true) rfl
      (by rw [blocksDemo_setup.hop]; norm_num) [1, 1] [1, 1] _ hv
    have e : mfcc (columnDemo true) ([1, 1] ++ [1, 1]) = .ok [r0, r1] := hm
    rw [e] at hm'
    injection hm' with hm'
    rw [← hm'] at hpre
    simpa using (List.cons_prefix_cons.mp hpre).1.symm
  have h2' : r1.length = 1 := by simpa [columnDemo, cropDemo] using h2 r1 (by simp)
  obtain ⟨w, rfl⟩ := List.length_eq_one_iff.mp h2'
  refine ⟨v, v, Real.log 0.00001152, ?_, ?_, ?_⟩
  · have e1 : inBlocks (mfcc (columnDemo true)) 2 2 [] [[1, 1], [1, 1]] =
        (mfcc (columnDemo true) [1, 1] >>= fun rows => (inBlocks (mfcc (columnDemo true)) 2 2 (([1, 1] : List ℝ).drop (rows.length * 2)) [[1, 1]]
          >>= fun rest => .ok (rows ++ rest))) := rfl
    have e2 : inBlocks (mfcc (columnDemo true)) 2 2 [] [[1, 1]] =
        (mfcc (columnDemo true) [1, 1] >>= fun rows => (.ok rows : Py XMat)) := by
      simp [inBlocks]
    rw [e1, hv, ok_bind]
    show (inBlocks (mfcc (columnDemo true)) 2 2 [] [[1, 1]] >>= _) = _
    rw [e2, hv]
    rfl
  · rw [hm, h5]
    have hl : logFloor 0.00001152 = Real.log 0.00001152 := by
      unfold logFloor
      rw [if_neg (by norm_num)]
    rw [hl] at h4
    have h6 : w = fin (Real.log 0.00001152) := by simpa using h4
    rw [h6]
  · rw [hv']
    exact Real.log_lt_log (by norm_num) (by norm_num)

/-- Six samples in blocks of one, none, two and three samples; frames of two. -/
example : inBlocks (mfcc (columnDemo false)) 2 2 [] [[1], [], [2, 3], [4, 5, 6]] = mfcc (columnDemo false) [1, 2, 3, 4, 5, 6] := by
  obtain ⟨m, hm, -⟩ := C101_meaning (columnDemo false) mfcc 0.97 logFloor (by simp [compressions, columnDemo, cropDemo]) [[1, 1]] [1, 1] 2 2
    (columnDemo_setup false) rfl rfl rfl rfl
  exact C170_blocks mfcc (by simp [rowwiseFeatures]) (columnDemo false) rfl rfl 2 2 (columnDemo_setup false).len (columnDemo_setup false).hop
    (by norm_num) le_rfl ⟨_, m, hm⟩ _ (by simp)

/-- The same with pre-emphasis, the last sample carried over. -/
example : inBlocks (mfcc (columnDemo false)) 2 2 [] (emphBlocks 0.97 0 [[1], [], [2, 3], [4, 5, 6]]) =
    mfcc (columnDemo true) [1, 2, 3, 4, 5, 6] := by
  obtain ⟨m, hm, -⟩ := C101_meaning (columnDemo false) mfcc 0.97 logFloor (by simp [compressions, columnDemo, cropDemo]) [[1, 1]] [1, 1] 2 2
    (columnDemo_setup false) rfl rfl rfl rfl
  exact C170_emphasis mfcc (columnDemo false) 0.97 (by simp) rfl 2 2 (columnDemo_setup false).len (columnDemo_setup false).hop
    (by norm_num) le_rfl ⟨_, m, hm⟩ _ (by simp)

end Props
end Spafe
