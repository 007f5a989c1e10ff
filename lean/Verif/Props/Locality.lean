import Verif.Props.Polarity
import Verif.Props.DefaultBank

/-! C111: a row of features is a function of the samples under its window (and the sample before them, for
pre-emphasis), wherever the window lies. -/

set_option linter.unusedSectionVars false

namespace Spafe
namespace Props
open Model XF Spec

/-- The sample before position `t`; the code takes 0 before the start. -/
def before (sig : List ℝ) (t : ℕ) : ℝ := if t = 0 then 0 else sig.getD (t - 1) 0

/-- The `l` samples from position `p` of `sig` and from position `p'` of `sig'` agree, and with pre-emphasis also the
samples before them. -/
def SameWindow (preEmph : Bool) (sig sig' : List ℝ) (p p' l : ℕ) : Prop :=
  (∀ j < l, sig.getD (p + j) 0 = sig'.getD (p' + j) 0) ∧ (preEmph = true → before sig p = before sig' p')

theorem emph_at (c : ℝ) (x : List ℝ) {t : ℕ} (ht : t < x.length) :
    (preEmphasis x c).getD t 0 = x.getD t 0 - c * before x t := by
  obtain ⟨-, h1, h2⟩ := C09_pre_emphasis x c
  unfold before
  split_ifs with h
  · subst h; rw [h1 ht]; ring
  · exact h2 t (by omega) ht

theorem same_frame {b : Bool} {c : ℝ} {sig sig' : List ℝ} {p p' l : ℕ} (h : SameWindow b sig sig' p p' l)
    (hp : p + l ≤ sig.length) (hp' : p' + l ≤ sig'.length) :
    ((if b then preEmphasis sig c else sig).drop p).take l = ((if b then preEmphasis sig' c else sig').drop p').take l := by
  have hlen : ∀ x : List ℝ, (if b then preEmphasis x c else x).length = x.length := fun x => by
    split_ifs
    · exact preEmphasis_length _ _
    · rfl
  apply ext_getD 0
  · simp only [List.length_take, List.length_drop, hlen]; omega
  · intro j hj
    simp only [List.length_take, List.length_drop, hlen] at hj
    rw [getD_take_lt _ _ (by omega), getD_take_lt _ _ (by omega), getD_drop', getD_drop']
    cases b with
    | false => exact h.1 j (by omega)
    | true =>
      simp only [if_true]
      rw [emph_at _ _ (by omega), emph_at _ _ (by omega), h.1 j (by omega)]
      congr 2
      cases j with
      | zero => exact h.2 rfl
      | succ j =>
        have e1 : before sig (p + (j + 1)) = sig.getD (p + j) 0 := by simp [before, ← Nat.add_assoc]
        have e2 : before sig' (p' + (j + 1)) = sig'.getD (p' + j) 0 := by simp [before, ← Nat.add_assoc]
        rw [e1, e2, h.1 j (by omega)]

theorem frame_fits {n l s i : ℕ} (hl : l ≤ n) (hi : i < (n - l) / s + 1) : i * s + l ≤ n := by
  have h1 : i * s ≤ (n - l) / s * s := Nat.mul_le_mul_right s (by omega)
  have h2 := Nat.div_mul_le_self (n - l) s
  omega

theorem frontEnd_local {a : Args} {coeff : ℝ} {sig sig' : List ℝ} {W W' : List (List ℝ)} {l s : ℕ}
    (hl : pyInt (a.win.winLen * a.fs) = l) (hs : pyInt (a.win.winHop * a.fs) = s) (h0 : 0 < s)
    (h : frontEnd a coeff sig = .ok W) (h' : frontEnd a coeff sig' = .ok W') {i i' : ℕ} (hi : i < W.length)
    (hi' : i' < W'.length) (hw : SameWindow a.preEmph sig sig' (i * s) (i' * s) l) : W.getD i [] = W'.getD i' [] := by
  have hS : 0 < pyInt (a.win.winHop * a.fs) := by omega
  obtain ⟨-, l1, s1, w, e1, e2, -, e3, e4, -, rfl⟩ := ((frontEnd_ok_iff a coeff sig W hS).mp h).2
  obtain ⟨-, l2, s2, w', e1', e2', -, e3', e4', -, rfl⟩ := ((frontEnd_ok_iff a coeff sig' W' hS).mp h').2
  obtain rfl : l1 = l := by omega
  obtain rfl : s1 = s := by omega
  obtain rfl : l2 = l1 := by omega
  obtain rfl : s2 = s1 := by omega
  rw [e4] at e4'
  injection e4' with e4'
  subst e4'
  simp only [List.length_map, List.length_range] at hi hi'
  rw [getD_map_range_lt _ _ hi, getD_map_range_lt _ _ hi']
  congr 1
  exact same_frame hw (frame_fits e3 hi) (frame_fits e3' hi')

/-- C111: the row of every cepstral feature without normalisation depends only on the samples under the window of its
frame (and, with pre-emphasis, the sample before them), not on the rest of the signal or on the position. -/
theorem C111_local (f : Feature) (hf : f ∈ rowwiseFeatures) (a : Args) (hn : a.normalize = none) (l s : ℕ)
    (hl : pyInt (a.win.winLen * a.fs) = l) (hs : pyInt (a.win.winHop * a.fs) = s) (h0 : 0 < s) (sig sig' : List ℝ)
    (m m' : XMat) (h : f a sig = .ok m) (h' : f a sig' = .ok m') (i i' : ℕ) (hi : i < m.length) (hi' : i' < m'.length)
    (hw : SameWindow a.preEmph sig sig' (i * s) (i' * s) l) : m.getD i [] = m'.getD i' [] := by
  obtain ⟨bank, coeff, g, he, -⟩ := rowwise_form hf
  rw [he] at h h'
  split_ifs at h h'
  obtain ⟨fb, hfb, h⟩ := (bind_ok_iff ..).mp h
  obtain ⟨fb', hfb', h'⟩ := (bind_ok_iff ..).mp h'
  rw [hfb] at hfb'
  injection hfb' with hfb'
  subst hfb'
  obtain ⟨W, hW, -, -, -, rfl⟩ := (featCore_ok_iff' hn ..).mp h
  obtain ⟨W', hW', -, -, -, rfl⟩ := (featCore_ok_iff' hn ..).mp h'
  rw [List.length_map] at hi hi'
  rw [getD_map_lt _ _ [] [] hi, getD_map_lt _ _ [] [] hi', frontEnd_local hl hs h0 hW hW' hi hi' hw]

theorem mapM_getD {β γ : Type} {f : β → Py γ} {x : List β} {y : List γ} (h : x.mapM f = .ok y) {i : ℕ} (hi : i < x.length)
    (d : β) (e : γ) : f (x.getD i d) = .ok (y.getD i e) := by
  have hlen := mapM_length _ _ _ h
  have := ((mapM_ok_iff ..).mp h).get (i := i) hi (by omega)
  rw [List.getD_eq_getElem x _ hi, List.getD_eq_getElem y _ (by omega)]
  simpa using this

theorem plpTail_row {a : Args} (hn : a.normalize = none) {x y : XMat} (h : plpTail a x = .ok y) :
    ∃ g : List (XF ℝ) → List (XF ℝ), (∀ x' y', plpTail a x' = .ok y' → y' = x'.map g) ∧ y = x.map g := by
  have key : ∃ g : List (XF ℝ) → List (XF ℝ), ∀ x' y', plpTail a x' = .ok y' → y' = x'.map g := by
    cases hl : a.lifter with
    | none =>
      refine ⟨id, fun x' y' h' => ?_⟩
      rw [plpTail_none hl hn] at h'
      injection h' with h'
      rw [← h', List.map_id]
    | some l =>
      refine ⟨liftRow l a.numCeps, fun x' y' h' => ?_⟩
      simp only [plpTail, hl, hn] at h'
      obtain ⟨z, h1, h2⟩ := (bind_ok_iff ..).mp h'
      injection h2 with h2
      subst h2
      exact ((lifterCeps_ok_iff ..).mp h1).2
  obtain ⟨g, hg⟩ := key
  exact ⟨g, hg, hg _ _ h⟩

theorem plp_bank_of_ok {b : Bool} {a : Args} {sig : List ℝ} {m : XMat} (h : rastaplp b a sig = .ok m) :
    a.numCeps ≤ a.nfilts ∧ ∃ fb W, plpBank a = .ok fb ∧ frontEnd a a.preEmphCoeff sig = .ok W ∧
      spectrogram a a.preEmphCoeff fb sig = .ok (W.map (specRow a.nfft fb), W.map (Np.absRfft a.nfft)) := by
  simp only [rastaplp] at h
  split_ifs at h with h1
  rw [plpBank_eq] at h
  obtain ⟨fb, hfb, h⟩ := (bind_ok_iff ..).mp h
  obtain ⟨⟨x, ft⟩, hx, -⟩ := (bind_ok_iff ..).mp h
  obtain ⟨W, hW, -, -, rfl, rfl⟩ := (spectrogram_ok_iff ..).mp hx
  exact ⟨by omega, fb, W, hfb, hW, hx⟩

/-- C111 for `plp`. -/
theorem C111_plp_local (a : Args) (hn : a.normalize = none) (l s : ℕ)
    (hl : pyInt (a.win.winLen * a.fs) = l) (hs : pyInt (a.win.winHop * a.fs) = s) (h0 : 0 < s) (sig sig' : List ℝ)
    (m m' : XMat) (h : plp a sig = .ok m) (h' : plp a sig' = .ok m') (i i' : ℕ) (hi : i < m.length) (hi' : i' < m'.length)
    (hw : SameWindow a.preEmph sig sig' (i * s) (i' * s) l) : m.getD i [] = m'.getD i' [] := by
  obtain ⟨hc, fb, W, hfb, hW, hx⟩ := plp_bank_of_ok (b := false) h
  obtain ⟨-, fb', W', hfb', hW', hx'⟩ := plp_bank_of_ok (b := false) h'
  rw [hfb] at hfb'
  injection hfb' with hfb'
  subst hfb'
  rw [plp, rastaplp_eq hfb hx hc] at h
  rw [plp, rastaplp_eq hfb hx' hc] at h'
  simp only [plpRasta, Bool.false_eq_true, if_false, ok_bind] at h h'
  obtain ⟨r, hr, ht⟩ := (bind_ok_iff ..).mp h
  obtain ⟨r', hr', ht'⟩ := (bind_ok_iff ..).mp h'
  obtain ⟨g, hg, rfl⟩ := plpTail_row hn ht
  rw [hg _ _ ht'] at hi' ⊢
  have e := mapM_length _ _ _ hr
  have e' := mapM_length _ _ _ hr'
  simp only [List.length_map] at hi hi' e e'
  have h1 := mapM_getD hr (i := i) (by simpa [← e] using hi) [] []
  have h2 := mapM_getD hr' (i := i') (by simpa [← e'] using hi') [] []
  rw [getD_map_lt _ _ [] [] hi, getD_map_lt _ _ [] [] hi']
  rw [getD_map_lt _ _ [] [] (by simpa [← e] using hi), getD_map_lt _ _ [] [] (by omega)] at h1
  rw [getD_map_lt _ _ [] [] (by simpa [← e'] using hi'), getD_map_lt _ _ [] [] (by omega)] at h2
  rw [frontEnd_local hl hs h0 hW hW' (by omega) (by omega) hw, h2] at h1
  injection h1 with h1
  rw [h1]

/-- Without normalisation the last steps of `plp` and `rplp` apply one function to every row. -/
theorem rplp_unlift {a : Args} (hn : a.normalize = none) : ∃ g : List (XF ℝ) → List (XF ℝ), ∀ sig m, rplp a sig = .ok m →
    ∃ rows, rplp { a with lifter := none } sig = .ok rows ∧ m = rows.map g := by
  have key : ∀ sig m, rplp a sig = .ok m → ∃ rows, rplp { a with lifter := none } sig = .ok rows ∧ plpTail a rows = .ok m := by
    intro sig m h
    unfold rplp rastaplp at h ⊢
    split_ifs at h with hc
    simp only [bind_ok_iff] at h
    obtain ⟨fb, h1, p, h2, y, h3, rows, h4, ht⟩ := h
    refine ⟨rows, ?_, ht⟩
    have e1 : spectrogram { a with lifter := none } a.preEmphCoeff fb sig = .ok p := h2
    rw [if_neg hc]
    simp only [h1, ok_bind, e1, h3, h4]
    exact plpTail_none (a := { a with lifter := none }) rfl hn rows
  by_cases hex : ∃ sig m, rplp a sig = .ok m
  · obtain ⟨sig, m, h⟩ := hex
    obtain ⟨rows, -, ht⟩ := key sig m h
    obtain ⟨g, hg, -⟩ := plpTail_row hn ht
    refine ⟨g, fun sig' m' h' => ?_⟩
    obtain ⟨rows', hr', ht'⟩ := key sig' m' h'
    exact ⟨rows', hr', hg _ _ ht'⟩
  · exact ⟨id, fun sig m h => absurd ⟨sig, m, h⟩ hex⟩

/-- C111 for `rplp`, where no band energy of the two signals vanishes: although the RASTA filter runs through the whole
matrix, nothing leaks from one frame into the next. -/
theorem C111_rplp_local (a : Args) (hn : a.normalize = none) (l s : ℕ)
    (hl : pyInt (a.win.winLen * a.fs) = l) (hs : pyInt (a.win.winHop * a.fs) = s) (h0 : 0 < s) (sig sig' : List ℝ)
    (fb x x' : XMat) (ft ft' : List (List ℝ)) (hb : plpBank a = .ok fb) (hfb : fb ≠ [])
    (hx : spectrogram a a.preEmphCoeff fb sig = .ok (x, ft)) (hx0 : AllPos x)
    (hx' : spectrogram a a.preEmphCoeff fb sig' = .ok (x', ft')) (hx0' : AllPos x')
    (m m' : XMat) (h : rplp a sig = .ok m) (h' : rplp a sig' = .ok m') (i i' : ℕ) (hi : i < m.length) (hi' : i' < m'.length)
    (hw : SameWindow a.preEmph sig sig' (i * s) (i' * s) l) : m.getD i [] = m'.getD i' [] := by
  obtain ⟨g, hg⟩ := rplp_unlift hn
  obtain ⟨r, hr, rfl⟩ := hg _ _ h
  obtain ⟨r', hr', rfl⟩ := hg _ _ h'
  rw [List.length_map] at hi hi'
  have hlen : ∀ (sig : List ℝ) (x r : XMat) (ft : List (List ℝ)), spectrogram a a.preEmphCoeff fb sig = .ok (x, ft) →
      rplp { a with lifter := none } sig = .ok r → r.length = x.length := by
    intro sig x r ft hx hr
    have hb' : plpBank { a with lifter := none } = .ok fb := hb
    have hx' : spectrogram { a with lifter := none } a.preEmphCoeff fb sig = .ok (x, ft) := hx
    have hc : a.numCeps ≤ a.nfilts := by
      by_contra hcon
      rw [(C37_plp_nfilts_check rplp (by simp) { a with lifter := none } _).mpr (by simpa using hcon)] at hr; cases hr
    rw [rplp, rastaplp_eq hb' hx' hc] at hr
    obtain ⟨y, hy, hr⟩ := (bind_ok_iff ..).mp hr
    obtain ⟨rows, hrows, hr⟩ := (bind_ok_iff ..).mp hr
    rw [plpTail_none (a := { a with lifter := none }) rfl hn] at hr
    injection hr with hr
    have := mapM_length _ _ _ hrows
    rw [← hr, this, List.length_map, plpRasta_length hy]
  have k := hlen _ _ _ _ hx hr
  have k' := hlen _ _ _ _ hx' hr'
  rw [getD_map_lt _ _ [] [] hi, getD_map_lt _ _ [] [] hi']
  refine congrArg g ?_
  refine C90_rplp_row_local { a with lifter := none } sig sig' fb x x' r r' ft ft' hb hfb hx hx0 hx' hx0' rfl hn hr hr' i i'
    (k ▸ hi) (k' ▸ hi') ?_
  obtain ⟨W, hW, -, -, rfl, -⟩ := (spectrogram_ok_iff ..).mp hx
  obtain ⟨W', hW', -, -, rfl, -⟩ := (spectrogram_ok_iff ..).mp hx'
  rw [List.length_map] at k k'
  rw [getD_map_lt _ _ [] [] (k ▸ hi), getD_map_lt _ _ [] [] (k' ▸ hi'),
    frontEnd_local hl hs h0 hW hW' (k ▸ hi) (k' ▸ hi') hw]

theorem lpcFrames_local {a : LpcArgs} {sig sig' : List ℝ} {F F' : List (List ℝ)} {l s : ℕ}
    (hl : pyInt (a.win.winLen * a.fs) = l) (hs : pyInt (a.win.winHop * a.fs) = s) (h0 : 0 < s)
    (h : lpcFrames a sig = .ok F) (h' : lpcFrames a sig' = .ok F') {i i' : ℕ} (hi : i < F.length)
    (hi' : i' < F'.length) (hw : SameWindow a.preEmph sig sig' (i * s) (i' * s) l) : F.getD i [] = F'.getD i' [] := by
  have hS : 0 < pyInt (a.win.winHop * a.fs) := by omega
  obtain ⟨-, l1, s1, e1, e2, -, e3, -, rfl⟩ := ((lpcFrames_ok_iff a sig F hS).mp h).2
  obtain ⟨-, l2, s2, e1', e2', -, e3', -, rfl⟩ := ((lpcFrames_ok_iff a sig' F' hS).mp h').2
  obtain rfl : l1 = l := by omega
  obtain rfl : s1 = s := by omega
  obtain rfl : l2 = l1 := by omega
  obtain rfl : s2 = s1 := by omega
  simp only [List.length_map, List.length_range] at hi hi'
  rw [getD_map_range_lt _ _ hi, getD_map_range_lt _ _ hi']
  exact same_frame hw (frame_fits e3 hi) (frame_fits e3' hi')

/-- C111 for `lpc`: coefficients and error. -/
theorem C111_lpc_local (a : LpcArgs) (l s : ℕ)
    (hl : pyInt (a.win.winLen * a.fs) = l) (hs : pyInt (a.win.winHop * a.fs) = s) (h0 : 0 < s) (sig sig' : List ℝ)
    (m m' : List (List ℝ) × List ℝ) (h : lpc a sig = .ok m) (h' : lpc a sig' = .ok m') (i i' : ℕ) (hi : i < m.1.length)
    (hi' : i' < m'.1.length) (hw : SameWindow a.preEmph sig sig' (i * s) (i' * s) l) :
    m.1.getD i [] = m'.1.getD i' [] ∧ m.2.getD i 0 = m'.2.getD i' 0 := by
  unfold lpc at h h'
  obtain ⟨F, hF, h⟩ := (bind_ok_iff ..).mp h
  obtain ⟨F', hF', h'⟩ := (bind_ok_iff ..).mp h'
  obtain ⟨r, hr, h⟩ := (bind_ok_iff ..).mp h
  obtain ⟨r', hr', h'⟩ := (bind_ok_iff ..).mp h'
  injection h with h
  injection h' with h'
  subst h h'
  simp only [List.length_map] at hi hi'
  have e := mapM_length _ _ _ hr
  have e' := mapM_length _ _ _ hr'
  have h1 := mapM_getD hr (i := i) (by omega) [] ([], 0)
  have h2 := mapM_getD hr' (i := i') (by omega) [] ([], 0)
  rw [lpcFrames_local hl hs h0 hF hF' (by omega) (by omega) hw, h2] at h1
  injection h1 with h1
  dsimp only
  rw [getD_map_lt _ _ ([], 0) [] hi, getD_map_lt _ _ ([], 0) [] hi', getD_map_lt _ _ ([], 0) 0 hi,
    getD_map_lt _ _ ([], 0) 0 hi', h1]
  exact ⟨rfl, rfl⟩

/-- C111 for `lpcc`. -/
theorem C111_lpcc_local (a : LpcArgs) (hn : a.normalize = none) (l s : ℕ)
    (hl : pyInt (a.win.winLen * a.fs) = l) (hs : pyInt (a.win.winHop * a.fs) = s) (h0 : 0 < s) (sig sig' : List ℝ)
    (m m' : XMat) (h : lpcc a sig = .ok m) (h' : lpcc a sig' = .ok m') (i i' : ℕ) (hi : i < m.length)
    (hi' : i' < m'.length) (hw : SameWindow a.preEmph sig sig' (i * s) (i' * s) l) : m.getD i [] = m'.getD i' [] := by
  unfold lpcc at h h'
  obtain ⟨F, hF, h⟩ := (bind_ok_iff ..).mp h
  obtain ⟨F', hF', h'⟩ := (bind_ok_iff ..).mp h'
  obtain ⟨r, hr, h⟩ := (bind_ok_iff ..).mp h
  obtain ⟨r', hr', h'⟩ := (bind_ok_iff ..).mp h'
  have hg : ∃ g : List (XF ℝ) → List (XF ℝ), m = r.map g ∧ m' = r'.map g := by
    simp only [hn] at h h'
    cases hli : a.lifter with
    | none =>
      simp only [hli, ok_bind] at h h'
      injection h with h
      injection h' with h'
      exact ⟨id, by rw [← h, List.map_id], by rw [← h', List.map_id]⟩
    | some v =>
      simp only [hli] at h h'
      obtain ⟨y, hy, h⟩ := (bind_ok_iff ..).mp h
      obtain ⟨y', hy', h'⟩ := (bind_ok_iff ..).mp h'
      injection h with h
      injection h' with h'
      subst h h'
      by_cases hv : v = 0
      · rw [if_pos hv] at hy hy'
        injection hy with hy
        injection hy' with hy'
        exact ⟨id, by rw [← hy, List.map_id], by rw [← hy', List.map_id]⟩
      · rw [if_neg hv, lifterCeps_ok_iff] at hy hy'
        exact ⟨_, hy.2, hy'.2⟩
  obtain ⟨g, rfl, rfl⟩ := hg
  rw [List.length_map] at hi hi'
  have e := mapM_length _ _ _ hr
  have e' := mapM_length _ _ _ hr'
  have h1 := mapM_getD hr (i := i) (by omega) [] []
  have h2 := mapM_getD hr' (i := i') (by omega) [] []
  rw [lpcFrames_local hl hs h0 hF hF' (by omega) (by omega) hw, h2] at h1
  injection h1 with h1
  rw [getD_map_lt _ _ [] [] hi, getD_map_lt _ _ [] [] hi', h1]

/-- C111 for the constant-Q spectrogram: the column of a frame. -/
theorem C111_cqt_local (a : CqtArgs) (l s : ℕ)
    (hl : pyInt (a.win.winLen * a.fs) = l) (hs : pyInt (a.win.winHop * a.fs) = s) (h0 : 0 < s) (sig sig' : List ℝ)
    (q q' : List (List ℂ)) (h : cqtSpectrogram a sig = .ok q) (h' : cqtSpectrogram a sig' = .ok q') :
    q.length = q'.length ∧ ∀ k < q.length, ∀ i i', i < (q.getD k []).length → i' < (q'.getD k []).length →
      SameWindow a.preEmph sig sig' (i * s) (i' * s) l → (q.getD k []).getD i 0 = (q'.getD k []).getD i' 0 := by
  unfold cqtSpectrogram at h h'
  split_ifs at h h'
  obtain ⟨W, hW, h⟩ := (bind_ok_iff ..).mp h
  obtain ⟨W', hW', h'⟩ := (bind_ok_iff ..).mp h'
  rcases computeCqt_form a.fs a.low (some (effHigh a.high a.fs)) a.nfft a.octaves a.bins a.win.winType a.thr a.f0 a.qRate with
    ⟨e, hc⟩ | ⟨ker, hc⟩
  · rw [hc] at h; cases h
  · rw [hc] at h h'
    injection h with h
    injection h' with h'
    subst h h'
    refine ⟨by simp, fun k hk i i' hi hi' hw => ?_⟩
    rw [List.length_map] at hk
    rw [getD_map_lt _ _ [] [] hk] at hi ⊢
    rw [getD_map_lt _ _ [] [] hk] at hi' ⊢
    rw [List.length_map] at hi hi'
    rw [getD_map_lt _ _ [] 0 hi, getD_map_lt _ _ [] 0 hi', frontEnd_local hl hs h0 hW hW' hi hi' hw]

/-- Cutting off the first `k` frame steps shifts the windows by `k` rows; with pre-emphasis all but the first row of the
shorter signal are the same. -/
theorem C111_shift (b : Bool) (sig : List ℝ) (k i s l : ℕ) (h : b = false ∨ 0 < i * s) :
    SameWindow b (sig.drop (k * s)) sig (i * s) ((i + k) * s) l := by
  have hg : ∀ t, (sig.drop (k * s)).getD t 0 = sig.getD (k * s + t) 0 := fun t => getD_drop' _ _ _ _
  refine ⟨fun j _ => ?_, fun hb => ?_⟩
  · rw [hg]; congr 1; ring
  · rcases h with h | h
    · rw [h] at hb; cases hb
    · unfold before
      rw [if_neg (by omega), if_neg (by nlinarith), hg]
      congr 1
      have : (i + k) * s = k * s + i * s := by ring
      omega

/-- C111: cutting off the first `k` frame steps of a signal removes the first `k` rows and changes no other (with
pre-emphasis the new first row is an exception, its predecessor sample is gone). -/
theorem C111_cut (f : Feature) (hf : f ∈ rowwiseFeatures) (a : Args) (hn : a.normalize = none) (l s : ℕ)
    (hl : pyInt (a.win.winLen * a.fs) = l) (hs : pyInt (a.win.winHop * a.fs) = s) (h0 : 0 < s) (sig : List ℝ) (k : ℕ)
    (m m' : XMat) (h : f a sig = .ok m) (h' : f a (sig.drop (k * s)) = .ok m') (i : ℕ) (hi : i < m'.length)
    (hik : i + k < m.length) (hp : a.preEmph = false ∨ 1 ≤ i) : m'.getD i [] = m.getD (i + k) [] :=
  C111_local f hf a hn l s hl hs h0 _ _ m' m h' h i (i + k) hi hik
    (C111_shift _ _ _ _ _ _ (hp.imp id fun h => Nat.mul_pos h h0))

/-- Default arguments, 1000 samples: row 2 without the first hop of 160 samples is row 3 of the whole. -/
example (sig : List ℝ) (h : sig.length = 1000) :
    ∃ m m', mfcc {} sig = .ok m ∧ mfcc {} (sig.drop (1 * 160)) = .ok m' ∧ m'.length = 3 ∧ m'.getD 2 [] = m.getD 3 [] := by
  have hd : (sig.drop (1 * 160)).length = 840 := by rw [List.length_drop, h]
  have A := default_auto sig (by omega)
  obtain ⟨m, h1, h2, -⟩ := C108_mfcc {} sig 400 160 A 8000 _ default_bank_band 2595 700
    MelConst.oshaghnessy rfl rfl rfl rfl
  obtain ⟨m', h1', h2', -⟩ := C108_mfcc {} (sig.drop (1 * 160)) 400 160 (default_auto _ (by omega)) 8000 _ default_bank_band
    2595 700 MelConst.oshaghnessy rfl rfl rfl rfl
  have e : m.length = 4 := by rw [h2.1, h]
  have e' : m'.length = 3 := by rw [h2'.1, hd]
  exact ⟨m, m', h1, h1', e', C111_cut mfcc (by simp [rowwiseFeatures]) {} rfl 400 160 A.len A.hop (by norm_num) sig 1 m m' h1 h1' 2
    (by omega) (by omega) (.inr (by norm_num))⟩

end Props
end Spafe
