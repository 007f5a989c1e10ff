import Verif.Lemmas.Preprocessing

/-! Properties C08–C14: `spafe/utils/preprocessing.py`. -/

set_option linter.unusedSectionVars false

namespace Spafe
namespace Props
open Model

section
variable {α : Type} [Field α] [LinearOrder α] [IsStrictOrderedRing α]

/-! ### C08 zero_handling -/

/-- C08: entry by entry, zeros become machine epsilon `2⁻⁵²`, everything else is unchanged; length is kept. -/
theorem C08_zero_handling_pointwise (x : List α) :
    (zeroHandling x).length = x.length ∧
    ∀ i, i < x.length → (x.getD i 0 = 0 → (zeroHandling x).getD i 0 = 1 / 2 ^ 52) ∧
      (x.getD i 0 ≠ 0 → (zeroHandling x).getD i 0 = x.getD i 0) := by
  refine ⟨by simp [zeroHandling], fun i hi => ?_⟩
  rw [zeroHandling, getD_map_lt _ _ 0 _ hi]
  constructor
  · intro h; rw [if_pos h]; rfl
  · intro h; rw [if_neg h]

/-- C08: the result contains no zero, is idempotent, and stays positive on non-negative data (so its logarithm
is finite). -/
theorem C08_zero_handling_nonzero (x : List α) :
    (∀ v ∈ zeroHandling x, v ≠ 0) ∧ zeroHandling (zeroHandling x) = zeroHandling x ∧
    ((∀ v ∈ x, 0 ≤ v) → ∀ v ∈ zeroHandling x, 0 < v) := by
  have he : (0:α) < eps := by unfold eps; positivity
  have hne : ∀ v ∈ zeroHandling x, v ≠ 0 := by
    intro v hv
    obtain ⟨w, _, rfl⟩ := List.mem_map.mp hv
    split_ifs with h
    · exact he.ne'
    · exact h
  refine ⟨hne, ?_, fun h v hv => ?_⟩
  · conv_rhs => rw [← List.map_id (zeroHandling x)]
    exact List.map_congr_left fun v hv => by rw [if_neg (hne v hv)]; rfl
  · obtain ⟨w, hw, rfl⟩ := List.mem_map.mp hv
    split_ifs with h'
    · exact he
    · exact lt_of_le_of_ne (h w hw) (Ne.symm h')

/-- C08: after `zero_handling`, `np.log` of non-negative data is finite everywhere. -/
theorem C08_log_finite (x : List ℝ) (hx : ∀ v ∈ x, 0 ≤ v) :
    ∀ v ∈ zeroHandling x, (XF.log (XF.fin v)).isFinite = true := by
  intro v hv
  rw [XF.log_pos ((C08_zero_handling_nonzero x).2.2 hx v hv)]; rfl

example : zeroHandling [0, 3, 0, -1] = [1 / 2 ^ 52, 3, 1 / 2 ^ 52, (-1 : ℚ)] := by
  simp [zeroHandling, eps]

/-! ### C09, C10 pre-emphasis -/

/-- C09: the pre-emphasis difference equation. -/
theorem C09_pre_emphasis (x : List α) (c : α) :
    (preEmphasis x c).length = x.length ∧
    (0 < x.length → (preEmphasis x c).getD 0 0 = x.getD 0 0) ∧
    ∀ t, 1 ≤ t → t < x.length → (preEmphasis x c).getD t 0 = x.getD t 0 - c * x.getD (t - 1) 0 := by
  refine ⟨preEmphasis_length x c, fun h => ?_, fun t h1 ht => ?_⟩
  · rw [preEmphasis_getD x c 0 h]; simp
  · rw [preEmphasis_getD x c t ht, if_neg (by omega)]

/-- C09 for the Python call: it raises `ValueError` for the empty signal and only for it, and otherwise returns the list the
difference equation describes. -/
theorem C09_call (x : List α) (c : α) :
    (preEmphasisPy x c = .error .valueError ↔ x = []) ∧
    (x ≠ [] → ∃ y, preEmphasisPy x c = .ok y ∧ y.length = x.length ∧ y.getD 0 0 = x.getD 0 0 ∧
      ∀ t, 1 ≤ t → t < x.length → y.getD t 0 = x.getD t 0 - c * x.getD (t - 1) 0) := by
  obtain ⟨h1, h2, h3⟩ := C09_pre_emphasis x c
  unfold preEmphasisPy
  by_cases h : x = []
  · rw [if_pos h]
    exact ⟨⟨fun _ => h, fun _ => rfl⟩, fun h' => absurd h h'⟩
  · rw [if_neg h]
    exact ⟨⟨fun e => (by cases e), fun e => absurd e h⟩, fun _ => ⟨_, rfl, h1, h2 (List.length_pos_iff.mpr h), h3⟩⟩

example : preEmphasis [1, 2, 3] (1/2 : ℚ) = [1, 3/2, 2] := by
  simp [preEmphasis, Np.firFilter, List.range_succ, Finset.sum_range_succ]; norm_num

/-- C10: pre-emphasis is additive on signals of equal length. -/
theorem C10_pre_emphasis_add (x y : List α) (h : x.length = y.length) (c : α) :
    preEmphasis (List.zipWith (· + ·) x y) c =
      List.zipWith (· + ·) (preEmphasis x c) (preEmphasis y c) := by
  have hl : (List.zipWith (· + ·) x y).length = x.length := by simp [h]
  apply ext_getD 0 (by simp [preEmphasis_length])
  intro t ht
  rw [preEmphasis_length, hl] at ht
  rw [preEmphasis_getD _ _ _ (by omega), getD_zipWith_lt _ x y 0 0 0 ht (by omega),
    getD_zipWith_lt _ (preEmphasis x c) (preEmphasis y c) 0 0 0 (by rw [preEmphasis_length]; omega) (by rw [preEmphasis_length]; omega),
    preEmphasis_getD _ _ _ ht, preEmphasis_getD _ _ _ (by omega)]
  split_ifs
  · ring
  · rw [getD_zipWith_lt _ _ _ 0 0 0 (by omega) (by omega)]; ring

/-- C10: pre-emphasis commutes with gain. -/
theorem C10_pre_emphasis_smul (x : List α) (g c : α) :
    preEmphasis (x.map (g * ·)) c = (preEmphasis x c).map (g * ·) := by
  apply ext_getD 0 (by simp [preEmphasis_length])
  intro t ht
  rw [preEmphasis_length, List.length_map] at ht
  rw [preEmphasis_getD _ _ _ (by simpa using ht), getD_map_lt _ _ 0 _ ht,
    getD_map_lt _ (preEmphasis x c) 0 _ (by rw [preEmphasis_length]; exact ht), preEmphasis_getD _ _ _ ht]
  split_ifs
  · ring
  · rw [getD_map_lt _ _ 0 _ (by omega)]; ring

/-- C10: causality — the first `n` outputs are the pre-emphasis of the first `n` inputs. -/
theorem C10_pre_emphasis_causal (x : List α) (c : α) (n : ℕ) :
    (preEmphasis x c).take n = preEmphasis (x.take n) c := by
  apply ext_getD 0 (by simp [preEmphasis_length])
  intro t ht
  have ht' : t < n ∧ t < x.length := by simpa [preEmphasis_length] using ht
  rw [getD_take_lt _ _ ht'.1, preEmphasis_getD _ _ _ ht'.2,
    preEmphasis_getD _ _ _ (by simpa using ht'), getD_take_lt _ _ ht'.1]
  split_ifs
  · rfl
  · rw [getD_take_lt _ _ (by omega)]

/-- C10: coefficient 0 is the identity. -/
theorem C10_pre_emphasis_zero (x : List α) : preEmphasis x 0 = x := by
  apply ext_getD 0 (preEmphasis_length _ _)
  intro t ht
  rw [preEmphasis_length] at ht
  rw [preEmphasis_getD _ _ _ ht]; simp

/-- C10: pre-emphasis loses nothing — it is injective for every coefficient. -/
theorem C10_pre_emphasis_injective (c : α) : Function.Injective fun x : List α => preEmphasis x c := by
  intro x y h
  have h : preEmphasis x c = preEmphasis y c := h
  have hl : x.length = y.length := by
    rw [← preEmphasis_length x c, h, preEmphasis_length]
  apply ext_getD 0 hl
  intro t
  induction t with
  | zero =>
    intro ht
    have := congrArg (fun l : List α => l.getD 0 0) h
    simpa [-List.getD_eq_getElem?_getD, preEmphasis_getD x c 0 ht, preEmphasis_getD y c 0 (hl ▸ ht)] using this
  | succ t ih =>
    intro ht
    have := congrArg (fun l : List α => l.getD (t + 1) 0) h
    simp only [preEmphasis_getD x c _ ht, preEmphasis_getD y c _ (hl ▸ ht), if_neg (Nat.succ_ne_zero t),
      Nat.add_sub_cancel, ih (by omega)] at this
    exact sub_left_injective this

/-! ### C11–C13 framing -/

variable [FloorRing α]

/-- `int()` is monotone. -/
theorem pyInt_mono {x y : α} (h : x ≤ y) : pyInt x ≤ pyInt y := by
  unfold pyInt
  split_ifs with h1 h2 h2
  · exact Int.floor_le_floor h
  · exact absurd (h1.trans h) h2
  · have h3 : ⌈x⌉ ≤ 0 := Int.ceil_le.mpr (by push_cast; exact (not_le.mp h1).le)
    exact h3.trans (Int.floor_nonneg.mpr h2)
  · exact Int.ceil_le_ceil h

/-- C11: whenever `framing` succeeds with a positive hop (in samples), under any rounding of the
seconds-to-samples products, frame `i` is exactly the `L` samples from sample `i*S`, the last frame ends inside
the signal, and there are `⌊(len - L)/S⌋ + 1` frames. (An out-of-buffer read would be an error value.) -/
theorem C11_framing_content (rnd : α → α) (sig : List α) (fs wl wh : α) (frames : List (List α)) (L : ℤ)
    (hS : 0 < pyInt (rnd (wh * fs))) (h : framingR rnd sig fs wl wh = .ok (frames, L)) :
    ∃ l s : ℕ, L = l ∧ pyInt (rnd (wl * fs)) = l ∧ pyInt (rnd (wh * fs)) = s ∧ l ≤ sig.length ∧
      frames.length = (sig.length - l) / s + 1 ∧
      ∀ i, i < frames.length → i * s + l ≤ sig.length ∧ frames.getD i [] = (sig.drop (i * s)).take l ∧
        (frames.getD i []).length = l := by
  unfold framingR at h
  split_ifs at h with hw
  generalize pyInt (rnd (wl * fs)) = L' at *
  generalize pyInt (rnd (wh * fs)) = S at *
  simp only at h
  obtain ⟨s, rfl⟩ : ∃ s : ℕ, S = s := ⟨S.toNat, by omega⟩
  have hs : 0 < s := by exact_mod_cast hS
  rcases lt_or_ge (sig.length : ℤ) L' with hlen | hlen
  · rcases le_or_gt (L' - sig.length) s with h2 | h2
    · rw [strideTrick_short _ _ _ hS hlen h2] at h; simp at h
    · rw [strideTrick_too_short _ _ _ hS h2] at h; simp at h
  · rcases lt_or_ge L' 0 with hneg | hpos
    · have : strideTrick sig L' s = .error .valueError := by
        simp [strideTrick, pyFloorDiv, hs.ne', hneg]
      rw [this] at h; simp at h
    · obtain ⟨l, rfl⟩ : ∃ l : ℕ, L' = l := ⟨L'.toNat, by omega⟩
      have hl : l ≤ sig.length := by exact_mod_cast hlen
      rw [strideTrick_ok sig l s hs hl] at h
      simp only [ok_bind, List.length_map, List.length_range, Nat.succ_ne_zero, if_false] at h
      injection h with h
      obtain ⟨rfl, rfl⟩ := Prod.mk.inj h
      refine ⟨l, s, rfl, rfl, rfl, hl, by simp, fun i hi => ?_⟩
      have hi : i ≤ (sig.length - l) / s := by simp at hi; omega
      have h1 : i * s ≤ sig.length - l := (Nat.le_div_iff_mul_le hs).mp hi
      have h2 : i * s + l ≤ sig.length := by omega
      rw [getD_map_range_lt _ _ (by omega)]
      refine ⟨h2, window_eq_drop_take sig _ _ h2, by simp⟩

/-- C12: complete classification of `framing` for a positive hop (in samples), any monotone rounding `rnd`:
the window-shorter-than-hop check comes first; then, with `L` and `S` the frame length and step in samples,
a frame longer than the signal gives `IndexError` (by at most one step) or `ValueError`; otherwise the call
succeeds. -/
theorem C12_framing_cases (rnd : α → α) (hrnd : Monotone rnd) (sig : List α) (fs wl wh : α) (hfs : 0 ≤ fs)
    (hS : 0 < pyInt (rnd (wh * fs))) :
    (wl < wh → framingR rnd sig fs wl wh = .error (.parameterError ErrorMsgs.winLenWinHop)) ∧
    (wh ≤ wl → (sig.length : ℤ) < pyInt (rnd (wl * fs)) →
      pyInt (rnd (wl * fs)) - sig.length ≤ pyInt (rnd (wh * fs)) →
      framingR rnd sig fs wl wh = .error .indexError) ∧
    (wh ≤ wl → pyInt (rnd (wh * fs)) < pyInt (rnd (wl * fs)) - sig.length →
      framingR rnd sig fs wl wh = .error .valueError) ∧
    (wh ≤ wl → pyInt (rnd (wl * fs)) ≤ sig.length →
      ∃ frames, framingR rnd sig fs wl wh = .ok (frames, pyInt (rnd (wl * fs)))) := by
  refine ⟨fun h => by rw [framingR, if_pos h], fun h h1 h2 => ?_, fun h h1 => ?_, fun h h1 => ?_⟩
  all_goals
    have hLS : pyInt (rnd (wh * fs)) ≤ pyInt (rnd (wl * fs)) :=
      pyInt_mono (hrnd (mul_le_mul_of_nonneg_right h hfs))
    rw [framingR, if_neg (not_lt.mpr h)]
    generalize pyInt (rnd (wl * fs)) = L at *
    generalize pyInt (rnd (wh * fs)) = S at *
  · simp [strideTrick_short _ _ _ hS h1 h2]
  · simp [strideTrick_too_short _ _ _ hS h1]
  · obtain ⟨s, rfl⟩ : ∃ s : ℕ, S = s := ⟨S.toNat, by omega⟩
    obtain ⟨l, rfl⟩ : ∃ l : ℕ, L = l := ⟨L.toNat, by omega⟩
    simp only [strideTrick_ok sig l s (by exact_mod_cast hS) (by exact_mod_cast h1)]
    exact ⟨_, by simp only [ok_bind, List.length_map, List.length_range, Nat.succ_ne_zero, if_false]; rfl⟩

/-- C12: the parameter check fires exactly when the window is shorter than the hop, whatever the rest. -/
theorem C12_framing_param_iff (rnd : α → α) (sig : List α) (fs wl wh : α) (m : String) :
    framingR rnd sig fs wl wh = .error (.parameterError m) ↔
      wl < wh ∧ m = "window's length has to be larger than the window's hop" := by
  constructor
  · intro h
    unfold framingR at h
    split_ifs at h with hw
    · injection h with h; injection h with h; exact ⟨hw, h.symm⟩
    · exfalso
      simp only at h
      have hinner : ∀ (L S : ℤ) (e : Err), strideTrick sig L S = .error e → e ≠ .parameterError m := by
        intro L S e he
        simp only [strideTrick, pyFloorDiv] at he
        split_ifs at he with h1
        · simp at he; rw [← he]; simp
        rw [ok_bind] at he
        by_cases h2 : ((sig.length : ℤ) - L).fdiv S + 1 < 0 ∨ L < 0
        · rw [if_pos h2] at he; injection he with he; rw [← he]; simp
        · rw [if_neg h2] at he
          intro hem
          subst hem
          have key : ∀ {β γ : Type} (f : β → Py γ) (l : List β),
              (∀ b ∈ l, f b ≠ .error (.parameterError m)) → l.mapM f ≠ .error (.parameterError m) := by
            intro β γ f l
            induction l with
            | nil => intro _ h; cases h
            | cons b l ih =>
              intro hb h
              rw [List.mapM_cons] at h
              cases hfb : f b with
              | error e' =>
                rw [hfb] at h; simp at h; exact hb b (by simp) (by rw [hfb, h])
              | ok v =>
                rw [hfb, ok_bind] at h
                cases hl : l.mapM f with
                | error e' =>
                  rw [hl] at h; simp at h
                  exact ih (fun b hb' => hb b (by simp [hb'])) (by rw [hl, h])
                | ok vs => rw [hl] at h; simp at h
          refine key _ _ (fun i _ => key _ _ fun j _ => ?_) he
          split_ifs <;> simp
      cases hst : strideTrick sig (pyInt (rnd (wl * fs))) (pyInt (rnd (wh * fs))) with
      | error e =>
        rw [hst] at h; simp at h; exact hinner _ _ _ hst h
      | ok f =>
        rw [hst] at h; simp only [ok_bind] at h; split_ifs at h; simp at h
  · rintro ⟨hw, rfl⟩; rw [framingR, if_pos hw]; rfl

/-- C12: a hop that rounds to zero samples raises `ZeroDivisionError`. -/
theorem C12_framing_zero_hop (rnd : α → α) (sig : List α) (fs wl wh : α) (h : wh ≤ wl)
    (hS : pyInt (rnd (wh * fs)) = 0) : framingR rnd sig fs wl wh = .error .zeroDivisionError := by
  rw [framingR, if_neg (not_lt.mpr h), hS]; simp [strideTrick_zero_step]

/-- C11 (why the hop must be positive): with a negative hop and a window longer than the signal, numpy's strided
view reads outside the signal's buffer — for every such input. -/
theorem C11_negative_hop_reads_out_of_bounds (rnd : α → α) (sig : List α) (fs wl wh : α) (h : wh ≤ wl)
    (hS : pyInt (rnd (wh * fs)) < 0) (hL : (sig.length : ℤ) < pyInt (rnd (wl * fs))) :
    framingR rnd sig fs wl wh = .error .outOfBounds := by
  rw [framingR, if_neg (not_lt.mpr h)]; simp [strideTrick_neg_oob _ _ _ hS hL]

/-- The witness: 100 samples at 16 kHz, 25 ms window, hop -10 ms. -/
example : framing (List.replicate 100 (1:ℚ)) 16000 (25/1000) (-10/1000) = .error .outOfBounds :=
  C11_negative_hop_reads_out_of_bounds id _ _ _ _ (by norm_num)
    (by norm_num [pyInt]) (by norm_num [pyInt])

/-- C13: with hop not longer than the window, every sample before the end of the last frame is in some frame
(at the position given by the frame's start), and fewer than `s` samples at the end are dropped. -/
theorem C13_framing_coverage (rnd : α → α) (sig : List α) (fs wl wh : α) (frames : List (List α)) (l s : ℕ)
    (hs : pyInt (rnd (wh * fs)) = s) (hs0 : 0 < s) (hsl : s ≤ l)
    (h : framingR rnd sig fs wl wh = .ok (frames, (l : ℤ))) :
    sig.length < (frames.length - 1) * s + l + s ∧ (frames.length - 1) * s + l ≤ sig.length ∧
    ∀ t, t < (frames.length - 1) * s + l →
      ∃ i j, i < frames.length ∧ j < l ∧ t = i * s + j ∧ (frames.getD i []).getD j 0 = sig.getD t 0 := by
  obtain ⟨l', s', h1, -, h3, h4, h5, h6⟩ :=
    C11_framing_content rnd sig fs wl wh frames l (by rw [hs]; exact_mod_cast hs0) h
  obtain rfl : l = l' := by exact_mod_cast h1
  obtain rfl : s = s' := by rw [hs] at h3; exact_mod_cast h3
  have hn : frames.length - 1 = (sig.length - l) / s := by rw [h5, Nat.add_sub_cancel]
  have hdm := Nat.div_add_mod (sig.length - l) s
  have hm := Nat.mod_lt (sig.length - l) hs0
  have hmul : (frames.length - 1) * s = s * ((sig.length - l) / s) := by rw [hn, Nat.mul_comm]
  generalize s * ((sig.length - l) / s) = P at *
  refine ⟨by rw [hmul]; omega, by rw [hmul]; omega, fun t ht => ?_⟩
  have key : ∃ i j, i < frames.length ∧ j < l ∧ t = i * s + j := by
    rcases Nat.lt_or_ge t ((frames.length - 1) * s) with h7 | h7
    · have hi : t / s < frames.length - 1 := (Nat.div_lt_iff_lt_mul hs0).mpr h7
      exact ⟨t / s, t % s, by omega, (Nat.mod_lt _ hs0).trans_le hsl, by rw [Nat.mul_comm]; exact (Nat.div_add_mod t s).symm⟩
    · exact ⟨frames.length - 1, t - (frames.length - 1) * s, by omega, by omega, by omega⟩
  obtain ⟨i, j, hi, hj, rfl⟩ := key
  refine ⟨i, j, hi, hj, rfl, ?_⟩
  rw [(h6 i hi).2.1, getD_take_lt _ _ hj, getD_drop']

/-- A concrete non-trivial case: 10 samples, 4-sample frames, hop 3 (one dropped sample would be the 11th). -/
example : framing ([0,1,2,3,4,5,6,7,8,9] : List ℚ) 1 4 3 =
    .ok ([[0,1,2,3],[3,4,5,6],[6,7,8,9]], 4) := by
  have h1 : pyInt ((4:ℚ) * 1) = ((4:ℕ):ℤ) := by norm_num [pyInt]
  have h2 : pyInt ((3:ℚ) * 1) = ((3:ℕ):ℤ) := by norm_num [pyInt]
  rw [framing, framingR, if_neg (by norm_num), id, id, h1, h2]
  simp only [strideTrick_ok ([0,1,2,3,4,5,6,7,8,9] : List ℚ) 4 3 (by norm_num) (by simp)]
  simp [List.range_succ]

end

/-! ### C14 windows -/

/-- The window names the library accepts (sic: `bartlet`). -/
def WindowName (s : String) : Prop :=
  s = "hanning" ∨ s = "bartlet" ∨ s = "kaiser" ∨ s = "blackman" ∨ s = "hamming"

/-- C14: for every accepted name and every length, the window is symmetric with weights in `[0, 1]`;
every other name raises `KeyError`. -/
theorem C14_window_vector (name : String) (M : ℕ) :
    (WindowName name → ∃ w, windowVec name M = .ok w ∧ w.length = M ∧
      (∀ i, i < M → w.getD (M - 1 - i) 0 = w.getD i 0) ∧ ∀ i, i < M → 0 ≤ w.getD i 0 ∧ w.getD i 0 ≤ 1) ∧
    (¬ WindowName name → windowVec name M = .error .keyError) := by
  constructor
  · rintro (rfl | rfl | rfl | rfl | rfl)
    · refine ⟨_, if_pos rfl, by simp, fun i hi => ?_, fun i hi => ?_⟩
      · rw [getD_map_range_lt _ _ hi, getD_map_range_lt _ _ (by omega), hanning_symm hi]
      · rw [getD_map_range_lt _ _ hi]; exact hanning_range M i
    · refine ⟨_, by rw [windowVec, if_neg (by decide), if_pos rfl], by simp, fun i hi => ?_, fun i hi => ?_⟩
      · rw [getD_map_range_lt _ _ hi, getD_map_range_lt _ _ (by omega), bartlett_symm hi]
      · rw [getD_map_range_lt _ _ hi]; exact bartlett_range hi
    · refine ⟨_, by rw [windowVec, if_neg (by decide), if_neg (by decide), if_pos rfl], by simp,
        fun i hi => ?_, fun i hi => ?_⟩
      · rw [getD_map_range_lt _ _ hi, getD_map_range_lt _ _ (by omega), kaiser_symm _ hi]
      · rw [getD_map_range_lt _ _ hi]; exact kaiser_range (by norm_num) M i
    · refine ⟨_, by rw [windowVec, if_neg (by decide), if_neg (by decide), if_neg (by decide), if_pos rfl],
        by simp, fun i hi => ?_, fun i hi => ?_⟩
      · rw [getD_map_range_lt _ _ hi, getD_map_range_lt _ _ (by omega), blackman_symm hi]
      · rw [getD_map_range_lt _ _ hi]; exact blackman_range M i
    · refine ⟨_, by rw [windowVec, if_neg (by decide), if_neg (by decide), if_neg (by decide),
        if_neg (by decide), if_pos rfl], by simp, fun i hi => ?_, fun i hi => ?_⟩
      · rw [getD_map_range_lt _ _ hi, getD_map_range_lt _ _ (by omega), hamming_symm hi]
      · rw [getD_map_range_lt _ _ hi]; exact hamming_range M i
  · intro h
    simp only [WindowName, not_or] at h
    obtain ⟨h1, h2, h3, h4, h5⟩ := h
    simp [windowVec, h1, h2, h3, h4, h5]

/-- C14: windowing keeps the shape and never increases a sample's magnitude. -/
theorem C14_windowing_contracts (name : String) (hn : WindowName name) (M : ℕ) (frames : List (List ℝ))
    (hf : ∀ f ∈ frames, f.length = M) :
    ∃ out, windowing frames M name = .ok out ∧ out.length = frames.length ∧
      ∀ i, i < frames.length → (out.getD i []).length = M ∧
        ∀ j, j < M → |(out.getD i []).getD j 0| ≤ |(frames.getD i []).getD j 0| := by
  obtain ⟨w, hw, hwl, -, hr⟩ := (C14_window_vector name M).1 hn
  refine ⟨_, by rw [windowing, hw, ok_bind], by simp, fun i hi => ?_⟩
  have hlen := hf _ (getD_mem [] hi)
  rw [getD_map_lt _ _ [] _ hi]
  refine ⟨by simp [-List.getD_eq_getElem?_getD, hwl, hlen], fun j hj => ?_⟩
  rw [getD_zipWith_lt _ _ _ 0 0 0 (by omega) (by omega), abs_mul, abs_of_nonneg (hr j hj).1]
  exact mul_le_of_le_one_left (abs_nonneg _) (hr j hj).2

/-- C14: the five windows are told apart by their end weights and peak: for `M ≥ 2`, Hann, Bartlett and Blackman
vanish at the ends, Hamming is 0.08 there; for odd length all five have the weight 1 in the middle. -/
theorem C14_window_shape (m : ℕ) (hm : 0 < m) :
    Np.hanningAt (2*m+1) 0 = 0 ∧ Np.bartlettAt (2*m+1) 0 = 0 ∧ Np.blackmanAt (2*m+1) 0 = 0 ∧
    Np.hammingAt (2*m+1) 0 = 0.08 ∧
    Np.hanningAt (2*m+1) m = 1 ∧ Np.bartlettAt (2*m+1) m = 1 ∧ Np.blackmanAt (2*m+1) m = 1 ∧
    Np.hammingAt (2*m+1) m = 1 ∧ Np.kaiserAt 14 (2*m+1) m = 1 := by
  have hm' : (m:ℝ) ≠ 0 := by exact_mod_cast hm.ne'
  have hm1 : 2 * m + 1 ≠ 1 := by omega
  have e0 : Real.pi * (1 - ((2*m+1 : ℕ):ℝ) + 2 * ((0:ℕ):ℝ)) / (((2*m+1 : ℕ):ℝ) - 1) = -Real.pi := by
    push_cast; field_simp; ring
  have e1 : Real.pi * (1 - ((2*m+1 : ℕ):ℝ) + 2 * (m:ℝ)) / (((2*m+1 : ℕ):ℝ) - 1) = 0 := by
    push_cast; field_simp; ring
  have e2 : 2 * Real.pi * (1 - ((2*m+1 : ℕ):ℝ) + 2 * ((0:ℕ):ℝ)) / (((2*m+1 : ℕ):ℝ) - 1) = -(2 * Real.pi) := by
    push_cast; field_simp; ring
  have e3 : 2 * Real.pi * (1 - ((2*m+1 : ℕ):ℝ) + 2 * (m:ℝ)) / (((2*m+1 : ℕ):ℝ) - 1) = 0 := by
    push_cast; field_simp; ring
  refine ⟨?_, ?_, ?_, ?_, ?_, ?_, ?_, ?_, ?_⟩
  · rw [Np.hanningAt, if_neg hm1, e0, Real.cos_neg, Real.cos_pi]; norm_num
  · rw [Np.bartlettAt, if_neg hm1, if_pos (by push_cast; nlinarith [Nat.cast_nonneg (α := ℝ) m])]
    push_cast; field_simp; ring
  · rw [Np.blackmanAt, if_neg hm1, e0, e2, Real.cos_neg, Real.cos_pi, Real.cos_neg, Real.cos_two_pi]; norm_num
  · rw [Np.hammingAt, if_neg hm1, e0, Real.cos_neg, Real.cos_pi]; norm_num
  · rw [Np.hanningAt, if_neg hm1, e1, Real.cos_zero]; norm_num
  · rw [Np.bartlettAt, if_neg hm1, if_pos (by push_cast; linarith)]
    push_cast; field_simp; ring
  · rw [Np.blackmanAt, if_neg hm1, e1, e3, Real.cos_zero]; norm_num
  · rw [Np.hammingAt, if_neg hm1, e1, Real.cos_zero]; norm_num
  · rw [Np.kaiserAt, if_neg hm1]
    have : ((m:ℝ) - (((2*m+1 : ℕ):ℝ) - 1) / 2) = 0 := by push_cast; ring
    rw [this]; simp [(i0_pos 14).ne']

example : WindowName "bartlet" ∧ ¬ WindowName "bartlett" := by simp [WindowName]

end Props
end Spafe
