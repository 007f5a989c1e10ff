import Verif.Props.Errors2
import Verif.Lemmas.RastaInf

/-! C131: the complete table of exceptions of `rplp`. -/

set_option linter.unusedSectionVars false

namespace Spafe
namespace Props
open Model XF Spec

/-- Some frame has no energy in a band that makes RASTA filtering produce a NaN: one of the first four bands, or a band
with at least two bands after it. -/
def EmptyBand (E : ℕ → ℕ → ℝ) (frames bands : ℕ) : Prop :=
  ∃ i < frames, ∃ n < bands, E i n = 0 ∧ (n < 4 ∨ n + 2 < bands)

/-- The checks of rplp called with a bank: number of filters, framing, bank; then an empty band (NaN in the
autocorrelation); then the normalisation. -/
noncomputable def rplpChecks (a : Args) (fb : List (List ℝ)) (sig : List ℝ) : List (Prop × Err) :=
  (a.nfilts < a.numCeps, .parameterError "number of filters must be bigger than number of cepstrums") ::
    (frontChecks a.preEmph a.fs a.win sig.length ++ bankChecks a.nfft (fb.map List.length) ++
      [(EmptyBand (fun i n => bandEnergy fb (windowWeight a.win.winType ⌊a.win.winLen * a.fs⌋.toNat)
          (emphasised a.preEmph a.preEmphCoeff sig) ⌊a.win.winLen * a.fs⌋.toNat ⌊a.win.winHop * a.fs⌋.toNat a.nfft i n)
          ((sig.length - ⌊a.win.winLen * a.fs⌋.toNat) / ⌊a.win.winHop * a.fs⌋.toNat + 1) fb.length,
        .valueError)] ++ normChecks a.normalize)

theorem logVal_exp_row {r : List (XF ℝ)} (hr : r.getD 0 nan = fin 0 ∧ ∀ v ∈ r, LogVal v) {nfft order : ℕ}
    (hn : nfft ≠ 0) (ho : 2 ≤ order) : ∃ c, plpRow nfft order ((r.map XF.exp).map loudness) = .ok c ∧ c.length = order := by
  obtain ⟨r', hr'⟩ : ∃ r' : List ℝ, r.map XF.exp = r'.map fin := by
    refine logVal_map fun v hv => ?_
    obtain ⟨w, hw, rfl⟩ := List.mem_map.mp hv
    rcases hr.2 w hw with rfl | ⟨y, rfl⟩
    · exact ⟨0, rfl⟩
    · exact ⟨_, rfl⟩
  obtain ⟨c, hc, hc', -⟩ := (loud_row r' nfft order hn ho).1 (by
    rw [← hr']
    cases r with
    | nil => exact absurd hr.1 (by simp)
    | cons w r =>
      have : w = fin 0 := hr.1
      subst this
      obtain ⟨k, rfl⟩ := Nat.exists_eq_succ_of_ne_zero hn
      refine ⟨XF.exp (fin 0), by simp, fun h => ?_⟩
      exact (Real.exp_pos 0).ne' (XF.fin_injective h))
  exact ⟨c, by rw [hr', hc], hc'⟩

theorem nan_row {r : List (XF ℝ)} (hr : nan ∈ r) {nfft order : ℕ} (hn : r.length ≤ nfft) (ho : 2 ≤ order) :
    plpRow nfft order ((r.map XF.exp).map loudness) = .error .valueError := by
  rw [plpRow, if_neg (by omega), if_neg]
  rw [List.take_of_length_le (by simpa using hn), List.all_eq_true]
  intro h
  have := h nan (by
    refine List.mem_map.mpr ⟨nan, List.mem_map.mpr ⟨nan, hr, rfl⟩, loudness_nan⟩)
  cases this

theorem mapM_append_error {β γ : Type} (f : β → Py γ) (e : Err) (l₁ l₂ : List β) (b : β)
    (h : ∀ a ∈ l₁, ∃ c, f a = .ok c) (hb : f b = .error e) : (l₁ ++ b :: l₂).mapM f = .error e := by
  induction l₁ with
  | nil => exact mapM_error f e b l₂ hb
  | cons a l ih =>
    obtain ⟨c, hc⟩ := h a (by simp)
    rw [List.cons_append, List.mapM_cons, hc, ok_bind, ih fun x hx => h x (by simp [hx]), error_bind]

theorem energy_fine (E : ℕ → ℝ) (hE : ∀ n, 0 ≤ E n) (m : ℕ) :
    RastaFine ((((List.range m).map E).map fin).map XF.log) ↔ ∀ n < m, E n = 0 → 4 ≤ n ∧ m ≤ n + 2 := by
  have hlen : ((((List.range m).map E).map fin).map XF.log).length = m := by simp
  have hget : ∀ k < m, ((((List.range m).map E).map fin).map XF.log).getD k 0 = XF.log (fin (E k)) := by
    intro k hk
    rw [getD_map_lt _ _ (fin 0) _ (by simpa using hk), getD_map_lt _ _ (0 : ℝ) _ (by simpa using hk), getD_map_range_lt _ _ hk]
  have hlog : ∀ k, XF.log (fin (E k)) = ninf ↔ E k = 0 := by
    intro k
    constructor
    · intro h
      by_contra hc
      rw [XF.log_pos (lt_of_le_of_ne (hE k) (Ne.symm hc))] at h
      cases h
    · intro h
      rw [h, XF.log_zero]
  unfold RastaFine
  rw [hlen]
  constructor
  · intro h n hn h0
    exact h n hn (by rw [hget n hn, hlog]; exact h0)
  · intro h n hn h0
    rw [hget n hn, hlog] at h0
    exact h n hn h0

/-- C131: `rplp` called with a non-negative bank of at most `nfft` filters and at least one predictor coefficient
raises exactly by the table. -/
theorem C131_rplp (a : Args) (fb : List (List ℝ)) (hb : a.fbanks = some (finMat fb))
    (hnn : ∀ r ∈ fb, ∀ v ∈ r, 0 ≤ v) (h1 : 1 ≤ fb.length) (hbn : fb.length ≤ a.nfft) (ho : 2 ≤ a.numCeps) (sig : List ℝ)
    (hfs : 0 ≤ a.fs) (hh : 0 ≤ a.win.winHop) : raised (rplp a sig) = firstError (rplpChecks a fb sig) := by
  have hbk : plpBank a = .ok (finMat fb) := by unfold plpBank getFbanks; rw [hb]
  rw [rplpChecks, firstError]
  by_cases hc : a.nfilts < a.numCeps
  · rw [if_pos hc, rplp, rastaplp, if_pos hc]; rfl
  rw [if_neg hc]
  have hcols : (finMat fb).map List.length = fb.map List.length := by
    unfold finMat; rw [List.map_map]; apply List.map_congr_left; intro r _; simp
  have hsp := spectrogram_raised a a.preEmphCoeff (finMat fb) sig hfs hh
  rw [hcols] at hsp
  rw [List.append_assoc, firstError_append, ← hsp]
  cases hx : spectrogram a a.preEmphCoeff (finMat fb) sig with
  | error e =>
    simp only [rplp, rastaplp]
    rw [if_neg hc, plpBank_eq, hbk, ok_bind, hx]; rfl
  | ok p =>
    rw [hx] at hsp
    have hnone := firstError_eq_none.mp (hsp.symm.trans rfl)
    have hfr : firstError (frontChecks a.preEmph a.fs a.win sig.length) = none :=
      firstError_eq_none.mpr fun q hq => hnone q (List.mem_append_left _ hq)
    obtain ⟨f1, f2, f3, f4, f5, f6⟩ := frameChecks_none hfs hh (frontChecks_none hfr)
    have b1 := hnone (a.nfft = 0, .valueError) (by simp [bankChecks])
    have b2 := hnone (∃ c ∈ fb.map List.length, c ≠ a.nfft / 2 + 1, .valueError) (by simp [bankChecks])
    have b3 := hnone ((sig.length : ℤ) < ⌊a.win.winLen * a.fs⌋, .indexError) (by simp [frontChecks, frameChecks])
    simp only at b1 b2 b3
    have hset : Setup a fb sig ⌊a.win.winLen * a.fs⌋.toNat ⌊a.win.winHop * a.fs⌋.toNat :=
      { bank := hb, cols := by simpa using b2, nonneg := hnn, rows := h1, ceps := by omega, nfft := b1, window := f6,
        hopLe := f1, len := by omega, hop := by omega, pos := by omega, long := by omega,
        samples := fun e e' => hnone (a.preEmph = true ∧ sig.length = 0, .valueError) (by simp [frontChecks]) ⟨e, by simp [e']⟩ }
    generalize ⌊a.win.winLen * a.fs⌋.toNat = l at *
    generalize ⌊a.win.winHop * a.fs⌋.toNat = s at *
    obtain ⟨ft, hx'⟩ := hset.spectrogram a.preEmphCoeff
    set E := energyOf a a.preEmphCoeff fb sig l s with hE
    have hE0 : ∀ i n, 0 ≤ E i n := fun i n => bandEnergy_nonneg hnn ..
    set x : XMat := (List.range ((sig.length - l) / s + 1)).map fun (i : ℕ) =>
      ((List.range fb.length).map (E i)).map fin with hxdef
    have hfine : (∀ r ∈ x, RastaFine (r.map XF.log)) ↔ ¬ EmptyBand E ((sig.length - l) / s + 1) fb.length := by
      unfold EmptyBand
      push Not
      constructor
      · intro h i hi n hn h0
        exact (energy_fine (E i) (hE0 i) fb.length).mp (h _ (List.mem_map.mpr ⟨i, by simpa using hi, rfl⟩)) n hn h0
      · intro h r hr
        obtain ⟨i, hi, rfl⟩ := List.mem_map.mp hr
        exact (energy_fine (E i) (hE0 i) fb.length).mpr fun n hn h0 => h i (List.mem_range.mp hi) n hn h0
    have hp : ∀ q, rastaRows rastaB rastaA ((lfilterZiFir (rastaNumer : List ℝ)).map fin) (x.map fun r => r.map XF.log) = .ok q →
        rplp a sig = ((q.map fun r => (r.map XF.exp).map loudness).mapM (plpRow a.nfft a.numCeps) >>= plpTail a) := by
      intro q hq
      rw [rplp, rastaplp_eq hbk hx' (not_lt.mp hc), plpRasta, if_pos rfl]
      have : rastaFilterX (x.map fun r => r.map XF.log) = .ok q := hq
      rw [this, ok_bind, ok_bind, List.map_map]
      rfl
    show raised (rplp a sig) = firstError ((EmptyBand E ((sig.length - l) / s + 1) fb.length,
      .valueError) :: normChecks a.normalize)
    rw [firstError]
    rcases rastaRows_inf (x.map fun r => r.map XF.log) _ rasta_zi_length (fun r hr => by
        obtain ⟨r0, hr0, rfl⟩ := List.mem_map.mp hr
        obtain ⟨i, hi, rfl⟩ := List.mem_map.mp hr0
        intro h
        have := congrArg List.length h
        simp only [List.length_map, List.length_range, List.length_nil] at this
        omega) (fun r hr v hv => by
        obtain ⟨r0, hr0, rfl⟩ := List.mem_map.mp hr
        obtain ⟨w, hw, rfl⟩ := List.mem_map.mp hv
        obtain ⟨i, hi, rfl⟩ := List.mem_map.mp hr0
        obtain ⟨e, he, rfl⟩ := List.mem_map.mp hw
        obtain ⟨n, -, rfl⟩ := List.mem_map.mp he
        rcases (hE0 i n).eq_or_lt with h0 | h0
        · rw [← h0, XF.log_zero]; exact Or.inl rfl
        · rw [XF.log_pos h0]; exact Or.inr ⟨_, rfl⟩) with
      ⟨y, hy, hy1, hy2⟩ | ⟨y₁, b, y₂, hy, hy1, hnan, ⟨r, hr, hbl⟩, r', hr', hnf⟩
    · have hnz : ¬ EmptyBand E ((sig.length - l) / s + 1) fb.length :=
        hfine.mp fun r hr => hy2 _ (List.mem_map.mpr ⟨r, hr, rfl⟩)
      rw [if_neg hnz, hp y hy]
      have hall : ∀ r : List (XF ℝ), ∃ c, r ∈ y → plpRow a.nfft a.numCeps ((r.map XF.exp).map loudness) = .ok c ∧ c.length = a.numCeps := by
        intro r
        by_cases hr : r ∈ y
        · obtain ⟨c, hc⟩ := logVal_exp_row (hy1 r hr) b1 ho; exact ⟨c, fun _ => hc⟩
        · exact ⟨[], fun h => absurd h hr⟩
      choose g hg using hall
      have hm : (y.map fun r => (r.map XF.exp).map loudness).mapM (plpRow a.nfft a.numCeps) = .ok (y.map g) := by
        rw [List.mapM_map]
        exact mapM_ok _ _ _ fun r hr => (hg r hr).1
      have hsh : HasShape (y.map g) ((sig.length - l) / s + 1) a.numCeps := by
        refine ⟨?_, ?_⟩
        · have := rastaRows_length hy
          rw [List.length_map, this]; simp [x]
        · intro r hr
          obtain ⟨r0, hr0, rfl⟩ := List.mem_map.mp hr
          exact (hg r0 hr0).2
      rw [hm, ok_bind, plpTail]
      cases hl : a.lifter with
      | none => exact normalize_raised hsh (Nat.succ_pos _) (by omega) _
      | some q =>
        simp only
        obtain ⟨m'', h'⟩ := lifter_total (m := y.map g) (c := a.numCeps) q (by omega)
        rw [h', ok_bind]
        exact normalize_raised (lifter_shape hsh (by omega) h') (Nat.succ_pos _) (by omega) _
    · have hz : EmptyBand E ((sig.length - l) / s + 1) fb.length := by
        by_contra hcon
        obtain ⟨r0, hr0, rfl⟩ := List.mem_map.mp hr'
        exact hnf (hfine.mpr hcon r0 hr0)
      rw [if_pos hz, hp _ hy, List.map_append, List.map_cons, mapM_append_error _ .valueError, error_bind]
      · rfl
      · intro r hr
        obtain ⟨r0, hr0, rfl⟩ := List.mem_map.mp hr
        obtain ⟨c, hc, -⟩ := logVal_exp_row (hy1 r0 hr0) b1 ho
        exact ⟨c, hc⟩
      · refine nan_row hnan ?_ ho
        obtain ⟨r0, hr0, rfl⟩ := List.mem_map.mp hr
        obtain ⟨i, hi, rfl⟩ := List.mem_map.mp hr0
        rw [hbl]
        simpa using hbn

/-- C131: with arguments that pass the checks on framing, bank and normalisation, `rplp` succeeds exactly when no frame
has an empty band before the last two, or among the first four. -/
theorem C131_rplp_ok (a : Args) (fb : List (List ℝ)) (hb : a.fbanks = some (finMat fb))
    (hnn : ∀ r ∈ fb, ∀ v ∈ r, 0 ≤ v) (h1 : 1 ≤ fb.length) (hbn : fb.length ≤ a.nfft) (ho : 2 ≤ a.numCeps)
    (hn : a.numCeps ≤ a.nfilts) (sig : List ℝ) (hfs : 0 ≤ a.fs) (hh : 0 ≤ a.win.winHop)
    (hfc : firstError (frontChecks a.preEmph a.fs a.win sig.length) = none)
    (hcol : ∀ r ∈ fb, r.length = a.nfft / 2 + 1) (hno : firstError (normChecks a.normalize) = none) :
    (∃ m, rplp a sig = .ok m) ↔
      ¬ EmptyBand (fun i n => bandEnergy fb (windowWeight a.win.winType ⌊a.win.winLen * a.fs⌋.toNat)
          (emphasised a.preEmph a.preEmphCoeff sig) ⌊a.win.winLen * a.fs⌋.toNat ⌊a.win.winHop * a.fs⌋.toNat a.nfft i n)
          ((sig.length - ⌊a.win.winLen * a.fs⌋.toNat) / ⌊a.win.winHop * a.fs⌋.toNat + 1) fb.length := by
  have key := C131_rplp a fb hb hnn h1 hbn ho sig hfs hh
  have hbc : firstError (bankChecks a.nfft (fb.map List.length)) = none := by
    rw [firstError_eq_none]
    intro p hp
    simp only [bankChecks, List.mem_cons, List.not_mem_nil, or_false] at hp
    rcases hp with rfl | rfl
    · simp only; omega
    · simp only [List.mem_map, not_exists, not_and, not_not]
      rintro c ⟨r, hr, rfl⟩
      exact hcol r hr
  rw [rplpChecks, firstError, if_neg (by omega), List.append_assoc, List.append_assoc, firstError_append, hfc,
    firstError_append, hbc, List.cons_append, List.nil_append, firstError, hno] at key
  simp only at key
  cases hr : rplp a sig with
  | ok m =>
    rw [hr] at key
    refine ⟨fun _ h => ?_, fun _ => ⟨m, rfl⟩⟩
    rw [if_pos h] at key
    cases key
  | error e =>
    rw [hr] at key
    refine ⟨?_, fun h => ?_⟩
    · rintro ⟨m, hm⟩; cases hm
    · rw [if_neg h] at key
      cases key

/-! ### Example -/

/-- Six filters over the six bins of a DFT of size 10: filter `k` is empty, the others sum all bins. -/
noncomputable def sixBands (k : ℕ) : List (List ℝ) :=
  (List.range 6).map fun (n : ℕ) => (List.range 6).map fun (_ : ℕ) => if n = k then 0 else 1

/-- One frame that holds an impulse: `rplp` with an empty filter succeeds when that filter is one of the last two of the
six, and raises otherwise. -/
example (k : ℕ) (hk : k < 6) :
    (∃ m, rplp { nfft := 10, preEmph := false, fbanks := some (finMat (sixBands k)) } (1 :: List.replicate 399 0) = .ok m) ↔
      4 ≤ k := by
  have h2 : ⌊(0.025 : ℝ) * 16000⌋ = 400 := by norm_num [Int.floor_eq_iff]
  have h3 : ⌊(0.010 : ℝ) * 16000⌋ = 160 := by norm_num [Int.floor_eq_iff]
  have hw : ({ nfft := 10, preEmph := false, fbanks := some (finMat (sixBands k)) } : Args).win = {} := rfl
  have hlen : (sixBands k).length = 6 := by simp [sixBands]
  rw [C131_rplp_ok _ (sixBands k) rfl]
  · simp only [hw, h2, h3, show Int.toNat 400 = 400 from rfl, show Int.toNat 160 = 160 from rfl]
    have hE : ∀ n < 6, bandEnergy (sixBands k) (windowWeight "hamming" 400) (emphasised false 0.97 (1 :: List.replicate 399 0))
        400 160 10 0 n = 0 ↔ n = k := by
      intro n hn
      have hy : ∀ j, j ≠ 0 → emphasised false 0.97 (1 :: List.replicate 399 0) j = 0 := by
        intro j hj
        obtain ⟨j, rfl⟩ := Nat.exists_eq_succ_of_ne_zero hj
        simp only [emphasised, Bool.false_eq_true, if_false, List.getD_cons_succ]
        rw [List.getD_eq_getElem?_getD, List.getElem?_replicate]
        split_ifs <;> rfl
      have hp : ∀ b, framePower (windowWeight "hamming" 400) (emphasised false 0.97 (1 :: List.replicate 399 0)) 400 160 10 0 b =
          0.00064 := by
        intro b
        rw [framePower, frameBin, Finset.sum_eq_single 0]
        · have h0 : windowWeight "hamming" 400 0 = 0.08 := by
            rw [windowWeight, if_neg (by norm_num), if_neg (by decide), if_pos rfl]
            norm_num
          have h1 : emphasised false 0.97 (1 :: List.replicate 399 0) (0 * 160 + 0) = 1 := by
            simp only [emphasised, Bool.false_eq_true, if_false]; rfl
          rw [h0, h1]
          simp
          norm_num
        · intro j _ hj
          rw [hy _ (by omega)]; simp
        · intro h; simp at h
      simp only [bandEnergy, hp]
      rw [← Finset.mul_sum]
      have hs : ∀ b ∈ Finset.range (10 / 2 + 1), ((sixBands k).getD n []).getD b 0 = if n = k then 0 else 1 := by
        intro b hb
        rw [sixBands, getD_map_range_lt _ _ hn, getD_map_range_lt _ _ (by simpa using hb)]
      rw [Finset.sum_congr rfl hs]
      split_ifs with h
      · simp [h]
      · norm_num [h]
    rw [EmptyBand, hlen]
    constructor
    · intro h
      by_contra hc
      exact h ⟨0, by norm_num, k, hk, (hE k hk).mpr rfl, Or.inl (by omega)⟩
    · rintro h ⟨i, hi, n, hn, h0, h'⟩
      have : i = 0 := by norm_num at hi; omega
      subst this
      have := (hE n hn).mp h0
      omega
  · intro r hr v hv
    obtain ⟨n, -, rfl⟩ := List.mem_map.mp hr
    obtain ⟨b, -, rfl⟩ := List.mem_map.mp hv
    split_ifs <;> norm_num
  · rw [hlen]; norm_num
  · rw [hlen]; show 6 ≤ 10; norm_num
  · norm_num
  · norm_num
  · norm_num
  · rw [hw]; norm_num
  · rw [hw]
    simp only [frontChecks, frameChecks, firstError, h2, h3]
    norm_num
  · intro r hr
    obtain ⟨n, -, rfl⟩ := List.mem_map.mp hr
    simp
  · simp [normChecks, firstError]

end Props
end Spafe
