import Verif.Lemmas.Plp
import Verif.Props.Features
import Verif.Props.Features2
import Verif.Spec.Features

/-!
Property C66, the `plp` and `rplp` parts of C37, C38, C39 and C47, and C89, C90: `spafe/features/rplp.py`.
-/

set_option linter.unusedSectionVars false

namespace Spafe
namespace Props
open XF Spec Model

theorem effHigh_idem (h : Option ℝ) (fs : ℝ) : effHigh (some (effHigh h fs)) fs = effHigh h fs := by
  unfold effHigh
  cases h with
  | none => simp only; split_ifs <;> simp_all
  | some v => simp only; split_ifs <;> simp_all

/-! ### C37 -/

private theorem noParam_lpc2lpcc (co : List ℝ) (e : ℝ) (n : ℕ) : NoParam (lpc2lpcc co e n) := by
  intro m h
  have hidx : ∀ (l : List (XF ℝ)) (i : ℕ), NoParam (idxX l i) := by
    intro l i m h
    unfold idxX at h
    by_cases hi : i < l.length
    · rw [pyIdx_nat l 0 hi] at h; cases h
    · rw [pyIdx_nat_error l (by omega)] at h; cases h
  have hset : ∀ (l : List (XF ℝ)) (i : ℕ) (v : XF ℝ), NoParam (pySet l (i : ℤ) v) := by
    intro l i v m h
    by_cases hi : i < l.length
    · rw [pySet_nat l v hi] at h; cases h
    · rw [pySet_nat_error l v (by omega)] at h; cases h
  have hsum : ∀ (a c : List (XF ℝ)) (k lo : ℕ), NoParam (lpccSum a c k lo) := by
    intro a c k lo
    unfold lpccSum
    exact (NoParam.mapM _ (fun x => (hidx _ _).bind fun _ => (hidx _ _).bind fun _ => NoParam.ok _) _).bind fun _ => NoParam.ok _
  have h1 : ∀ (a : List (XF ℝ)) (ms : List ℕ) (c : List (XF ℝ)), NoParam (lpccLoop1 a ms c) := by
    intro a ms
    induction ms with
    | nil => intro c; exact NoParam.ok _
    | cons k ms ih => intro c; exact (hidx _ _).bind fun _ => (hsum _ _ _ _).bind fun _ => (hset _ _ _).bind fun _ => ih _
  have h2 : ∀ (a : List (XF ℝ)) (p : ℕ) (ms : List ℕ) (c : List (XF ℝ)), NoParam (lpccLoop2 a p ms c) := by
    intro a p ms
    induction ms with
    | nil => intro c; exact NoParam.ok _
    | cons k ms ih => intro c; exact (hsum _ _ _ _).bind fun _ => (hset _ _ _).bind fun _ => ih _
  revert m
  change NoParam _
  simp only [lpc2lpcc]
  refine (hset _ 0 _).bind fun _ => (h1 _ _ _).bind fun _ => ?_
  split_ifs
  · exact h2 _ _ _ _
  · exact NoParam.ok _

private theorem noParam_plpRow (n o : ℕ) (r : List (XF ℝ)) : NoParam (plpRow n o r) := by
  unfold plpRow
  split_ifs
  · exact NoParam.err _ (by simp)
  · refine NoParam.bind ?_ fun p => noParam_lpc2lpcc _ _ _
    simp only [lpcHelper]
    split_ifs
    · exact NoParam.err _ (by simp)
    · exact NoParam.err _ (by simp)
    · exact NoParam.err _ (by simp)
    · exact NoParam.ok _
  · exact NoParam.err _ (by simp)

private theorem noParam_rasta (b : Bool) (x : XMat) : NoParam (plpRasta b x) := by
  have key : ∀ (b a : List (XF ℝ)) (x : XMat) (z : List (XF ℝ)), NoParam (rastaRows b a z x) := by
    intro b a x
    induction x with
    | nil => intro z; exact NoParam.ok _
    | cons r rs ih =>
      intro z m h
      cases r with
      | nil => cases h
      | cons x0 t =>
        rw [rastaRows] at h
        simp only at h
        split at h
        · rename_i e he
          injection h with h
          subst h
          exact ih _ _ he
        · cases h
  unfold plpRasta
  split_ifs
  · exact (key _ _ _ _).bind fun _ => NoParam.ok _
  · exact NoParam.ok _

private theorem noParam_plpTail (a : Args) (m : XMat) : NoParam (plpTail a m) := by
  unfold plpTail
  refine NoParam.bind ?_ fun m => ?_
  · cases a.lifter with
    | none => exact NoParam.ok _
    | some l => exact noParam_lifter _ _ _
  · cases a.normalize with
    | none => exact NoParam.ok _
    | some s =>
      simp only
      split_ifs
      · exact NoParam.ok _
      · exact noParam_normalize _ _ _

/-- C37 for `plp` and `rplp`: `ParameterError(nfilts)` exactly when the order exceeds `nfilts`, whatever the other
arguments and the signal. -/
theorem C37_plp_nfilts_check (f : Feature) (hf : f ∈ [plp, rplp]) (a : Args) (sig : List ℝ) :
    f a sig = .error (.parameterError "number of filters must be bigger than number of cepstrums") ↔
      a.nfilts < a.numCeps := by
  have key : ∀ b, rastaplp b a sig = .error (.parameterError "number of filters must be bigger than number of cepstrums") ↔
      a.nfilts < a.numCeps := by
    intro b
    unfold rastaplp
    split_ifs with h
    · simp only [h, iff_true]; rfl
    · simp only [h, iff_false]
      refine NoNf.ne ?_
      refine (noNf_getFbanks (noNf_bark ..)).bind fun fb => NoNf.bind ?_ fun p =>
        noNfP ((noParam_rasta _ _).bind fun _ => (NoParam.mapM _ (fun _ => noParam_plpRow _ _ _) _).bind fun _ =>
          noParam_plpTail _ _)
      exact (noNf_frontEnd _ _ _).bind fun _ => noNfP ((noParam_absFft _ _).bind fun _ =>
        (noParam_dotFbanks _ _ _).bind fun _ => NoParam.ok _)
  simp only [List.mem_cons, List.not_mem_nil, or_false] at hf
  rcases hf with rfl | rfl
  · exact key false
  · exact key true

/-- With the default 24 filters, order 25 is rejected and 13 is not. -/
example : plp { numCeps := 25, preEmph := false, approach := "Wang" } [1, 2] =
      .error (.parameterError "number of filters must be bigger than number of cepstrums") ∧
    plp { preEmph := false, approach := "Wang" } [1, 2] ≠
      .error (.parameterError "number of filters must be bigger than number of cepstrums") :=
  ⟨(C37_plp_nfilts_check plp (by simp) _ _).mpr (by norm_num),
   fun h => absurd ((C37_plp_nfilts_check plp (by simp) _ _).mp h) (by norm_num)⟩

/-! ### C66, C38 -/

/-- The part of `rastaplp` after the bank is known. -/
private theorem rastaplp_ok_iff (b : Bool) (a : Args) (sig : List ℝ) (m : XMat) :
    rastaplp b a sig = .ok m ↔ a.numCeps ≤ a.nfilts ∧ ∃ fb, getFbanks a.fbanks
      (barkFilterBanks a.nfilts a.nfft a.fs a.low (some (effHigh a.high a.fs)) a.scale a.approach) = .ok fb ∧
      ∃ p, spectrogram a a.preEmphCoeff fb sig = .ok p ∧ ∃ x, plpRasta b p.1 = .ok x ∧
      ∃ rows, (x.map fun r => r.map loudness).mapM (plpRow a.nfft a.numCeps) = .ok rows ∧ plpTail a rows = .ok m := by
  unfold rastaplp
  split_ifs with h
  · simp only [reduceCtorEq, false_iff]; rintro ⟨h1, -⟩; omega
  · simp only [bind_ok_iff, not_lt.mp h, true_and]

/-- C66 (and C38 for `plp`, `rplp`): a successful call returns one row per frame and exactly `order` columns, whatever
the bank, liftering and normalisation options. -/
theorem C66_plp_shape (f : Feature) (hf : f ∈ [plp, rplp]) (a : Args) (sig : List ℝ) (m : XMat)
    (hS : 0 < pyInt (a.win.winHop * a.fs)) (h : f a sig = .ok m) :
    ∃ l s : ℕ, pyInt (a.win.winLen * a.fs) = l ∧ pyInt (a.win.winHop * a.fs) = s ∧ l ≤ sig.length ∧
      HasShape m ((sig.length - l) / s + 1) a.numCeps := by
  have key : ∀ b, rastaplp b a sig = .ok m → ∃ l s : ℕ, pyInt (a.win.winLen * a.fs) = l ∧
      pyInt (a.win.winHop * a.fs) = s ∧ l ≤ sig.length ∧ HasShape m ((sig.length - l) / s + 1) a.numCeps := by
    intro b h
    obtain ⟨-, fb, -, ⟨x, ft⟩, hx, y, hy, rows, hr, ht⟩ := (rastaplp_ok_iff ..).mp h
    obtain ⟨W, hW, -, -, rfl, -⟩ := (spectrogram_ok_iff ..).mp hx
    obtain ⟨l, s, h3, h4, h5, h6⟩ := frontEnd_length hS hW
    have hl := mapM_length _ _ _ hr
    rw [List.length_map, plpRasta_length hy, List.length_map, h6] at hl
    have hrows : ∀ r ∈ rows, r.length = a.numCeps := by
      intro r hr'
      have hf2 := (mapM_ok_iff ..).mp hr
      obtain ⟨i, hi, rfl⟩ := List.mem_iff_getElem.mp hr'
      have := hf2.get (i := i) (hf2.length_eq.symm ▸ hi) hi
      exact (plpRow_length this).2
    obtain ⟨h7, h8⟩ := plpTail_shape hrows ht
    exact ⟨l, s, h3, h4, h5, by rw [h7, hl], h8⟩
  simp only [List.mem_cons, List.not_mem_nil, or_false] at hf
  rcases hf with rfl | rfl
  · exact key false h
  · exact key true h

/-! ### C39 -/

/-- C39 for `plp`, `rplp`: passing the bank that `bark_filter_banks` returns for the same arguments gives the same
result as `None`. -/
theorem C39_plp_precomputed_bank (f : Feature) (hf : f ∈ [plp, rplp]) (a : Args) (sig : List ℝ) (fb : XMat)
    (cs : List (XF ℝ)) (h : barkFilterBanks a.nfilts a.nfft a.fs a.low a.high a.scale a.approach = .ok (fb, cs)) :
    f { a with fbanks := some fb } sig = f { a with fbanks := none } sig := by
  have hb : barkFilterBanks a.nfilts a.nfft a.fs a.low (some (effHigh a.high a.fs)) a.scale a.approach = .ok (fb, cs) := by
    rw [← h]; unfold barkFilterBanks; rw [effHigh_idem]
  simp only [List.mem_cons, List.not_mem_nil, or_false] at hf
  rcases hf with rfl | rfl
  · simp only [plp, rastaplp, getFbanks, hb, ok_bind]; rfl
  · simp only [rplp, rastaplp, getFbanks, hb, ok_bind]; rfl

/-! ### C47 -/

/-- C47 for `plp`, `rplp`: the given coefficient is the one used. -/
theorem C47_plp_pre_emph_coeff (f : Feature) (hf : f ∈ [plp, rplp]) (a : Args) (c : ℝ) (sig : List ℝ)
    (hne : sig ≠ []) :
    f { a with preEmph := true, preEmphCoeff := c } sig = f { a with preEmph := false } (preEmphasis sig c) := by
  obtain ⟨x, s, rfl⟩ := List.exists_cons_of_ne_nil hne
  simp only [List.mem_cons, List.not_mem_nil, or_false] at hf
  rcases hf with rfl | rfl <;> rfl

/-! ### C66: when the calls succeed -/

private theorem toList_fin {r : List (XF ℝ)} (h : ∀ v ∈ r, ∃ x : ℝ, 0 ≤ x ∧ v = fin x) :
    ∃ r' : List ℝ, r = r'.map fin ∧ ∀ x ∈ r', 0 ≤ x := by
  obtain ⟨r', rfl⟩ := (finRow_iff r).mp fun v hv => by obtain ⟨x, -, hx⟩ := h v hv; exact ⟨x, hx⟩
  refine ⟨r', rfl, fun x hx => ?_⟩
  obtain ⟨y, h0, h1⟩ := h (fin x) (List.mem_map_of_mem hx)
  injection h1 with h1
  rwa [h1]

theorem loud_row (r' : List ℝ) (nfft order : ℕ) (hn : nfft ≠ 0) (ho : 2 ≤ order) :
    ((∃ v ∈ (r'.map fin).take nfft, v ≠ fin (0 : ℝ)) →
      ∃ c, plpRow nfft order ((r'.map fin).map loudness) = .ok c ∧ c.length = order ∧ FinRow c) ∧
    ((¬ ∃ v ∈ (r'.map fin).take nfft, v ≠ fin (0 : ℝ)) →
      plpRow nfft order ((r'.map fin).map loudness) = .error .linAlgError) := by
  have e : (r'.map fin).map loudness = (r'.map fun x => loudE x ^ (1 / 3 : ℝ)).map fin := by
    rw [List.map_map, List.map_map]
    apply List.map_congr_left
    intro x _
    exact loudness_fin x
  have hget : ∀ j, (r'.map fun x => loudE x ^ (1 / 3 : ℝ)).getD j 0 = loudE (r'.getD j 0) ^ (1 / 3 : ℝ) := by
    intro j
    by_cases hj : j < r'.length
    · rw [getD_map_lt _ _ 0 _ hj]
    · rw [List.getD_eq_default _ _ (by simpa using hj), List.getD_eq_default _ _ (by simpa using hj), loud_zero]
  have hmem : (∃ v ∈ (r'.map fin).take nfft, v ≠ fin (0 : ℝ)) ↔ ∃ j, j < nfft ∧ r'.getD j 0 ≠ 0 := by
    constructor
    · rintro ⟨v, hv, hne⟩
      obtain ⟨j, hj, rfl⟩ := (mem_iff_getD (fin 0) v).mp hv
      rw [List.length_take, List.length_map] at hj
      rw [getD_take_lt _ _ (by omega), getD_map_lt _ _ 0 _ (by omega)] at hne
      exact ⟨j, by omega, fun h => hne (by rw [h])⟩
    · rintro ⟨j, hj, hne⟩
      have hj' : j < r'.length := by
        by_contra hcon
        exact hne (List.getD_eq_default _ _ (by omega))
      refine ⟨fin (r'.getD j 0), ?_, fun h => hne (XF.fin_injective h)⟩
      refine (mem_iff_getD (fin 0) _).mpr ⟨j, by rw [List.length_take, List.length_map]; omega, ?_⟩
      rw [getD_take_lt _ _ hj, getD_map_lt _ _ 0 _ hj']
  rw [e, hmem]
  constructor
  · rintro ⟨j, hj, hne⟩
    refine plpRow_ok ho (fun j => ?_) ⟨j, hj, ?_⟩
    · rw [hget]; exact Real.rpow_nonneg (loudE_nonneg _) _
    · rw [hget]; exact (Real.rpow_pos_of_pos (loudE_pos hne) _).ne'
  · intro hcon
    push Not at hcon
    refine plpRow_silent hn ho fun j hj => ?_
    rw [hget, hcon j hj, loud_zero]

/-- The bank `plp` and `rplp` work with: the given one, else the bark bank of the arguments. -/
noncomputable def plpBank (a : Args) : Py XMat :=
  getFbanks a.fbanks (barkFilterBanks a.nfilts a.nfft a.fs a.low a.high a.scale a.approach)

theorem plpBank_eq (a : Args) : getFbanks a.fbanks
    (barkFilterBanks a.nfilts a.nfft a.fs a.low (some (effHigh a.high a.fs)) a.scale a.approach) = plpBank a := by
  unfold plpBank barkFilterBanks; rw [effHigh_idem]

theorem rastaplp_eq {b : Bool} {a : Args} {sig : List ℝ} {fb x : XMat} {ft : List (List ℝ)}
    (hb : plpBank a = .ok fb) (hx : spectrogram a a.preEmphCoeff fb sig = .ok (x, ft)) (hn : a.numCeps ≤ a.nfilts) :
    rastaplp b a sig = (plpRasta b x >>= fun x =>
      (x.map fun r => r.map loudness).mapM (plpRow a.nfft a.numCeps) >>= plpTail a) := by
  simp only [rastaplp]
  rw [if_neg (by omega), plpBank_eq, hb, ok_bind, hx, ok_bind]

theorem plpTail_none {a : Args} (hl : a.lifter = none) (hnorm : a.normalize = none) (m : XMat) :
    plpTail a m = .ok m := by rw [plpTail, hl, hnorm]; rfl

/-- C66: `plp` with finite non-negative filter outputs (as every non-negative bank gives), order `≥ 2` and no
normalisation or liftering succeeds exactly when every frame has a non-zero value among its first `nfft` filter
outputs; the result is then finite. Otherwise it raises `LinAlgError`. -/
theorem C66_plp_defined (a : Args) (sig : List ℝ) (fb x : XMat) (ft : List (List ℝ)) (hb : plpBank a = .ok fb)
    (hx : spectrogram a a.preEmphCoeff fb sig = .ok (x, ft)) (hx0 : AllNonneg x) (ho : 2 ≤ a.numCeps)
    (hn : a.numCeps ≤ a.nfilts) (hl : a.lifter = none) (hnorm : a.normalize = none) :
    ((∀ r ∈ x, ∃ v ∈ r.take a.nfft, v ≠ fin 0) → ∃ m, plp a sig = .ok m ∧ AllFinite m) ∧
    ((¬ ∀ r ∈ x, ∃ v ∈ r.take a.nfft, v ≠ fin 0) → plp a sig = .error .linAlgError) := by
  have hn0 : a.nfft ≠ 0 := by obtain ⟨W, -, h, -⟩ := (spectrogram_ok_iff ..).mp hx; exact h
  have hp : plp a sig = ((x.map fun r => r.map loudness).mapM (plpRow a.nfft a.numCeps) >>= plpTail a) :=
    rastaplp_eq hb hx hn
  have hrow : ∀ r ∈ x, ((∃ v ∈ r.take a.nfft, v ≠ fin 0) →
      ∃ c, plpRow a.nfft a.numCeps (r.map loudness) = .ok c ∧ FinRow c) ∧
      ((¬ ∃ v ∈ r.take a.nfft, v ≠ fin 0) → plpRow a.nfft a.numCeps (r.map loudness) = .error .linAlgError) := by
    intro r hr
    obtain ⟨r', rfl, -⟩ := toList_fin (hx0 r hr)
    obtain ⟨h1, h2⟩ := loud_row r' a.nfft a.numCeps hn0 ho
    exact ⟨fun h => by obtain ⟨c, hc, -, hc'⟩ := h1 h; exact ⟨c, hc, hc'⟩, h2⟩
  rw [hp]
  constructor
  · intro hall
    have : ∀ r : List (XF ℝ), ∃ c, r ∈ x → plpRow a.nfft a.numCeps (r.map loudness) = .ok c ∧ FinRow c := by
      intro r
      by_cases hr : r ∈ x
      · obtain ⟨c, hc⟩ := (hrow r hr).1 (hall r hr); exact ⟨c, fun _ => hc⟩
      · exact ⟨[], fun h => absurd h hr⟩
    choose g hg using this
    have hm : (x.map fun r => r.map loudness).mapM (plpRow a.nfft a.numCeps) = .ok (x.map g) := by
      rw [List.mapM_map]
      exact mapM_ok _ _ _ fun r hr => (hg r hr).1
    rw [hm, ok_bind, plpTail_none hl hnorm]
    refine ⟨_, rfl, fun r hr => ?_⟩
    obtain ⟨s, hs, rfl⟩ := List.mem_map.mp hr
    exact (hg s hs).2
  · intro hcon
    push Not at hcon
    obtain ⟨r, hr, h⟩ := hcon
    rw [mapM_eq_error _ .linAlgError, error_bind]
    · intro s hs
      obtain ⟨r, hr, rfl⟩ := List.mem_map.mp hs
      by_cases hc : ∃ v ∈ r.take a.nfft, v ≠ fin 0
      · obtain ⟨c, hc, -⟩ := (hrow r hr).1 hc; exact Or.inl ⟨c, hc⟩
      · exact Or.inr ((hrow r hr).2 hc)
    · refine ⟨_, List.mem_map.mpr ⟨r, hr, rfl⟩, (hrow r hr).2 ?_⟩
      push Not; exact h

private theorem spec_silence {a : Args} {n : ℕ} {fb x : XMat} {ft : List (List ℝ)} {c : ℝ} (hfb : AllNonneg fb)
    (hx : spectrogram a c fb (List.replicate n 0) = .ok (x, ft)) :
    x ≠ [] ∧ ∀ r ∈ x, r = List.replicate fb.length (fin 0) := by
  obtain ⟨W, hW, -, -, rfl, -⟩ := (spectrogram_ok_iff ..).mp hx
  refine ⟨by simpa using frontEnd_ne_nil hW, fun r hr => ?_⟩
  obtain ⟨w, hw, rfl⟩ := List.mem_map.mp hr
  have hz := frontEnd_silence hW w hw
  rw [List.eq_replicate_iff]
  refine ⟨by simp, fun v hv => ?_⟩
  obtain ⟨f, hf, rfl⟩ := List.mem_map.mp hv
  have hp : powRow a.nfft w = (List.range (a.nfft / 2 + 1)).map fun _ => (0:ℝ) := by
    unfold powRow Np.absRfft
    rw [List.map_map]
    apply List.map_congr_left
    intro k _
    simp [dft_silence hz]
  rw [hp, dot_zeros _ (hfb f hf)]

/-- C66: silence: `plp` of an all-zero signal raises `LinAlgError`, whatever its length and the non-negative bank
(when framing and the bank's width are accepted at all). -/
theorem C66_plp_silence (a : Args) (n : ℕ) (fb x : XMat) (ft : List (List ℝ)) (hb : plpBank a = .ok fb)
    (hfb : AllNonneg fb) (hx : spectrogram a a.preEmphCoeff fb (List.replicate n 0) = .ok (x, ft)) (ho : 2 ≤ a.numCeps)
    (hn : a.numCeps ≤ a.nfilts) (hl : a.lifter = none) (hnorm : a.normalize = none) :
    plp a (List.replicate n 0) = .error .linAlgError := by
  obtain ⟨h1, h2⟩ := spec_silence hfb hx
  refine (C66_plp_defined a _ fb x ft hb hx (fun r hr v hv => ?_) ho hn hl hnorm).2 ?_
  · rw [h2 r hr] at hv
    exact ⟨0, le_rfl, List.eq_of_mem_replicate hv⟩
  · intro hcon
    obtain ⟨r, hr⟩ := List.exists_mem_of_ne_nil x h1
    obtain ⟨v, hv, hne⟩ := hcon r hr
    rw [h2 r hr] at hv
    exact hne (List.eq_of_mem_replicate (List.mem_of_mem_take hv))

/-- What `rplp` computes from positive filter outputs, one row at a time. -/
theorem rasta_pos {x : XMat} (hx : AllPos x) (hne : ∀ r ∈ x, r ≠ []) :
    plpRasta true x = .ok (x.map fun r => (rastaRowOut (r.map fun v => Real.log v.toNum)).map fun y => fin (Real.exp y)) := by
  have e : (x.map fun r => r.map XF.log) = (x.map fun r => r.map fun v => Real.log v.toNum).map fun r => r.map fin := by
    rw [List.map_map]
    apply List.map_congr_left
    intro r hr
    simp only [Function.comp]
    rw [List.map_map]
    apply List.map_congr_left
    intro v hv
    obtain ⟨y, hy, rfl⟩ := hx r hr v hv
    rw [XF.log_pos hy]; rfl
  unfold plpRasta
  rw [if_pos rfl, e, rastaFilterX_fin, ok_bind]
  · congr 1
    rw [List.map_map, List.map_map]
    apply List.map_congr_left
    intro r _
    simp only [Function.comp, List.map_map]
    apply List.map_congr_left
    intro v _
    rfl
  · intro r hr
    obtain ⟨s, hs, rfl⟩ := List.mem_map.mp hr
    simpa using hne s hs

theorem rows_ne {a : Args} {c : ℝ} {fb x : XMat} {ft : List (List ℝ)} {sig : List ℝ} (hfb : fb ≠ [])
    (hx : spectrogram a c fb sig = .ok (x, ft)) : x ≠ [] ∧ ∀ r ∈ x, r ≠ [] := by
  obtain ⟨W, hW, -, -, rfl, -⟩ := (spectrogram_ok_iff ..).mp hx
  refine ⟨by simpa using frontEnd_ne_nil hW, fun r hr => ?_⟩
  obtain ⟨w, -, rfl⟩ := List.mem_map.mp hr
  simpa [specRow] using hfb

/-- The row `rplp` returns for a frame with the filter outputs `r`. -/
theorem rplp_form {a : Args} {sig : List ℝ} {fb x : XMat} {ft : List (List ℝ)} (hb : plpBank a = .ok fb)
    (hfb : fb ≠ []) (hx : spectrogram a a.preEmphCoeff fb sig = .ok (x, ft)) (hx0 : AllPos x)
    (hn : a.numCeps ≤ a.nfilts) :
    rplp a sig = ((x.map fun r => (rastaRowOut (r.map fun v => Real.log v.toNum)).map fun y =>
      loudness (fin (Real.exp y))).mapM (plpRow a.nfft a.numCeps) >>= plpTail a) := by
  have h := rastaplp_eq (b := true) hb hx hn
  rw [rasta_pos hx0 (rows_ne hfb hx).2, ok_bind, List.map_map] at h
  rw [rplp, h]
  simp only [Function.comp_def, List.map_map]

theorem rplp_row {nfft order : ℕ} (hn : nfft ≠ 0) (ho : 2 ≤ order) {y : List ℝ} (hy : y ≠ []) :
    ∃ c, plpRow nfft order (y.map fun y => loudness (fin (Real.exp y))) = .ok c ∧ FinRow c := by
  obtain ⟨c, h1, -, h3⟩ := (loud_row (y.map Real.exp) nfft order hn ho).1 (by
    cases y with
    | nil => exact absurd rfl hy
    | cons z zs =>
      obtain ⟨k, rfl⟩ := Nat.exists_eq_succ_of_ne_zero hn
      refine ⟨fin (Real.exp z), by simp, fun h => ?_⟩
      exact (Real.exp_pos z).ne' (XF.fin_injective h))
  refine ⟨c, ?_, h3⟩
  rw [← h1, List.map_map, List.map_map]; rfl

/-- C66: `rplp` with positive filter outputs, order `≥ 2` and no normalisation or liftering succeeds with a finite
result. -/
theorem C66_rplp_defined (a : Args) (sig : List ℝ) (fb x : XMat) (ft : List (List ℝ)) (hb : plpBank a = .ok fb)
    (hfb : fb ≠ []) (hx : spectrogram a a.preEmphCoeff fb sig = .ok (x, ft)) (hx0 : AllPos x) (ho : 2 ≤ a.numCeps)
    (hn : a.numCeps ≤ a.nfilts) (hl : a.lifter = none) (hnorm : a.normalize = none) :
    ∃ m, rplp a sig = .ok m ∧ AllFinite m := by
  have hn0 : a.nfft ≠ 0 := by obtain ⟨W, -, h, -⟩ := (spectrogram_ok_iff ..).mp hx; exact h
  obtain ⟨-, hne⟩ := rows_ne hfb hx
  rw [rplp_form hb hfb hx hx0 hn]
  have : ∀ r : List (XF ℝ), ∃ c, r ∈ x → plpRow a.nfft a.numCeps ((rastaRowOut (r.map fun v => Real.log v.toNum)).map
      fun y => loudness (fin (Real.exp y))) = .ok c ∧ FinRow c := by
    intro r
    by_cases hr : r ∈ x
    · obtain ⟨c, hc⟩ := rplp_row hn0 ho (y := rastaRowOut (r.map fun v => Real.log v.toNum)) (by
        intro h
        have := (rastaRowOut_spec (r := r.map fun v => Real.log v.toNum) (by simpa using hne r hr)).length
        rw [h] at this
        exact hne r hr (List.length_eq_zero_iff.mp (by simpa using this.symm)))
      exact ⟨c, fun _ => hc⟩
    · exact ⟨[], fun h => absurd h hr⟩
  choose g hg using this
  have hm := mapM_ok _ g x fun r hr => (hg r hr).1
  rw [List.mapM_map, Function.comp_def, hm, ok_bind, plpTail_none hl hnorm]
  refine ⟨_, rfl, fun r hr => ?_⟩
  obtain ⟨s, hs, rfl⟩ := List.mem_map.mp hr
  exact (hg s hs).2

/-- C66: `rplp` raises `ValueError` whenever the first filter output of the first frame is 0 (`log 0 = -inf`, which the
RASTA filter turns into NaN). -/
theorem C66_rplp_zero_raises (a : Args) (sig : List ℝ) (fb x : XMat) (ft : List (List ℝ)) (hb : plpBank a = .ok fb)
    (hx : spectrogram a a.preEmphCoeff fb sig = .ok (x, ft)) (hne : ∀ r ∈ x, r ≠ [])
    (h0 : (x.getD 0 []).getD 0 (fin 1) = fin 0) (ho : 2 ≤ a.numCeps) (hn : a.numCeps ≤ a.nfilts) :
    rplp a sig = .error .valueError := by
  have hn0 : a.nfft ≠ 0 := by obtain ⟨W, -, h, -⟩ := (spectrogram_ok_iff ..).mp hx; exact h
  rw [rplp, rastaplp_eq hb hx hn]
  have hok : ∀ (b c : List (XF ℝ)) (y : XMat) (z : List (XF ℝ)), (∀ r ∈ y, r ≠ []) → ∃ u, rastaRows b c z y = .ok u := by
    intro b c y
    induction y with
    | nil => intro z _; exact ⟨_, rfl⟩
    | cons r rs ih =>
      intro z h
      cases r with
      | nil => exact absurd rfl (h [] (by simp))
      | cons x0 t =>
        obtain ⟨u, hu⟩ := ih (firZi b (z.map (· * x0)) ((x0 :: t).take 4)).2 fun r hr => h r (by simp [hr])
        rw [rastaRows]
        simp only [hu]
        exact ⟨_, rfl⟩
  obtain ⟨y, hy⟩ := hok ((rastaNumer : List ℝ).map fin) [fin 1, fin (-(94 / 100))] (x.map fun r => r.map XF.log)
    ((lfilterZiFir (rastaNumer : List ℝ)).map fin) (fun r hr => by
      obtain ⟨s, hs, rfl⟩ := List.mem_map.mp hr; simpa using hne s hs)
  change rastaFilterX _ = _ at hy
  cases x with
  | nil => simp [XF.fin_inj] at h0
  | cons r rs =>
    cases r with
    | nil => exact absurd rfl (hne [] (by simp))
    | cons v vs =>
      simp only [List.getD_cons_zero] at h0
      subst h0
      have hy' := hy
      rw [List.map_cons, List.map_cons, XF.log_zero] at hy'
      obtain ⟨u, us, rfl⟩ := rastaFilterX_head rfl hy'
      have : plpRasta true ((fin 0 :: vs) :: rs) = .ok (((nan :: u) :: us).map fun r => r.map XF.exp) := by
        rw [plpRasta, if_pos rfl, hy, ok_bind]
      rw [this, ok_bind, List.map_cons, List.map_cons, mapM_error _ .valueError, error_bind]
      rw [plpRow, if_neg (by omega), if_neg]
      obtain ⟨k, hk⟩ := Nat.exists_eq_succ_of_ne_zero hn0
      rw [List.map_cons, List.map_cons, hk, List.take_succ_cons, List.all_cons]
      have : (XF.exp (nan : XF ℝ)) = nan := rfl
      rw [this, loudness_nan]
      simp [XF.isFinite]

/-- C66: silence: `rplp` of an all-zero signal raises `ValueError`. -/
theorem C66_rplp_silence (a : Args) (n : ℕ) (fb x : XMat) (ft : List (List ℝ)) (hb : plpBank a = .ok fb)
    (hfb : AllNonneg fb) (hfb0 : fb ≠ []) (hx : spectrogram a a.preEmphCoeff fb (List.replicate n 0) = .ok (x, ft))
    (ho : 2 ≤ a.numCeps) (hn : a.numCeps ≤ a.nfilts) : rplp a (List.replicate n 0) = .error .valueError := by
  obtain ⟨h1, h2⟩ := spec_silence hfb hx
  refine C66_rplp_zero_raises a _ fb x ft hb hx (rows_ne hfb0 hx).2 ?_ ho hn
  rw [h2 _ (getD_mem [] (List.length_pos_iff.mpr h1)), getD_replicate', if_pos (List.length_pos_iff.mpr hfb0)]

/-! ### C89 -/

private theorem spec_smul {a : Args} {c k : ℝ} (hk : k ≠ 0) {fb x : XMat} {ft : List (List ℝ)} {sig : List ℝ}
    (hx : spectrogram a c fb sig = .ok (x, ft)) : ∃ ft', spectrogram a c fb (sig.map (k * ·)) =
      .ok (x.map fun r => r.map (fin (k ^ 2) * ·), ft') := by
  obtain ⟨W, hW, h1, h2, rfl, -⟩ := (spectrogram_ok_iff ..).mp hx
  refine ⟨_, (spectrogram_ok_iff ..).mpr ⟨_, frontEnd_smul_ok hW k, h1, h2, ?_, rfl⟩⟩
  rw [List.map_map, List.map_map]
  apply List.map_congr_left
  intro w _
  simp only [Function.comp]
  rw [specRow_smul hk]

/-- C89: `rplp` does not depend on the signal's gain: for every `k ≠ 0`, `rplp(k * sig) = rplp(sig)` when all filter
outputs are positive — with every liftering and normalisation option and order. -/
theorem C89_rplp_gain_invariant (a : Args) (sig : List ℝ) (fb x : XMat) (ft : List (List ℝ)) (hb : plpBank a = .ok fb)
    (hfb : fb ≠ []) (hx : spectrogram a a.preEmphCoeff fb sig = .ok (x, ft)) (hx0 : AllPos x) (k : ℝ) (hk : k ≠ 0) :
    rplp a (sig.map (k * ·)) = rplp a sig := by
  by_cases hn : a.numCeps ≤ a.nfilts
  · obtain ⟨ft', hx'⟩ := spec_smul hk hx
    have hpos : AllPos (x.map fun r => r.map (fin (k ^ 2) * ·)) := by
      intro r hr v hv
      obtain ⟨s, hs, rfl⟩ := List.mem_map.mp hr
      obtain ⟨u, hu, rfl⟩ := List.mem_map.mp hv
      obtain ⟨y, hy, rfl⟩ := hx0 s hs u hu
      exact ⟨k ^ 2 * y, by positivity, rfl⟩
    rw [rplp_form hb hfb hx hx0 hn, rplp_form hb hfb hx' hpos hn, List.map_map]
    congr 2
    apply List.map_congr_left
    intro r hr
    simp only [Function.comp]
    congr 1
    have hr0 := (rows_ne hfb hx).2 r hr
    rw [← rastaRowOut_offset (r := r.map fun v => Real.log v.toNum) (by simpa using hr0) (Real.log (k ^ 2)),
      List.map_map, List.map_map]
    congr 1
    apply List.map_congr_left
    intro v hv
    obtain ⟨y, hy, rfl⟩ := hx0 r hr v hv
    simp only [Function.comp, XF.fin_mul, XF.toNum_fin]
    exact Real.log_mul (by positivity) hy.ne'
  · rw [(C37_plp_nfilts_check rplp (by simp) a _).mpr (by omega), (C37_plp_nfilts_check rplp (by simp) a _).mpr (by omega)]

/-! ### C90 -/

/-- C90: frame `i` of one signal and frame `j` of another (or the same) signal with the same filter outputs get the
same `rplp` row: the RASTA filter carries nothing from one frame to the next. -/
theorem C90_rplp_row_local (a : Args) (sig sig' : List ℝ) (fb x x' m m' : XMat) (ft ft' : List (List ℝ))
    (hb : plpBank a = .ok fb) (hfb : fb ≠ []) (hx : spectrogram a a.preEmphCoeff fb sig = .ok (x, ft)) (hx0 : AllPos x)
    (hx' : spectrogram a a.preEmphCoeff fb sig' = .ok (x', ft')) (hx0' : AllPos x') (hl : a.lifter = none)
    (hnorm : a.normalize = none) (h : rplp a sig = .ok m) (h' : rplp a sig' = .ok m') (i j : ℕ) (hi : i < x.length)
    (hj : j < x'.length) (hij : x.getD i [] = x'.getD j []) : m.getD i [] = m'.getD j [] := by
  have hn : a.numCeps ≤ a.nfilts := by
    by_contra hcon
    rw [(C37_plp_nfilts_check rplp (by simp) a _).mpr (by omega)] at h; cases h
  have key : ∀ (sig : List ℝ) (x m : XMat) (ft : List (List ℝ)), spectrogram a a.preEmphCoeff fb sig = .ok (x, ft) →
      AllPos x → rplp a sig = .ok m → ∀ i, i < x.length → plpRow a.nfft a.numCeps
        ((rastaRowOut ((x.getD i []).map fun v => Real.log v.toNum)).map fun y => loudness (fin (Real.exp y))) =
          .ok (m.getD i []) := by
    intro sig x m ft hx hx0 h i hi
    rw [rplp_form hb hfb hx hx0 hn] at h
    obtain ⟨rows, hr, ht⟩ := (bind_ok_iff ..).mp h
    rw [plpTail_none hl hnorm] at ht
    injection ht with ht
    subst ht
    have hlen := mapM_length _ _ _ hr
    rw [List.length_map] at hlen
    have := ((mapM_ok_iff ..).mp hr).get (i := i) (by simpa using hi) (by omega)
    rw [List.getD_eq_getElem rows _ (by omega), List.getD_eq_getElem x _ hi]
    simpa using this
  have e1 := key sig x m ft hx hx0 h i hi
  have e2 := key sig' x' m' ft' hx' hx0' h' j hj
  rw [hij, e2] at e1
  injection e1 with e1
  exact e1.symm

/-- C90: with at most four filters the output of `rplp` does not depend on the signal at all: any two frames with
positive filter outputs, of any two signals, get the same row. -/
theorem C90_rplp_four_filters (a : Args) (sig sig' : List ℝ) (fb x x' m m' : XMat) (ft ft' : List (List ℝ))
    (hb : plpBank a = .ok fb) (hfb : fb ≠ []) (h4 : fb.length ≤ 4)
    (hx : spectrogram a a.preEmphCoeff fb sig = .ok (x, ft)) (hx0 : AllPos x)
    (hx' : spectrogram a a.preEmphCoeff fb sig' = .ok (x', ft')) (hx0' : AllPos x') (hl : a.lifter = none)
    (hnorm : a.normalize = none) (h : rplp a sig = .ok m) (h' : rplp a sig' = .ok m') (i j : ℕ) (hi : i < x.length)
    (hj : j < x'.length) : m.getD i [] = m'.getD j [] := by
  have hn : a.numCeps ≤ a.nfilts := by
    by_contra hcon
    rw [(C37_plp_nfilts_check rplp (by simp) a _).mpr (by omega)] at h; cases h
  have key : ∀ (sig : List ℝ) (x m : XMat) (ft : List (List ℝ)), spectrogram a a.preEmphCoeff fb sig = .ok (x, ft) →
      AllPos x → rplp a sig = .ok m → ∀ i, i < x.length → plpRow a.nfft a.numCeps
        ((List.replicate fb.length (0 : ℝ)).map fun y => loudness (fin (Real.exp y))) = .ok (m.getD i []) := by
    intro sig x m ft hx hx0 h i hi
    have hform := h
    rw [rplp_form hb hfb hx hx0 hn] at hform
    obtain ⟨rows, hr, ht⟩ := (bind_ok_iff ..).mp hform
    rw [plpTail_none hl hnorm] at ht
    injection ht with ht
    subst ht
    have hlen := mapM_length _ _ _ hr
    rw [List.length_map] at hlen
    have := ((mapM_ok_iff ..).mp hr).get (i := i) (by simpa using hi) (by omega)
    rw [List.getD_eq_getElem _ _ (by omega)]
    rw [List.get_eq_getElem, List.get_eq_getElem, List.getElem_map] at this
    have hxl : (x[i]).length = fb.length := by
      obtain ⟨W, -, -, -, rfl, -⟩ := (spectrogram_ok_iff ..).mp hx
      simp [specRow]
    have hz : rastaRowOut ((x[i]).map fun v => Real.log v.toNum) = List.replicate fb.length 0 := by
      rw [rastaRowOut, List.drop_of_length_le (by rw [List.length_map, hxl]; exact h4), List.length_map, hxl,
        Nat.min_eq_right h4]
      simp [df2t]
    rw [hz] at this
    exact this
  have e1 := key sig x m ft hx hx0 h i hi
  have e2 := key sig' x' m' ft' hx' hx0' h' j hj
  rw [e2] at e1
  injection e1 with e1
  exact e1.symm

/-! A concrete configuration meeting the hypotheses of the theorems above: frames of one sample, five filters with one
bin, order 2. -/

/-- Frames of one sample, five filters, order 2. -/
noncomputable def tinyPlp : Args :=
  { fs := 1, numCeps := 2, nfilts := 5, nfft := 1, preEmph := false, window := some { winLen := 1, winHop := 1 },
    fbanks := some (List.replicate 5 [fin 1]) }

theorem tinyPlp_spec (u v : ℝ) : ∃ ft, spectrogram tinyPlp tinyPlp.preEmphCoeff (List.replicate 5 [fin 1]) [u, v] =
    .ok ([List.replicate 5 (fin (u * u)), List.replicate 5 (fin (v * v))], ft) := by
  have hs : ∀ v : ℝ, specRow 1 (List.replicate 5 [fin 1]) [1 * v] = List.replicate 5 (fin (v * v)) := by
    intro v
    simp only [specRow, powRow, Np.absRfft, List.map_replicate]
    have h1 : (List.range (1 / 2 + 1)).map (fun k => ‖Np.dft [1 * v] 1 k‖) = [|v|] := by
      simp [Np.dft, Np.dftC]
    rw [h1]
    simp [Np.dot]
  have hp : pyInt ((1:ℝ) * 1) = 1 := by norm_num [pyInt]
  refine ⟨_, (spectrogram_ok_iff ..).mpr ⟨[[1 * u], [1 * v]], ?_, Nat.one_ne_zero, ?_, ?_, rfl⟩⟩
  · refine (frontEnd_ok_iff _ _ _ _ ?_).mpr ⟨by simp, le_refl _, 1, 1, [1], ?_, ?_, by norm_num, by simp, ?_, rfl, ?_⟩
    · show 0 < pyInt ((1:ℝ) * 1); rw [hp]; norm_num
    · show pyInt ((1:ℝ) * 1) = _; rw [hp]; rfl
    · show pyInt ((1:ℝ) * 1) = _; rw [hp]; rfl
    · show windowVec "hamming" 1 = _
      simp [windowVec, Np.hammingAt]
    · rw [show emph tinyPlp tinyPlp.preEmphCoeff [u, v] = [u, v] by simp [emph, tinyPlp]]
      simp [List.range_succ]
  · intro r hr; rw [List.eq_of_mem_replicate hr]; rfl
  · have h1 := hs u
    have h2 := hs v
    simp only [List.map_cons, List.map_nil]
    exact (congrArg₂ (fun a b => [a, b]) h1 h2).symm

private theorem tinyPlp_pos {u v : ℝ} (hu : u ≠ 0) (hv : v ≠ 0) :
    AllPos [List.replicate 5 (fin (u * u)), List.replicate 5 (fin (v * v))] := by
  intro r hr w hw
  simp only [List.mem_cons, List.not_mem_nil, or_false] at hr
  rcases hr with rfl | rfl
  · exact ⟨u * u, mul_self_pos.mpr hu, List.eq_of_mem_replicate hw⟩
  · exact ⟨v * v, mul_self_pos.mpr hv, List.eq_of_mem_replicate hw⟩

/-- `plp` and `rplp` succeed on `[1, 2]`; `rplp` gives the same for `[-3, -6]`; both fail on `[0, 0]`. -/
example : (∃ m, plp tinyPlp [1, 2] = .ok m ∧ AllFinite m) ∧ (∃ m, rplp tinyPlp [1, 2] = .ok m ∧ AllFinite m) ∧
    rplp tinyPlp [-3, -6] = rplp tinyPlp [1, 2] ∧ plp tinyPlp [0, 0] = .error .linAlgError ∧
    rplp tinyPlp [0, 0] = .error .valueError ∧ plp tinyPlp [1, 0] = .error .linAlgError := by
  have hb : plpBank tinyPlp = .ok (List.replicate 5 [fin 1]) := rfl
  have hne : (List.replicate 5 [fin (1 : ℝ)]) ≠ [] := by simp
  have hnn : AllNonneg (List.replicate 5 [fin (1 : ℝ)]) := by
    intro r hr w hw
    rw [List.eq_of_mem_replicate hr] at hw
    exact ⟨1, by norm_num, by simpa using hw⟩
  have hpos := tinyPlp_pos (u := 1) (v := 2) (by norm_num) (by norm_num)
  obtain ⟨ft, hx⟩ := tinyPlp_spec 1 2
  obtain ⟨ft0, hx0⟩ := tinyPlp_spec 0 0
  obtain ⟨ft1, hx1⟩ := tinyPlp_spec 1 0
  refine ⟨?_, ?_, ?_, ?_, ?_, ?_⟩
  · refine (C66_plp_defined tinyPlp _ _ _ ft hb hx (fun r hr w hw => ?_) le_rfl (by decide) rfl rfl).1 ?_
    · obtain ⟨x, h1, h2⟩ := hpos r hr w hw; exact ⟨x, h1.le, h2⟩
    · intro r hr
      simp only [List.mem_cons, List.not_mem_nil, or_false] at hr
      rcases hr with rfl | rfl
      · exact ⟨fin (1 * 1), by simp [tinyPlp, List.replicate], by simp [XF.fin_inj]⟩
      · exact ⟨fin (2 * 2), by simp [tinyPlp, List.replicate], by simp [XF.fin_inj]⟩
  · exact C66_rplp_defined tinyPlp _ _ _ ft hb hne hx hpos le_rfl (by decide) rfl rfl
  · have := C89_rplp_gain_invariant tinyPlp _ _ _ ft hb hne hx hpos (-3) (by norm_num)
    rw [← this]; norm_num
  · exact C66_plp_silence tinyPlp 2 _ _ ft0 hb hnn hx0 le_rfl (by decide) rfl rfl
  · exact C66_rplp_silence tinyPlp 2 _ _ ft0 hb hnn hne hx0 le_rfl (by decide)
  · refine (C66_plp_defined tinyPlp _ _ _ ft1 hb hx1 (fun r hr w hw => ?_) le_rfl (by decide) rfl rfl).2 ?_
    · simp only [List.mem_cons, List.not_mem_nil, or_false] at hr
      rcases hr with rfl | rfl
      · exact ⟨1 * 1, by norm_num, List.eq_of_mem_replicate hw⟩
      · exact ⟨0 * 0, by norm_num, List.eq_of_mem_replicate hw⟩
    · intro h
      obtain ⟨w, hw, hne⟩ := h (List.replicate 5 (fin (0 * 0))) (by simp)
      exact hne (by rw [List.eq_of_mem_replicate (List.mem_of_mem_take hw)]; norm_num)

end Props
end Spafe
