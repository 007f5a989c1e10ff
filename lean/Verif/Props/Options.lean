import Verif.Props.Meaning
import Verif.Props.Plp
import Verif.Props.Pncc2
import Verif.Props.Cqt
import Verif.Props.Lpc

/-! Liftering, normalisation and `use_energy` as separate final steps of every feature (C102, C103). -/

set_option linter.unusedSectionVars false

namespace Spafe
namespace Props
open Model XF Spec

/-! ### C102 -/

/-- Liftering and normalisation with the public functions `lifter_ceps` and `normalize_ceps`. -/
noncomputable def postProcess (lifter : Option ℝ) (normalize : Option String) (m : XMat) : Py XMat := do
  let m ← (match lifter with
    | none => .ok m
    | some l => lifterCeps m (Np.ncols m) l : Py XMat)
  match normalize with
    | none => .ok m
    | some s => if s = "" then .ok m else normalizeCeps m (Np.ncols m) s

theorem lifter_ncols {m m' : XMat} {l : ℝ} (h : lifterCeps m (Np.ncols m) l = .ok m') (hm : m ≠ []) :
    Np.ncols m' = Np.ncols m := by
  obtain ⟨r, rs, rfl⟩ := List.exists_cons_of_ne_nil hm
  obtain ⟨h1, rfl⟩ := (lifterCeps_ok_iff ..).mp h
  simp only [Np.ncols, List.map_cons, List.headD_cons] at h1 ⊢
  unfold liftRow
  split_ifs with h2 h3
  · rfl
  · have := h1 h3 (by push Not at h2; exact h2.2)
    simp [dotDiag, liftVecPos]; omega
  · simp [liftVecNeg]

/-- Liftering and normalising with the known number of columns. -/
theorem postProcess_eq (lifter : Option ℝ) (normalize : Option String) {m : XMat} {c : ℕ} (hm : m ≠ [])
    (hc : Np.ncols m = c) :
    postProcess lifter normalize m = (do
      let m ← (match lifter with
        | none => .ok m
        | some l => lifterCeps m c l : Py XMat)
      match normalize with
        | none => .ok m
        | some s => if s = "" then .ok m else normalizeCeps m c s) := by
  subst hc
  unfold postProcess
  cases lifter with
  | none => rfl
  | some l =>
    simp only
    cases h : lifterCeps m (Np.ncols m) l with
    | error e => rfl
    | ok m' => simp only [ok_bind, lifter_ncols h hm]

theorem lifter_zero (m : XMat) (c : ℕ) (l : ℝ) :
    (if l = 0 then .ok m else lifterCeps m c l) = lifterCeps m c l := by
  by_cases h : l = 0
  · rw [if_pos h, lifterCeps, if_pos (Or.inl h)]
  · rw [if_neg h]

theorem cepstralTail_post (a : Args) (ft : List (List ℝ)) (x : XMat) (hft : a.useEnergy = true → ft ≠ []) :
    cepstralTail a ft x = cepstralTail { a with lifter := none, normalize := none } ft x >>=
      postProcess a.lifter a.normalize := by
  cases x with
  | nil => simp [cepstralTail, Np.dct, Np.ncols]
  | cons r rs =>
    unfold cepstralTail
    simp only [bind_assoc, lifter_zero]
    cases h : Np.dct a.dctType (Np.ncols (r :: rs)) (r :: rs) with
    | error e => rfl
    | ok y =>
      obtain ⟨-, rfl⟩ := (dct_ok_iff ..).mp h
      simp only [ok_bind]
      by_cases hu : a.useEnergy = true
      · simp only [if_pos hu]
        by_cases hc : min a.numCeps (Np.ncols (r :: rs)) = 0
        · simp only [if_pos hc]; rfl
        · simp only [if_neg hc, ok_bind]
          obtain ⟨w, ws, hw⟩ := List.exists_cons_of_ne_nil (hft hu)
          rw [postProcess_eq (c := min a.numCeps (Np.ncols (r :: rs))) _ _ (by simp [hw, setFirstCol])
            (by simp [Np.ncols, dctRow_length, hw, setFirstCol])]
          cases a.lifter <;> cases a.normalize <;> rfl
      · rw [if_neg hu]
        simp only [ok_bind]
        rw [postProcess_eq (c := min a.numCeps (Np.ncols (r :: rs))) _ _ (by simp)
          (by simp [Np.ncols, dctRow_length])]
        cases a.lifter <;> cases a.normalize <;> rfl

theorem spectrogram_ft {a : Args} {coeff : ℝ} {fb : XMat} {sig : List ℝ} {x : XMat} {ft : List (List ℝ)}
    (h : spectrogram a coeff fb sig = .ok (x, ft)) : ft ≠ [] := by
  obtain ⟨W, hW, -, -, -, rfl⟩ := (spectrogram_ok_iff ..).mp h
  simpa using frontEnd_ne_nil hW

theorem featCore_post (a : Args) (coeff : ℝ) (fb : XMat) (g : XF ℝ → XF ℝ) (sig : List ℝ) :
    featCore a coeff fb g sig = featCore { a with lifter := none, normalize := none } coeff fb g sig >>=
      postProcess a.lifter a.normalize := by
  unfold featCore
  rw [show spectrogram { a with lifter := none, normalize := none } coeff fb sig = spectrogram a coeff fb sig from rfl]
  cases h : spectrogram a coeff fb sig with
  | error e => rfl
  | ok p =>
    obtain ⟨x, ft⟩ := p
    exact cepstralTail_post a ft _ fun _ => spectrogram_ft h

theorem bind_post {β : Type} (x : Py β) (f f' : β → Py XMat) (g : XMat → Py XMat) (h : ∀ b, x = .ok b → f b = f' b >>= g) :
    x >>= f = (x >>= f') >>= g := by
  cases x with
  | error e => rfl
  | ok b => exact h b rfl

theorem psrcc_post (a : Args) (sig : List ℝ) :
    psrcc a sig = psrcc { a with lifter := none, normalize := none } sig >>= postProcess a.lifter a.normalize := by
  unfold psrcc
  by_cases hc : a.nfilts < a.numCeps
  · rw [if_pos hc, if_pos hc]; rfl
  · rw [if_neg hc, if_neg hc]
    refine bind_post _ _ _ _ fun fb _ => bind_post _ _ _ _ fun W hW => bind_post _ _ _ _ fun ft hft =>
      bind_post _ _ _ _ fun x _ => cepstralTail_post a ft _ fun _ => ?_
    unfold absFft at hft
    split_ifs at hft
    injection hft with hft
    rw [← hft]
    simpa using frontEnd_ne_nil hW

theorem pncc_post (p : ℝ) (a : Args) (sig : List ℝ) :
    pncc a p sig = pncc { a with lifter := none, normalize := none } p sig >>= postProcess a.lifter a.normalize := by
  unfold pncc
  by_cases hc : a.nfilts < a.numCeps
  · rw [if_pos hc, if_pos hc]; rfl
  · rw [if_neg hc, if_neg hc]
    exact bind_post _ _ _ _ fun fb _ => bind_post _ _ _ _ fun P _ => bind_post _ _ _ _ fun V _ =>
      cepstralTail_post { a with useEnergy := false } [] V (by simp)

theorem rastaplp_post (b : Bool) (a : Args) (sig : List ℝ) : rastaplp b a sig =
    rastaplp b { a with lifter := none, normalize := none } sig >>= postProcess a.lifter a.normalize := by
  unfold rastaplp
  by_cases hc : a.nfilts < a.numCeps
  · rw [if_pos hc, if_pos hc]; rfl
  · rw [if_neg hc, if_neg hc]
    refine bind_post _ _ _ _ fun fb _ => bind_post _ _ _ _ fun P hP => bind_post _ _ _ _ fun y hy =>
      bind_post _ _ _ _ fun rows hrows => ?_
    obtain ⟨x, ft⟩ := P
    obtain ⟨W, hW, -, -, rfl, -⟩ := (spectrogram_ok_iff ..).mp hP
    have hl := mapM_length _ _ _ hrows
    rw [List.length_map, plpRasta_length hy, List.length_map] at hl
    have hne := frontEnd_ne_nil hW
    have h0 : 0 < rows.length := by rw [hl]; exact List.length_pos_iff.mpr hne
    have hf2 := (mapM_ok_iff ..).mp hrows
    have hc : Np.ncols rows = a.numCeps := by
      have := (plpRow_length (hf2.get (i := 0) (hf2.length_eq.symm ▸ h0) h0)).2
      obtain ⟨r, rs, rfl⟩ := List.exists_cons_of_ne_nil (List.length_pos_iff.mp h0)
      exact this
    show plpTail a rows = postProcess a.lifter a.normalize rows
    rw [postProcess_eq _ _ (List.length_pos_iff.mp h0) hc]
    unfold plpTail
    cases a.lifter <;> cases a.normalize <;> rfl

/-- C102: liftering and normalisation are exactly the public functions applied, in this order, to the features
without them; this includes every exception. -/
theorem C102_post_processing (f : Feature) (p : ℝ)
    (hf : f ∈ [mfcc, imfcc, lfcc, bfcc, gfcc, ngcc, msrcc, psrcc, (fun a => pncc a p), plp, rplp]) (a : Args)
    (sig : List ℝ) :
    f a sig = f { a with lifter := none, normalize := none } sig >>= postProcess a.lifter a.normalize := by
  have key : ∀ (b : Py XMat) (coeff : ℝ) (g : XF ℝ → XF ℝ),
      (f a sig = if a.nfilts < a.numCeps then .error (.parameterError ErrorMsgs.nfilts)
        else (b >>= fun fb => featCore a coeff fb g sig)) →
      (f { a with lifter := none, normalize := none } sig =
        if a.nfilts < a.numCeps then .error (.parameterError ErrorMsgs.nfilts)
        else (b >>= fun fb => featCore { a with lifter := none, normalize := none } coeff fb g sig)) →
      f a sig = f { a with lifter := none, normalize := none } sig >>= postProcess a.lifter a.normalize := by
    intro b coeff g h1 h2
    rw [h1, h2]
    split_ifs
    · rfl
    · exact bind_post _ _ _ _ fun fb _ => featCore_post ..
  simp only [List.mem_cons, List.not_mem_nil, or_false] at hf
  rcases hf with rfl | rfl | rfl | rfl | rfl | rfl | rfl | rfl | rfl | rfl | rfl
  · exact key _ _ _ (mfcc_eq ..) (mfcc_eq ..)
  · exact key _ _ _ (imfcc_eq ..) (imfcc_eq ..)
  · exact key _ _ _ (lfcc_eq ..) (lfcc_eq ..)
  · exact key _ _ _ (bfcc_eq ..) (bfcc_eq ..)
  · exact key _ _ _ (gfcc_eq ..) (gfcc_eq ..)
  · exact key _ _ _ (ngcc_eq ..) (ngcc_eq ..)
  · exact key _ _ _ (msrcc_eq ..) (msrcc_eq ..)
  · exact psrcc_post ..
  · exact pncc_post ..
  · exact rastaplp_post ..
  · exact rastaplp_post ..

/-- C102 for `cqcc`. -/
theorem C102_cqcc (a : CqtArgs) (sig : List ℝ) :
    cqcc a sig = cqcc { a with lifter := none, normalize := none } sig >>= postProcess a.lifter a.normalize := by
  unfold cqcc
  refine bind_post _ _ _ _ fun q _ => ?_
  simp only
  split_ifs
  · rfl
  · exact cepstralTail_post { a.toArgs with useEnergy := false } [] _ (by simp)

/-- C102 for `lpcc`. -/
theorem C102_lpcc (a : LpcArgs) (sig : List ℝ) :
    lpcc a sig = lpcc { a with lifter := none, normalize := none } sig >>= postProcess a.lifter a.normalize := by
  unfold lpcc
  refine bind_post _ _ _ _ fun q hq => bind_post _ _ _ _ fun rows hrows => ?_
  have hl := mapM_length _ _ _ hrows
  have h0 : 0 < rows.length := by rw [hl]; exact List.length_pos_iff.mpr (lpcFrames_ne_nil hq)
  have hf2 := (mapM_ok_iff ..).mp hrows
  have hc : Np.ncols rows = a.order - 1 + 1 := by
    have h1 := hf2.get (i := 0) (hf2.length_eq.symm ▸ h0) h0
    obtain ⟨⟨co, e⟩, h2, h3⟩ := (bind_ok_iff ..).mp h1
    have hco := (C59_normal_equations _ _ _ _ h2).1
    obtain ⟨c', h5, h6, -⟩ := lpc2lpcc_ok co e (nceps := a.order - 1 + 1) (by omega) (by omega) (by omega)
    simp only [h5] at h3
    injection h3 with h3
    obtain ⟨r, rs, rfl⟩ := List.exists_cons_of_ne_nil (List.length_pos_iff.mp h0)
    simp only [List.get_eq_getElem, List.getElem_cons_zero] at h3
    simp [Np.ncols, ← h3, h6]
  simp only [ok_bind, lifter_zero]
  rw [postProcess_eq _ _ (List.length_pos_iff.mp h0) hc]
  cases a.lifter <;> cases a.normalize <;> rfl

/-! ### C103 -/

theorem tailRow_energy (a : Args) (hl : a.lifter = none) (N : ℕ) (mag : List ℝ) (x : List (XF ℝ)) :
    tailRow { a with useEnergy := true } N mag x =
      (tailRow { a with useEnergy := false } N mag x).set 0 (logEnergy a.nfft mag) := by
  simp [tailRow, hl]

theorem tailOk_energy {a : Args} {N : ℕ} (h : TailOk { a with useEnergy := true } N) :
    TailOk { a with useEnergy := false } N :=
  ⟨h.1, h.2.1, h.2.2.1, h.2.2.2.1, by simp, h.2.2.2.2.2⟩

/-- C103: `use_energy` changes the first column only. -/
theorem C103_energy_column_only (f : Feature) (hf : f ∈ cepstralFeatures) (a : Args) (hl : a.lifter = none)
    (hn : a.normalize = none) (sig : List ℝ) (m' : XMat) (h : f { a with useEnergy := true } sig = .ok m') :
    ∃ m, f { a with useEnergy := false } sig = .ok m ∧ m'.length = m.length ∧
      ∀ i < m.length, (m'.getD i []).length = (m.getD i []).length ∧
        ∀ k, k ≠ 0 → (m'.getD i []).getD k nan = (m.getD i []).getD k nan := by
  have rows : ∀ (W : List (List ℝ)) (R R' : List ℝ → List (XF ℝ)) (E : List ℝ → XF ℝ),
      (∀ w, R' w = (R w).set 0 (E w)) → (W.map R').length = (W.map R).length ∧ ∀ i < (W.map R).length,
        ((W.map R').getD i []).length = ((W.map R).getD i []).length ∧
        ∀ k, k ≠ 0 → ((W.map R').getD i []).getD k nan = ((W.map R).getD i []).getD k nan := by
    intro W R R' E hR
    refine ⟨by simp, fun i hi => ?_⟩
    rw [List.length_map] at hi
    rw [getD_map_lt _ _ [] _ hi, getD_map_lt _ _ [] _ hi, hR]
    exact ⟨by simp, fun k hk => getD_set_ne _ _ _ (Ne.symm hk)⟩
  have key : ∀ (b : Py XMat) (coeff : ℝ) (g : XF ℝ → XF ℝ),
      (f { a with useEnergy := true } sig = if a.nfilts < a.numCeps then .error (.parameterError ErrorMsgs.nfilts)
        else (b >>= fun fb => featCore { a with useEnergy := true } coeff fb g sig)) →
      (f { a with useEnergy := false } sig = if a.nfilts < a.numCeps then .error (.parameterError ErrorMsgs.nfilts)
        else (b >>= fun fb => featCore { a with useEnergy := false } coeff fb g sig)) →
      ∃ m, f { a with useEnergy := false } sig = .ok m ∧ m'.length = m.length ∧
      ∀ i < m.length, (m'.getD i []).length = (m.getD i []).length ∧
        ∀ k, k ≠ 0 → (m'.getD i []).getD k nan = (m.getD i []).getD k nan := by
    intro b coeff g he he'
    rw [he] at h
    rw [he']
    split_ifs at h ⊢
    obtain ⟨fb, hfb, h⟩ := (bind_ok_iff ..).mp h
    obtain ⟨W, hW, h1, h2, ht, rfl⟩ := (featCore_ok_iff' (a := { a with useEnergy := true }) hn ..).mp h
    refine ⟨W.map (featRow { a with useEnergy := false } fb g), (bind_ok_iff ..).mpr ⟨fb, hfb,
      (featCore_ok_iff' (a := { a with useEnergy := false }) hn ..).mpr ⟨W, hW, h1, h2, tailOk_energy ht, rfl⟩⟩,
      rows _ _ _ (fun w => logEnergy a.nfft (Np.absRfft a.nfft w)) fun w => tailRow_energy a hl ..⟩
  simp only [cepstralFeatures, List.mem_cons, List.not_mem_nil, or_false] at hf
  rcases hf with rfl | rfl | rfl | rfl | rfl | rfl | rfl | rfl
  · exact key _ _ _ (mfcc_eq ..) (mfcc_eq ..)
  · exact key _ _ _ (imfcc_eq ..) (imfcc_eq ..)
  · exact key _ _ _ (lfcc_eq ..) (lfcc_eq ..)
  · exact key _ _ _ (bfcc_eq ..) (bfcc_eq ..)
  · exact key _ _ _ (gfcc_eq ..) (gfcc_eq ..)
  · exact key _ _ _ (ngcc_eq ..) (ngcc_eq ..)
  · exact key _ _ _ (msrcc_eq ..) (msrcc_eq ..)
  · obtain ⟨hc, fb, hfb, W, hW, h1, h2, ht, hm⟩ := (psrcc_ok_iff ..).mp h
    simp only [normStep, hn, Except.ok.injEq] at hm
    subst hm
    refine ⟨_, (psrcc_ok_iff ..).mpr ⟨hc, fb, hfb, W, hW, h1, h2, tailOk_energy ht, by simp only [normStep, hn]; rfl⟩,
      rows _ _ _ (fun w => logEnergy a.nfft (Np.absRfft a.nfft w)) fun w => tailRow_energy a hl ..⟩

/-- A concrete call where both steps do something: liftering with weights `j**2`,
then the column means are subtracted. -/
example : ∃ m m', mfcc demo2 [5, 1, 4] = .ok m ∧ mfcc { demo2 with lifter := some 2, normalize := some "ms" } [5, 1, 4] =
    .ok m' ∧ lifterCeps m 2 2 >>= (fun l => normalizeCeps l 2 "ms") = .ok m' := by
  obtain ⟨m, h1, ⟨h2, h3⟩, -⟩ := C101_meaning demo2 mfcc _ _ (by simp [compressions]; exact Or.inl ⟨rfl, rfl⟩) _ _ 2 1
    demo2_setup rfl rfl rfl rfl
  have h2 : m.length = 2 := h2
  have h3 : ∀ r ∈ m, r.length = 2 := h3
  have hm : m ≠ [] := by intro h; rw [h] at h2; cases h2
  have hc : Np.ncols m = 2 := by
    obtain ⟨r, rs, rfl⟩ := List.exists_cons_of_ne_nil hm
    exact h3 r (by simp)
  have hpost := C102_post_processing mfcc 2 (by simp) { demo2 with lifter := some 2, normalize := some "ms" } [5, 1, 4]
  have hlift : lifterCeps m 2 2 = .ok (m.map (liftRow 2 2)) := (lifterCeps_ok_iff ..).mpr ⟨by simp, rfl⟩
  have hne : (m.map (liftRow 2 2)).flatten ≠ [] := by
    obtain ⟨r, rs, rfl⟩ := List.exists_cons_of_ne_nil hm
    have hr := h3 r (by simp)
    have : (liftRow 2 2 r).length = 2 := by
      norm_num [liftRow, dotDiag, liftVecPos]
    intro h
    simp only [List.map_cons, List.flatten_cons, List.append_eq_nil_iff] at h
    rw [h.1] at this; cases this
  have hnorm : normalizeCeps (m.map (liftRow 2 2)) 2 "ms" = .ok (subRow (m.map (liftRow 2 2))
      (colMeans (m.map (liftRow 2 2)) 2)) := by
    unfold normalizeCeps
    rw [if_neg hne, if_neg (by decide), if_pos rfl]
  refine ⟨m, _, h1, ?_, by rw [hlift, ok_bind, hnorm]⟩
  rw [hpost]
  have e : mfcc { demo2 with lifter := none, normalize := none } [5, 1, 4] = .ok m := h1
  show (mfcc { demo2 with lifter := none, normalize := none } [5, 1, 4] >>= postProcess (some 2) (some "ms")) = _
  rw [e, ok_bind, postProcess_eq _ _ hm hc]
  simp only [hlift, ok_bind]
  rw [if_neg (by decide), hnorm]

end Props
end Spafe
