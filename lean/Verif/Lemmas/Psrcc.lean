import Verif.Lemmas.Finite

/-! Helper lemmas for `psrcc` and for the shape of normalised matrices. -/

set_option linter.unusedSectionVars false

namespace Spafe
open Model XF Spec

/-- Phases of one windowed frame. -/
noncomputable def phases (nfft : ℕ) (w : List ℝ) : List ℝ :=
  (List.range (nfft / 2 + 1)).map fun (k : ℕ) => phaseDeg (Np.dft w nfft k)

/-- Filter outputs on the phases of one frame. -/
noncomputable def phRow (nfft : ℕ) (fb : XMat) (w : List ℝ) : List (XF ℝ) :=
  fb.map fun f => Np.dot ((phases nfft w).map fin) f

/-- Root-compressed row with NaN replaced. -/
noncomputable def phX (a : Args) (fb : XMat) (w : List ℝ) : List (XF ℝ) :=
  (phRow a.nfft fb w).map fun v => nanToZero (XF.pow v a.gamma)

/-- The maximum over all frames. -/
noncomputable def phMax (a : Args) (fb : XMat) (W : List (List ℝ)) : XF ℝ :=
  xmax (W.map (phX a fb)).flatten

/-- Replace infinities by `M`. -/
noncomputable def fixInf (M v : XF ℝ) : XF ℝ := if v.isInf then M else v

theorem psrcc_ok_iff (a : Args) (sig : List ℝ) (m : XMat) :
    psrcc a sig = .ok m ↔ ¬ a.nfilts < a.numCeps ∧ ∃ fb, melBankOf a = .ok fb ∧
      ∃ W, frontEnd a a.preEmphCoeff sig = .ok W ∧ a.nfft ≠ 0 ∧ (∀ r ∈ fb, r.length = a.nfft / 2 + 1) ∧
        TailOk a fb.length ∧
        normStep a fb.length (W.map fun w => tailRow a fb.length (Np.absRfft a.nfft w)
          ((phX a fb w).map (fixInf (phMax a fb W)))) = .ok m := by
  unfold psrcc
  split_ifs with hc
  · simp [hc]
  · simp only [hc, not_false_eq_true, true_and]
    rw [bind_ok_iff]
    refine exists_congr fun fb => and_congr_right fun _ => ?_
    rw [bind_ok_iff]
    refine exists_congr fun W => and_congr_right fun hW => ?_
    have hne := frontEnd_ne_nil hW
    simp only [absFft, dotFbanks]
    have hx : ∀ (X : XMat), X = Np.dotT ((W.map (phases a.nfft)).map fun r => r.map fin) fb →
        infToMax (X.map fun r => r.map fun v => nanToZero (XF.pow v a.gamma)) =
          W.map fun w => (phX a fb w).map (fixInf (phMax a fb W)) := by
      rintro X rfl
      unfold infToMax phMax
      rw [Np.dotT]
      simp only [List.map_map]
      rfl
    constructor
    · intro h
      rw [bind_ok_iff] at h
      obtain ⟨ft, h1, h⟩ := h
      split_ifs at h1 with hn
      injection h1 with h1
      rw [bind_ok_iff] at h
      obtain ⟨X, h2, h⟩ := h
      split_ifs at h2 with hcol
      injection h2 with h2
      rw [hx X h2.symm, ← h1, cepstralTail_ok_iff a W hne _ _ fb.length (by simp [phX, phRow])] at h
      exact ⟨hn, hcol, h.1, h.2⟩
    · rintro ⟨hn, hcol, h1, h2⟩
      have hx' := hx _ rfl
      unfold phases at hx'
      rw [if_neg hn, ok_bind, if_pos hcol, ok_bind, hx',
        cepstralTail_ok_iff a W hne _ _ fb.length (by simp [phX, phRow])]
      exact ⟨h1, h2⟩

/-- Normalisation keeps the shape. -/
theorem normalizeCeps_shape {x y : XMat} {c : ℕ} {name : String} (hx : ∀ r ∈ x, r.length = c)
    (h : normalizeCeps x c name = .ok y) : y.length = x.length ∧ ∀ r ∈ y, r.length = c := by
  have hsub : (subRow x (colMeans x c)).length = x.length ∧ ∀ r ∈ subRow x (colMeans x c), r.length = c := by
    refine ⟨by simp [subRow], fun r hr => ?_⟩
    obtain ⟨s, hs, rfl⟩ := List.mem_map.mp hr
    simp [colMeans, hx s hs]
  unfold normalizeCeps at h
  split_ifs at h
  · injection h with h; rw [← h]
    refine ⟨by rw [List.length_map]; exact hsub.1, fun r hr => ?_⟩
    obtain ⟨s, hs, rfl⟩ := List.mem_map.mp hr
    rw [List.length_map]; exact hsub.2 s hs
  · injection h with h; rw [← h]; exact hsub
  · injection h with h; rw [← h]
    refine ⟨by simp, fun r hr => ?_⟩
    obtain ⟨s, hs, rfl⟩ := List.mem_map.mp hr
    rw [List.length_map]; exact hx s hs
  · injection h with h; rw [← h]
    refine ⟨by simp, fun r hr => ?_⟩
    obtain ⟨s, hs, rfl⟩ := List.mem_map.mp hr
    rw [List.length_map]; exact hx s hs

theorem normStep_shape {a : Args} {N : ℕ} {x y : XMat} (hx : ∀ r ∈ x, r.length = min a.numCeps N)
    (h : normStep a N x = .ok y) : y.length = x.length ∧ ∀ r ∈ y, r.length = min a.numCeps N := by
  unfold normStep at h
  cases hn : a.normalize with
  | none => rw [hn] at h; injection h with h; rw [← h]; exact ⟨rfl, hx⟩
  | some s =>
    rw [hn] at h
    simp only at h
    split_ifs at h
    · injection h with h; rw [← h]; exact ⟨rfl, hx⟩
    · exact normalizeCeps_shape hx h

theorem featCore_shape {a : Args} {coeff : ℝ} {fb : XMat} {g : XF ℝ → XF ℝ} {sig : List ℝ} {m : XMat}
    (h : featCore a coeff fb g sig = .ok m) :
    ∃ W, frontEnd a coeff sig = .ok W ∧ m.length = W.length ∧ ∀ r ∈ m, r.length = min a.numCeps fb.length := by
  obtain ⟨W, hW, -, -, ht, hn⟩ := (featCore_ok_iff ..).mp h
  have := normStep_shape (fun r hr => ?_) hn
  · exact ⟨W, hW, by rw [this.1, List.length_map], this.2⟩
  · obtain ⟨w, -, rfl⟩ := List.mem_map.mp hr
    exact tailRow_length ht _ _ (by simp)

theorem psrcc_shape {a : Args} {sig : List ℝ} {m : XMat} (h : psrcc a sig = .ok m) :
    ∃ fb W, melBankOf a = .ok fb ∧ frontEnd a a.preEmphCoeff sig = .ok W ∧ m.length = W.length ∧
      ∀ r ∈ m, r.length = min a.numCeps fb.length := by
  obtain ⟨-, fb, hfb, W, hW, -, -, ht, hn⟩ := (psrcc_ok_iff ..).mp h
  have := normStep_shape (fun r hr => ?_) hn
  · exact ⟨fb, W, hfb, hW, by rw [this.1, List.length_map], this.2⟩
  · obtain ⟨w, -, rfl⟩ := List.mem_map.mp hr
    exact tailRow_length ht _ _ (by simp [phX, phRow])

theorem getFbanks_length {β : Type} {o : Option XMat} {c : Py (XMat × β)} {fb : XMat} {n : ℕ}
    (hc : ∀ p, c = .ok p → p.1.length = n) (h : getFbanks o c = .ok fb) :
    fb.length = (o.map List.length).getD n := by
  unfold getFbanks at h
  cases o with
  | some f => injection h with h; rw [h]; rfl
  | none =>
    simp only [bind_ok_iff] at h
    obtain ⟨p, hp, h⟩ := h
    injection h with h
    rw [← h]; exact hc p hp

/-- Number of frames for a positive hop. -/
theorem frontEnd_length {a : Args} {coeff : ℝ} {sig : List ℝ} {W : List (List ℝ)}
    (hS : 0 < pyInt (a.win.winHop * a.fs)) (h : frontEnd a coeff sig = .ok W) :
    ∃ l s : ℕ, pyInt (a.win.winLen * a.fs) = l ∧ pyInt (a.win.winHop * a.fs) = s ∧ l ≤ sig.length ∧
      W.length = (sig.length - l) / s + 1 := by
  obtain ⟨-, l, s, w, h1, h2, -, h3, -, -, rfl⟩ := ((frontEnd_ok_iff a coeff sig W hS).mp h).2
  exact ⟨l, s, h1, h2, h3, by simp⟩

end Spafe
