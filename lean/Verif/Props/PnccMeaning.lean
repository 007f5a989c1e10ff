import Verif.Spec.Pncc
import Verif.Props.Pncc
import Verif.Props.Pncc2
import Verif.Props.Meaning

/-! C58 (what noise suppression computes) and C106 (what `pncc` computes, end to end). -/

set_option linter.unusedSectionVars false

namespace Spafe
namespace Props
open Model XF Spec

theorem follow_eq (p x : ℝ) : rAsymStep 0.999 0.5 p x = follow p x := by
  unfold rAsymStep follow
  norm_num

theorem envelope_eq {Q : List (List ℝ)} {c : ℕ} (hQ : Np.Rect Q c) (h : Q ≠ []) {l : ℕ} (hl : l < c) {q : ℕ → ℝ}
    (hq : ∀ m < Q.length, Np.at2 Q m l = q m) :
    ∀ m < Q.length, Np.at2 (rAsym 0.999 0.5 Q) m l = envelope Q.length q m := by
  intro m
  induction m with
  | zero => intro hm; rw [rAsym_zero hQ h _ _ hl, follow_eq, hq 0 hm]; rfl
  | succ m ih => intro hm; rw [rAsym_succ hQ h _ _ hm hl, follow_eq, hq _ hm, ih (by omega)]; rfl

theorem peak_eq {Q : List (List ℝ)} {c : ℕ} (hQ : Np.Rect Q c) {l : ℕ} (hl : l < c) {q : ℕ → ℝ}
    (hq : ∀ m < Q.length, Np.at2 Q m l = q m) : ∀ m < Q.length, Np.at2 (rPeak 0.85 Q) m l = decayingPeak q m := by
  intro m
  induction m with
  | zero => intro hm; rw [rPeak_zero, hq 0 hm]; rfl
  | succ m ih => intro hm; rw [rPeak_succ hQ _ hm hl, hq _ hm, ih (by omega)]; rfl

theorem masked_eq {Q : List (List ℝ)} {c : ℕ} (hQ : Np.Rect Q c) {l : ℕ} (hl : l < c) {q : ℕ → ℝ}
    (hq : ∀ m < Q.length, Np.at2 Q m l = q m) : ∀ m < Q.length, Np.at2 (rMask 0.85 0.2 Q) m l = masked q m := by
  intro m hm
  cases m with
  | zero => rw [rMask_zero, hq 0 hm]; rfl
  | succ m => rw [rMask_succ hQ _ _ hm hl, hq _ hm, peak_eq hQ hl hq m (by omega)]; rfl

theorem excess_eq {Q : List (List ℝ)} {c : ℕ} (hQ : Np.Rect Q c) (h : Q ≠ []) {l : ℕ} (hl : l < c) (t : ℝ) {q : ℕ → ℝ}
    (hq : ∀ m < Q.length, Np.at2 Q m l = q m) :
    ∀ m < (rQ0 t Q).length, Np.at2 (rQ0 t Q) m l = excess Q.length t q m := by
  intro m hm
  rw [rQ0_length] at hm
  rw [rQ0, at2_mapMat2 _ hQ (rAsym_rect hQ h _ _) (by simp) hm hl, envelope_eq hQ h hl hq m hm, hq m hm]
  rfl

theorem suppressed_eq {Q : List (List ℝ)} {c : ℕ} (hQ : Np.Rect Q c) (h : Q ≠ []) {l : ℕ} (hl : l < c) (t : ℝ) {q : ℕ → ℝ}
    (hq : ∀ m < Q.length, Np.at2 Q m l = q m) : ∀ m < Q.length, rNoise t Q m l = suppressed Q.length t q m := by
  intro m hm
  have hq0l : (rQ0 t Q).length = Q.length := rQ0_length t Q
  have hq0 : rQ0 t Q ≠ [] := by
    intro h1; rw [h1] at hq0l; exact h (List.length_eq_zero_iff.mp hq0l.symm)
  have hr := rQ0_rect hQ h t
  have he := excess_eq hQ h hl t hq
  unfold rNoise suppressed
  rw [envelope_eq hQ h hl hq m hm, hq m hm, masked_eq hr hl he m (by omega), envelope_eq hr hq0 hl he m (by omega), hq0l]

/-- C58: entry `(m, l)` of the noise-suppressed power is the scalar recursion `suppressed` run on channel `l`. -/
theorem C58_meaning (Q : List (List ℝ)) (r c : ℕ) (hQ : HasShape Q r c) (hr : 0 < r) (t : ℝ) :
    ∃ R, noiseSuppression (finMat Q) t = .ok (finMat R) ∧ HasShape R r c ∧
      ∀ m l, m < r → l < c → Np.at2 R m l = suppressed r t (fun i => Np.at2 Q i l) m := by
  have h0 : Q ≠ [] := by intro h; rw [h] at hQ; have := hQ.1; simp at this; omega
  refine ⟨_, noiseSuppression_fin hQ.2 h0 t, ⟨by simp [hQ.1], matOf_rect _ _ _⟩, ?_⟩
  intro m l hm hl
  rw [at2_matOf _ (by rw [hQ.1]; exact hm) hl,
    suppressed_eq hQ.2 h0 hl t (q := fun i => Np.at2 Q i l) (fun _ _ => rfl) m (by rw [hQ.1]; exact hm), hQ.1]

example : ∃ R, noiseSuppression (finMat demo) 0 = .ok (finMat R) ∧ HasShape R 3 2 ∧
    ∀ m l, m < 3 → l < 2 → Np.at2 R m l = suppressed 3 0 (fun i => Np.at2 demo i l) m :=
  C58_meaning demo 3 2 demo_shape (by norm_num) 0

theorem medium_eq {P : List (List ℝ)} {l : ℕ} {p : ℕ → ℝ} (hp : ∀ m < P.length, Np.at2 P m l = p m) (m : ℕ) :
    rMedium 2 P m l = mediumTime P.length p m := by
  unfold rMedium mediumTime
  rw [Finset.sum_congr rfl (g := p) (fun i hi => hp i (by simp at hi; omega))]
  norm_num
  rw [show m + 2 + 1 = m + 3 by ring]
  ring

theorem weight_eq {R Q : List (List ℝ)} {L m l : ℕ} (hl : l < L) {ratio : ℕ → ℝ}
    (h : ∀ k, 1 ≤ k → k < L → Np.at2 R m k / Np.at2 Q m k = ratio k) :
    rWeight 4 L R Q m l = smoothWeight L ratio l := by
  unfold rWeight smoothWeight weightChannels wsLo wsHi
  have hle : max (l - 4) 1 ≤ min (l + 4) L := by omega
  rw [Finset.sum_congr rfl (g := ratio) (fun k hk => h k (by simp at hk; omega) (by simp at hk; omega)), Nat.card_Ico,
    Nat.cast_sub hle]
  push_cast
  ring

theorem mean_eq {T : List (List ℝ)} {L : ℕ} {t : ℕ → ℕ → ℝ}
    (h : ∀ m l, m < T.length → l < L → Np.at2 T m l = t m l) :
    ∀ m < T.length, rMyu 0.999 L T m = runningMean L t m := by
  intro m
  induction m with
  | zero => intro _; rfl
  | succ m ih =>
    intro hm
    unfold rMyu runningMean
    rw [ih (by omega), Finset.sum_congr rfl (g := t (m + 1)) (fun l hl => h _ l hm (Finset.mem_range.mp hl))]
    norm_num
    ring

/-- The medium-time processing of a real matrix. -/
theorem nonlin_eq {P : List (List ℝ)} {n : ℕ} (hP : Np.Rect P n) (h0 : P ≠ []) (hn : 1 ≤ n) (hnn : NonnegMat P)
    {p : ℕ → ℕ → ℝ} (hp : ∀ m l, m < P.length → l < n → Np.at2 P m l = p m l)
    (hpos : ∀ m l, m < P.length → 1 ≤ l → l < n → 0 < mediumTime P.length (fun i => p i l) m) :
    pnccNonlin n (finMat P) = .ok (finMat (matOf P.length n (pnccBand P.length n p))) := by
  obtain ⟨V, h1, h2, h3, -, S, rfl, h5⟩ := pnccNonlin_value hP h0 hn le_rfl (by omega) hnn (fun j l hj hl hl' => by
    by_contra hc
    push_neg at hc
    have := hpos j l hj hl hl'
    unfold mediumTime at this
    rw [Finset.sum_eq_zero (fun i hi => ?_)] at this
    · norm_num at this
    · rw [Finset.mem_Ico] at hi
      have h6 := hc i (by omega) (by omega) (by omega)
      have h7 := nonneg_at2 hnn i l
      rw [← hp i l (by omega) hl']
      linarith)
  rw [h1]
  congr 2
  apply mat_ext h3 (matOf_rect _ _ _) (by simp [h2])
  intro m l hm hl
  rw [h2] at hm
  rw [h5 m l hm hl, at2_matOf _ hm hl]
  have hQr := matOf_rect P.length n (rMedium 2 P)
  have hQ0 : matOf P.length n (rMedium 2 P) ≠ [] := by
    intro h; have := matOf_length P.length n (rMedium 2 P); rw [h] at this; simp at this; omega
  have hq : ∀ k < n, ∀ i < P.length, Np.at2 (matOf P.length n (rMedium 2 P)) i k =
      mediumTime P.length (fun i => p i k) i := by
    intro k hk i hi
    rw [at2_matOf _ hi hk, medium_eq (fun m hm => hp m k hm hk)]
  have hw : ∀ i j, i < P.length → j < n → Np.at2 P i j * rWeight 4 n
      (matOf P.length n (rNoise 0 (matOf P.length n (rMedium 2 P)))) (matOf P.length n (rMedium 2 P)) i j =
      weighted P.length n p i j := by
    intro i j hi hj
    unfold weighted
    rw [hp i j hi hj]
    congr 1
    apply weight_eq hj
    intro k hk hk'
    rw [hq k hk' i hi, at2_matOf _ hi hk', suppressed_eq hQr hQ0 hk' 0 (q := mediumTime P.length fun i => p i k)
      (fun m hm => hq k hk' m (by simpa using hm)) i (by simpa using hi), matOf_length]
  unfold pnccBand
  have hlen := mapMat2_length (fun p s : ℝ => p * s) P (matOf P.length n (rWeight 4 n
    (matOf P.length n (rNoise 0 (matOf P.length n (rMedium 2 P)))) (matOf P.length n (rMedium 2 P)))) (by simp)
  rw [at2_matOf _ hm hl, hw m l hm hl, mean_eq (t := weighted P.length n p) ?_ m (by omega)]
  intro i j hi hj
  rw [hlen] at hi
  rw [at2_mapMat2 _ hP (matOf_rect _ _ _) (by simp) hi hj, at2_matOf _ hi hj, hw i j hi hj]

/-- The band powers of frame `i` for these arguments. -/
noncomputable def powerOf (a : Args) (power : ℝ) (fb : List (List ℝ)) (sig : List ℝ) (l s i n : ℕ) : ℝ :=
  bandPower power fb (windowWeight a.win.winType l) (emphasised a.preEmph a.preEmphCoeff sig) l s a.nfft i n

theorem Setup.pnRow {a : Args} {fb : List (List ℝ)} {sig : List ℝ} {l s : ℕ} (h : Setup a fb sig l s) {i : ℕ}
    (hi : i < (sig.length - l) / s + 1) {power : ℝ} (hp : 0 < power) :
    pnRow a.nfft power (finMat fb) (List.zipWith (· * ·) ((List.range l).map (windowWeight a.win.winType l))
        (((emph a a.preEmphCoeff sig).drop (i * s)).take l)) =
      ((List.range fb.length).map (powerOf a power fb sig l s i)).map fin := by
  apply ext_getD (fin 0)
  · simp [Spafe.pnRow, finMat]
  · intro n hn
    have hn : n < fb.length := by simpa [Spafe.pnRow, finMat] using hn
    rw [getD_map_lt fin _ 0 _ (by simpa using hn), getD_map_range_lt _ _ hn]
    unfold Spafe.pnRow finMat
    rw [List.map_map, getD_map_lt _ _ [] _ hn, Function.comp]
    have hx : ((Np.absRfft a.nfft (List.zipWith (· * ·) ((List.range l).map (windowWeight a.win.winType l))
        (((emph a a.preEmphCoeff sig).drop (i * s)).take l))).map fun v =>
          fin (1 / (a.nfft : ℝ)) * XF.pow (fin v) power) =
        ((List.range (a.nfft / 2 + 1)).map fun (k : ℕ) => ‖frameBin (windowWeight a.win.winType l)
          (emphasised a.preEmph a.preEmphCoeff sig) l s a.nfft i k‖ ^ power / a.nfft).map fin := by
      unfold Np.absRfft
      rw [List.map_map, List.map_map]
      apply List.map_congr_left
      intro k _
      simp only [Function.comp]
      rw [dft_frame (by simp) (h.inside hi a.preEmphCoeff)
        (fun j hj => getD_map_range_lt _ _ hj) (fun t ht => emph_getD' a a.preEmphCoeff sig (by simpa using ht)),
        XF.pow_nonneg' (norm_nonneg _) hp, XF.fin_mul]
      congr 1
      ring
    rw [hx, dot_fin]
    congr 1
    rw [dot_eq_sum _ _ (a.nfft / 2 + 1) (by simp) (h.cols _ (getD_mem _ hn))]
    unfold powerOf bandPower
    apply Finset.sum_congr rfl
    intro k hk
    rw [getD_map_range_lt _ _ (Finset.mem_range.mp hk)]

theorem bandPower_nonneg {fb : List (List ℝ)} (h : ∀ r ∈ fb, ∀ v ∈ r, 0 ≤ v) (power : ℝ) (w y : ℕ → ℝ)
    (l s nfft i n : ℕ) : 0 ≤ bandPower power fb w y l s nfft i n := by
  unfold bandPower
  refine Finset.sum_nonneg fun k _ => mul_nonneg (by positivity) ?_
  by_cases hn : n < fb.length
  · by_cases hk : k < (fb.getD n []).length
    · exact h _ (getD_mem _ hn) _ (getD_mem _ hk)
    · rw [List.getD_eq_default _ _ (by omega)]
  · rw [List.getD_eq_default fb _ (by omega)]; simp

/-- C106: entry `(i, k)` of `pncc` is coefficient `k` of the orthonormal DCT-II of `pnccBand` run on the band powers of
the signal, provided that every channel from the second on has some power in the five frames around each frame. -/
theorem C106_pncc_meaning (a : Args) (power : ℝ) (hp : 0 < power) (fb : List (List ℝ)) (sig : List ℝ) (l s : ℕ)
    (h : Setup a fb sig l s) (hf : fb.length = a.nfilts)
    (hd : a.dctType = 2) (hl : a.lifter = none) (hn : a.normalize = none) (R : ℕ) (hR : R = (sig.length - l) / s + 1)
    (P : ℕ → ℕ → ℝ) (hP : P = bandPower power fb (windowWeight a.win.winType l)
      (emphasised a.preEmph a.preEmphCoeff sig) l s a.nfft)
    (hpos : ∀ i n, i < R → 1 ≤ n → n < fb.length → 0 < mediumTime R (fun j => P j n) i) :
    ∃ m, pncc a power sig = .ok m ∧ HasShape m R (min a.numCeps fb.length) ∧
      ∀ i k, i < R → k < min a.numCeps fb.length →
        (m.getD i []).getD k nan = fin (dctII fb.length (pnccBand R fb.length P i) k) := by
  have hP' : ∀ i n, P i n = powerOf a power fb sig l s i n := fun i n => by rw [hP]; rfl
  have hnn : ∀ i n, 0 ≤ P i n := fun i n => by rw [hP']; exact bandPower_nonneg h.nonneg ..
  have hrows : (((List.range R).map fun (i : ℕ) =>
      List.zipWith (· * ·) ((List.range l).map (windowWeight a.win.winType l))
        (((emph a a.preEmphCoeff sig).drop (i * s)).take l)).map (Spafe.pnRow a.nfft power (finMat fb))) =
      finMat (matOf R fb.length P) := by
    rw [List.map_map]
    simp only [finMat, matOf, List.map_map]
    apply List.map_congr_left
    intro i hi
    have hi := List.mem_range.mp hi
    simp only [Function.comp]
    refine (h.pnRow (by omega) hp).trans ?_
    rw [List.map_map, List.map_map]
    apply List.map_congr_left
    intro n _
    simp only [Function.comp, hP']
  have hR1 : 0 < R := by rw [hR]; exact Nat.succ_pos _
  have hR0 : matOf R fb.length P ≠ [] := by
    intro h1; have := matOf_length R fb.length P; rw [h1, List.length_nil] at this; omega
  have hV := nonlin_eq (matOf_rect R fb.length P) hR0 h.rows
    (nonneg_of_at2 (matOf_rect R fb.length P) fun i j hi hj => by
      rw [at2_matOf _ (by simpa using hi) hj]; exact hnn i j)
    (p := P) (fun m l hm hl => at2_matOf _ (by simpa using hm) hl)
    (fun m l hm h1 h2 => by rw [matOf_length] at hm ⊢; exact hpos m l hm h1 h2)
  rw [matOf_length] at hV
  have hlen : (finMat fb).length = fb.length := by simp
  have hb : gammaBankOf a = .ok (finMat fb) := by rw [gammaBankOf, h.bank]; rfl
  have hm : ((finMat (matOf R fb.length (pnccBand R fb.length P))).map fun x =>
      tailRow a.noEnergy (finMat fb).length [] x) = (List.range R).map fun (i : ℕ) =>
      (((List.range fb.length).map (dctII fb.length (pnccBand R fb.length P i))).map fin).take a.numCeps := by
    simp only [finMat, matOf, List.map_map]
    apply List.map_congr_left
    intro i _
    simp only [Function.comp, tailRow, Args.noEnergy, hl, hd, Bool.false_eq_true, if_false]
    rw [← List.map_map, ← dctRow_two]
  refine ⟨(List.range R).map fun (i : ℕ) =>
      (((List.range fb.length).map (dctII fb.length (pnccBand R fb.length P i))).map fin).take a.numCeps,
    (pncc_ok_iff ..).mpr ⟨h.ceps, finMat fb, hb, _, h.front a.preEmphCoeff, h.nfft,
    finMat_cols h.cols, finMat (matOf R fb.length (pnccBand R fb.length P)), ?_, ?_, ?_⟩, range_matrix _ _ _ _⟩
  · rw [← hR, hrows, ← hf]; exact hV
  · have hr := h.rows
    simp only [TailOk, Args.noEnergy, hd, hl, hlen]
    simp; omega
  · rw [hm]; simp only [normStep, Args.noEnergy, hn]

theorem demo2_first : 0 < bandPower 2 [[1, 2], [3, 1]] (windowWeight demo2.win.winType 2)
    (emphasised demo2.preEmph demo2.preEmphCoeff [5, 1, 4]) 2 1 demo2.nfft 0 1 := by
  have hb : ∀ i n, bandPower 2 [[1, 2], [3, 1]] (windowWeight demo2.win.winType 2)
      (emphasised demo2.preEmph demo2.preEmphCoeff [5, 1, 4]) 2 1 demo2.nfft i n =
      ∑ k ∈ Finset.range (demo2.nfft / 2 + 1), ‖frameBin (windowWeight demo2.win.winType 2)
        (emphasised demo2.preEmph demo2.preEmphCoeff [5, 1, 4]) 2 1 demo2.nfft i k‖ ^ (2 : ℝ) / demo2.nfft *
        (([[1, 2], [3, 1]] : List (List ℝ)).getD n []).getD k 0 := fun _ _ => rfl
  rw [hb]
  refine Finset.sum_pos' (fun k _ => ?_) ⟨0, by simp, ?_⟩
  · apply mul_nonneg (by positivity)
    rcases k with _ | _ | k <;> simp
  · have hz : frameBin (windowWeight demo2.win.winType 2)
        (emphasised demo2.preEmph demo2.preEmphCoeff [5, 1, 4]) 2 1 demo2.nfft 0 0 ≠ 0 := by
      unfold frameBin
      simp [demo2, Args.win, windowWeight, emphasised, Finset.sum_range_succ]
      norm_cast
      norm_num
    have : (0 : ℝ) < ‖frameBin (windowWeight demo2.win.winType 2)
        (emphasised demo2.preEmph demo2.preEmphCoeff [5, 1, 4]) 2 1 demo2.nfft 0 0‖ := norm_pos_iff.mpr hz
    have h2 : (0 : ℝ) < demo2.nfft := by simp [demo2]
    simp only [List.getD_cons_succ, List.getD_cons_zero]
    positivity

theorem demo2_pos (i n : ℕ) (hi : i < 2) (h1 : 1 ≤ n) (h2 : n < 2) :
    0 < mediumTime 2 (fun j => bandPower 2 [[1, 2], [3, 1]] (windowWeight demo2.win.winType 2)
      (emphasised demo2.preEmph demo2.preEmphCoeff [5, 1, 4]) 2 1 demo2.nfft j n) i := by
  have hn : n = 1 := by simp at h2; omega
  subst hn
  unfold mediumTime
  apply div_pos _ (by norm_num)
  have h0 : i - 2 = 0 := by omega
  have h3 : min 2 (i + 3) = 2 := by omega
  rw [h0, h3]
  have hnn := bandPower_nonneg (fb := [[1, 2], [3, 1]]) demo2_setup.nonneg 2 (windowWeight demo2.win.winType 2)
    (emphasised demo2.preEmph demo2.preEmphCoeff [5, 1, 4]) 2 1 demo2.nfft
  refine Finset.sum_pos' (fun j _ => hnn j 1) ⟨0, by simp, demo2_first⟩

/-- The hypotheses are met: two frames, two channels. -/
example : ∃ m, pncc demo2 2 [5, 1, 4] = .ok m ∧ HasShape m 2 2 := by
  obtain ⟨m, h1, h2, -⟩ := C106_pncc_meaning demo2 2 (by norm_num) _ _ 2 1 demo2_setup rfl rfl rfl rfl 2 rfl _ rfl demo2_pos
  exact ⟨m, h1, h2⟩

end Props
end Spafe
