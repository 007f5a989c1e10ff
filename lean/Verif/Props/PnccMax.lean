import Verif.Props.PnccStationary

/-!
C157: the block diagram of the noise suppression (`docs/source/_static/architectures/pncc_medium_processing.png`, shown in the docstring of
`asymmetric_noise_suppression_with_temporal_masking`, `spafe/features/pncc.py:215-271`) takes the maximum of the masked excess and its
floor during excitation. The code switches to the masked excess alone.
-/

set_option linter.unusedSectionVars false

namespace Spafe
namespace Spec

/-- The switch of the block diagram: during excitation the larger of the masked excess and the floor, otherwise the floor. -/
noncomputable def suppressedDoc (T : ℕ) (thr : ℝ) (q : ℕ → ℝ) (m : ℕ) : ℝ :=
  if 2 * envelope T q m ≤ q m then max (masked (excess T thr q) m) (envelope T (excess T thr q) m)
  else envelope T (excess T thr q) m

end Spec

namespace Props

open Model XF Spec

/-- **C157**: every output is at most what the block diagram gives, and equal to it exactly where the masked excess is not below
the floor or there is no excitation. The full claim is equality everywhere. -/
theorem C157_diagram_partial (Q : List (List ℝ)) (r c : ℕ) (hQ : HasShape Q r c) (hr : 0 < r) (t : ℝ) :
    ∃ R, noiseSuppression (finMat Q) t = .ok (finMat R) ∧ HasShape R r c ∧ ∀ m l, m < r → l < c →
      Np.at2 R m l ≤ suppressedDoc r t (fun i => Np.at2 Q i l) m ∧
      (Np.at2 R m l = suppressedDoc r t (fun i => Np.at2 Q i l) m ↔
        ¬ (2 * envelope r (fun i => Np.at2 Q i l) m ≤ Np.at2 Q m l ∧
          masked (excess r t fun i => Np.at2 Q i l) m < envelope r (excess r t fun i => Np.at2 Q i l) m)) := by
  obtain ⟨R, h1, h2, h3⟩ := C58_meaning Q r c hQ hr t
  refine ⟨R, h1, h2, fun m l hm hl => ?_⟩
  rw [h3 m l hm hl, suppressed, suppressedDoc]
  by_cases hc : 2 * envelope r (fun i => Np.at2 Q i l) m ≤ Np.at2 Q m l
  · rw [if_pos hc, if_pos hc]
    refine ⟨le_max_left _ _, ?_⟩
    rw [eq_comm, max_eq_left_iff, not_and, not_lt]
    exact ⟨fun h _ => h, fun h => h hc⟩
  · rw [if_neg hc, if_neg hc]
    exact ⟨le_rfl, by simp [hc]⟩

theorem thousandth_bernoulli (n : ℕ) : (1 + 0.001 * (n : ℝ)) * 0.999 ^ n ≤ 1 := by
  have hb := one_add_mul_le_pow (a := (0.001 : ℝ)) (by norm_num) n
  have h3 : (0.999 : ℝ) ^ n * (1 + 0.001) ^ n ≤ 1 := by
    rw [← mul_pow]
    exact pow_le_one₀ (by norm_num) (by norm_num)
  have h4 : (0 : ℝ) < 0.999 ^ n := by positivity
  nlinarith

/-- **C157**, violated: a band that is steady for 201 to 500 frames (2 to 5 seconds with the default hop) and then falls to 2.2
times its noise estimate is passed on with 0.2 of its steady excess, less than the floor the diagram guarantees. -/
theorem C157_max_missing (Q : List (List ℝ)) (r c : ℕ) (hQ : HasShape Q r c) (n l : ℕ) (p : ℝ) (h1 : 201 ≤ n) (h2 : n ≤ 500)
    (hn : n < r) (hl : l < c) (hp : 0 < p) (hq : ∀ i < n, Np.at2 Q i l = p)
    (hv : Np.at2 Q n l = 2.2 * ((1 - 0.999 ^ n) * p)) :
    ∃ R, noiseSuppression (finMat Q) 0 = .ok (finMat R) ∧ Np.at2 R n l = 0.2 * (0.999 ^ n * p) ∧
      suppressedDoc r 0 (fun i => Np.at2 Q i l) n ≥ 0.000999 * n * (0.999 ^ n * p) ∧
      Np.at2 R n l < suppressedDoc r 0 (fun i => Np.at2 Q i l) n := by
  obtain ⟨R, e1, -, e3⟩ := C58_meaning Q r c hQ (by omega) 0
  refine ⟨R, e1, ?_⟩
  rw [e3 n l hn hl, suppressed, suppressedDoc]
  generalize hg : (fun i => Np.at2 Q i l) = q
  have hq' : ∀ i < n, q i = p := fun i hi => by rw [← hg]; exact hq i hi
  have hv' : q n = 2.2 * ((1 - 0.999 ^ n) * p) := by rw [← hg]; exact hv
  obtain ⟨k, rfl⟩ : ∃ k, n = k + 1 := ⟨n - 1, by omega⟩
  have hr1 : r ≠ 1 := by omega
  have hE := envelope_constant hr1 hp (k + 1) hq' k (by omega)
  have hX := excess_constant hr1 hp (k + 1) hq'
  have hP := peak_constant hp (k + 1) hX k (by omega)
  have hF := floor_constant hr1 hp (k + 1) hX k (by omega) (by omega)
  have hz5 : (0.999 : ℝ) ^ (k + 1) ≤ 0.82 :=
    le_trans (pow_le_pow_of_le_one (by norm_num) (by norm_num) h1) (by norm_num)
  have hz6 : (0.6 : ℝ) ≤ 0.999 ^ (k + 1) := by
    refine le_trans ?_ (pow_le_pow_of_le_one (by norm_num) (by norm_num) h2)
    have h : (0.778 : ℝ) ≤ 0.999 ^ 250 := by norm_num
    have h2 := pow_le_pow_left₀ (by norm_num) h 2
    rw [← pow_mul] at h2
    exact le_trans (by norm_num) h2
  have hk1 : (201 : ℝ) ≤ (k : ℝ) + 1 := by exact_mod_cast h1
  have hB := thousandth_bernoulli (k + 1)
  push_cast at hB
  clear h1 h2 hn
  rw [show (0.001 : ℝ) * (k + 1) * 0.999 ^ k * 0.999 * p = 0.001 * (k + 1) * (0.999 ^ (k + 1) * p) by rw [pow_succ]; ring] at hF
  push_cast
  generalize (0.999 : ℝ) ^ (k + 1) = z at *
  have a1 : 0.18 * p ≤ (1 - z) * p := by nlinarith
  have a2 : (1 - z) * p ≤ 0.4 * p := by nlinarith
  have hb1 : 0.001 * ((k : ℝ) + 1) * (z * p) ≤ (1 - z) * p := by nlinarith
  have a3 : 0.6 * p ≤ z * p := by nlinarith
  have hN : envelope r q (k + 1) = 1.0012 * ((1 - z) * p) := by
    rw [envelope, hE, hv', follow, if_pos (by linarith)]
    ring
  have hx : excess r 0 q (k + 1) = 1.1988 * ((1 - z) * p) := by
    rw [excess, hN, hv', if_neg (by linarith)]
    ring
  have hM : masked (excess r 0 q) (k + 1) = 0.2 * (z * p) := by
    rw [masked, hP, hx, if_neg (by rw [not_le]; linarith)]
  have hFl : envelope r (excess r 0 q) (k + 1) = 0.999 * (0.001 * ((k : ℝ) + 1) * (z * p)) + 0.001 * (1.1988 * ((1 - z) * p)) := by
    rw [envelope, hF, hx, follow, if_pos (by linarith)]
  have hc : 2 * envelope r q (k + 1) ≤ Np.at2 Q (k + 1) l := by rw [hN, hv]; linarith
  rw [if_pos hc, if_pos hc, hM, hFl]
  have hzp : 0 < z * p := by linarith
  have b1 : 0.000999 * ((k : ℝ) + 1) * (z * p) ≤ 0.999 * (0.001 * ((k : ℝ) + 1) * (z * p)) + 0.001 * (1.1988 * ((1 - z) * p)) := by
    linarith
  refine ⟨rfl, b1.trans (le_max_right _ _), lt_of_lt_of_le ?_ (b1.trans (le_max_right _ _))⟩
  nlinarith

/-- Not vacuous: 300 steady frames of power 1, then the fall. -/
example : ∃ R, noiseSuppression (finMat (List.replicate 300 [1] ++ [[2.2 * ((1 - 0.999 ^ 300) * 1)]])) 0 = .ok (finMat R) ∧
    Np.at2 R 300 0 = 0.2 * (0.999 ^ 300 * 1) := by
  have hs : HasShape (List.replicate 300 [(1 : ℝ)] ++ [[2.2 * ((1 - 0.999 ^ 300) * 1)]]) 301 1 := by
    refine ⟨by rw [List.length_append, List.length_replicate]; rfl, fun x hx => ?_⟩
    rcases List.mem_append.1 hx with h | h
    · rw [List.eq_of_mem_replicate h]; rfl
    · rw [List.mem_singleton.1 h]; rfl
  obtain ⟨R, h1, h2, -⟩ := C157_max_missing _ 301 1 hs 300 0 1 (by omega) (by omega) (by omega) (by omega) (by norm_num)
    (fun i hi => by
      have : (List.replicate 300 [(1 : ℝ)] ++ [[2.2 * ((1 - 0.999 ^ 300) * 1)]]).getD i [] = [1] := by
        rw [List.getD_append (h := by rw [List.length_replicate]; exact hi),
          List.getD_eq_getElem _ _ (by rw [List.length_replicate]; exact hi), List.getElem_replicate]
      rw [Np.at2, this]
      rfl)
    (by
      have : (List.replicate 300 [(1 : ℝ)] ++ [[2.2 * ((1 - 0.999 ^ 300) * 1)]]).getD 300 [] =
          [2.2 * ((1 - 0.999 ^ 300) * 1)] := by
        rw [List.getD_append_right (h := by rw [List.length_replicate]), List.length_replicate, Nat.sub_self]
        rfl
      rw [Np.at2, this]
      rfl)
  exact ⟨R, h1, h2⟩

end Props
end Spafe
