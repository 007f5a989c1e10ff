import Verif.Props.Loudness

/-! C150: `plp` takes the magnitude of the inverse transform of the loudness values, and thereby forgets where on the Bark
axis they are. -/

set_option linter.unusedSectionVars false

namespace Spafe
namespace Props
open Model XF Spec Real

/-! ### The inverse transform -/

theorem ifftAbs_eq_sum (n : ℕ) (row : List ℝ) (h : row.length ≤ n) : ifftAbs n row = (List.range n).map fun (k : ℕ) =>
    ‖(1 / (n : ℂ)) * ∑ j ∈ Finset.range row.length, ((row.getD j 0 : ℝ) : ℂ) *
      Complex.exp (2 * π * Complex.I * (j * k) / n)‖ := by
  unfold ifftAbs
  apply List.map_congr_left
  intro k _
  congr 2
  symm
  refine Finset.sum_subset (by simpa using h) fun j _ hj => ?_
  rw [List.getD_eq_default _ _ (by simpa using hj)]
  simp

theorem exp_shift_norm (n q k : ℕ) : ‖Complex.exp (2 * π * Complex.I * (q * k) / n)‖ = 1 := by
  rw [show 2 * (π : ℂ) * Complex.I * (q * k) / n = ((2 * π * (q * k) / n : ℝ) : ℂ) * Complex.I by push_cast; ring]
  exact Complex.norm_exp_ofReal_mul_I _

theorem ifftAbs_reverse (n : ℕ) (row : List ℝ) (h : row.length ≤ n) : ifftAbs n row.reverse = ifftAbs n row := by
  rw [ifftAbs_eq_sum n row h, ifftAbs_eq_sum n row.reverse (by simpa using h)]
  apply List.map_congr_left
  intro k _
  rw [norm_mul, norm_mul]
  congr 1
  rw [List.length_reverse, ← Finset.sum_range_reflect, ← Complex.norm_conj (∑ j ∈ Finset.range row.length, _), map_sum]
  rw [← one_mul ‖∑ j ∈ Finset.range row.length, (starRingEnd ℂ) _‖, ← exp_shift_norm n (row.length - 1) k, ← norm_mul,
    Finset.mul_sum]
  congr 1
  apply Finset.sum_congr rfl
  intro j hj
  have hj : j < row.length := Finset.mem_range.mp hj
  rw [List.getD_eq_getElem _ _ (by simp; omega), List.getElem_reverse, map_mul, Complex.conj_ofReal, ← Complex.exp_conj]
  rw [List.getD_eq_getElem _ _ hj]
  rw [mul_left_comm, ← Complex.exp_add]
  congr 2
  · congr 2
    omega
  · simp only [map_div₀, map_mul, Complex.conj_ofReal, Complex.conj_I, map_natCast, map_ofNat]
    rw [show row.length - 1 - j = row.length - 1 - j from rfl, Nat.cast_sub (by omega : j ≤ row.length - 1)]
    ring

theorem ifftAbs_shift (n q : ℕ) (row : List ℝ) (h : q + row.length ≤ n) :
    ifftAbs n (List.replicate q 0 ++ row) = ifftAbs n row := by
  rw [ifftAbs_eq_sum n row (by omega), ifftAbs_eq_sum n _ (by simpa using h)]
  apply List.map_congr_left
  intro k _
  rw [norm_mul, norm_mul]
  congr 1
  rw [List.length_append, List.length_replicate, Finset.sum_range_add, Finset.sum_eq_zero, zero_add]
  · rw [← one_mul ‖∑ j ∈ Finset.range row.length, ((row.getD j 0 : ℝ) : ℂ) * _‖, ← exp_shift_norm n q k, ← norm_mul,
      Finset.mul_sum]
    congr 1
    apply Finset.sum_congr rfl
    intro j hj
    rw [List.getD_append_right _ _ _ _ (by simp), List.length_replicate, Nat.add_sub_cancel_left,
      mul_left_comm (Complex.exp _) _ (Complex.exp _), ← Complex.exp_add]
    congr 2
    push_cast
    ring
  · intro j hj
    have hj : j < q := Finset.mem_range.mp hj
    rw [List.getD_append _ _ _ _ (by simpa using hj)]
    simp [hj]

theorem ifftAbs_pad (n q : ℕ) (row : List ℝ) : ifftAbs n (row ++ List.replicate q 0) = ifftAbs n row := by
  unfold ifftAbs
  apply List.map_congr_left
  intro k _
  congr 2
  apply Finset.sum_congr rfl
  intro j _
  congr 2
  by_cases h : j < row.length
  · rw [List.getD_append _ _ _ _ h]
  · rw [List.getD_append_right _ _ _ _ (by omega), List.getD_eq_default row _ (by omega)]
    by_cases h2 : j - row.length < q
    · rw [List.getD_eq_getElem _ _ (by simpa using h2)]; simp
    · rw [List.getD_eq_default _ _ (by simpa using h2)]

theorem plpRow_reverse (n o : ℕ) (row : List (XF ℝ)) (h : row.length ≤ n) : plpRow n o row.reverse = plpRow n o row := by
  unfold plpRow
  rw [List.take_of_length_le h, List.take_of_length_le (by simpa using h), List.all_reverse, List.map_reverse,
    ifftAbs_reverse _ _ (by simpa using h)]

theorem plpRow_shift (n o q r : ℕ) (row : List (XF ℝ)) (h : q + row.length + r ≤ n) :
    plpRow n o (List.replicate q (fin 0) ++ row ++ List.replicate r (fin 0)) = plpRow n o row := by
  unfold plpRow
  have h0 : XF.toNum (fin (0 : ℝ)) = 0 := rfl
  rw [List.take_of_length_le (by simp; omega), List.take_of_length_le (l := row) (by omega), List.all_append, List.all_append,
    List.map_append, List.map_append, List.map_replicate, List.map_replicate, h0, ifftAbs_pad,
    ifftAbs_shift _ _ _ (by simp; omega)]
  have e : ∀ q, (List.replicate q (fin (0 : ℝ))).all XF.isFinite = true := by
    intro q
    simp [List.all_eq_true]
  rw [e, e]
  simp

/-! ### `plp` -/

theorem plp_congr_bank (a : Args) (fb fb' : XMat) (sig : List ℝ)
    (hc : (∀ r ∈ fb', r.length = a.nfft / 2 + 1) ↔ ∀ r ∈ fb, r.length = a.nfft / 2 + 1)
    (hr : ∀ p : List ℝ, plpRow a.nfft a.numCeps ((fb'.map fun f => Np.dot (p.map fin) f).map loudness) =
      plpRow a.nfft a.numCeps ((fb.map fun f => Np.dot (p.map fin) f).map loudness)) :
    plp { a with fbanks := some fb' } sig = plp { a with fbanks := some fb } sig := by
  have key : ∀ c : XMat, plp { a with fbanks := some c } sig =
      if a.nfilts < a.numCeps then .error (.parameterError ErrorMsgs.nfilts) else
      (frontEnd a a.preEmphCoeff sig >>= fun W => absFft a.nfft W >>= fun ft =>
        if ∀ r ∈ c, r.length = a.nfft / 2 + 1 then
          ((powerSpectrum a.nfft ft).mapM fun p => plpRow a.nfft a.numCeps ((c.map fun f => Np.dot (p.map fin) f).map loudness))
            >>= plpTail a
        else .error .valueError) := by
    intro c
    have hs : spectrogram { a with fbanks := some c } a.preEmphCoeff c sig = spectrogram a a.preEmphCoeff c sig := rfl
    have ht : plpTail { a with fbanks := some c } = plpTail a := rfl
    simp only [plp, rastaplp, getFbanks, ok_bind, plpRasta, hs, ht, Bool.false_eq_true, if_false]
    by_cases h1 : a.nfilts < a.numCeps
    · rw [if_pos h1, if_pos h1]
    rw [if_neg h1, if_neg h1]
    by_cases h2 : ∀ r ∈ c, r.length = a.nfft / 2 + 1
    · unfold spectrogram
      cases frontEnd a a.preEmphCoeff sig with
      | error e => rfl
      | ok W =>
        simp only [ok_bind]
        cases absFft a.nfft W with
        | error e => rfl
        | ok ft =>
          simp only [ok_bind, dotFbanks, if_pos h2, Np.dotT, List.map_map]
          simp only [ok_bind, List.mapM_map, Function.comp_def, List.map_map]
    · unfold spectrogram
      cases frontEnd a a.preEmphCoeff sig with
      | error e => rfl
      | ok W =>
        simp only [ok_bind]
        cases absFft a.nfft W with
        | error e => rfl
        | ok ft => simp only [ok_bind, dotFbanks, if_neg h2]; rfl
  rw [key, key]
  simp only [hr, hc]

/-- C150: turning the bank upside down (the lowest filter last) changes nothing in `plp`, whatever the signal and the
options, including which exception is raised: low and high sounds are not told apart. -/
theorem C150_reversed_bank (a : Args) (fb : XMat) (h : fb.length ≤ a.nfft) (sig : List ℝ) :
    plp { a with fbanks := some fb.reverse } sig = plp { a with fbanks := some fb } sig := by
  refine plp_congr_bank a fb fb.reverse sig (by simp) fun p => ?_
  rw [List.map_reverse, List.map_reverse, plpRow_reverse _ _ _ (by simpa using h)]

theorem dot_silent (p : List ℝ) (m : ℕ) : Np.dot (p.map fin) (List.replicate m (fin 0)) = fin 0 := by
  unfold Np.dot
  induction p generalizing m with
  | nil => rfl
  | cons x p ih =>
    cases m with
    | zero => rfl
    | succ m =>
      rw [List.map_cons, List.replicate_succ, List.zipWith_cons_cons, List.sum_cons, ih]
      simp

/-- C150: moving all filters along the Bark axis (empty filters added below and above) changes nothing in `plp`, so that
`plp` of a sound with the bank one filter higher is `plp` with the bank one filter lower. -/
theorem C150_shifted_bank (a : Args) (fb : XMat) (q r : ℕ) (h : q + fb.length + r ≤ a.nfft) (sig : List ℝ) (z : List (XF ℝ))
    (hz : z = List.replicate (a.nfft / 2 + 1) (fin 0)) :
    plp { a with fbanks := some (List.replicate q z ++ fb ++ List.replicate r z) } sig =
      plp { a with fbanks := some fb } sig := by
  have hzl : z.length = a.nfft / 2 + 1 := by rw [hz, List.length_replicate]
  refine plp_congr_bank a fb _ sig ?_ fun p => ?_
  · constructor
    · intro h1 r hr
      exact h1 r (by simp [hr])
    · intro h1 r hr
      simp only [List.mem_append, List.mem_replicate] at hr
      rcases hr with (⟨-, rfl⟩ | hr) | ⟨-, rfl⟩
      · exact hzl
      · exact h1 r hr
      · exact hzl
  · have hl : loudness (Np.dot (p.map fin) z) = fin 0 := by
      rw [hz, dot_silent, (C149_values 0 le_rfl).2]
      congr 1
      exact (C149_monotone_partial 0 1 le_rfl one_pos (by norm_num)).2.mpr rfl
    simp only [List.map_append, List.map_replicate, hl]
    exact plpRow_shift _ _ _ _ _ (by simpa using h)

/-! ### A sound in one band -/

/-- The predictor of order `p` of `N` equal samples. -/
noncomputable def flatPredictor (N p k : ℕ) : ℝ :=
  if k = 0 then 1 else
    (if k = 1 then -(1 - 1 / (2 * N - p + 1 : ℝ)) else 0) + (if k = p then 1 / (2 * N - p + 1 : ℝ) else 0)

theorem autoCorr_flat (N : ℕ) (c : ℝ) {k : ℕ} (h : k ≤ N) : autoCorr (List.replicate N c) k = c ^ 2 * (N - k) := by
  have hg : ∀ j, (List.replicate N c).getD j 0 = if j < N then c else 0 := by
    intro j
    split_ifs with hj
    · rw [List.getD_eq_getElem _ _ (by simpa using hj)]; simp
    · rw [List.getD_eq_default _ _ (by simpa using hj)]
  rw [autoCorr_eq, List.length_replicate]
  simp only [hg]
  rw [← Finset.sum_subset (s₁ := Finset.range (N - k)) (s₂ := Finset.range N) (by simp)]
  · rw [Finset.sum_congr rfl (g := fun _ => c ^ 2) fun j hj => ?_]
    · rw [Finset.sum_const, Finset.card_range, nsmul_eq_mul, Nat.cast_sub h]
      ring
    · have hj : j < N - k := Finset.mem_range.mp hj
      rw [if_pos (by omega), if_pos (by omega)]
      ring
  · intro j h1 h2
    have h1 : ¬ j + k < N := by simp at h1 h2; omega
    rw [if_neg h1, mul_zero]

theorem flatPredictor_spec (N p : ℕ) (c : ℝ) (hp1 : 1 ≤ p) (hp : p ≤ N) :
    IsPredictor (List.replicate N c) p (flatPredictor N p) := by
  refine ⟨by simp [flatPredictor], fun i h1 h2 => ?_⟩
  have hD : (0 : ℝ) < 2 * N - p + 1 := by
    have : (p : ℝ) ≤ N := by exact_mod_cast hp
    have : (0 : ℝ) ≤ N := by positivity
    linarith
  have e : ∀ k ∈ Finset.Icc 1 p, flatPredictor N p k * autoCorr (List.replicate N c) ((i : ℤ) - (k : ℤ)).natAbs =
      (if k = 1 then -(1 - 1 / (2 * N - p + 1 : ℝ)) * (c ^ 2 * (N - (i - 1))) else 0) +
        (if k = p then 1 / (2 * N - p + 1 : ℝ) * (c ^ 2 * (N - (p - i))) else 0) := by
    intro k hk
    obtain ⟨k1, k2⟩ := Finset.mem_Icc.mp hk
    rw [autoCorr_flat N c (by omega)]
    unfold flatPredictor
    rw [if_neg (by omega), add_mul]
    congr 1
    · split_ifs with hk1
      · subst hk1
        rw [show (((i : ℤ) - ((1 : ℕ) : ℤ)).natAbs : ℕ) = i - 1 by omega, Nat.cast_sub h1]
        push_cast; ring
      · simp
    · split_ifs with hkp
      · subst hkp
        rw [show (((i : ℤ) - (k : ℤ)).natAbs : ℕ) = k - i by omega, Nat.cast_sub h2]
      · simp
  rw [Finset.sum_congr rfl e, Finset.sum_add_distrib, Finset.sum_ite_eq' , Finset.sum_ite_eq',
    if_pos (by simp [hp1]), if_pos (by simp [hp1]), autoCorr_flat N c (by omega)]
  field_simp
  ring

/-- The inverse transform of a single loudness value. -/
theorem inverseDft_one (n N n0 : ℕ) (L : ℕ → ℝ) (h0 : n0 < min n N) (h : ∀ j < N, j ≠ n0 → L j = 0) (t : ℕ) :
    inverseDft n N L t = |L n0| / n := by
  unfold inverseDft
  rw [Finset.sum_eq_single n0]
  · rw [norm_mul, exp_shift_norm, mul_one, Complex.norm_real, norm_eq_abs]
  · intro j hj hne
    rw [h j (by simp at hj; omega) hne]
    simp
  · intro hn
    exact absurd (Finset.mem_range.mpr h0) hn

/-- C150: when the energy of a frame falls into a single band (a tone), the coefficients `1, 2, ...` of its `plp` row are
fixed numbers given by `nfft` and `order`: they depend neither on the band nor on the energy. The coefficient 0 depends on
the energy only. -/
theorem C150_one_band (a : Args) (fb : List (List ℝ)) (sig : List ℝ) (l s : ℕ) (h : Setup a fb sig l s)
    (ho : 2 ≤ a.numCeps) (ho2 : a.numCeps ≤ a.nfft + 1) (hl : a.lifter = none) (hn : a.normalize = none) (E : ℕ → ℕ → ℝ)
    (hE : E = bandEnergy fb (windowWeight a.win.winType l) (emphasised a.preEmph a.preEmphCoeff sig) l s a.nfft)
    (m : XMat) (hm : plp a sig = .ok m) (i : ℕ) (hi : i < (sig.length - l) / s + 1) (n0 : ℕ) (hn0 : n0 < min a.nfft fb.length)
    (h1 : E i n0 ≠ 0) (h2 : ∀ n < fb.length, n ≠ n0 → E i n = 0)
    (hpos : ∀ i < (sig.length - l) / s + 1, ∃ n < min a.nfft fb.length, E i n ≠ 0) :
    (∀ k, 1 ≤ k → k < a.numCeps → (m.getD i []).getD k nan =
      fin (flatPredictor a.nfft (a.numCeps - 1) k + if k = 1 then 0 else (k - 1) / k * flatPredictor a.nfft (a.numCeps - 1) 1)) ∧
    (m.getD i []).getD 0 nan = fin (logFloor (lpResidual (List.replicate a.nfft (intensity (E i n0) / a.nfft))
      (a.numCeps - 1) (flatPredictor a.nfft (a.numCeps - 1)))) := by
  obtain ⟨m', hm', -, hr⟩ := C107_plp_meaning a fb sig l s h ho hl hn E hE hpos
  obtain rfl : m' = m := by rw [hm] at hm'; injection hm' with hm'; exact hm'.symm
  obtain ⟨p, hp, hv⟩ := hr i hi _ rfl
  have hx : (List.range a.nfft).map (inverseDft a.nfft fb.length fun n => intensity (E i n)) =
      List.replicate a.nfft (intensity (E i n0) / a.nfft) := by
    rw [List.eq_replicate_iff]
    refine ⟨by simp, fun v hv => ?_⟩
    obtain ⟨t, -, rfl⟩ := List.mem_map.mp hv
    rw [inverseDft_one _ _ n0 _ hn0 fun j hj hne => ?_, abs_of_pos (intensity_pos' h1)]
    rw [h2 j hj hne]
    exact (C149_monotone_partial 0 1 le_rfl one_pos (by norm_num)).2.mpr rfl
  rw [hx] at hp hv
  have hN : 0 < a.nfft := Nat.pos_of_ne_zero h.nfft
  have hc : 0 < intensity (E i n0) / a.nfft := div_pos (intensity_pos' h1) (by exact_mod_cast hN)
  have huniq := C107_predictor_unique _ ⟨_, List.mem_replicate.mpr ⟨hN.ne', rfl⟩, hc.ne'⟩ _ _ _ hp
    (flatPredictor_spec a.nfft (a.numCeps - 1) (intensity (E i n0) / a.nfft) (by omega) (by omega))
  have hres : lpResidual (List.replicate a.nfft (intensity (E i n0) / a.nfft)) (a.numCeps - 1) p =
      lpResidual (List.replicate a.nfft (intensity (E i n0) / a.nfft)) (a.numCeps - 1) (flatPredictor a.nfft (a.numCeps - 1)) := by
    unfold lpResidual
    congr 2
    refine Finset.sum_congr rfl fun k hk => ?_
    rw [huniq k (by simp at hk; omega)]
  refine ⟨fun k k1 k2 => ?_, ?_⟩
  · rw [hv k k2]
    congr 1
    unfold lpCoefficient
    rw [if_neg (by omega), huniq k (by omega)]
    congr 1
    split_ifs with hk
    · subst hk; simp
    · rw [Finset.sum_eq_single (k - 1)]
      · rw [show k - (k - 1) = 1 by omega, huniq 1 (by omega), Nat.cast_sub k1]
        simp
      · intro j hj hne
        obtain ⟨j1, j2⟩ := Finset.mem_Ico.mp hj
        rw [huniq (k - j) (by omega)]
        unfold flatPredictor
        rw [if_neg (by omega), if_neg (by omega), if_neg (by omega)]
        simp
      · intro hne
        simp at hne
        omega
  · rw [hv 0 (by omega), lpCoefficient, if_pos rfl, hres]

/-- The hypotheses of `C150_one_band` are met: a sample `x` in frames of one sample with the bands `(1, 0)` and `(0, 0)`,
or the other way round; the coefficient 1 is `-1/2` in both cases (`1 - 1 / (2·2 - 1 + 1) = 3/4`, plus `1/4`). -/
example (fb : List (List ℝ)) (hfb : fb = [[1, 0], [0, 0]] ∨ fb = [[0, 0], [1, 0]]) (x : ℝ) (hx : x ≠ 0) :
    ∃ m, plp { levelDemo with fbanks := some (finMat fb) } [x] = .ok m ∧ (m.getD 0 []).getD 1 nan = fin (-1 / 2) := by
  have S := levelDemo_setup x
  have hS : Setup { levelDemo with fbanks := some (finMat fb) } fb [x] 1 1 :=
    { bank := rfl
      cols := by rcases hfb with rfl | rfl <;> simp [levelDemo]
      nonneg := by rcases hfb with rfl | rfl <;> simp
      rows := by rcases hfb with rfl | rfl <;> simp
      ceps := S.ceps, nfft := S.nfft, window := S.window, hopLe := S.hopLe, len := S.len, hop := S.hop, pos := S.pos,
      long := S.long, samples := S.samples }
  have hb : ∀ c k, framePower (windowWeight levelDemo.win.winType 1) (emphasised levelDemo.preEmph c [x]) 1 1 2 0 k =
      x ^ 2 / 2 := by
    intro c k
    simp [framePower, frameBin, windowWeight, emphasised, levelDemo]
  have hE : ∀ n, bandEnergy fb (windowWeight levelDemo.win.winType 1) (emphasised levelDemo.preEmph levelDemo.preEmphCoeff [x])
      1 1 2 0 n = x ^ 2 / 2 * (fb.getD n []).getD 0 0 := by
    intro n
    unfold bandEnergy
    simp only [hb]
    rcases hfb with rfl | rfl <;> rcases n with _ | _ | n <;> norm_num [Finset.sum_range_succ]
  obtain ⟨n0, hn0, h1, h2⟩ : ∃ n0 < 2, (fb.getD n0 []).getD 0 0 = 1 ∧ ∀ n < fb.length, n ≠ n0 → (fb.getD n []).getD 0 0 = 0 := by
    rcases hfb with rfl | rfl
    · refine ⟨0, by norm_num, rfl, fun n hn hne => ?_⟩
      have : n = 1 := by simp at hn; omega
      subst this; rfl
    · refine ⟨1, by norm_num, rfl, fun n hn hne => ?_⟩
      have : n = 0 := by simp at hn; omega
      subst this; rfl
  have hlen : fb.length = 2 := by rcases hfb with rfl | rfl <;> rfl
  have hpos : ∀ i < ([x].length - 1) / 1 + 1, ∃ n < min 2 fb.length, bandEnergy fb (windowWeight levelDemo.win.winType 1)
      (emphasised levelDemo.preEmph levelDemo.preEmphCoeff [x]) 1 1 2 i n ≠ 0 := by
    intro i hi
    have : i = 0 := by simpa using hi
    subst this
    exact ⟨n0, by omega, by rw [hE, h1]; simpa using hx⟩
  obtain ⟨m, hm, -⟩ := C107_plp_meaning _ fb [x] 1 1 hS le_rfl rfl rfl _ rfl hpos
  refine ⟨m, hm, ?_⟩
  have := (C150_one_band _ fb [x] 1 1 hS le_rfl (by simp [levelDemo]) rfl rfl _ rfl m hm 0 (by simp) n0
    (by show n0 < min 2 fb.length; omega) (ne_of_eq_of_ne (hE n0) (by rw [h1]; simpa using hx))
    (fun n hn hne => (hE n).trans (by rw [h2 n hn hne, mul_zero])) hpos).1 1 le_rfl (by simp [levelDemo])
  rw [this]
  simp [flatPredictor, levelDemo]
  norm_num

end Props
end Spafe
