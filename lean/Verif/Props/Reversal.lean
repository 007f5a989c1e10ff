import Verif.Props.Locality
import Verif.Props.LpMeaning

/-! C112: features of a signal played backwards. -/

set_option linter.unusedSectionVars false

namespace Spafe
namespace Props
open Model XF Spec

theorem getD_reverse' (x : List ℝ) {j : ℕ} (hj : j < x.length) : x.reverse.getD j 0 = x.getD (x.length - 1 - j) 0 := by
  rw [List.getD_eq_getElem _ _ (by simpa using hj), List.getElem_reverse, List.getD_eq_getElem _ _ (by omega)]

theorem dft_short {x : List ℝ} {n : ℕ} (h : x.length ≤ n) (k : ℕ) :
    Np.dft x n k = ∑ j ∈ Finset.range x.length, ((x.getD j 0 : ℝ) : ℂ) *
      Complex.exp (-(2 * Real.pi * Complex.I * (j * k) / n)) := by
  unfold Np.dft Np.dftC
  rw [← Finset.sum_subset (Finset.range_subset_range.mpr h)]
  intro j _ hj
  beta_reduce
  rw [List.getD_eq_default _ _ (by simpa using hj)]
  simp

/-- Reversing a frame that fits into the transform multiplies its conjugate spectrum by a phase. -/
theorem norm_dft_reverse {x : List ℝ} {n : ℕ} (h : x.length ≤ n) (k : ℕ) : ‖Np.dft x.reverse n k‖ = ‖Np.dft x n k‖ := by
  have key : Np.dft x.reverse n k =
      Complex.exp (((-(2 * Real.pi * (((x.length : ℝ) - 1) * k) / n) : ℝ) : ℂ) * Complex.I) *
        (starRingEnd ℂ) (Np.dft x n k) := by
    rw [dft_short (by simpa using h), dft_short h, List.length_reverse, map_sum, Finset.mul_sum, ← Finset.sum_range_reflect]
    apply Finset.sum_congr rfl
    intro j hj
    have hj := Finset.mem_range.mp hj
    rw [getD_reverse' _ (by omega), show x.length - 1 - (x.length - 1 - j) = j by omega, map_mul, Complex.conj_ofReal,
      ← Complex.exp_conj, mul_left_comm (Complex.exp _), ← Complex.exp_add]
    congr 2
    have hc : (((x.length - 1 - j : ℕ) : ℂ)) = (x.length : ℂ) - 1 - j := by
      rw [Nat.cast_sub (by omega), Nat.cast_sub (by omega), Nat.cast_one]
    rw [hc]
    simp only [map_neg, map_div₀, map_mul, Complex.conj_I, Complex.conj_ofReal, map_natCast, map_ofNat]
    push_cast
    ring
  rw [key, norm_mul, Complex.norm_exp_ofReal_mul_I, one_mul, RCLike.norm_conj]

theorem absRfft_reverse {x : List ℝ} {n : ℕ} (h : x.length ≤ n) : Np.absRfft n x.reverse = Np.absRfft n x :=
  List.map_congr_left fun k _ => norm_dft_reverse h k

theorem window_reverse {name : String} {M : ℕ} {w : List ℝ} (h : windowVec name M = .ok w) : w.reverse = w := by
  have hn : WindowName name := by
    by_contra hn
    rw [(C14_window_vector name M).2 hn] at h; cases h
  obtain ⟨w', h1, h2, h3, -⟩ := (C14_window_vector name M).1 hn
  rw [h] at h1
  injection h1 with h1
  subst h1
  apply ext_getD 0
  · simp
  · intro j hj
    rw [List.length_reverse] at hj
    rw [getD_reverse' _ hj, h2, h3 j (by omega)]

theorem frame_reverse {sig : List ℝ} {l s : ℕ} {R i : ℕ} (hR : sig.length = R * s + l) (hi : i ≤ R) :
    (sig.reverse.drop (i * s)).take l = ((sig.drop ((R - i) * s)).take l).reverse := by
  have e : R * s = (R - i) * s + i * s := by rw [← Nat.add_mul]; congr 1; omega
  apply ext_getD 0
  · simp only [List.length_take, List.length_drop, List.length_reverse]; omega
  · intro j hj
    simp only [List.length_take, List.length_drop, List.length_reverse] at hj
    have hjl : j < l := by omega
    rw [getD_take_lt _ _ hjl, getD_drop', getD_reverse' _ (by omega), getD_reverse' _ (by simp; omega),
      getD_take_lt _ _ (by simp; omega), getD_drop']
    congr 1
    simp only [List.length_take, List.length_drop]
    omega

/-- The front end without pre-emphasis of the reversed signal: the same frames, each reversed, in reverse order. -/
theorem frontEnd_reverse {a : Args} {coeff : ℝ} {sig : List ℝ} {W : List (List ℝ)} {l s : ℕ} (hp : a.preEmph = false)
    (hl : pyInt (a.win.winLen * a.fs) = l) (hs : pyInt (a.win.winHop * a.fs) = s) (h0 : 0 < s) (hd : s ∣ sig.length - l)
    (h : frontEnd a coeff sig = .ok W) :
    frontEnd a coeff sig.reverse = .ok (W.map List.reverse).reverse ∧ ∀ w ∈ W, w.length = l := by
  have hS : 0 < pyInt (a.win.winHop * a.fs) := by omega
  obtain ⟨e0, l1, s1, w, e1, e2, -, e3, e4, e5, rfl⟩ := ((frontEnd_ok_iff a coeff sig W hS).mp h).2
  obtain rfl : l1 = l := by omega
  obtain rfl : s1 = s := by omega
  have hem : ∀ x, emph a coeff x = x := fun x => by simp [emph, hp]
  obtain ⟨R, hR⟩ := hd
  have hdiv : (sig.length - l1) / s1 = R := by rw [hR, Nat.mul_div_cancel_left _ h0]
  have hlen : sig.length = R * s1 + l1 := by rw [Nat.mul_comm] at hR; omega
  refine ⟨(frontEnd_ok_iff a coeff sig.reverse _ hS).mpr ⟨by simp [hp], e0, l1, s1, w, e1, e2, h0, by simpa using e3, e4, e5, ?_⟩, ?_⟩
  · rw [List.length_reverse, hdiv]
    simp only [hem]
    rw [List.map_map, ← List.map_reverse]
    apply List.ext_getElem
    · simp
    · intro i h1 h2
      have hi : i ≤ R := by simp at h1; omega
      simp only [List.getElem_map, List.getElem_reverse, List.length_range, List.getElem_range, Function.comp_apply]
      rw [frame_reverse hlen hi, show R + 1 - 1 - i = R - i by omega]
      conv_rhs => rw [← window_reverse e4]
      rw [← List.reverse_zipWith]
      simp only [List.length_take, List.length_drop, e5]
      have : R * s1 = (R - i) * s1 + i * s1 := by rw [← Nat.add_mul]; congr 1; omega
      omega
  · intro v hv
    obtain ⟨i, hi, rfl⟩ := List.mem_map.mp hv
    have := frame_fits e3 (List.mem_range.mp hi)
    simp only [List.length_zipWith, List.length_take, List.length_drop, hem, e5]
    omega

/-- C112: without pre-emphasis and normalisation, if the frames fit into the transform and the last one ends with the
signal, the rows of the reversed signal are the rows of the signal in reverse order. -/
theorem C112_reversal (f : Feature) (hf : f ∈ rowwiseFeatures) (a : Args) (hn : a.normalize = none) (hp : a.preEmph = false)
    (l s : ℕ) (hl : pyInt (a.win.winLen * a.fs) = l) (hs : pyInt (a.win.winHop * a.fs) = s) (h0 : 0 < s) (hnf : l ≤ a.nfft)
    (sig : List ℝ) (hd : s ∣ sig.length - l) (m : XMat) (h : f a sig = .ok m) : f a sig.reverse = .ok m.reverse := by
  obtain ⟨bank, coeff, g, he, -⟩ := rowwise_form hf
  rw [he] at h ⊢
  split_ifs at h ⊢
  obtain ⟨fb, hfb, h⟩ := (bind_ok_iff ..).mp h
  rw [hfb, ok_bind]
  obtain ⟨W, hW, h1, h2, h3, rfl⟩ := (featCore_ok_iff' hn ..).mp h
  obtain ⟨h4, h5⟩ := frontEnd_reverse hp hl hs h0 hd hW
  refine (featCore_ok_iff' hn ..).mpr ⟨_, h4, h1, h2, h3, ?_⟩
  rw [List.map_reverse, List.map_map]
  congr 1
  apply List.map_congr_left
  intro w hw
  have : Np.absRfft a.nfft w.reverse = Np.absRfft a.nfft w := absRfft_reverse (by rw [h5 w hw]; exact hnf)
  simp only [Function.comp, featRow, specRow, powRow, this]

theorem autoCorr_reverse (x : List ℝ) (k : ℕ) : autoCorr x.reverse k = autoCorr x k := by
  have hout : ∀ (y : List ℝ) (t : ℤ), (t < 0 ∨ (y.length : ℤ) ≤ t) → ext y t = 0 := fun y t h => by
    unfold ext
    split_ifs with h1
    · exact List.getD_eq_default _ _ (by omega)
    · rfl
  have he : ∀ t : ℤ, ext x.reverse t = ext x ((x.length : ℤ) - 1 - t) := fun t => by
    by_cases h : 0 ≤ t ∧ t < x.length
    · unfold ext
      rw [if_pos h.1, if_pos (by omega), getD_reverse' _ (by omega)]
      congr 1; omega
    · rw [hout _ _ (by rw [List.length_reverse]; omega), hout _ _ (by omega)]
  replace hout := hout x
  unfold autoCorr
  rw [List.length_reverse, ← Finset.sum_range_reflect]
  have h1 : ∀ n ∈ Finset.range x.length, ext x.reverse ((x.length - 1 - n : ℕ) : ℤ) *
      ext x.reverse (((x.length - 1 - n : ℕ) : ℤ) + k) = ext x n * ext x ((n : ℤ) - k) := fun n hn => by
    have hn := Finset.mem_range.mp hn
    rw [he, he]
    congr 2 <;> omega
  rw [Finset.sum_congr rfl h1]
  rcases Nat.lt_or_ge x.length k with hk | hk
  · rw [Finset.sum_eq_zero, Finset.sum_eq_zero]
    · intro n hn
      rw [hout ((n : ℤ) + k) (by omega), mul_zero]
    · intro n hn
      have := Finset.mem_range.mp hn
      rw [hout ((n : ℤ) - k) (by omega), mul_zero]
  · obtain ⟨d, hd⟩ := Nat.exists_eq_add_of_le hk
    have e1 : ∑ n ∈ Finset.range x.length, ext x n * ext x ((n : ℤ) - k) =
        ∑ n ∈ Finset.range d, ext x ((n : ℤ) + k) * ext x n := by
      rw [hd, Finset.sum_range_add, Finset.sum_eq_zero, zero_add]
      · apply Finset.sum_congr rfl
        intro n _
        push_cast
        congr 2 <;> ring
      · intro n hn
        have := Finset.mem_range.mp hn
        rw [hout ((n : ℤ) - k) (by omega), mul_zero]
    have e2 : ∑ n ∈ Finset.range x.length, ext x n * ext x ((n : ℤ) + k) =
        ∑ n ∈ Finset.range d, ext x ((n : ℤ) + k) * ext x n := by
      rw [show x.length = d + k by omega, Finset.sum_range_add]
      rw [Finset.sum_eq_zero (s := Finset.range k), add_zero]
      · exact Finset.sum_congr rfl fun n _ => mul_comm _ _
      · intro n hn
        rw [hout (((d + n : ℕ) : ℤ) + k) (by push_cast; omega), mul_zero]
    rw [e1, e2]

theorem lpcHelper_reverse (x : List ℝ) (n : ℕ) : lpcHelper x.reverse n = lpcHelper x n := by
  by_cases hx : x = []
  · subst hx; rfl
  · have hc : correlateFull x.reverse = correlateFull x := by
      apply ext_getD 0
      · simp [correlateFull]
      · intro i hi
        have hi' : i < 2 * x.length - 1 := by simpa [correlateFull] using hi
        rw [correlateFull_all (by simpa using hx) (by simpa using hi'), correlateFull_all hx hi', autoCorr_reverse,
          List.length_reverse]
    unfold lpcHelper lpcR
    rw [if_neg hx, if_neg (by simpa using hx)]
    simp only [hc, List.length_reverse]

/-- C112 for `lpc`. -/
theorem C112_lpc (a : LpcArgs) (hp : a.preEmph = false) (l s : ℕ) (hl : pyInt (a.win.winLen * a.fs) = l)
    (hs : pyInt (a.win.winHop * a.fs) = s) (h0 : 0 < s) (sig : List ℝ) (hd : s ∣ sig.length - l)
    (m : List (List ℝ) × List ℝ) (h : lpc a sig = .ok m) : lpc a sig.reverse = .ok (m.1.reverse, m.2.reverse) := by
  have hS : 0 < pyInt (a.win.winHop * a.fs) := by omega
  unfold lpc at h ⊢
  obtain ⟨F, hF, h⟩ := (bind_ok_iff ..).mp h
  obtain ⟨r, hr, h⟩ := (bind_ok_iff ..).mp h
  injection h with h
  subst h
  obtain ⟨e0, l1, s1, e1, e2, -, e3, e4, rfl⟩ := ((lpcFrames_ok_iff a sig F hS).mp hF).2
  obtain rfl : l1 = l := by omega
  obtain rfl : s1 = s := by omega
  have hem : ∀ x, a.emph x = x := fun x => by simp [Model.LpcArgs.emph, hp]
  obtain ⟨R, hR⟩ := hd
  have hdiv : (sig.length - l1) / s1 = R := by rw [hR, Nat.mul_div_cancel_left _ h0]
  have hlen : sig.length = R * s1 + l1 := by rw [Nat.mul_comm] at hR; omega
  have hF' := (lpcFrames_ok_iff a sig.reverse _ hS).mpr ⟨by simp [hp], e0, l1, s1, e1, e2, h0, by simpa using e3, e4, rfl⟩
  rw [hF', ok_bind]
  simp only [hem, List.length_reverse, hdiv] at hr ⊢
  have hr0 := mapM_length _ _ _ hr
  rw [List.length_map, List.length_range] at hr0
  have : ((List.range (R + 1)).map fun (i : ℕ) => (sig.reverse.drop (i * s1)).take l1).mapM
      (fun f => lpcHelper f (a.order - 1)) = .ok r.reverse := by
    rw [mapM_ok_iff]
    rw [List.forall₂_iff_get]
    refine ⟨by simp [hr0], fun i h1 h2 => ?_⟩
    have hi : i ≤ R := by simp at h1; omega
    have := mapM_getD hr (i := R - i) (by simp) [] ([], 0)
    rw [getD_map_range_lt _ _ (by omega), List.getD_eq_getElem r _ (by omega)] at this
    simp only [List.get_eq_getElem, List.getElem_map, List.getElem_range, List.getElem_reverse, hr0]
    rw [frame_reverse hlen hi, lpcHelper_reverse, this]
    congr 2
  rw [this, ok_bind, List.map_reverse, List.map_reverse]

/-- Default frames (400 samples, hop 160), 400 + 3·160 samples, no pre-emphasis. -/
example (sig : List ℝ) (h : sig.length = 880) : ∃ m, mfcc { preEmph := false } sig = .ok m ∧ m.length = 4 ∧
    mfcc { preEmph := false } sig.reverse = .ok m.reverse := by
  have A := default_auto sig (by omega)
  obtain ⟨m, h1, h2, -⟩ := C108_mfcc { preEmph := false } sig 400 160
    ⟨A.bank, A.filters, A.ceps, A.nfft, A.window, A.hopLe, A.len, A.hop, A.pos, A.long, by simp⟩ 8000 _
    ⟨default_bank_band.scale, default_bank_band.eff, default_bank_band.low0, default_bank_band.lt, default_bank_band.le⟩
    2595 700 MelConst.oshaghnessy rfl rfl rfl rfl
  exact ⟨m, h1, by rw [h2.1, h], C112_reversal mfcc (by simp [rowwiseFeatures]) { preEmph := false } rfl rfl 400 160 A.len A.hop (by norm_num)
    (by norm_num) sig (by rw [h]; norm_num) m h1⟩

end Props
end Spafe
