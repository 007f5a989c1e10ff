import Verif.Props.Reversal
import Verif.Props.DefaultBank

/-! C186: features of a signal whose spectrum is turned upside down. -/

set_option linter.unusedSectionVars false

namespace Spafe
namespace Spec

/-- Every second sample with the opposite sign. This moves each frequency `f` to `fs / 2 - f`. -/
noncomputable def invertSpectrum (x : List ℝ) : List ℝ := (List.range x.length).map fun (t : ℕ) => (-1) ^ t * x.getD t 0

end Spec

namespace Props
open Model XF Spec

theorem invertSpectrum_length (x : List ℝ) : (invertSpectrum x).length = x.length := by simp [invertSpectrum]

theorem invertSpectrum_getD (x : List ℝ) (t : ℕ) : (invertSpectrum x).getD t 0 = (-1) ^ t * x.getD t 0 := by
  by_cases h : t < x.length
  · exact getD_map_range_lt _ _ h
  · rw [List.getD_eq_default _ _ (by rw [invertSpectrum_length]; omega), List.getD_eq_default _ _ (by omega), mul_zero]

theorem invertSpectrum_twice (x : List ℝ) : invertSpectrum (invertSpectrum x) = x := by
  apply ext_getD 0
  · simp [invertSpectrum_length]
  · intro t _
    rw [invertSpectrum_getD, invertSpectrum_getD, ← mul_assoc, ← pow_add, ← two_mul, pow_mul]
    norm_num

/-- Changing the sign of every second sample mirrors the spectrum. -/
theorem dft_invert {u v : List ℝ} {σ : ℝ} (hv : ∀ j, v.getD j 0 = σ * ((-1) ^ j * u.getD j 0)) {m k : ℕ} (hm : m ≠ 0) (hk : k ≤ m) :
    Np.dft v (2 * m) k = σ * (starRingEnd ℂ) (Np.dft u (2 * m) (m - k)) := by
  unfold Np.dft Np.dftC
  rw [map_sum, Finset.mul_sum]
  apply Finset.sum_congr rfl
  intro j _
  beta_reduce
  rw [hv, map_mul, Complex.conj_ofReal, ← Complex.exp_conj]
  have hm' : (m : ℂ) ≠ 0 := by exact_mod_cast hm
  have e : Complex.exp ((starRingEnd ℂ) (-(2 * Real.pi * Complex.I * (j * ((m - k : ℕ) : ℂ)) / ((2 * m : ℕ) : ℂ)))) =
      (-1) ^ j * Complex.exp (-(2 * Real.pi * Complex.I * (j * k) / ((2 * m : ℕ) : ℂ))) := by
    rw [← Complex.exp_pi_mul_I, ← Complex.exp_nat_mul, ← Complex.exp_add]
    congr 1
    simp only [map_neg, map_div₀, map_mul, Complex.conj_I, Complex.conj_ofReal, map_natCast, map_ofNat]
    rw [Nat.cast_sub hk]
    push_cast
    field_simp
    ring
  rw [e]
  push_cast
  ring

theorem absRfft_invert {u v : List ℝ} {σ : ℝ} (hσ : |σ| = 1) (hv : ∀ j, v.getD j 0 = σ * ((-1) ^ j * u.getD j 0)) {n : ℕ}
    (hn : n ≠ 0) (he : Even n) : Np.absRfft n v = (Np.absRfft n u).reverse := by
  obtain ⟨m, rfl⟩ := he
  rw [← two_mul] at *
  apply ext_getD 0
  · simp
  · intro k hk
    have hk : k < 2 * m / 2 + 1 := by simpa using hk
    rw [getD_reverse' _ (by simpa using hk)]
    unfold Np.absRfft
    rw [getD_map_range_lt _ _ hk, getD_map_range_lt _ _ (by simp), dft_invert hv (by omega) (by omega), norm_mul,
      RCLike.norm_conj, Complex.norm_real, Real.norm_eq_abs, hσ, one_mul]
    congr 2
    simp

/-- Pre-emphasis of the inverted signal with the opposite coefficient. -/
theorem emph_invert (a : Args) (c : ℝ) (sig : List ℝ) : emph a (-c) (invertSpectrum sig) = invertSpectrum (emph a c sig) := by
  unfold emph
  split_ifs
  · apply ext_getD 0
    · simp [invertSpectrum_length, (C09_pre_emphasis (α := ℝ) _ _).1]
    · intro t ht
      have ht : t < sig.length := by simpa [invertSpectrum_length, (C09_pre_emphasis (α := ℝ) _ _).1] using ht
      rw [invertSpectrum_getD]
      rcases Nat.eq_zero_or_pos t with rfl | h
      · rw [(C09_pre_emphasis _ _).2.1 (by rwa [invertSpectrum_length]), (C09_pre_emphasis _ _).2.1 ht, invertSpectrum_getD]
      · rw [(C09_pre_emphasis _ _).2.2 t h (by rwa [invertSpectrum_length]), (C09_pre_emphasis _ _).2.2 t h ht, invertSpectrum_getD,
          invertSpectrum_getD]
        obtain ⟨r, rfl⟩ : ∃ r, t = r + 1 := ⟨t - 1, by omega⟩
        rw [Nat.add_sub_cancel, pow_succ]
        ring
  · rfl

/-- The frames of the inverted signal are the frames of the signal, inverted, up to a sign each. -/
theorem frontEnd_invert {a : Args} {c : ℝ} {sig : List ℝ} {W : List (List ℝ)} (hS : 0 < pyInt (a.win.winHop * a.fs))
    (h : frontEnd a c sig = .ok W) : ∃ s : ℕ, frontEnd a (-c) (invertSpectrum sig) =
      .ok ((List.range W.length).map fun (i : ℕ) => (List.range (W.getD i []).length).map fun (j : ℕ) =>
        (-1) ^ (i * s) * ((-1) ^ j * (W.getD i []).getD j 0)) := by
  obtain ⟨e, e0, l, s, w, e1, e2, h0, e3, e4, e5, rfl⟩ := (frontEnd_ok_iff a c sig W hS).mp h
  refine ⟨s, (frontEnd_ok_iff a (-c) _ _ hS).mpr ⟨fun h => e ⟨h.1, ?_⟩, e0, l, s, w, e1, e2, h0, by rwa [invertSpectrum_length], e4, e5, ?_⟩⟩
  · have := congrArg List.length h.2
    rw [invertSpectrum_length] at this
    exact List.length_eq_zero_iff.mp this
  · rw [invertSpectrum_length, List.length_map, List.length_range]
    apply List.map_congr_left
    intro i hi
    have hi := List.mem_range.mp hi
    have hfit := frame_fits e3 hi
    beta_reduce
    rw [getD_map_range_lt _ _ hi, emph_invert]
    apply ext_getD 0
    · simp only [List.length_map, List.length_range, List.length_zipWith, List.length_take, List.length_drop, invertSpectrum_length]
    · intro j hj
      have hj : j < l := by
        simp only [List.length_map, List.length_range, List.length_zipWith, List.length_take, List.length_drop, emph_length, e5] at hj
        omega
      have hz : ∀ y : List ℝ, i * s + l ≤ y.length → (List.zipWith (· * ·) w ((y.drop (i * s)).take l)).getD j 0 =
          w.getD j 0 * y.getD (i * s + j) 0 := by
        intro y hy
        rw [List.getD_eq_getElem _ _ (by simp; omega), List.getElem_zipWith, List.getElem_take, List.getElem_drop,
          List.getD_eq_getElem _ _ (by omega), List.getD_eq_getElem _ _ (by omega)]
      rw [getD_map_range_lt _ _ (by simp [emph_length, e5]; omega), hz (invertSpectrum (emph a c sig)) (by rw [invertSpectrum_length, emph_length]; omega),
        hz (emph a c sig) (by rw [emph_length]; omega), invertSpectrum_getD, pow_add]
      ring

theorem xf_add_left_comm (x y z : XF ℝ) : x + (y + z) = y + (x + z) := by
  show XF.add x (XF.add y z) = XF.add y (XF.add x z)
  cases x <;> cases y <;> cases z <;> simp [XF.add, add_left_comm]

theorem xf_sum_reverse (x : List (XF ℝ)) : x.reverse.sum = x.sum := by
  haveI : LeftCommutative (fun x y : XF ℝ => x + y) := ⟨xf_add_left_comm⟩
  exact (List.reverse_perm x).foldr_eq _

theorem dot_reverse {x y : List (XF ℝ)} (h : x.length = y.length) : Np.dot x.reverse y.reverse = Np.dot x y := by
  unfold Np.dot
  rw [← List.reverse_zipWith h, xf_sum_reverse]

/-- Any bank: the inverted signal seen through the mirrored filters gives the same band energies, and the magnitudes in reverse
order. -/
theorem spectrogram_invert {a : Args} {c : ℝ} {fb : XMat} {sig : List ℝ} {x : XMat} {ft : List (List ℝ)} (he : Even a.nfft)
    (hS : 0 < pyInt (a.win.winHop * a.fs)) (h : spectrogram a c fb sig = .ok (x, ft)) :
    spectrogram a (-c) (fb.map List.reverse) (invertSpectrum sig) = .ok (x, ft.map List.reverse) := by
  obtain ⟨W, h1, h2, h3, rfl, rfl⟩ := (spectrogram_ok_iff ..).mp h
  obtain ⟨s, h4⟩ := frontEnd_invert hS h1
  have habs : ∀ i, Np.absRfft a.nfft ((List.range (W.getD i []).length).map fun (j : ℕ) =>
      (-1) ^ (i * s) * ((-1) ^ j * (W.getD i []).getD j 0)) = (Np.absRfft a.nfft (W.getD i [])).reverse := by
    intro i
    refine absRfft_invert (σ := (-1) ^ (i * s)) (by rw [abs_pow, abs_neg, abs_one, one_pow]) (fun j => ?_) h2 he
    by_cases hj : j < (W.getD i []).length
    · exact getD_map_range_lt _ _ hj
    · rw [List.getD_eq_default _ _ (by simpa using hj), List.getD_eq_default (W.getD i []) _ (by omega), mul_zero, mul_zero]
  have hW : ∀ {β : Type} (g : List ℝ → β), W.map g = (List.range W.length).map fun (i : ℕ) => g (W.getD i []) := by
    intro β g
    apply List.ext_getElem
    · simp
    · intro i p q
      have hi : i < W.length := by simpa using p
      simp only [List.getElem_map, List.getElem_range]
      rw [List.getD_eq_getElem _ _ hi]
  refine (spectrogram_ok_iff ..).mpr ⟨_, h4, h2, ?_, ?_, ?_⟩
  · intro r hr
    obtain ⟨q, hq, rfl⟩ := List.mem_map.mp hr
    rw [List.length_reverse]
    exact h3 q hq
  · rw [hW, List.map_map]
    apply List.map_congr_left
    intro i _
    simp only [Function.comp, specRow, powRow, habs]
    conv_rhs => rw [List.map_map]
    apply List.map_congr_left
    intro f hf
    simp only [Function.comp]
    rw [List.map_reverse, List.map_reverse, dot_reverse]
    simp [h3 f hf]
  · rw [List.map_map, hW, List.map_map]
    apply List.map_congr_left
    intro i _
    simp only [Function.comp, habs]

theorem cepstralTail_reverse (a : Args) (ft : List (List ℝ)) (x : XMat) : cepstralTail a (ft.map List.reverse) x = cepstralTail a ft x := by
  have : (ft.map List.reverse).map (logEnergy a.nfft) = ft.map (logEnergy a.nfft) := by
    rw [List.map_map]
    apply List.map_congr_left
    intro r _
    simp only [Function.comp, logEnergy]
    rw [List.map_reverse, List.sum_reverse]
  simp only [cepstralTail, this]

/-- Any bank and any compression of the band energies. -/
theorem featCore_invert {a : Args} {c : ℝ} {fb : XMat} {g : XF ℝ → XF ℝ} {sig : List ℝ} {m : XMat} (he : Even a.nfft)
    (hS : 0 < pyInt (a.win.winHop * a.fs)) (h : featCore a c fb g sig = .ok m) :
    featCore a (-c) (fb.map List.reverse) g (invertSpectrum sig) = .ok m := by
  unfold featCore at h ⊢
  obtain ⟨⟨x, ft⟩, h1, h2⟩ := (bind_ok_iff ..).mp h
  rw [spectrogram_invert he hS h1, ok_bind]
  exact (cepstralTail_reverse a ft _).trans h2

/-- The arguments with the scale exchanged and the opposite pre-emphasis. -/
noncomputable def mirrored (a : Args) (scale' : String) : Args := { a with scale := scale', preEmphCoeff := -a.preEmphCoeff }

/-- C186: `imfcc` is `mfcc` of the signal with the inverted spectrum. Every option is allowed (DCT type, energy, liftering,
normalisation, window); pre-emphasis changes its sign and ascending filter weights become descending ones. -/
theorem C186_imfcc (a : Args) (hb : a.fbanks = none) (he : Even a.nfft) (hS : 0 < pyInt (a.win.winHop * a.fs)) (high : ℝ)
    (hh : a.high = some high) (h0 : 0 ≤ a.low) (h1 : a.low < high) (h2 : high ≤ a.fs / 2) (scale' : String)
    (hsw : SwapScale a.scale scale') (c d : ℝ) (hm : MelConst a.approach c d) (sig : List ℝ) (m : XMat) :
    imfcc a sig = .ok m ↔ mfcc (mirrored a scale') (invertSpectrum sig) = .ok m := by
  obtain ⟨bank, cs, cs', e1, e2⟩ := C31_inverse_mel_is_mirror hsw hm h0 h1 h2 a.nfilts a.nfft
  have i1 : imfcc a sig = if a.nfilts < a.numCeps then .error (.parameterError ErrorMsgs.nfilts) else
      featCore a a.preEmphCoeff (bank.map List.reverse) logG sig := by
    rw [imfcc_eq, hb, hh, getFbanks, e2]
    rfl
  have i2 : mfcc (mirrored a scale') (invertSpectrum sig) = if a.nfilts < a.numCeps then .error (.parameterError ErrorMsgs.nfilts) else
      featCore a (-a.preEmphCoeff) bank logG (invertSpectrum sig) := by
    rw [mfcc_eq]
    unfold melBankOf mirrored
    simp only
    rw [hb, hh, getFbanks, e1]
    rfl
  rw [i1, i2]
  split_ifs with hc
  · simp
  · constructor
    · intro h
      have := featCore_invert he hS h
      rwa [List.map_map, show (List.reverse ∘ List.reverse : List (XF ℝ) → List (XF ℝ)) = id from funext fun x => by simp,
        List.map_id] at this
    · intro h
      have := featCore_invert he hS h
      rwa [neg_neg, invertSpectrum_twice] at this

/-- C186 for a bank given by the caller: the features with their own pre-emphasis coefficient see the inverted signal through the
mirrored bank as they see the signal through the bank. -/
theorem C186_bank (a : Args) (fb : XMat) (hb : a.fbanks = some fb) (he : Even a.nfft) (hS : 0 < pyInt (a.win.winHop * a.fs))
    (f : Feature) (hf : f ∈ [mfcc, imfcc, msrcc, ngcc]) (sig : List ℝ) (m : XMat) (h : f a sig = .ok m) :
    f { a with fbanks := some (fb.map List.reverse), preEmphCoeff := -a.preEmphCoeff } (invertSpectrum sig) = .ok m := by
  have key : ∀ g, featCore a a.preEmphCoeff fb g sig = .ok m → featCore { a with fbanks := some (fb.map List.reverse), preEmphCoeff := -a.preEmphCoeff }
      (-a.preEmphCoeff) (fb.map List.reverse) g (invertSpectrum sig) = .ok m := fun g h => featCore_invert he hS h
  simp only [List.mem_cons, List.not_mem_nil, or_false] at hf
  rcases hf with rfl | rfl | rfl | rfl
  · rw [mfcc_eq, melBankOf, hb] at h
    rw [mfcc_eq, melBankOf]
    split_ifs at h ⊢
    exact key _ h
  · rw [imfcc_eq, hb] at h
    rw [imfcc_eq]
    split_ifs at h ⊢
    exact key _ h
  · rw [msrcc_eq, melBankOf, hb] at h
    rw [msrcc_eq, melBankOf]
    split_ifs at h ⊢
    exact key _ h
  · rw [ngcc_eq, gammaBankOf, hb] at h
    rw [ngcc_eq, gammaBankOf]
    split_ifs at h ⊢
    exact key _ h

/-! ### Linear filter bank -/

theorem framePower_invert (w : ℕ → ℝ) (sig : List ℝ) (l s i : ℕ) {nfft k : ℕ} (he : Even nfft) (hn : nfft ≠ 0) (hk : k ≤ nfft / 2) :
    framePower w (fun t => (invertSpectrum sig).getD t 0) l s nfft i k = framePower w (fun t => sig.getD t 0) l s nfft i (nfft / 2 - k) := by
  obtain ⟨m, rfl⟩ := he
  rw [← two_mul] at *
  rw [Nat.mul_div_cancel_left m (by norm_num)] at *
  unfold framePower
  have hm' : (m : ℂ) ≠ 0 := by exact_mod_cast (by omega : m ≠ 0)
  have e : frameBin w (fun t => (invertSpectrum sig).getD t 0) l s (2 * m) i k =
      (((-1) ^ (i * s) : ℝ) : ℂ) * (starRingEnd ℂ) (frameBin w (fun t => sig.getD t 0) l s (2 * m) i (m - k)) := by
    unfold frameBin
    rw [map_sum, Finset.mul_sum]
    apply Finset.sum_congr rfl
    intro j _
    beta_reduce
    rw [invertSpectrum_getD, map_mul, Complex.conj_ofReal, ← Complex.exp_conj]
    have e : Complex.exp ((starRingEnd ℂ) (-(2 * Real.pi * Complex.I * (j * ((m - k : ℕ) : ℂ)) / ((2 * m : ℕ) : ℂ)))) =
        (-1) ^ j * Complex.exp (-(2 * Real.pi * Complex.I * (j * k) / ((2 * m : ℕ) : ℂ))) := by
      rw [← Complex.exp_pi_mul_I, ← Complex.exp_nat_mul, ← Complex.exp_add]
      congr 1
      simp only [map_neg, map_div₀, map_mul, Complex.conj_I, Complex.conj_ofReal, map_natCast, map_ofNat]
      rw [Nat.cast_sub hk]
      push_cast
      field_simp
      ring
    rw [e, pow_add]
    push_cast
    ring
  rw [e, norm_mul, RCLike.norm_conj, Complex.norm_real, Real.norm_eq_abs, abs_pow, abs_neg, abs_one, one_pow, one_mul]

/-- The DCT of the mirrored sequence: odd coefficients change their sign. -/
theorem dctII_reflect (N : ℕ) (y : ℕ → ℝ) (k : ℕ) : dctII N (fun n => y (N - 1 - n)) k = (-1) ^ k * dctII N y k := by
  rcases Nat.eq_zero_or_pos N with rfl | hN
  · simp [dctII]
  have hN' : (N : ℝ) ≠ 0 := by exact_mod_cast hN.ne'
  have key : ∑ n ∈ Finset.range N, y (N - 1 - n) * Real.cos (Real.pi * k * (2 * n + 1) / (2 * N)) =
      (-1) ^ k * ∑ n ∈ Finset.range N, y n * Real.cos (Real.pi * k * (2 * n + 1) / (2 * N)) := by
    rw [Finset.mul_sum, ← Finset.sum_range_reflect]
    apply Finset.sum_congr rfl
    intro n hn
    have hn := Finset.mem_range.mp hn
    rw [show N - 1 - (N - 1 - n) = n by omega]
    have e : Real.pi * k * (2 * ((N - 1 - n : ℕ) : ℝ) + 1) / (2 * N) = k * Real.pi - Real.pi * k * (2 * n + 1) / (2 * N) := by
      rw [Nat.cast_sub (by omega), Nat.cast_sub (by omega)]
      push_cast
      field_simp
      ring
    rw [e, Real.cos_nat_mul_pi_sub]
    ring
  unfold dctII
  rw [key]
  ring

theorem scale_cases {scale : String} {w : ℕ → ℕ → ℝ} (h : Scale scale w) :
    (scale = "ascendant" ∧ w = fun (n j : ℕ) => ((j : ℝ) + 1) / n) ∨ (scale = "descendant" ∧ w = fun (n j : ℕ) => ((n : ℝ) - j) / n) ∨
      (scale = "constant" ∧ w = fun _ _ => 1) := by
  cases h <;> simp

theorem swap_cases {s t : String} (h : SwapScale s t) :
    (s = "ascendant" ∧ t = "descendant") ∨ (s = "descendant" ∧ t = "ascendant") ∨ (s = "constant" ∧ t = "constant") := by
  cases h <;> simp

theorem swap_scale_weight {scale scale' : String} {w w' : ℕ → ℕ → ℝ} (hsw : SwapScale scale scale') (hw : Scale scale w)
    (hw' : Scale scale' w') {n j : ℕ} (hj : j < n) : w' n j = w n (n - 1 - j) := by
  have hn : (n : ℝ) ≠ 0 := by exact_mod_cast (by omega : n ≠ 0)
  have hc : ((n - 1 - j : ℕ) : ℝ) = n - 1 - j := by rw [Nat.cast_sub (by omega), Nat.cast_sub (by omega), Nat.cast_one]
  rcases swap_cases hsw with ⟨rfl, rfl⟩ | ⟨rfl, rfl⟩ | ⟨rfl, rfl⟩ <;> rcases scale_cases hw with ⟨h1, rfl⟩ | ⟨h1, rfl⟩ | ⟨h1, rfl⟩ <;>
    rcases scale_cases hw' with ⟨h2, rfl⟩ | ⟨h2, rfl⟩ | ⟨h2, rfl⟩ <;>
    first
    | exact absurd h1 (by decide)
    | exact absurd h2 (by decide)
    | rfl
    | (beta_reduce; rw [hc]; ring)

theorem lin_mirror {low high : ℝ} {n j : ℕ} (hj : j ≤ n + 1) :
    linPoint low high n (n + 1 - j) = low + high - linPoint low high n j := by
  have hn : (n : ℝ) + 1 ≠ 0 := by positivity
  unfold linPoint
  rw [Nat.cast_sub hj]
  push_cast
  field_simp
  ring

theorem tri_mirror (p l c u f : ℝ) : tri (p - u) (p - c) (p - l) (p - f) = tri l c u f := by
  unfold tri
  rw [min_comm]
  congr 2 <;> congr 1 <;> ring

theorem col_mirror {low high : ℝ} {nfft k : ℕ} (h2 : nfft / 2 ≠ 0) (hk : k ≤ nfft / 2) :
    colFreq low high nfft (nfft / 2 - k) = low + high - colFreq low high nfft k := by
  have : ((nfft / 2 : ℕ) : ℝ) ≠ 0 := by exact_mod_cast h2
  unfold colFreq
  rw [Nat.cast_sub hk]
  field_simp
  ring

/-- C186 for `lfcc`, without pre-emphasis: inverting the spectrum changes the sign of the odd coefficients. -/
theorem C186_lfcc (a : Args) (sig : List ℝ) (l s : ℕ) (h : Auto a sig l s) (high : ℝ) (w w' : ℕ → ℕ → ℝ) (hb : Band a high w)
    (scale' : String) (hsw : SwapScale a.scale scale') (hw' : Scale scale' w') (he : Even a.nfft) (hp : a.preEmph = false)
    (hd : a.dctType = 2) (hu : a.useEnergy = false) (hl : a.lifter = none) (hn : a.normalize = none) :
    ∃ m m', lfcc a sig = .ok m ∧ lfcc { a with scale := scale' } (invertSpectrum sig) = .ok m' ∧
      HasShape m ((sig.length - l) / s + 1) a.numCeps ∧ HasShape m' ((sig.length - l) / s + 1) a.numCeps ∧
      ∀ i k, i < (sig.length - l) / s + 1 → k < a.numCeps →
        ∃ x, (m.getD i []).getD k nan = fin x ∧ (m'.getD i []).getD k nan = fin ((-1) ^ k * x) := by
  obtain ⟨m, h1, h2, h3⟩ := C108_lfcc a sig l s h high w hb hd hu hl hn
  obtain ⟨m', h1', h2', h3'⟩ := C108_lfcc { a with scale := scale' } (invertSpectrum sig) l s
    ⟨h.bank, h.filters, h.ceps, h.nfft, h.window, h.hopLe, h.len, h.hop, h.pos, by rw [invertSpectrum_length]; exact h.long,
      fun q => absurd (hp.symm.trans q) (by simp)⟩ high w' ⟨hw', hb.eff, hb.low0, hb.lt, hb.le⟩ hd hu hl hn
  rw [invertSpectrum_length] at h2' h3'
  refine ⟨m, m', h1, h1', h2, h2', fun i k hi hk => ⟨_, h3 i k hi hk, ?_⟩⟩
  have e3 := h3' i k hi hk
  change _ = fin (dctII a.nfilts (fun j => logFloor (weightedEnergy (fun b => w' a.nfilts j *
    tri (linPoint a.low high a.nfilts j) (linPoint a.low high a.nfilts (j + 1))
      (linPoint a.low high a.nfilts (j + 2)) (colFreq a.low high a.nfft b))
    (windowWeight a.win.winType l) (emphasised a.preEmph 0.97 (invertSpectrum sig)) l s a.nfft i)) k) at e3
  have hem : ∀ x : List ℝ, emphasised a.preEmph 0.97 x = fun t => x.getD t 0 := fun x => by
    funext t
    simp [emphasised, hp]
  rw [e3, ← dctII_reflect, hem, hem]
  congr 1
  unfold dctII
  congr 1
  apply Finset.sum_congr rfl
  intro j hj
  have hj : j < a.nfilts := Finset.mem_range.mp hj
  have hnf : a.nfft / 2 ≠ 0 := by
    obtain ⟨q, hq⟩ := he
    have := h.nfft
    omega
  refine congrArg₂ (· * ·) (congrArg logFloor ?_) rfl
  unfold weightedEnergy
  rw [← Finset.sum_range_reflect]
  apply Finset.sum_congr rfl
  intro b hb'
  have hb' : b < a.nfft / 2 + 1 := Finset.mem_range.mp hb'
  beta_reduce
  rw [show a.nfft / 2 + 1 - 1 - b = a.nfft / 2 - b by omega, framePower_invert _ _ _ _ _ he h.nfft (by omega),
    show a.nfft / 2 - (a.nfft / 2 - b) = b by omega, swap_scale_weight hsw hb.scale hw' hj, col_mirror hnf (by omega),
    show linPoint a.low high a.nfilts j = a.low + high - linPoint a.low high a.nfilts (a.nfilts - 1 - j + 2) by
      rw [← lin_mirror (by omega)]; congr 1; omega,
    show linPoint a.low high a.nfilts (j + 1) = a.low + high - linPoint a.low high a.nfilts (a.nfilts - 1 - j + 1) by
      rw [← lin_mirror (by omega)]; congr 1; omega,
    show linPoint a.low high a.nfilts (j + 2) = a.low + high - linPoint a.low high a.nfilts (a.nfilts - 1 - j) by
      rw [← lin_mirror (by omega)]; congr 1; omega, tri_mirror]

/-! ### Linear prediction -/

theorem autoCorr_invert (x : List ℝ) (σ : ℝ) (hσ : σ * σ = 1) (y : List ℝ) (hl : y.length = x.length)
    (hy : ∀ t, y.getD t 0 = σ * ((-1) ^ t * x.getD t 0)) (k : ℕ) : autoCorr y k = (-1) ^ k * autoCorr x k := by
  unfold autoCorr
  rw [hl, Finset.mul_sum]
  apply Finset.sum_congr rfl
  intro n _
  have e : ∀ (z : List ℝ) (q : ℕ), ext z (q : ℤ) = z.getD q 0 := fun z q => by unfold ext; rw [if_pos (by omega)]; simp
  have c : ((n : ℤ) + (k : ℤ)) = ((n + k : ℕ) : ℤ) := by push_cast; ring
  rw [c, e, e, e, e, hy, hy, pow_add]
  have : ((-1 : ℝ) ^ n) * (-1) ^ n = 1 := by rw [← mul_pow]; norm_num
  linear_combination ((-1 : ℝ) ^ n * (-1) ^ n * (-1) ^ k * x.getD n 0 * x.getD (n + k) 0) * hσ +
    ((-1) ^ k * x.getD n 0 * x.getD (n + k) 0) * this

theorem predictor_invert {x y : List ℝ} {p : ℕ} {b : ℕ → ℝ} (hr : ∀ k, autoCorr y k = (-1) ^ k * autoCorr x k) (h : IsPredictor x p b) :
    IsPredictor y p fun k => (-1) ^ k * b k := by
  refine ⟨by simpa using h.one, fun i h1 h2 => ?_⟩
  have := congrArg (fun v => (-1 : ℝ) ^ i * v) (h.normal i h1 h2)
  beta_reduce at this
  rw [hr, ← mul_neg, ← this, Finset.mul_sum]
  apply Finset.sum_congr rfl
  intro k _
  rw [hr]
  have e : (-1 : ℝ) ^ k * (-1) ^ ((i : ℤ) - (k : ℤ)).natAbs = (-1) ^ i := by
    rw [← pow_add]
    rcases le_total k i with hk | hk
    · congr 1; omega
    · rw [show k + ((i : ℤ) - (k : ℤ)).natAbs = i + 2 * (k - i) by omega, pow_add, pow_mul]
      norm_num
  linear_combination (b k * autoCorr x ((i : ℤ) - (k : ℤ)).natAbs) * e

/-- C186 for `lpc`, without pre-emphasis: inverting the spectrum changes the sign of the odd coefficients. -/
theorem C186_lpc (a : LpcArgs) (sig : List ℝ) (l s : ℕ) (hl : pyInt (a.win.winLen * a.fs) = l) (hs : pyInt (a.win.winHop * a.fs) = s)
    (hs0 : 0 < s) (hl0 : 0 < l) (ho : 2 ≤ a.order) (hp : a.preEmph = false) (M : List (List ℝ)) (E : List ℝ)
    (h : lpc a sig = .ok (M, E)) :
    ∃ M' E', lpc a (invertSpectrum sig) = .ok (M', E') ∧ HasShape M ((sig.length - l) / s + 1) a.order ∧
      HasShape M' ((sig.length - l) / s + 1) a.order ∧
      ∀ i k, i < (sig.length - l) / s + 1 → k < a.order → (M'.getD i []).getD k 0 = (-1) ^ k * (M.getD i []).getD k 0 := by
  have hS : 0 < pyInt (a.win.winHop * a.fs) := by omega
  obtain ⟨F, hF, -⟩ := C59_lpc a sig M E h
  obtain ⟨-, hhop, l1, s1, e1, e2, -, hle, hw, -⟩ := (lpcFrames_ok_iff a sig F hS).mp hF
  obtain rfl : l1 = l := by omega
  obtain ⟨-, hFe⟩ := lpcFrames_meaning hl hs hs0 hF
  have hF' := (lpcFrames_ok_iff a (invertSpectrum sig) _ hS).mpr ⟨by simp [hp], hhop, l1, s, hl, hs, hs0,
    by rw [invertSpectrum_length]; exact hle, hw, rfl⟩
  obtain ⟨-, hFe'⟩ := lpcFrames_meaning hl hs hs0 hF'
  have hsil := (C61_lpc_defined_iff a sig F hF hS (by omega) ho).1.mp ⟨_, h⟩
  have hem : ∀ x : List ℝ, emphasised a.preEmph 0.97 x = fun t => x.getD t 0 := fun x => by
    funext t
    simp [emphasised, hp]
  rw [hem] at hFe hFe'
  rw [invertSpectrum_length] at hFe'
  have hval : ∀ i, ∀ t, ((List.range l1).map fun (j : ℕ) => (invertSpectrum sig).getD (i * s + j) 0).getD t 0 =
      (-1) ^ (i * s) * ((-1) ^ t * ((List.range l1).map fun (j : ℕ) => sig.getD (i * s + j) 0).getD t 0) := by
    intro i t
    by_cases ht : t < l1
    · rw [getD_map_range_lt _ _ ht, getD_map_range_lt _ _ ht, invertSpectrum_getD, pow_add]
      ring
    · rw [List.getD_eq_default _ _ (by simp; omega), List.getD_eq_default _ _ (by simp; omega), mul_zero, mul_zero]
  have hσ : ∀ i : ℕ, ((-1 : ℝ) ^ (i * s)) * (-1) ^ (i * s) = 1 := fun i => by rw [← mul_pow]; norm_num
  have hns : ∀ i < (sig.length - l1) / s + 1, NotSilent ((List.range l1).map fun (j : ℕ) => (invertSpectrum sig).getD (i * s + j) 0) := by
    intro i hi
    obtain ⟨v, hv, hne⟩ := hsil _ (by rw [hFe]; exact List.mem_map_of_mem (List.mem_range.mpr hi))
    obtain ⟨t, ht, rfl⟩ := List.mem_iff_getElem.mp hv
    have ht' : t < l1 := by simpa using ht
    refine ⟨_, getD_mem 0 (i := t) (by simpa using ht'), ?_⟩
    rw [hval, List.getD_eq_getElem _ _ ht]
    exact mul_ne_zero (by positivity) (mul_ne_zero (by positivity) hne)
  obtain ⟨⟨M', E'⟩, hq⟩ := (C61_lpc_defined_iff a (invertSpectrum sig) _ hF' hS (by omega) ho).1.mpr (by
    rw [invertSpectrum_length, hFe']
    intro g hg
    obtain ⟨i, hi, rfl⟩ := List.mem_map.mp hg
    exact hns i (List.mem_range.mp hi))
  obtain ⟨g1, -, g2⟩ := C107_lpc_meaning a sig l1 s hl hs hs0 M E h
  obtain ⟨g1', -, g2'⟩ := C107_lpc_meaning a _ l1 s hl hs hs0 M' E' hq
  rw [invertSpectrum_length] at g1' g2'
  rw [Nat.sub_add_cancel (by omega)] at g1 g1'
  refine ⟨M', E', hq, g1, g1', fun i k hi hk => ?_⟩
  obtain ⟨p1, -⟩ := g2 i hi _ rfl
  obtain ⟨p2, -⟩ := g2' i hi _ rfl
  rw [hem] at p1 p2
  have p3 := predictor_invert (autoCorr_invert _ _ (hσ i) _ (by simp) (hval i)) p1
  exact C107_predictor_unique _ (hns i hi) _ _ _ p2 p3 k (by omega)

/-- C186, what `invertSpectrum` does to a tone: `f` becomes `fs / 2 - f`. -/
theorem C186_tone (x : List ℝ) (fs f A φ : ℝ) (hfs : fs ≠ 0)
    (hx : ∀ t < x.length, x.getD t 0 = A * Real.cos (2 * Real.pi * f * t / fs + φ)) :
    (invertSpectrum x).length = x.length ∧
      ∀ t < x.length, (invertSpectrum x).getD t 0 = A * Real.cos (2 * Real.pi * (fs / 2 - f) * t / fs - φ) := by
  refine ⟨invertSpectrum_length x, fun t ht => ?_⟩
  rw [invertSpectrum_getD, hx t ht,
    show 2 * Real.pi * (fs / 2 - f) * t / fs - φ = t * Real.pi - (2 * Real.pi * f * t / fs + φ) by field_simp; ring,
    Real.cos_nat_mul_pi_sub]
  ring

/-! The default arguments meet the hypotheses. -/

example : invertSpectrum [1, 2, 3, 4] = [1, -2, 3, -4] := by
  simp [invertSpectrum, List.range_succ, pow_succ]

example (sig : List ℝ) (h : 400 ≤ sig.length) : ∃ m, imfcc { high := some 8000 } sig = .ok m ∧
    mfcc { high := some 8000, preEmphCoeff := -0.97 } (invertSpectrum sig) = .ok m := by
  have h2 := default_auto sig h
  obtain ⟨m, h1, -⟩ := C108_imfcc { high := some 8000 } sig 400 160
    ⟨h2.bank, h2.filters, h2.ceps, h2.nfft, h2.window, h2.hopLe, h2.len, h2.hop, h2.pos, h2.long, h2.samples⟩ 8000 rfl
    default_bank_band.low0 default_bank_band.lt default_bank_band.le "constant" SwapScale.constant _ Scale.constant 2595 700
    MelConst.oshaghnessy (by norm_num) rfl rfl rfl rfl
  exact ⟨m, h1, (C186_imfcc { high := some 8000 } rfl ⟨256, rfl⟩ (h2.hop ▸ by norm_num) 8000 rfl default_bank_band.low0
    default_bank_band.lt default_bank_band.le "constant" .constant 2595 700 .oshaghnessy sig m).mp h1⟩

example (sig : List ℝ) (h : 400 ≤ sig.length) : ∃ m m' x, lfcc { preEmph := false } sig = .ok m ∧
    lfcc { preEmph := false } (invertSpectrum sig) = .ok m' ∧ (m.getD 0 []).getD 3 nan = fin x ∧ (m'.getD 0 []).getD 3 nan = fin (-x) := by
  have h2 := default_auto sig h
  obtain ⟨m, m', h1, h1', -, -, h3⟩ := C186_lfcc { preEmph := false } sig 400 160
    ⟨h2.bank, h2.filters, h2.ceps, h2.nfft, h2.window, h2.hopLe, h2.len, h2.hop, h2.pos, h2.long, nofun⟩ 8000 _ _
    ⟨default_bank_band.scale, default_bank_band.eff, default_bank_band.low0, default_bank_band.lt, default_bank_band.le⟩ "constant"
    .constant .constant ⟨256, rfl⟩ rfl rfl rfl rfl rfl
  obtain ⟨x, hx, hx'⟩ := h3 0 3 (by omega) (by norm_num)
  exact ⟨m, m', x, h1, h1', hx, by rw [hx']; congr 1; ring⟩

/-- `lpc` of `1, 1, 1` and of `1, -1, 1`: the predictors `1, -2/3` and `1, 2/3`. -/
example : ∃ M' E', lpc lpcDemo [1, -1, 1] = .ok (M', E') ∧ (M'.getD 0 []).getD 1 0 = 2 / 3 := by
  obtain ⟨e, he⟩ := ones_helper
  have hf : lpcFrames lpcDemo [1, 1, 1] = .ok [[1, 1, 1]] := lpcDemo_frames 0.97 false
  have h3 : pyInt ((3 : ℝ) * 1) = ((3 : ℕ) : ℤ) := by norm_num [pyInt]
  have hm : lpc lpcDemo [1, 1, 1] = .ok ([[1, -2 / 3]], [e]) := by
    simp only [lpc, hf, ok_bind]
    show (List.mapM (fun f => lpcHelper f 1) [[1, 1, 1]] >>= _) = _
    rw [List.mapM_cons, he, ok_bind]
    rfl
  obtain ⟨M', E', h4, -, -, h5⟩ := C186_lpc lpcDemo [1, 1, 1] 3 3 h3 h3 (by norm_num) (by norm_num) (by simp [lpcDemo]) rfl _ _ hm
  refine ⟨M', E', ?_, ?_⟩
  · rw [← h4]; congr 1; simp [invertSpectrum, List.range_succ]
  · rw [h5 0 1 (by simp) (by simp [lpcDemo])]; norm_num

end Props
end Spafe
