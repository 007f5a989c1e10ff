import Verif.Props.Spfeats
import Verif.Lemmas.Cqt

/-! C168, C169: which samples `extract_feats` looks at, and what `spectral_flux` measures (`spfeats.py:236-336`). -/

set_option linter.unusedSectionVars false

namespace Spafe
namespace Spec

/-- The flux of the docstring (`spfeats.py:253`): the `p`-norm of the change of the magnitudes from the spectrum `s` of one time to the
spectrum `t` of the next. The formula there is not well formed; this is the reading of the text above it (`spfeats.py:238-241`). -/
noncomputable def docFlux (s t : List ℂ) (p : ℕ) : ℝ :=
  (∑ k ∈ Finset.range t.length, |mag t k - mag s k| ^ p) ^ (1 / (p : ℝ))

end Spec

namespace Props
open Model XF Spec

theorem rfft_congr {x y : List ℝ} {n : ℕ} (h : ∀ j < n, x.getD j 0 = y.getD j 0) : rfft x n = rfft y n := by
  have hd : ∀ k, Np.dft x n k = Np.dft y n k := by
    intro k
    unfold Np.dft Np.dftC
    refine Finset.sum_congr rfl fun j hj => ?_
    simp only [h j (Finset.mem_range.mp hj)]
  unfold rfft
  simp only [hd]

/-- A real signal of `n` samples is determined by its bins up to `n / 2`. -/
theorem rfft_injective {x y : List ℝ} {n : ℕ} (hn : n ≠ 0) (h : ∀ k < n / 2 + 1, Np.dft x n k = Np.dft y n k) (j : ℕ) (hj : j < n) :
    x.getD j 0 = y.getD j 0 := by
  have hall : ∀ k < n, Np.dft x n k = Np.dft y n k := by
    intro k hk
    by_cases hk2 : k < n / 2 + 1
    · exact h k hk2
    · have e : k = n - (n - k) := by omega
      rw [e, dft_symm' x (by omega : n - k < n), dft_symm' y (by omega : n - k < n), h (n - k) (by omega)]
  have hx := dft_inverse (fun j => ((x.getD j 0 : ℝ) : ℂ)) hj
  have hy := dft_inverse (fun j => ((y.getD j 0 : ℝ) : ℂ)) hj
  have hs : ∑ k ∈ Finset.range n, Np.dftC (fun j => ((x.getD j 0 : ℝ) : ℂ)) n k * Complex.exp (2 * Real.pi * Complex.I * (k * j) / n) =
      ∑ k ∈ Finset.range n, Np.dftC (fun j => ((y.getD j 0 : ℝ) : ℂ)) n k * Complex.exp (2 * Real.pi * Complex.I * (k * j) / n) :=
    Finset.sum_congr rfl fun k hk => by
      have := hall k (Finset.mem_range.mp hk)
      unfold Np.dft at this
      rw [this]
  rw [hs, hy] at hx
  have hn' : (n : ℂ) ≠ 0 := by exact_mod_cast hn
  exact (Complex.ofReal_injective (mul_left_cancel₀ hn' hx)).symm

/-- **C168**: two signals have the same spectral features exactly when their first `nfft` samples agree (missing samples count as 0). -/
theorem C168_reach (x y : List ℝ) (fs : ℝ) (hfs : fs ≠ 0) (n : ℕ) (hn : n ≠ 0) :
    extractFeats x fs n = extractFeats y fs n ↔ ∀ j < n, x.getD j 0 = y.getD j 0 := by
  constructor
  · intro h
    obtain ⟨f, hf⟩ := C76_defined x fs hfs n hn
    have hg := h ▸ hf
    refine rfft_injective hn fun k hk => ?_
    have h1 := C76_rolloff_swapped x fs n f hf k hk
    have h2 := C76_rolloff_swapped y fs n f hg k hk
    rw [h1] at h2
    refine mul_right_cancel₀ ?_ h2
    exact_mod_cast abs_ne_zero.mpr hfs
  · intro h
    unfold extractFeats
    rw [rfft_congr h]

/-- **C168** (negation): everything after the first `nfft` samples is ignored. -/
theorem C168_ignored (x t t' : List ℝ) (fs : ℝ) (n : ℕ) (hx : n ≤ x.length) : extractFeats (x ++ t) fs n = extractFeats (x ++ t') fs n := by
  unfold extractFeats
  rw [rfft_congr (n := n) (x := x ++ t) (y := x ++ t') fun j hj => by
    rw [List.getD_append _ _ _ _ (by omega), List.getD_append _ _ _ _ (by omega)]]

/-- **C168** (negation, witness): with the default `nfft` a second of silence and a signal that is silent for the first 32 ms only cannot be
told apart: both have the centroid NaN of silence. -/
theorem C168_violated : ∃ f, extractFeats (List.replicate 16000 0) 16000 512 = .ok f ∧ f.centroid = nan ∧
    extractFeats (List.replicate 512 0 ++ List.replicate 15488 1) 16000 512 = .ok f := by
  obtain ⟨f, hf⟩ := C76_defined (List.replicate 16000 0) 16000 (by norm_num) 512 (by norm_num)
  refine ⟨f, hf, ?_, ?_⟩
  · obtain ⟨s, hs, hc, -⟩ := extractFeats_ok_iff _ _ _ f hf
    unfold rfft at hs
    rw [if_neg (by norm_num)] at hs
    injection hs with hs
    have hz : ∀ z ∈ s, z = 0 := by
      intro z hz
      rw [← hs] at hz
      obtain ⟨k, -, rfl⟩ := List.mem_map.mp hz
      unfold Np.dft Np.dftC
      refine Finset.sum_eq_zero fun j _ => ?_
      have : (List.replicate 16000 (0 : ℝ)).getD j 0 = 0 := by
        rw [getD_replicate']
        split_ifs <;> rfl
      beta_reduce
      rw [this, Complex.ofReal_zero, zero_mul]
    have hne : s ≠ [] := by
      intro h0
      have := congrArg List.length (hs.trans h0)
      rw [List.length_map, List.length_range, List.length_nil] at this
      omega
    have := (C72_degenerate 16000 s 1).2 (by norm_num) hne hz
    rw [hc] at this
    injection this
  · rw [← hf]
    have e : List.replicate 16000 (0 : ℝ) = List.replicate 512 0 ++ List.replicate 15488 0 := by
      rw [List.replicate_append_replicate]
    rw [e]
    exact C168_ignored _ _ _ _ _ (by rw [List.length_replicate])

/-- **C168** (partial): signals of the same length, at most `nfft`, are told apart by their features. Missing: longer signals, for which it is
false (`C168_ignored`). -/
theorem C168_whole_partial (x y : List ℝ) (hl : x.length = y.length) (fs : ℝ) (hfs : fs ≠ 0) (n : ℕ) (hn : n ≠ 0) (hx : x.length ≤ n) :
    extractFeats x fs n = extractFeats y fs n ↔ x = y := by
  rw [C168_reach x y fs hfs n hn]
  constructor
  · intro h
    refine List.ext_getElem hl fun j h1 h2 => ?_
    have := h j (by omega)
    rwa [List.getD_eq_getElem _ _ h1, List.getD_eq_getElem _ _ h2] at this
  · rintro rfl _ _
    rfl

/-! ### C169 -/

/-- **C169** (partial): `spectral_flux` is the documented flux from the spectrum without its last bin to the spectrum without its first one: the
previous spectrum is the same one, moved by one bin. Missing: any other previous spectrum, which is not among the arguments. -/
theorem C169_neighbours_partial (s : List ℂ) (p : ℕ) (hp : p ≠ 0) : spectralFlux s p = .ok (docFlux s.dropLast s.tail p) := by
  rw [(C74_meaning s p).1 hp]
  unfold flux docFlux
  congr 2
  rw [List.length_tail]
  refine Finset.sum_congr rfl fun k hk => ?_
  have hk := Finset.mem_range.mp hk
  have h1 : mag s.tail k = mag s (k + 1) := by
    unfold mag
    cases s with
    | nil => rfl
    | cons a l => simp
  have h2 : mag s.dropLast k = mag s k := by
    unfold mag
    rw [List.getD_eq_getElem _ _ (by rw [List.length_dropLast]; exact hk), List.getD_eq_getElem _ _ (by omega), List.getElem_dropLast]
  rw [h1, h2]

/-- A click of height `A` at sample `m`. -/
noncomputable def clickSig (A : ℝ) (m : ℕ) : List ℝ := List.replicate m 0 ++ [A]

theorem click_norm (A : ℝ) {m n : ℕ} (h : m < n) (k : ℕ) : ‖Np.dft (clickSig A m) n k‖ = |A| := by
  unfold Np.dft Np.dftC
  rw [Finset.sum_eq_single m]
  · have : (clickSig A m).getD m 0 = A := by simp [clickSig]
    beta_reduce
    rw [this, norm_mul, Complex.norm_real, Real.norm_eq_abs]
    have e : -(2 * (Real.pi : ℂ) * Complex.I * (m * k) / n) = ((-(2 * Real.pi * (m * k) / n) : ℝ) : ℂ) * Complex.I := by
      push_cast
      ring
    rw [e, Complex.norm_exp_ofReal_mul_I, mul_one]
  · intro j _ hj
    have : (clickSig A m).getD j 0 = 0 := by
      unfold clickSig
      rcases Nat.lt_or_ge j m with h1 | h1
      · rw [List.getD_append _ _ _ _ (by simpa using h1)]
        rw [getD_replicate']
        split_ifs <;> rfl
      · exact List.getD_eq_default _ _ (by simp; omega)
    beta_reduce
    rw [this, Complex.ofReal_zero, zero_mul]
  · intro h'
    exact absurd (Finset.mem_range.mpr h) h'

/-- **C169** (negation): a click anywhere in the analysed samples has flux 0; a constant, whose spectrum does not change at all, has flux
`nfft * |c|`. -/
theorem C169_violated (fs : ℝ) (n : ℕ) (hn : 2 ≤ n) (A c : ℝ) (m : ℕ) (hm : m < n) (f g : SpectralFeats)
    (hf : extractFeats (clickSig A m) fs n = .ok f) (hg : extractFeats (List.replicate n c) fs n = .ok g) :
    f.flux = 0 ∧ g.flux = n * |c| := by
  constructor
  · obtain ⟨s, hs, -, -, -, -, -, -, -, hfl, -⟩ := extractFeats_ok_iff _ _ _ f hf
    unfold rfft at hs
    rw [if_neg (by omega)] at hs
    injection hs with hs
    obtain ⟨v, h1, -, h2⟩ := C74_nonneg_zero_iff s 2 two_ne_zero
    rw [hfl] at h1
    injection h1 with h1
    rw [h1]
    refine h2.mpr fun a ha b hb => ?_
    rw [← hs] at ha hb
    obtain ⟨k, -, rfl⟩ := List.mem_map.mp ha
    obtain ⟨l, -, rfl⟩ := List.mem_map.mp hb
    rw [click_norm A hm, click_norm A hm]
  · obtain ⟨s, hs, -, -, -, -, -, -, -, hfl, -⟩ := extractFeats_ok_iff _ _ _ g hg
    unfold rfft at hs
    rw [if_neg (by omega)] at hs
    injection hs with hs
    have h1 := (C74_meaning s 2).1 two_ne_zero
    rw [hfl] at h1
    injection h1 with h1
    rw [h1]
    have hl : s.length = n / 2 + 1 := by rw [← hs]; simp
    have hmag : ∀ k < n / 2 + 1, mag s k = if k = 0 then n * |c| else 0 := by
      intro k hk
      unfold mag
      rw [← hs, getD_map_range_lt _ _ hk]
      split_ifs with h0
      · subst h0
        have e : Np.dft (List.replicate n c) n 0 = ((n * c : ℝ) : ℂ) := by
          unfold Np.dft Np.dftC
          rw [Finset.sum_congr rfl fun (j : ℕ) hj => show (((List.replicate n c).getD j 0 : ℝ) : ℂ) *
              Complex.exp (-(2 * Real.pi * Complex.I * (j * (0 : ℕ)) / n)) = (c : ℂ) by
            rw [getD_replicate', if_pos (Finset.mem_range.mp hj)]; simp]
          simp
        rw [e, Complex.norm_real, Real.norm_eq_abs, abs_mul, Nat.abs_cast]
      · rw [dft_const_zero c (by omega) (by omega), norm_zero]
    unfold flux
    rw [hl, Nat.add_sub_cancel, Finset.sum_eq_single 0]
    · rw [hmag 0 (by omega), hmag (0 + 1) (by omega)]
      simp only [if_true, Nat.zero_add, one_ne_zero, if_false, zero_sub, abs_neg, sq_abs]
      rw [show (1 / ((2 : ℕ) : ℝ)) = 1 / 2 by norm_num, ← Real.sqrt_eq_rpow, Real.sqrt_sq (by positivity)]
    · intro k hk h0
      have hk := Finset.mem_range.mp hk
      rw [hmag k (by omega), hmag (k + 1) (by omega), if_neg h0, if_neg (by omega), sub_zero, abs_zero, zero_pow two_ne_zero]
    · intro h
      exact absurd (Finset.mem_range.mpr (by omega)) h

/-- The documented flux between equal spectra is 0. -/
theorem C169_documented (s : List ℂ) (p : ℕ) (hp : p ≠ 0) : docFlux s s p = 0 := by
  unfold docFlux
  rw [Finset.sum_eq_zero fun k _ => by rw [sub_self, abs_zero, zero_pow hp]]
  exact Real.zero_rpow (by positivity)

example : ∃ f g, extractFeats (clickSig 1 3) 8000 8 = .ok f ∧ extractFeats (List.replicate 8 1) 8000 8 = .ok g ∧ f.flux = 0 ∧ g.flux = 8 := by
  obtain ⟨f, hf⟩ := C76_defined (clickSig 1 3) 8000 (by norm_num) 8 (by norm_num)
  obtain ⟨g, hg⟩ := C76_defined (List.replicate 8 1) 8000 (by norm_num) 8 (by norm_num)
  obtain ⟨h1, h2⟩ := C169_violated 8000 8 (by norm_num) 1 1 3 (by norm_num) f g hf hg
  exact ⟨f, g, hf, hg, h1, by rw [h2]; norm_num⟩

example : extractFeats [1, 2] 8000 4 ≠ extractFeats [1, 3] 8000 4 := by
  rw [Ne, C168_whole_partial [1, 2] [1, 3] rfl 8000 (by norm_num) 4 (by norm_num) (by simp)]
  intro h
  norm_num at h

end Props
end Spafe
