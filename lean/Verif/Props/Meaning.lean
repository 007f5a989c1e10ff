import Verif.Spec.Meaning
import Verif.Props.Features3

/-!
C101: what the cepstral features compute, end to end. C14: the window formulas.
-/

set_option linter.unusedSectionVars false

namespace Spafe
namespace Props

open Model XF Spec

private theorem cos_shift {M : ℕ} (hM : 2 ≤ M) (i : ℕ) :
    Real.cos (Real.pi * (1 - M + 2 * i) / (M - 1)) = -Real.cos (2 * Real.pi * i / (M - 1)) := by
  have h : ((M : ℝ) - 1) ≠ 0 := by
    have : (2 : ℝ) ≤ M := by exact_mod_cast hM
    linarith
  have : Real.pi * (1 - M + 2 * i) / (M - 1) = 2 * Real.pi * i / (M - 1) - Real.pi := by field_simp; ring
  rw [this, Real.cos_sub_pi]

private theorem cos_shift2 {M : ℕ} (hM : 2 ≤ M) (i : ℕ) :
    Real.cos (2 * Real.pi * (1 - M + 2 * i) / (M - 1)) = Real.cos (4 * Real.pi * i / (M - 1)) := by
  have h : ((M : ℝ) - 1) ≠ 0 := by
    have : (2 : ℝ) ≤ M := by exact_mod_cast hM
    linarith
  have : 2 * Real.pi * (1 - M + 2 * i) / (M - 1) = 4 * Real.pi * i / (M - 1) - 2 * Real.pi := by field_simp; ring
  rw [this, Real.cos_sub_two_pi]

/-- C14: every window name selects the window of that name, in its textbook form. -/
theorem C14_window_formula (name : String) (hn : WindowName name) (M : ℕ) :
    windowVec name M = .ok ((List.range M).map (windowWeight name M)) := by
  have key : ∀ g : ℕ → ℝ, (∀ i, i < M → g i = windowWeight name M i) →
      (List.range M).map g = (List.range M).map (windowWeight name M) := by
    intro g hg
    apply List.map_congr_left
    intro i hi
    exact hg i (List.mem_range.mp hi)
  have h1 : ∀ i, i < M → M ≠ 1 → 2 ≤ M := fun i hi h => by omega
  rcases hn with rfl | rfl | rfl | rfl | rfl
  all_goals
    simp only [windowVec, reduceIte, String.reduceEq]
    congr 1
    apply key
    intro i hi
    by_cases hM : M = 1
    · simp [windowWeight, Np.hanningAt, Np.hammingAt, Np.blackmanAt, Np.bartlettAt, Np.kaiserAt, hM]
    · have hM2 := h1 i hi hM
      have hM3 : (0 : ℝ) < (M : ℝ) - 1 := by
        have : (2 : ℝ) ≤ M := by exact_mod_cast hM2
        linarith
      simp only [windowWeight, Np.hanningAt, Np.hammingAt, Np.blackmanAt, Np.bartlettAt, Np.kaiserAt, hM, reduceIte,
        String.reduceEq, cos_shift hM2, cos_shift2 hM2]
      first
        | ring1
        | (have he : (2 * (i : ℝ) / (M - 1) - 1) = (1 - M + 2 * i) / (M - 1) := by field_simp; ring
           rw [he, abs_div, abs_of_pos hM3]
           split_ifs with h
           · rw [abs_of_nonpos h, neg_div, sub_neg_eq_add]
           · rw [abs_of_pos (not_le.mp h)])
        | (have he : ((i : ℝ) - ((M : ℝ) - 1) / 2) / (((M : ℝ) - 1) / 2) = 2 * (i : ℝ) / (M - 1) - 1 := by
             field_simp
           rw [he])

example : windowVec "bartlet" 3 = .ok [0, 1, 0] := by
  rw [C14_window_formula _ (by simp [WindowName])]
  have h1 : windowWeight "bartlet" 3 0 = 0 := by
    unfold windowWeight; simp only [reduceIte, String.reduceEq, OfNat.ofNat_ne_one]; norm_num
  have h2 : windowWeight "bartlet" 3 1 = 1 := by
    unfold windowWeight; simp only [reduceIte, String.reduceEq, OfNat.ofNat_ne_one]; norm_num
  have h3 : windowWeight "bartlet" 3 2 = 0 := by
    unfold windowWeight; simp only [reduceIte, String.reduceEq, OfNat.ofNat_ne_one]; norm_num
  simp [List.range_succ, h1, h2, h3]

theorem emph_getD' (a : Args) (coeff : ℝ) (sig : List ℝ) {t : ℕ} (ht : t < sig.length) :
    (emph a coeff sig).getD t 0 = emphasised a.preEmph coeff sig t := by
  unfold emph emphasised
  split_ifs with h1 h2
  · subst h2; rw [sub_zero]; exact (C09_pre_emphasis sig coeff).2.1 ht
  · exact (C09_pre_emphasis sig coeff).2.2 t (by omega) ht
  · rfl

/-- A DFT bin of a windowed frame. -/
theorem dft_frame {w y : List ℝ} {l s n i : ℕ} (hw : w.length = l) (hi : i * s + l ≤ y.length) {W Y : ℕ → ℝ}
    (hW : ∀ j < l, w.getD j 0 = W j) (hY : ∀ t < y.length, y.getD t 0 = Y t) (k : ℕ) :
    Np.dft (List.zipWith (· * ·) w ((y.drop (i * s)).take l)) n k = frameBin W Y l s n i k := by
  unfold Np.dft Np.dftC frameBin
  have hlen : (List.zipWith (· * ·) w ((y.drop (i * s)).take l)).length = l := by simp; omega
  rw [← Finset.sum_subset (s₁ := Finset.range (min l n)) (s₂ := Finset.range n)]
  · apply Finset.sum_congr rfl
    intro j hj
    have hj : j < l := by simp at hj; omega
    beta_reduce
    rw [getD_zipWith_lt _ _ _ 0 0 0 (by omega) (by simp; omega), hW j hj, List.getD_eq_getElem?_getD,
      List.getElem?_take_of_lt hj, List.getElem?_drop, ← List.getD_eq_getElem?_getD, hY _ (by omega)]
  · intro j hj; simp at hj ⊢; omega
  · intro j hj1 hj2
    have : l ≤ j := by simp at hj1 hj2; omega
    beta_reduce
    rw [List.getD_eq_default _ _ (by omega)]
    simp

theorem dot_eq_sum (r s : List ℝ) (n : ℕ) (hr : r.length = n) (hs : s.length = n) :
    Np.dot r s = ∑ k ∈ Finset.range n, r.getD k 0 * s.getD k 0 := by
  unfold Np.dot
  rw [sum_eq_sum_getD]
  have hl : (List.zipWith (· * ·) r s).length = n := by simp [hr, hs]
  rw [hl]
  apply Finset.sum_congr rfl
  intro k hk
  have hk := Finset.mem_range.mp hk
  rw [getD_zipWith_lt _ _ _ 0 0 0 (by omega) (by omega)]

/-- One row of band energies. -/
theorem specRow_frame {fb : List (List ℝ)} {nfft : ℕ} (hfb : ∀ r ∈ fb, r.length = nfft / 2 + 1) {w y : List ℝ}
    {l s i : ℕ} (hw : w.length = l) (hi : i * s + l ≤ y.length) {W Y : ℕ → ℝ}
    (hW : ∀ j < l, w.getD j 0 = W j) (hY : ∀ t < y.length, y.getD t 0 = Y t) :
    specRow nfft (finMat fb) (List.zipWith (· * ·) w ((y.drop (i * s)).take l)) =
      ((List.range fb.length).map (bandEnergy fb W Y l s nfft i)).map fin := by
  apply ext_getD (fin 0)
  · simp [finMat]
  · intro n hn
    have hn : n < fb.length := by simpa [finMat] using hn
    rw [getD_map_lt fin _ 0 _ (by simpa using hn), getD_map_range_lt _ _ hn]
    unfold specRow finMat
    rw [List.map_map, getD_map_lt _ _ [] _ hn, Function.comp, dot_fin]
    congr 1
    rw [dot_eq_sum _ _ (nfft / 2 + 1) (by simp) (hfb _ (getD_mem _ hn))]
    unfold bandEnergy
    apply Finset.sum_congr rfl
    intro k hk
    have hk := Finset.mem_range.mp hk
    congr 1
    unfold powRow Np.absRfft framePower
    rw [List.map_map, getD_map_range_lt _ _ hk, Function.comp, dft_frame hw hi hW hY]
    ring

theorem dctRow_two (N : ℕ) (y : ℕ → ℝ) :
    Np.dctRow 2 (((List.range N).map y).map fin) = ((List.range N).map (dctII N y)).map fin := by
  rw [dctRow_fin]
  simp only [List.length_map, List.length_range]
  congr 1
  apply List.map_congr_left
  intro k hk
  unfold dctII
  rw [Finset.mul_sum]
  apply Finset.sum_congr rfl
  intro n hn
  have hn := Finset.mem_range.mp hn
  rw [getD_map_range_lt _ _ hn]
  have hN : (0 : ℝ) < N := by exact_mod_cast (by omega : 0 < N)
  unfold Np.dctKernel
  simp only
  split_ifs with h0
  · have : 2 * √(1 / (4 * (N : ℝ))) = √(2 / N) * (1 / √2) := by
      rw [← Real.sqrt_one, ← Real.sqrt_div (by norm_num), ← Real.sqrt_mul (by positivity)]
      have : (2 : ℝ) = √4 := by rw [show (4 : ℝ) = 2 ^ 2 by norm_num, Real.sqrt_sq (by norm_num)]
      nth_rewrite 1 [this]
      rw [← Real.sqrt_mul (by norm_num)]
      congr 1
      rw [Real.sqrt_one]
      field_simp
    rw [this]; ring
  · have : 2 * √(1 / (2 * (N : ℝ))) = √(2 / N) := by
      have h2 : (2 : ℝ) = √4 := by rw [show (4 : ℝ) = 2 ^ 2 by norm_num, Real.sqrt_sq (by norm_num)]
      nth_rewrite 1 [h2]
      rw [← Real.sqrt_mul (by norm_num)]
      congr 1
      field_simp
      norm_num
    rw [this]; ring

/-- The arguments are in range: a given real non-negative bank of `nfft // 2 + 1` columns, `l` samples per frame,
hop `s`, a known window, and a signal of at least one frame. -/
structure Setup (a : Args) (fb : List (List ℝ)) (sig : List ℝ) (l s : ℕ) : Prop where
  bank : a.fbanks = some (finMat fb)
  cols : ∀ r ∈ fb, r.length = a.nfft / 2 + 1
  nonneg : ∀ r ∈ fb, ∀ v ∈ r, 0 ≤ v
  rows : 1 ≤ fb.length
  ceps : a.numCeps ≤ a.nfilts
  nfft : a.nfft ≠ 0
  window : WindowName a.win.winType
  hopLe : a.win.winHop ≤ a.win.winLen
  len : pyInt (a.win.winLen * a.fs) = l
  hop : pyInt (a.win.winHop * a.fs) = s
  pos : 0 < s
  long : l ≤ sig.length
  samples : a.preEmph = true → sig ≠ []

/-- The band energies of frame `i` for these arguments. -/
noncomputable def energyOf (a : Args) (coeff : ℝ) (fb : List (List ℝ)) (sig : List ℝ) (l s i n : ℕ) : ℝ :=
  bandEnergy fb (windowWeight a.win.winType l) (emphasised a.preEmph coeff sig) l s a.nfft i n

theorem bandEnergy_nonneg {fb : List (List ℝ)} (h : ∀ r ∈ fb, ∀ v ∈ r, 0 ≤ v) (w y : ℕ → ℝ) (l s nfft i n : ℕ) :
    0 ≤ bandEnergy fb w y l s nfft i n := by
  unfold bandEnergy
  refine Finset.sum_nonneg fun k _ => mul_nonneg (by unfold framePower; positivity) ?_
  by_cases hn : n < fb.length
  · by_cases hk : k < (fb.getD n []).length
    · exact h _ (getD_mem _ hn) _ (getD_mem _ hk)
    · rw [List.getD_eq_default _ _ (by omega)]
  · rw [List.getD_eq_default fb _ (by omega)]; simp

/-- The explicit frames under `Setup`. -/
theorem Setup.front {a : Args} {fb : List (List ℝ)} {sig : List ℝ} {l s : ℕ} (h : Setup a fb sig l s) (coeff : ℝ) :
    frontEnd a coeff sig = .ok ((List.range ((sig.length - l) / s + 1)).map fun (i : ℕ) =>
      List.zipWith (· * ·) ((List.range l).map (windowWeight a.win.winType l))
        (((emph a coeff sig).drop (i * s)).take l)) := by
  have hS : 0 < pyInt (a.win.winHop * a.fs) := by rw [h.hop]; exact_mod_cast h.pos
  rw [frontEnd_ok_iff _ _ _ _ hS]
  exact ⟨fun e => h.samples e.1 e.2, h.hopLe, l, s, _, h.len, h.hop, h.pos, h.long, C14_window_formula _ h.window l, by simp, rfl⟩

theorem Setup.inside {a : Args} {fb : List (List ℝ)} {sig : List ℝ} {l s : ℕ} (h : Setup a fb sig l s) {i : ℕ}
    (hi : i < (sig.length - l) / s + 1) (coeff : ℝ) : i * s + l ≤ (emph a coeff sig).length := by
  have h1 := (Nat.le_div_iff_mul_le h.pos).mp (Nat.lt_succ_iff.mp hi)
  have := h.long
  rw [emph_length]; omega

theorem Setup.specRow {a : Args} {fb : List (List ℝ)} {sig : List ℝ} {l s : ℕ} (h : Setup a fb sig l s) {i : ℕ}
    (hi : i < (sig.length - l) / s + 1) (coeff : ℝ) :
    specRow a.nfft (finMat fb) (List.zipWith (· * ·) ((List.range l).map (windowWeight a.win.winType l))
        (((emph a coeff sig).drop (i * s)).take l)) =
      ((List.range fb.length).map (energyOf a coeff fb sig l s i)).map fin :=
  specRow_frame h.cols (by simp) (h.inside hi coeff) (fun j hj => getD_map_range_lt _ _ hj)
    (fun t ht => emph_getD' a coeff sig (by simpa using ht))

theorem finMat_cols {fb : List (List ℝ)} {c : ℕ} (h : ∀ r ∈ fb, r.length = c) : ∀ r ∈ finMat fb, r.length = c := by
  intro r hr
  obtain ⟨r', hr', rfl⟩ := List.mem_map.mp hr
  simpa using h r' hr'

/-- The features of all frames under `Setup`. -/
theorem featCore_meaning {a : Args} {fb : List (List ℝ)} {sig : List ℝ} {l s : ℕ} (h : Setup a fb sig l s)
    (hd : a.dctType = 2) (hu : a.useEnergy = false) (hl : a.lifter = none) (hn : a.normalize = none) (coeff : ℝ)
    (g : XF ℝ → XF ℝ) (G : ℝ → ℝ) (hg : ∀ i n, i < (sig.length - l) / s + 1 → n < fb.length →
      g (fin (energyOf a coeff fb sig l s i n)) = fin (G (energyOf a coeff fb sig l s i n))) :
    featCore a coeff (finMat fb) g sig = .ok ((List.range ((sig.length - l) / s + 1)).map fun (i : ℕ) =>
      (((List.range fb.length).map
        (dctII fb.length fun n => G (energyOf a coeff fb sig l s i n))).map fin).take a.numCeps) := by
  rw [featCore_ok_iff' hn]
  refine ⟨_, h.front coeff, h.nfft, finMat_cols h.cols, ?_, ?_⟩
  · have hr := h.rows
    have hlen : (finMat fb).length = fb.length := by simp [finMat]
    rw [TailOk, hd, hu, hl, hlen]
    simp; omega
  · rw [List.map_map]
    apply List.map_congr_left
    intro i hi
    have hi := List.mem_range.mp hi
    simp only [Function.comp, featRow, tailRow, hu, hl, hd, Bool.false_eq_true, if_false]
    rw [h.specRow hi coeff]
    congr 1
    rw [← dctRow_two]
    simp only [List.map_map]
    congr 1
    apply List.map_congr_left
    intro n hn
    exact (hg i n hi (List.mem_range.mp hn)).symm

theorem intensity_eq {e : ℝ} (he : 0 ≤ e) : intensityPowerLaw (fin e) = fin (intensity e) := by
  unfold intensityPowerLaw intensity
  simp only [XF.fin_mul, XF.fin_add]
  have h3 : 0 ≤ e * e := mul_self_nonneg e
  have h4 : 0 ≤ e * e * e * (e * e * e) := mul_self_nonneg (e * e * e)
  rw [XF.fin_div _ _ (by positivity), XF.pow_nonneg' (by positivity) (by norm_num)]
  congr 2
  ring

theorem logG_eq {e : ℝ} (he : 0 ≤ e) : logG (fin e) = fin (logFloor e) := by
  unfold logG xZeroHandling logFloor
  have h : (if e = 0 then eps else e) = (if e = 0 then 1 / 2 ^ 52 else e) := by simp [eps]
  simp only [h]
  have h0 : 0 < (if e = 0 then (1 / 2 ^ 52 : ℝ) else e) := by
    split_ifs with h0
    · positivity
    · exact lt_of_le_of_ne he (Ne.symm h0)
  exact XF.log_pos h0

theorem pow_fin' {e p : ℝ} (he : 0 ≤ e) (h : 0 ≤ p ∨ 0 < e) : XF.pow (fin e) p = fin (e ^ p) := by
  rcases h with h | h
  · rcases h.eq_or_lt with rfl | h
    · unfold XF.pow; simp
    · exact XF.pow_nonneg' he h
  · exact XF.pow_pos' h p

/-- The shape and entries of the matrix in `featCore_meaning`. -/
theorem range_matrix (R N p : ℕ) (F : ℕ → ℕ → ℝ) :
    HasShape ((List.range R).map fun (i : ℕ) => (((List.range N).map (F i)).map fin).take p) R (min p N) ∧
    ∀ i k, i < R → k < min p N → (((List.range R).map fun (i : ℕ) =>
      (((List.range N).map (F i)).map fin).take p).getD i []).getD k (nan : XF ℝ) = fin (F i k) := by
  refine ⟨⟨by simp, fun r hr => ?_⟩, fun i k hi hk => ?_⟩
  · obtain ⟨i, -, rfl⟩ := List.mem_map.mp hr
    simp
  · rw [getD_map_range_lt _ _ hi, List.getD_eq_getElem?_getD, List.getElem?_take_of_lt (by omega),
      ← List.getD_eq_getElem?_getD, getD_map_lt fin _ 0 _ (by simp; omega), getD_map_range_lt _ _ (by omega)]

/-- The pre-emphasis coefficient and the compression of each log- or root-based feature. -/
noncomputable def compressions (a : Args) : List (Feature × ℝ × (ℝ → ℝ)) :=
  [(mfcc, a.preEmphCoeff, logFloor), (imfcc, a.preEmphCoeff, logFloor), (ngcc, a.preEmphCoeff, logFloor),
    (lfcc, 0.97, logFloor), (bfcc, 0.97, fun e => logFloor (intensity e)), (gfcc, 0.97, fun e => e ^ (1 / 3 : ℝ))]

/-- C101: entry `(i, k)` is coefficient `k` of the orthonormal DCT-II of the compressed band energies of frame `i`,
where frame `i` starts at sample `i * s` of the pre-emphasised signal, is multiplied by the named window and cropped
or padded to `nfft` samples. -/
theorem C101_meaning (a : Args) (f : Feature) (coeff : ℝ) (G : ℝ → ℝ) (hf : (f, coeff, G) ∈ compressions a)
    (fb : List (List ℝ)) (sig : List ℝ) (l s : ℕ) (h : Setup a fb sig l s)
    (hd : a.dctType = 2) (hu : a.useEnergy = false) (hl : a.lifter = none) (hn : a.normalize = none) :
    ∃ m, f a sig = .ok m ∧ HasShape m ((sig.length - l) / s + 1) (min a.numCeps fb.length) ∧
      ∀ i k, i < (sig.length - l) / s + 1 → k < min a.numCeps fb.length → (m.getD i []).getD k nan =
        fin (dctII fb.length (fun n => G (bandEnergy fb (windowWeight a.win.winType l)
          (emphasised a.preEmph coeff sig) l s a.nfft i n)) k) := by
  have hc : ¬ a.nfilts < a.numCeps := not_lt.mpr h.ceps
  have hE : ∀ c i n, 0 ≤ energyOf a c fb sig l s i n := fun c i n => bandEnergy_nonneg h.nonneg ..
  have key : ∀ g : XF ℝ → XF ℝ, f a sig = featCore a coeff (finMat fb) g sig →
      (∀ e, 0 ≤ e → g (fin e) = fin (G e)) → _ := fun g h1 h2 => by
    have h3 := featCore_meaning h hd hu hl hn coeff g G fun i n _ _ => h2 _ (hE _ _ _)
    exact (⟨_, h1.trans h3, range_matrix _ _ _ _⟩ : ∃ m, f a sig = .ok m ∧
      HasShape m ((sig.length - l) / s + 1) (min a.numCeps fb.length) ∧
      ∀ i k, i < (sig.length - l) / s + 1 → k < min a.numCeps fb.length → (m.getD i []).getD k nan =
        fin (dctII fb.length (fun n => G (energyOf a coeff fb sig l s i n)) k))
  simp only [compressions, List.mem_cons, Prod.mk.injEq, List.not_mem_nil, or_false] at hf
  rcases hf with ⟨rfl, rfl, rfl⟩ | ⟨rfl, rfl, rfl⟩ | ⟨rfl, rfl, rfl⟩ | ⟨rfl, rfl, rfl⟩ | ⟨rfl, rfl, rfl⟩ | ⟨rfl, rfl, rfl⟩
  · exact key logG (by rw [mfcc_eq, if_neg hc, melBankOf, h.bank]; rfl) fun e he => logG_eq he
  · exact key logG (by rw [imfcc_eq, if_neg hc, h.bank]; rfl) fun e he => logG_eq he
  · exact key logG (by rw [ngcc_eq, if_neg hc, gammaBankOf, h.bank]; rfl) fun e he => logG_eq he
  · exact key logG (by rw [lfcc_eq, if_neg hc, h.bank]; rfl) fun e he => logG_eq he
  · refine key (fun v => logG (intensityPowerLaw v)) (by rw [bfcc_eq, if_neg hc, h.bank]; rfl) fun e he => ?_
    rw [intensity_eq he, logG_eq (by unfold intensity; positivity)]
  · refine key (fun v => XF.pow v (1 / 3)) (by rw [gfcc_eq, if_neg hc, gammaBankOf, h.bank]; rfl) fun e he => ?_
    exact XF.pow_nonneg' he (by norm_num)

/-- C101 for `msrcc`: the compression is the power `gamma`; for `gamma < 0` all band energies must be positive. -/
theorem C101_msrcc_meaning (a : Args) (fb : List (List ℝ)) (sig : List ℝ) (l s : ℕ) (h : Setup a fb sig l s)
    (hd : a.dctType = 2) (hu : a.useEnergy = false) (hl : a.lifter = none) (hn : a.normalize = none)
    (hpos : 0 ≤ a.gamma ∨ ∀ i n, i < (sig.length - l) / s + 1 → n < fb.length →
      0 < bandEnergy fb (windowWeight a.win.winType l) (emphasised a.preEmph a.preEmphCoeff sig) l s a.nfft i n) :
    ∃ m, msrcc a sig = .ok m ∧ HasShape m ((sig.length - l) / s + 1) (min a.numCeps fb.length) ∧
      ∀ i k, i < (sig.length - l) / s + 1 → k < min a.numCeps fb.length → (m.getD i []).getD k nan =
        fin (dctII fb.length (fun n => (bandEnergy fb (windowWeight a.win.winType l)
          (emphasised a.preEmph a.preEmphCoeff sig) l s a.nfft i n) ^ a.gamma) k) := by
  have hc : ¬ a.nfilts < a.numCeps := not_lt.mpr h.ceps
  have h3 := featCore_meaning h hd hu hl hn a.preEmphCoeff (fun v => XF.pow v a.gamma) (fun e => e ^ a.gamma)
    (fun i n hi hn => pow_fin' (bandEnergy_nonneg h.nonneg ..) (hpos.imp id fun hp => hp i n hi hn))
  rw [msrcc_eq, if_neg hc, melBankOf, h.bank]
  exact ⟨_, h3, range_matrix _ _ _ _⟩

theorem phaseDeg_eq (z : ℂ) : phaseDeg z = phaseDegrees z := by
  unfold phaseDeg phaseDegrees
  have hp : 0 < 180 / Real.pi := by positivity
  have h1 : Complex.arg z * (180 / Real.pi) < 0 ↔ Complex.arg z < 0 := by
    constructor
    · intro h; by_contra h'; exact absurd h (not_lt.mpr (mul_nonneg (not_lt.mp h') hp.le))
    · intro h; exact mul_neg_of_neg_of_pos h hp
  simp only [h1]
  split_ifs with h2 h3 h3
  · have := mul_neg_of_neg_of_pos h2 hp; linarith
  · ring
  · ring
  · have h4 : Complex.arg z * (180 / Real.pi) = 0 := le_antisymm (not_lt.mp h3) (mul_nonneg (not_lt.mp h2) hp.le)
    rw [← mul_div_assoc] at h4
    rw [h4]; ring

/-- The phase sums of frame `i` for these arguments. -/
noncomputable def phaseOf (a : Args) (fb : List (List ℝ)) (sig : List ℝ) (l s i n : ℕ) : ℝ :=
  bandPhase fb (windowWeight a.win.winType l) (emphasised a.preEmph a.preEmphCoeff sig) l s a.nfft i n

theorem Setup.phRow {a : Args} {fb : List (List ℝ)} {sig : List ℝ} {l s : ℕ} (h : Setup a fb sig l s) {i : ℕ}
    (hi : i < (sig.length - l) / s + 1) :
    phRow a.nfft (finMat fb) (List.zipWith (· * ·) ((List.range l).map (windowWeight a.win.winType l))
        (((emph a a.preEmphCoeff sig).drop (i * s)).take l)) =
      ((List.range fb.length).map (phaseOf a fb sig l s i)).map fin := by
  apply ext_getD (fin 0)
  · simp [Spafe.phRow, finMat]
  · intro n hn
    have hn : n < fb.length := by simpa [Spafe.phRow, finMat] using hn
    rw [getD_map_lt fin _ 0 _ (by simpa using hn), getD_map_range_lt _ _ hn]
    unfold Spafe.phRow finMat
    rw [List.map_map, getD_map_lt _ _ [] _ hn, Function.comp, dot_fin]
    congr 1
    rw [dot_eq_sum _ _ (a.nfft / 2 + 1) (by simp [phases]) (h.cols _ (getD_mem _ hn))]
    unfold phaseOf bandPhase
    apply Finset.sum_congr rfl
    intro k hk
    have hk := Finset.mem_range.mp hk
    congr 1
    unfold phases
    rw [getD_map_range_lt _ _ hk, phaseDeg_eq, dft_frame (by simp) (h.inside hi a.preEmphCoeff)
      (fun j hj => getD_map_range_lt _ _ hj) (fun t ht => emph_getD' a a.preEmphCoeff sig (by simpa using ht))]

/-- C101 for `psrcc`: the phases of the DFT bins take the place of the powers, the compression is the power
`gamma`; for `gamma < 0` all phase sums must be positive. -/
theorem C101_psrcc_meaning (a : Args) (fb : List (List ℝ)) (sig : List ℝ) (l s : ℕ) (h : Setup a fb sig l s)
    (hd : a.dctType = 2) (hu : a.useEnergy = false) (hl : a.lifter = none) (hn : a.normalize = none)
    (hpos : 0 ≤ a.gamma ∨ ∀ i n, i < (sig.length - l) / s + 1 → n < fb.length →
      0 < bandPhase fb (windowWeight a.win.winType l) (emphasised a.preEmph a.preEmphCoeff sig) l s a.nfft i n) :
    ∃ m, psrcc a sig = .ok m ∧ HasShape m ((sig.length - l) / s + 1) (min a.numCeps fb.length) ∧
      ∀ i k, i < (sig.length - l) / s + 1 → k < min a.numCeps fb.length → (m.getD i []).getD k nan =
        fin (dctII fb.length (fun n => (bandPhase fb (windowWeight a.win.winType l)
          (emphasised a.preEmph a.preEmphCoeff sig) l s a.nfft i n) ^ a.gamma) k) := by
  have hP : ∀ i n, 0 ≤ phaseOf a fb sig l s i n := by
    intro i n
    unfold phaseOf bandPhase
    refine Finset.sum_nonneg fun k _ => mul_nonneg ?_ ?_
    · unfold phaseDegrees
      have h1 := Complex.neg_pi_lt_arg (frameBin (windowWeight a.win.winType l)
        (emphasised a.preEmph a.preEmphCoeff sig) l s a.nfft i k)
      split_ifs with h2
      · rw [div_add' _ _ _ Real.pi_ne_zero]
        apply div_nonneg _ Real.pi_pos.le
        nlinarith [Real.pi_pos]
      · have := Real.pi_pos
        have := not_lt.mp h2
        positivity
    · by_cases hn : n < fb.length
      · by_cases hk : k < (fb.getD n []).length
        · exact h.nonneg _ (getD_mem _ hn) _ (getD_mem _ hk)
        · rw [List.getD_eq_default _ _ (by omega)]
      · rw [List.getD_eq_default fb _ (by omega)]; simp
  have hx : ∀ i, i < (sig.length - l) / s + 1 → phX a (finMat fb)
      (List.zipWith (· * ·) ((List.range l).map (windowWeight a.win.winType l))
        (((emph a a.preEmphCoeff sig).drop (i * s)).take l)) =
      ((List.range fb.length).map fun (n : ℕ) => phaseOf a fb sig l s i n ^ a.gamma).map fin := by
    intro i hi
    unfold phX
    rw [h.phRow hi]
    simp only [List.map_map]
    apply List.map_congr_left
    intro n hn
    simp only [Function.comp]
    rw [pow_fin' (hP i n) (hpos.imp id fun hp => hp i n hi (List.mem_range.mp hn))]
    rfl
  refine ⟨_, (psrcc_ok_iff ..).mpr ⟨not_lt.mpr h.ceps, finMat fb, by rw [melBankOf, h.bank]; rfl, _,
    h.front a.preEmphCoeff, h.nfft, finMat_cols h.cols, ?_, ?_⟩, range_matrix _ _ _ _⟩
  · have hr := h.rows
    have hlen : (finMat fb).length = fb.length := by simp [finMat]
    rw [TailOk, hd, hu, hl, hlen]
    simp; omega
  · simp only [normStep, hn]
    congr 1
    rw [List.map_map]
    apply List.map_congr_left
    intro i hi
    have hi := List.mem_range.mp hi
    simp only [Function.comp, tailRow, hu, hl, hd, Bool.false_eq_true, if_false]
    rw [hx i hi]
    congr 1
    rw [← dctRow_two]
    simp only [List.map_map]
    congr 1

/-- A small set of arguments: frames of two samples, hop one sample, two filters, `nfft = 2`. -/
noncomputable def demo2 : Args :=
  { fs := 1, numCeps := 2, nfilts := 2, nfft := 2, gamma := 1, window := some ⟨2, 1, "hamming"⟩,
    fbanks := some (finMat [[1, 2], [3, 1]]) }

theorem demo2_setup : Setup demo2 [[1, 2], [3, 1]] [5, 1, 4] 2 1 where
  bank := rfl
  cols := by simp [demo2]
  nonneg := by simp
  rows := by simp
  ceps := by simp [demo2]
  nfft := by simp [demo2]
  window := by simp [demo2, Args.win, WindowName]
  hopLe := by simp [demo2, Args.win]
  len := by
    have : (demo2.win.winLen * demo2.fs) = ((2 : ℕ) : ℝ) := by simp [demo2, Args.win]
    rw [this]; simp [pyInt]
  hop := by
    have : (demo2.win.winHop * demo2.fs) = ((1 : ℕ) : ℝ) := by simp [demo2, Args.win]
    rw [this]; simp [pyInt]
  pos := by norm_num
  long := by simp
  samples := by simp

/-- The hypotheses are met: two frames, two coefficients, given by the formula. -/
example : ∃ m, gfcc demo2 [5, 1, 4] = .ok m ∧ HasShape m 2 2 ∧ ∀ i k, i < 2 → k < 2 → (m.getD i []).getD k nan =
    fin (dctII 2 (fun n => (bandEnergy [[1, 2], [3, 1]] (windowWeight "hamming" 2)
      (emphasised true 0.97 [5, 1, 4]) 2 1 2 i n) ^ (1 / 3 : ℝ)) k) :=
  C101_meaning demo2 gfcc 0.97 (fun e => e ^ (1 / 3 : ℝ)) (by simp [compressions]) _ _ 2 1 demo2_setup rfl rfl rfl rfl

example : ∃ m, msrcc demo2 [5, 1, 4] = .ok m ∧ HasShape m 2 2 := by
  obtain ⟨m, h1, h2, -⟩ := C101_msrcc_meaning demo2 _ _ 2 1 demo2_setup rfl rfl rfl rfl (Or.inl (by simp [demo2]))
  exact ⟨m, h1, h2⟩

example : ∃ m, psrcc demo2 [5, 1, 4] = .ok m ∧ HasShape m 2 2 := by
  obtain ⟨m, h1, h2, -⟩ := C101_psrcc_meaning demo2 _ _ 2 1 demo2_setup rfl rfl rfl rfl (Or.inl (by simp [demo2]))
  exact ⟨m, h1, h2⟩

end Props
end Spafe
