import Verif.Props.NormLevel
import Verif.Props.DefaultBank

/-! C178: what mean subtraction ("ms") removes: the weights of the filters. -/

set_option linter.unusedSectionVars false

namespace Spafe
namespace Props
open Model XF Spec

theorem dctII_add (N : ℕ) (f g : ℕ → ℝ) (k : ℕ) : dctII N (fun n => f n + g n) k = dctII N f k + dctII N g k := by
  unfold dctII
  rw [← mul_add, ← Finset.sum_add_distrib]
  congr 1
  exact Finset.sum_congr rfl fun n _ => by ring

theorem isMatrix_of {m : XMat} {R c : ℕ} {F : ℕ → ℕ → ℝ} (h : HasShape m R c)
    (hF : ∀ i k, i < R → k < c → (m.getD i []).getD k nan = fin (F i k)) : m = finMat (matOf R c F) := by
  refine isMatrix_eq ⟨h.1, h.2, fun i j hi hj => ?_⟩
  rw [← hF i j hi hj]
  have hl : (m.getD i []).length = c := h.2 _ (getD_mem _ (by rw [h.1]; exact hi))
  generalize m.getD i [] = r at hl
  subst hl
  rw [List.getD_eq_getElem _ _ hj, List.getD_eq_getElem _ _ hj]

theorem matOf_shift (R c : ℕ) (F : ℕ → ℕ → ℝ) (D : ℕ → ℝ) : matOf R c (fun i k => F i k + D k) =
    (matOf R c F).map fun r => List.zipWith (· + ·) r ((List.range c).map D) := by
  unfold matOf
  rw [List.map_map]
  apply List.map_congr_left
  intro i _
  simp only [Function.comp]
  rw [List.zipWith_map, List.zipWith_self]

theorem matOf_rect (R c : ℕ) (F : ℕ → ℕ → ℝ) : Np.Rect (matOf R c F) c := matOf_cols R c F

theorem matOf_ne {R c : ℕ} (F : ℕ → ℕ → ℝ) (hR : 0 < R) : matOf R c F ≠ [] := by
  intro h
  have := congrArg List.length h
  simp [matOf] at this
  omega

theorem ncols_finMat_matOf {R c : ℕ} (F : ℕ → ℕ → ℝ) (hR : 0 < R) : Np.ncols (finMat (matOf R c F)) = c := by
  obtain ⟨r, rs, hr⟩ := List.exists_cons_of_ne_nil (matOf_ne (c := c) F hR)
  have := matOf_cols R c F r (by rw [hr]; simp)
  rw [hr]
  simp [finMat, Np.ncols, this]

/-- Liftering and mean subtraction of two matrices that differ by the same vector in every row. -/
theorem postProcess_ms_shift (lifter : Option ℝ) (hl : LiftOk lifter) {R c : ℕ} (hR : 0 < R) (hc : 0 < c)
    (F : ℕ → ℕ → ℝ) (D : ℕ → ℝ) : postProcess lifter (some "ms") (finMat (matOf R c fun i k => F i k + D k)) =
      postProcess lifter (some "ms") (finMat (matOf R c F)) := by
  have key : ∀ (F : ℕ → ℕ → ℝ) (D : ℕ → ℝ), normalizeCeps (finMat (matOf R c fun i k => F i k + D k)) c "ms" =
      normalizeCeps (finMat (matOf R c F)) c "ms" := fun F D => by
    rw [matOf_shift]
    exact C15_ms_shift (matOf_rect R c F) (matOf_ne F hR) hc _ (by simp)
  unfold postProcess
  cases lifter with
  | none =>
    simp only [ok_bind, if_neg (show ¬ ("ms" : String) = "" by decide)]
    rw [ncols_finMat_matOf _ hR, ncols_finMat_matOf _ hR, key]
  | some x =>
    simp only
    rw [ncols_finMat_matOf _ hR, ncols_finMat_matOf _ hR]
    by_cases h0 : x = 0 ∨ 10 < x
    · rw [C20_lifter_identity _ _ _ h0, C20_lifter_identity _ _ _ h0]
      simp only [ok_bind, if_neg (show ¬ ("ms" : String) = "" by decide)]
      rw [ncols_finMat_matOf _ hR, ncols_finMat_matOf _ hR, key]
    · have hx : (0 < x ∧ x ≤ 10) ∨ x ≤ -1 := by
        push Not at h0
        rcases hl x rfl with h1 | h1
        · right; exact h1
        · left; exact ⟨lt_of_le_of_ne h1 (Ne.symm h0.1), h0.2⟩
      have hlift : ∀ F : ℕ → ℕ → ℝ, lifterCeps (finMat (matOf R c F)) c x =
          .ok (finMat (matOf R c fun i k => F i k * lifterWeight x k)) := by
        intro F
        obtain ⟨B, h1, h2, h3, h4⟩ := C20_lifter_weights (matOf_rect R c F) hc x hx
        have hlen : (matOf R c F).length = R := by simp [matOf]
        rw [h1]
        congr 2
        apply ext_getD [] (by rw [h2]; simp [matOf])
        intro i hi
        rw [h2, hlen] at hi
        have hBi : (B.getD i []).length = c := h3 _ (getD_mem _ (by rw [h2, hlen]; exact hi))
        have hM : ∀ G : ℕ → ℕ → ℝ, (matOf R c G).getD i [] = (List.range c).map (G i) := fun G => by
          unfold matOf; rw [getD_map_range_lt _ _ hi]
        apply ext_getD 0 (by rw [hBi, hM]; simp)
        intro k hk
        rw [hBi] at hk
        have h5 := h4 i k (by rw [hlen]; exact hi) hk
        unfold Np.at2 at h5
        rw [h5, hM, hM, getD_map_range_lt _ _ hk, getD_map_range_lt _ _ hk]
      rw [hlift, hlift]
      simp only [ok_bind, if_neg (show ¬ ("ms" : String) = "" by decide)]
      rw [ncols_finMat_matOf _ hR, ncols_finMat_matOf _ hR, ← key (fun i k => F i k * lifterWeight x k) fun k => D k * lifterWeight x k]
      congr 3
      funext i k
      ring

theorem log_weights (R N : ℕ) (E E' : ℕ → ℕ → ℝ) (g : ℕ → ℝ) (hg : ∀ n < N, 0 < g n)
    (hE : ∀ i < R, ∀ n < N, E' i n = g n * E i n)
    (hz : ∀ n < N, (∀ i < R, 0 < E i n) ∨ ∀ i < R, E i n = 0) :
    ∃ d : ℕ → ℝ, (∀ n < N, ((∀ i < R, 0 < E i n) ∧ d n = Real.log (g n)) ∨ ((∀ i < R, E i n = 0) ∧ d n = 0)) ∧
      ∀ i < R, ∀ k, dctII N (fun n => logFloor (E' i n)) k = dctII N (fun n => logFloor (E i n)) k + dctII N d k := by
  classical
  refine ⟨fun n => if ∀ i < R, 0 < E i n then Real.log (g n) else 0, fun n hn => ?_, fun i hi k => ?_⟩
  · by_cases h : ∀ i < R, 0 < E i n
    · left; exact ⟨h, by simp only [if_pos h]⟩
    · right
      exact ⟨(hz n hn).resolve_left h, by simp only [if_neg h]⟩
  · rw [← dctII_add]
    apply dctII_congr
    intro n hn
    beta_reduce
    rw [hE i hi n hn]
    by_cases h : ∀ i < R, 0 < E i n
    · rw [if_pos h]
      have h1 := h i hi
      have h2 := hg n hn
      unfold logFloor
      rw [if_neg (mul_pos h2 h1).ne', if_neg h1.ne', Real.log_mul h2.ne' h1.ne', add_comm]
    · rw [if_neg h, (hz n hn).resolve_left h i hi, mul_zero, add_zero]

/-- The features with logarithmic compression, and the pre-emphasis coefficient they use. -/
noncomputable def logFeatures (a : Args) : List (Feature × ℝ) :=
  [(mfcc, a.preEmphCoeff), (imfcc, a.preEmphCoeff), (ngcc, a.preEmphCoeff), (lfcc, 0.97)]

/-- Every row `n` of the bank multiplied by `g n`. -/
def weighted (g : ℕ → ℝ) (fb : List (List ℝ)) : List (List ℝ) := fb.zipIdx.map fun p => p.1.map (g p.2 * ·)

theorem weighted_length (g : ℕ → ℝ) (fb : List (List ℝ)) : (weighted g fb).length = fb.length := by simp [weighted]

theorem weighted_getD (g : ℕ → ℝ) (fb : List (List ℝ)) (n : ℕ) :
    (weighted g fb).getD n [] = (fb.getD n []).map (g n * ·) := by
  unfold weighted
  by_cases h : n < fb.length
  · rw [List.getD_eq_getElem _ _ (by simpa using h), List.getD_eq_getElem _ _ h]
    simp
  · rw [List.getD_eq_default _ _ (by simpa using h), List.getD_eq_default _ _ (by omega)]
    rfl

theorem weighted_energy (a : Args) (coeff : ℝ) (g : ℕ → ℝ) (fb : List (List ℝ)) (sig : List ℝ) (l s i n : ℕ) :
    energyOf a coeff (weighted g fb) sig l s i n = g n * energyOf a coeff fb sig l s i n := by
  unfold energyOf bandEnergy
  rw [Finset.mul_sum, weighted_getD]
  refine Finset.sum_congr rfl fun k _ => ?_
  by_cases hk : k < (fb.getD n []).length
  · rw [getD_map_lt _ _ 0 _ hk]; ring
  · rw [List.getD_eq_default _ _ (by simpa using hk), List.getD_eq_default _ _ (by omega)]; ring

theorem weighted_setup {a : Args} {fb : List (List ℝ)} {sig : List ℝ} {l s : ℕ} (h : Setup a fb sig l s) (g : ℕ → ℝ)
    (hg : ∀ n < fb.length, 0 < g n) :
    Setup { a with fbanks := some (finMat (weighted g fb)) } (weighted g fb) sig l s where
  bank := rfl
  cols := by
    intro r hr
    obtain ⟨n, hn, rfl⟩ := List.getElem_of_mem hr
    rw [← List.getD_eq_getElem _ [] hn, weighted_getD, List.length_map]
    exact h.cols _ (getD_mem _ (by rwa [weighted_length] at hn))
  nonneg := by
    intro r hr v hv
    obtain ⟨n, hn, rfl⟩ := List.getElem_of_mem hr
    rw [weighted_length] at hn
    rw [← List.getD_eq_getElem _ [] (by rwa [weighted_length]), weighted_getD] at hv
    obtain ⟨u, hu, rfl⟩ := List.mem_map.mp hv
    exact mul_nonneg (hg n hn).le (h.nonneg _ (getD_mem _ hn) _ hu)
  rows := by rw [weighted_length]; exact h.rows
  ceps := h.ceps
  nfft := h.nfft
  window := h.window
  hopLe := h.hopLe
  len := h.len
  hop := h.hop
  pos := h.pos
  long := h.long
  samples := h.samples

/-- C178: multiplying every filter `n` of the bank by a gain `g n > 0` adds one and the same vector to every frame of mfcc,
imfcc, ngcc and lfcc: the DCT of `log g` (a band without energy in any frame adds nothing). -/
theorem C178_weights (a : Args) (f : Feature) (coeff : ℝ) (hf : (f, coeff) ∈ logFeatures a) (fb : List (List ℝ))
    (sig : List ℝ) (l s : ℕ) (h : Setup a fb sig l s)
    (hd : a.dctType = 2) (hu : a.useEnergy = false) (hl : a.lifter = none) (hn : a.normalize = none)
    (g : ℕ → ℝ) (hg : ∀ n < fb.length, 0 < g n)
    (hz : ∀ n < fb.length, (∀ i < (sig.length - l) / s + 1, 0 < energyOf a coeff fb sig l s i n) ∨
      ∀ i < (sig.length - l) / s + 1, energyOf a coeff fb sig l s i n = 0) :
    ∃ m m', f a sig = .ok m ∧ f { a with fbanks := some (finMat (weighted g fb)) } sig = .ok m' ∧
      HasShape m ((sig.length - l) / s + 1) (min a.numCeps fb.length) ∧
      HasShape m' ((sig.length - l) / s + 1) (min a.numCeps fb.length) ∧
      ∃ d : ℕ → ℝ, (∀ n < fb.length,
          ((∀ i < (sig.length - l) / s + 1, 0 < energyOf a coeff fb sig l s i n) ∧ d n = Real.log (g n)) ∨
          ((∀ i < (sig.length - l) / s + 1, energyOf a coeff fb sig l s i n = 0) ∧ d n = 0)) ∧
        ∀ i k, i < (sig.length - l) / s + 1 → k < min a.numCeps fb.length → ∃ x,
          (m.getD i []).getD k nan = fin x ∧ (m'.getD i []).getD k nan = fin (x + dctII fb.length d k) := by
  have hc : (f, coeff, logFloor) ∈ compressions a := by
    simp only [logFeatures, compressions, List.mem_cons, Prod.mk.injEq, List.not_mem_nil, or_false, and_true] at hf ⊢
    rcases hf with h | h | h | h
    · exact Or.inl h
    · exact Or.inr (Or.inl h)
    · exact Or.inr (Or.inr (Or.inl h))
    · exact Or.inr (Or.inr (Or.inr (Or.inl h)))
  obtain ⟨m, h1, h2, h3⟩ := C101_meaning a f coeff logFloor hc fb sig l s h hd hu hl hn
  obtain ⟨m', h1', h2', h3'⟩ := C101_meaning { a with fbanks := some (finMat (weighted g fb)) } f coeff logFloor hc
    (weighted g fb) sig l s (weighted_setup h g hg) hd hu hl hn
  rw [weighted_length] at h2' h3'
  obtain ⟨d, hd1, hd2⟩ := log_weights ((sig.length - l) / s + 1) fb.length (energyOf a coeff fb sig l s)
    (energyOf a coeff (weighted g fb) sig l s) g hg (fun i _ n _ => weighted_energy a coeff g fb sig l s i n) hz
  refine ⟨m, m', h1, h1', h2, h2', d, hd1, fun i k hi hk => ⟨_, h3 i k hi hk, ?_⟩⟩
  rw [h3' i k hi hk]
  exact congrArg fin (hd2 i hi k)

/-- C178: hence with normalize="ms" the gains of the filters are without effect: mfcc, imfcc, ngcc and lfcc give exactly the
same features with the bank and with the bank whose row `n` is multiplied by `g n > 0`, for every lifter outside `(-1, 0)`. -/
theorem C178_ms (a : Args) (f : Feature) (coeff : ℝ) (hf : (f, coeff) ∈ logFeatures a) (fb : List (List ℝ))
    (sig : List ℝ) (l s : ℕ) (h : Setup a fb sig l s)
    (hd : a.dctType = 2) (hu : a.useEnergy = false) (hl : LiftOk a.lifter) (hn : a.normalize = some "ms")
    (g : ℕ → ℝ) (hg : ∀ n < fb.length, 0 < g n)
    (hz : ∀ n < fb.length, (∀ i < (sig.length - l) / s + 1, 0 < energyOf a coeff fb sig l s i n) ∨
      ∀ i < (sig.length - l) / s + 1, energyOf a coeff fb sig l s i n = 0) :
    f { a with fbanks := some (finMat (weighted g fb)) } sig = f a sig := by
  have hmem : f ∈ [mfcc, imfcc, lfcc, bfcc, gfcc, ngcc, msrcc, psrcc, (fun a => pncc a 0), plp, rplp] := by
    simp only [logFeatures, List.mem_cons, Prod.mk.injEq, List.not_mem_nil, or_false] at hf ⊢
    rcases hf with ⟨rfl, -⟩ | ⟨rfl, -⟩ | ⟨rfl, -⟩ | ⟨rfl, -⟩ <;> simp
  obtain ⟨m, m', h1, h2, h3, h4, d, -, h5⟩ := C178_weights { a with lifter := none, normalize := none } f coeff hf fb sig l s
    ⟨h.bank, h.cols, h.nonneg, h.rows, h.ceps, h.nfft, h.window, h.hopLe, h.len, h.hop, h.pos, h.long, h.samples⟩ hd hu rfl rfl
    g hg hz
  rw [C102_post_processing f 0 hmem { a with fbanks := some (finMat (weighted g fb)) } sig, C102_post_processing f 0 hmem a sig]
  have e1 : f { { a with fbanks := some (finMat (weighted g fb)) } with lifter := none, normalize := none } sig = .ok m' := h2
  rw [e1, h1, ok_bind, ok_bind, hn]
  choose! F hF1 hF2 using h5
  have em := isMatrix_of h3 (F := F) fun i k hi hk => hF1 i k hi hk
  have em' := isMatrix_of h4 (F := fun i k => F i k + dctII fb.length d k) fun i k hi hk => hF2 i k hi hk
  rw [em, em']
  rcases Nat.eq_zero_or_pos (min a.numCeps fb.length) with h0 | h0
  · have : ∀ G : ℕ → ℕ → ℝ, matOf ((sig.length - l) / s + 1) (min a.numCeps fb.length) G =
        matOf ((sig.length - l) / s + 1) 0 F := fun G => by
      rw [h0]; simp [matOf]
    show postProcess a.lifter _ (finMat (matOf _ (min a.numCeps fb.length) _)) = postProcess a.lifter _ (finMat (matOf _ (min a.numCeps fb.length) _))
    rw [this, this]
  · exact postProcess_ms_shift a.lifter hl (Nat.succ_pos _) h0 F _

theorem matOf_weighted (N c : ℕ) (g : ℕ → ℝ) (W W' : ℕ → ℕ → ℝ) (h : ∀ n < N, ∀ k, W' n k = g n * W n k) :
    matOf N c W' = weighted g (matOf N c W) := by
  apply ext_getD [] (by rw [weighted_length]; simp [matOf])
  intro n hn
  have hn : n < N := by simpa [matOf] using hn
  rw [weighted_getD]
  unfold matOf
  rw [getD_map_range_lt _ _ hn, getD_map_range_lt _ _ hn, List.map_map]
  exact List.map_congr_left fun k _ => h n hn k

theorem scale_pos {sc : String} {w : ℕ → ℕ → ℝ} (h : Scale sc w) {n j : ℕ} (hj : j < n) : 0 < w n j := by
  have hn : (0:ℝ) < n := by exact_mod_cast lt_of_le_of_lt (Nat.zero_le j) hj
  have hj' : (j:ℝ) < n := by exact_mod_cast hj
  cases h with
  | ascendant => exact div_pos (by positivity) hn
  | descendant => exact div_pos (by linarith) hn
  | constant => exact one_pos

theorem auto_scale {a : Args} {sig : List ℝ} {l s : ℕ} (h : Auto a sig l s) {f : Feature} {coeff : ℝ}
    (hf : (f, coeff) ∈ logFeatures a) (hd : a.dctType = 2) (hu : a.useEnergy = false) (hl : LiftOk a.lifter)
    (hn : a.normalize = some "ms") {scale' : String} {W W' : ℕ → ℕ → ℝ} {g : ℕ → ℝ}
    (hW : ∀ j k, j < a.nfilts → k < a.nfft / 2 + 1 → 0 ≤ W j k) (hg : ∀ n < a.nfilts, 0 < g n)
    (hWW : ∀ n < a.nfilts, ∀ k, W' n k = g n * W n k)
    (he : f { a with fbanks := some (finMat (matOf a.nfilts (a.nfft / 2 + 1) W)) } sig = f { a with fbanks := none } sig)
    (he' : f { a with fbanks := some (finMat (matOf a.nfilts (a.nfft / 2 + 1) W')), scale := scale' } sig =
      f { a with fbanks := none, scale := scale' } sig)
    (hz : ∀ n < a.nfilts, (∀ i < (sig.length - l) / s + 1,
        0 < energyOf a coeff (matOf a.nfilts (a.nfft / 2 + 1) W) sig l s i n) ∨
      ∀ i < (sig.length - l) / s + 1, energyOf a coeff (matOf a.nfilts (a.nfft / 2 + 1) W) sig l s i n = 0) :
    f { a with scale := scale' } sig = f a sig := by
  have hN : (matOf a.nfilts (a.nfft / 2 + 1) W).length = a.nfilts := by simp [matOf]
  have hmem : f ∈ cepstralFeatures := by
    simp only [logFeatures, List.mem_cons, Prod.mk.injEq, List.not_mem_nil, or_false] at hf
    rcases hf with ⟨rfl, -⟩ | ⟨rfl, -⟩ | ⟨rfl, -⟩ | ⟨rfl, -⟩ <;> simp [cepstralFeatures]
  have e0 : ({ a with fbanks := none } : Args) = a := h.none
  have e1 : ({ a with fbanks := none, scale := scale' } : Args) = { a with scale := scale' } := by
    conv_rhs => rw [← e0]
  rw [e0] at he
  rw [e1] at he'
  rw [← he, ← he']
  have h1 := C39_given_bank_ignores_band f hmem { a with fbanks := some (finMat (matOf a.nfilts (a.nfft / 2 + 1) W')) } _ rfl
    a.low a.high scale' a.approach sig
  have h2 := C178_ms { a with fbanks := some (finMat (matOf a.nfilts (a.nfft / 2 + 1) W)) } f coeff hf _ sig l s (h.setup hW)
    hd hu hl hn g (by rw [hN]; exact hg) (by rw [hN]; exact hz)
  rw [← matOf_weighted _ _ g W W' hWW] at h2
  exact h1.trans h2

/-- C178: in particular the option `scale` is without effect on the mean-normalised mfcc and lfcc that build their own bank:
"constant", "ascendant" and "descendant" give exactly the same features. -/
theorem C178_scale (a : Args) (f : Feature) (coeff : ℝ) (bank : Args → Py (XMat × List (XF ℝ)))
    (hf : (f, coeff, bank) ∈
      [(mfcc, a.preEmphCoeff, fun a => melFilterBanks a.nfilts a.nfft a.fs a.low a.high a.scale a.approach),
       (lfcc, 0.97, fun a => linearFilterBanks a.nfilts a.nfft a.fs a.low a.high a.scale)])
    (sig : List ℝ) (l s : ℕ) (h : Auto a sig l s) (high : ℝ) (w : ℕ → ℕ → ℝ) (hb : Band a high w)
    (c d : ℝ) (hm : MelConst a.approach c d) (scale' : String) (w' : ℕ → ℕ → ℝ) (hs : Scale scale' w')
    (hd : a.dctType = 2) (hu : a.useEnergy = false) (hl : LiftOk a.lifter) (hn : a.normalize = some "ms")
    (fb : List (List ℝ)) (cs : List (XF ℝ)) (hfb : bank a = .ok (finMat fb, cs))
    (hz : ∀ n < a.nfilts, (∀ i < (sig.length - l) / s + 1, 0 < energyOf a coeff fb sig l s i n) ∨
      ∀ i < (sig.length - l) / s + 1, energyOf a coeff fb sig l s i n = 0) :
    f { a with scale := scale' } sig = f a sig := by
  have hw : ∀ j < a.nfilts, 0 < w a.nfilts j := fun j hj => scale_pos hb.scale hj
  have hw' : ∀ j < a.nfilts, 0 < w' a.nfilts j := fun j hj => scale_pos hs hj
  have hg : ∀ n < a.nfilts, 0 < w' a.nfilts n / w a.nfilts n := fun n hn => div_pos (hw' n hn) (hw n hn)
  simp only [List.mem_cons, Prod.mk.injEq, List.not_mem_nil, or_false] at hf
  rcases hf with ⟨rfl, rfl, rfl⟩ | ⟨rfl, rfl, rfl⟩
  · obtain ⟨B, cs1, h1, h2, -⟩ := C26_mel_triangles hb.scale hm hb.eff hb.low0 hb.lt hb.le a.nfilts a.nfft
    obtain ⟨B', cs2, h1', h2', -⟩ := C26_mel_triangles hs hm hb.eff hb.low0 hb.lt hb.le a.nfilts a.nfft
    rw [isMatrix_eq h2] at h1
    rw [isMatrix_eq h2'] at h1'
    have e : fb = _ := finMat_injective (by
      have := hfb.symm.trans h1
      injection this with this
      exact congrArg Prod.fst this)
    subst e
    exact auto_scale h (by simp [logFeatures]) hd hu hl hn
      (fun j k hj _ => mul_nonneg (scale_nonneg hb.scale hj) (tri_nonneg ..)) hg
      (fun n hn k => by have := (hw n hn).ne'; field_simp)
      ((C39_precomputed_bank a sig _).1 _ h1).1 ((C39_precomputed_bank { a with scale := scale' } sig _).1 _ h1').1 hz
  · obtain ⟨B, cs1, h1, h2, -⟩ := C30_linear_triangles hb.scale hb.eff hb.low0 hb.lt hb.le a.nfilts a.nfft
    obtain ⟨B', cs2, h1', h2', -⟩ := C30_linear_triangles hs hb.eff hb.low0 hb.lt hb.le a.nfilts a.nfft
    rw [isMatrix_eq h2] at h1
    rw [isMatrix_eq h2'] at h1'
    have e : fb = _ := finMat_injective (by
      have := hfb.symm.trans h1
      injection this with this
      exact congrArg Prod.fst this)
    subst e
    exact auto_scale h (by simp [logFeatures]) hd hu hl hn
      (fun j k hj _ => mul_nonneg (scale_nonneg hb.scale hj) (tri_nonneg ..)) hg
      (fun n hn k => by have := (hw n hn).ne'; field_simp)
      ((C39_precomputed_bank a sig _).2.1 _ h1) ((C39_precomputed_bank { a with scale := scale' } sig _).2.1 _ h1') hz

/-- C178: the same for `imfcc` with its own inverse mel bank. -/
theorem C178_scale_imfcc (a : Args) (sig : List ℝ) (l s : ℕ) (h : Auto a sig l s) (high : ℝ) (hh : a.high = some high)
    (h0 : 0 ≤ a.low) (h1 : a.low < high) (h2 : high ≤ a.fs / 2) (c d : ℝ) (hm : MelConst a.approach c d) (hnf : 2 ≤ a.nfft)
    (sw sw' scale' : String) (hsw : SwapScale a.scale sw) (hsw' : SwapScale scale' sw')
    (hd : a.dctType = 2) (hu : a.useEnergy = false) (hl : LiftOk a.lifter) (hn : a.normalize = some "ms")
    (fb : List (List ℝ)) (cs : List (XF ℝ))
    (hfb : inverseMelFilterBanks a.nfilts a.nfft a.fs a.low a.high a.scale a.approach = .ok (finMat fb, cs))
    (hz : ∀ n < a.nfilts, (∀ i < (sig.length - l) / s + 1, 0 < energyOf a a.preEmphCoeff fb sig l s i n) ∨
      ∀ i < (sig.length - l) / s + 1, energyOf a a.preEmphCoeff fb sig l s i n = 0) :
    imfcc { a with scale := scale' } sig = imfcc a sig := by
  have hex : ∀ s1 s2, SwapScale s1 s2 → ∃ w, Scale s2 w := by
    intro s1 s2 h
    cases h with
    | ascendant => exact ⟨_, Scale.descendant⟩
    | descendant => exact ⟨_, Scale.ascendant⟩
    | constant => exact ⟨_, Scale.constant⟩
  obtain ⟨w, hs⟩ := hex _ _ hsw
  obtain ⟨w', hs'⟩ := hex _ _ hsw'
  have hw : ∀ j < a.nfilts, 0 < w a.nfilts j := fun j hj => scale_pos hs hj
  have hw' : ∀ j < a.nfilts, 0 < w' a.nfilts j := fun j hj => scale_pos hs' hj
  obtain ⟨B, cs1, e1, e2⟩ := C31_inverse_mel_weights hsw hs hm h0 h1 h2 a.nfilts a.nfft hnf
  obtain ⟨B', cs2, e1', e2'⟩ := C31_inverse_mel_weights hsw' hs' hm h0 h1 h2 a.nfilts a.nfft hnf
  rw [isMatrix_eq e2, ← hh] at e1
  rw [isMatrix_eq e2', ← hh] at e1'
  have e : fb = _ := finMat_injective (by
    have := hfb.symm.trans e1
    injection this with this
    exact congrArg Prod.fst this)
  subst e
  exact auto_scale (g := fun n => w' a.nfilts n / w a.nfilts n) h (by simp [logFeatures]) hd hu hl hn
    (fun j k hj _ => mul_nonneg (scale_nonneg hs hj) (tri_nonneg ..)) (fun n hn => div_pos (hw' n hn) (hw n hn))
    (fun n hn k => by have := (hw n hn).ne'; field_simp)
    ((C39_precomputed_bank a sig _).2.2.2.2 _ e1) ((C39_precomputed_bank { a with scale := scale' } sig _).2.2.2.2 _ e1') hz

/-- C178: the same for `ngcc` with its own gammatone bank. -/
theorem C178_scale_ngcc (a : Args) (sig : List ℝ) (l s : ℕ) (h : Auto a sig l s) (high : ℝ) (w : ℕ → ℕ → ℝ)
    (hb : Band a high w) (hnf : 3 ≤ a.nfft) (scale' : String) (w' : ℕ → ℕ → ℝ) (hs : Scale scale' w')
    (hd : a.dctType = 2) (hu : a.useEnergy = false) (hl : LiftOk a.lifter) (hn : a.normalize = some "ms")
    (fb : List (List ℝ)) (cs : List (Option (XF ℝ)))
    (hfb : gammatoneFilterBanks a.nfilts a.nfft a.fs a.low a.high a.scale 4 a.approach = .ok (finMat fb, cs))
    (hz : ∀ n < a.nfilts, (∀ i < (sig.length - l) / s + 1, 0 < energyOf a a.preEmphCoeff fb sig l s i n) ∨
      ∀ i < (sig.length - l) / s + 1, energyOf a a.preEmphCoeff fb sig l s i n = 0) :
    ngcc { a with scale := scale' } sig = ngcc a sig := by
  have hw : ∀ j < a.nfilts, 0 < w a.nfilts j := fun j hj => scale_pos hb.scale hj
  have hw' : ∀ j < a.nfilts, 0 < w' a.nfilts j := fun j hj => scale_pos hs hj
  obtain ⟨M, cs1, hM, e1, hpos⟩ := gamma_bank hb hnf
  obtain ⟨M', cs2, hM', e1', -⟩ := gamma_bank (a := { a with scale := scale' }) (w := w') ⟨hs, hb.eff, hb.low0, hb.lt, hb.le⟩ hnf
  have e : fb = _ := finMat_injective (by
    have := hfb.symm.trans e1
    injection this with this
    exact congrArg Prod.fst this)
  subst e
  refine auto_scale (g := fun n => w' a.nfilts n / w a.nfilts n) h (by simp [logFeatures]) hd hu hl hn hpos
    (fun n hn => div_pos (hw' n hn) (hw n hn)) (fun n hn k => ?_)
    ((C39_precomputed_bank a sig _).2.2.2.1 _ e1).2
    ((C39_precomputed_bank { a with scale := scale' } sig _).2.2.2.1 _ e1').2 hz
  have hMM : M' n = M n := (hM' n hn).2.unique (hM n hn).2
  have h3 := (hw n hn).ne'
  have h4 := (hM n hn).1.ne'
  show gammaWeight w' a.low high a.fs a.nfilts a.nfft M' n k = _
  unfold gammaWeight
  rw [hMM]
  field_simp

/-- Three samples, two frames, a given bank: doubling the first filter and tripling the second has no effect on the
mean-normalised mfcc. -/
example : mfcc { demo2 with normalize := some "ms", fbanks := some (finMat [[2 * 1, 2 * 2], [3 * 3, 3 * 1]]) } [5, 1, 4] =
    mfcc { demo2 with normalize := some "ms" } [5, 1, 4] := by
  have S := demo2_setup
  have h := C178_ms { demo2 with normalize := some "ms" } mfcc demo2.preEmphCoeff (by simp [logFeatures]) [[1, 2], [3, 1]]
    [5, 1, 4] 2 1 ⟨S.bank, S.cols, S.nonneg, S.rows, S.ceps, S.nfft, S.window, S.hopLe, S.len, S.hop, S.pos, S.long, S.samples⟩
    rfl rfl (fun x hx => by simp [demo2] at hx) rfl (fun n => if n = 0 then 2 else 3) (fun n _ => by split_ifs <;> norm_num)
    (fun n hn => Or.inl fun i hi => demo2_energy_pos i (by simpa using hi) n (by simpa using hn))
  simpa [weighted] using h

/-- One linear filter, frames of two samples. -/
noncomputable def scaleDemo : Args :=
  { fs := 8, numCeps := 1, nfilts := 1, nfft := 4, preEmph := false, window := some ⟨1 / 4, 1 / 8, "hamming"⟩,
    normalize := some "ms" }

theorem scaleDemo_auto : Auto scaleDemo [5, 1, 4] 2 1 where
  bank := rfl
  filters := by simp [scaleDemo]
  ceps := by simp [scaleDemo]
  nfft := by simp [scaleDemo]
  window := by simp [scaleDemo, Args.win, WindowName]
  hopLe := by simp [scaleDemo, Args.win]; norm_num
  len := by
    have : (scaleDemo.win.winLen * scaleDemo.fs) = ((2 : ℕ) : ℝ) := by simp [scaleDemo, Args.win]; norm_num
    rw [this]; simp [pyInt]
  hop := by
    have : (scaleDemo.win.winHop * scaleDemo.fs) = ((1 : ℕ) : ℝ) := by simp [scaleDemo, Args.win]
    rw [this]; simp [pyInt]
  pos := by norm_num
  long := by simp
  samples := fun h => by simp [scaleDemo] at h

/-- Its own bank, `scale="ascendant"` against `scale="constant"`: the same mean-normalised lfcc. -/
example : lfcc { scaleDemo with scale := "ascendant" } [5, 1, 4] = lfcc scaleDemo [5, 1, 4] := by
  have hb : Band scaleDemo 4 (fun _ _ => 1) :=
    ⟨Scale.constant, by
      have : (4 : ℝ) = scaleDemo.fs / 2 := by simp [scaleDemo]; norm_num
      rw [this]; exact EffHigh.none, le_rfl, by simp [scaleDemo], by simp [scaleDemo]; norm_num⟩
  obtain ⟨B, cs, h1, h2, -⟩ := C30_linear_triangles hb.scale hb.eff hb.low0 hb.lt hb.le scaleDemo.nfilts scaleDemo.nfft
  rw [isMatrix_eq h2] at h1
  refine C178_scale scaleDemo lfcc 0.97 (fun a => linearFilterBanks a.nfilts a.nfft a.fs a.low a.high a.scale) (by simp) [5, 1, 4] 2 1 scaleDemo_auto 4 _ hb 2595 700 MelConst.oshaghnessy
    "ascendant" _ Scale.ascendant rfl rfl (fun x hx => by simp [scaleDemo] at hx) rfl _ cs h1 fun n hn => Or.inl fun i hi => ?_
  have hn0 : n = 0 := by simpa [scaleDemo] using hn
  subst hn0
  unfold energyOf
  rw [bandEnergy_matOf _ _ _ _ _ _ hn]
  unfold weightedEnergy
  refine Finset.sum_pos' (fun k _ => mul_nonneg (by unfold framePower; positivity) (mul_nonneg one_pos.le (tri_nonneg ..)))
    ⟨1, by simp [scaleDemo], mul_pos ?_ ?_⟩
  · have he : Complex.exp (-(2 * Real.pi * Complex.I / 4)) = -Complex.I := by
      have : -(2 * Real.pi * Complex.I / 4) = ((-(Real.pi / 2) : ℝ) : ℂ) * Complex.I := by push_cast; ring
      rw [this, Complex.exp_mul_I, ← Complex.ofReal_cos, ← Complex.ofReal_sin, Real.cos_neg, Real.sin_neg,
        Real.cos_pi_div_two, Real.sin_pi_div_two]
      simp
    have hz : frameBin (windowWeight scaleDemo.win.winType 2)
        (emphasised scaleDemo.preEmph 0.97 [5, 1, 4]) 2 1 scaleDemo.nfft i 1 ≠ 0 := by
      have hi2 : i = 0 ∨ i = 1 := by simp at hi; omega
      intro h
      have h := congrArg Complex.re h
      unfold frameBin at h
      rcases hi2 with rfl | rfl <;>
      · simp [scaleDemo, Args.win, windowWeight, emphasised, Finset.sum_range_succ, he] at h
        norm_num at h
    have h1 := norm_pos_iff.mpr hz
    have h2 : (0 : ℝ) < scaleDemo.nfft := by simp [scaleDemo]
    unfold framePower
    positivity
  · simp [scaleDemo, linPoint, colFreq, tri]
    norm_num

end Props
end Spafe
