import Verif.Lemmas.NormLevel
import Verif.Props.Options
import Verif.Props.LpMeaning

/-! C141: which normalisations make the features independent of the recording level. -/

set_option linter.unusedSectionVars false

namespace Spafe
namespace Props
open Model XF Spec

/-! ### Root features -/

theorem postProcess_fsmul {s : ℝ} (hs : 0 < s) (lifter : Option ℝ) {name : String} (h0 : name ≠ "") (h1 : name ≠ "ms")
    (m : XMat) : postProcess lifter (some name) (fsmulMat s m) = postProcess lifter (some name) m := by
  unfold postProcess
  cases lifter with
  | none =>
    simp only [ok_bind, if_neg h0]
    rw [normalize_fsmul hs _ _ h1, ncols_fsmul]
  | some l =>
    simp only
    rw [ncols_fsmul, lifter_fsmul hs]
    cases lifterCeps m (Np.ncols m) l with
    | error e => rfl
    | ok m' =>
      show (if name = "" then _ else normalizeCeps (fsmulMat s m') (Np.ncols (fsmulMat s m')) name) = _
      rw [ok_bind]
      simp only [if_neg h0]
      rw [normalize_fsmul hs _ _ h1, ncols_fsmul]

theorem smul_inv_smul {c : ℝ} (hc : c ≠ 0) (sig : List ℝ) : (sig.map (c * ·)).map (c⁻¹ * ·) = sig := by
  rw [List.map_map]
  conv_rhs => rw [← List.map_id sig]
  apply List.map_congr_left
  intro v _
  simp only [Function.comp, id]
  field_simp

/-- C141: with 'vn', 'mvn' or 'mn' normalisation `gfcc` and `msrcc` do not depend on the level of the recording at all:
the signal and `c` times the signal give the same features, for every signal, every bank, every lifter. -/
theorem C141_root (a : Args) (hu : a.useEnergy = false) (name : String) (hn : a.normalize = some name)
    (hname : name ∈ ["vn", "mvn", "mn"]) (sig : List ℝ) (c : ℝ) (hc : c ≠ 0) (m : XMat) :
    (gfcc a (sig.map (c * ·)) = .ok m ↔ gfcc a sig = .ok m) ∧
    (msrcc a (sig.map (c * ·)) = .ok m ↔ msrcc a sig = .ok m) := by
  have h0 : name ≠ "" ∧ name ≠ "ms" := by
    simp only [List.mem_cons, List.not_mem_nil, or_false] at hname
    rcases hname with rfl | rfl | rfl <;> decide
  have key : ∀ (f : Feature) (p : ℝ), f ∈ [mfcc, imfcc, lfcc, bfcc, gfcc, ngcc, msrcc, psrcc, (fun a => pncc a 0), plp, rplp] →
      (∀ (sig : List ℝ) (c : ℝ), c ≠ 0 → ∀ m, f { a with lifter := none, normalize := none } sig = .ok m →
        f { a with lifter := none, normalize := none } (sig.map (c * ·)) = .ok (fsmulMat (|c| ^ p) m)) →
      (f a (sig.map (c * ·)) = .ok m ↔ f a sig = .ok m) := by
    intro f p hf hg
    have h1 : ∀ (sig : List ℝ) (c : ℝ), c ≠ 0 → f a sig = .ok m → f a (sig.map (c * ·)) = .ok m := by
      intro sig c hc h
      rw [C102_post_processing f 0 hf] at h ⊢
      obtain ⟨m0, hm0, h⟩ := (bind_ok_iff ..).mp h
      rw [hg sig c hc m0 hm0, ok_bind, hn, postProcess_fsmul (Real.rpow_pos_of_pos (abs_pos.mpr hc) p) _ h0.1 h0.2,
        ← hn]
      exact h
    refine ⟨fun h => ?_, h1 sig c hc⟩
    have := h1 _ c⁻¹ (inv_ne_zero hc) h
    rwa [smul_inv_smul hc] at this
  constructor
  · exact key gfcc (2 / 3) (by simp) fun sig c hc m => (C44_root_gain { a with lifter := none, normalize := none } hu rfl rfl sig c hc m).1
  · exact key msrcc (2 * a.gamma) (by simp) fun sig c hc m => (C44_root_gain { a with lifter := none, normalize := none } hu rfl rfl sig c hc m).2

/-! ### Log features -/

theorem dot_zero {r : List ℝ} (hr : ∀ v ∈ r, v = 0) (f : List (XF ℝ)) :
    Np.dot (r.map fin) f = fin 0 ∨ Np.dot (r.map fin) f = nan := by
  unfold Np.dot
  induction r generalizing f with
  | nil => left; rfl
  | cons x r ih =>
    cases f with
    | nil => left; rfl
    | cons v f =>
      simp only [List.map_cons, List.zipWith_cons_cons, List.sum_cons]
      rw [hr x (by simp)]
      have hv : fin (0:ℝ) * v = fin 0 ∨ fin (0:ℝ) * v = nan := by
        cases v <;> simp [XF.mul_def, XF.mul, XF.infMul]
      rcases hv with h1 | h1 <;> rcases ih (fun v hv => hr v (by simp [hv])) f with h2 | h2 <;> rw [h1, h2] <;> simp

/-- A frame with a positive filter output has energy. -/
theorem energy_ne_zero {nfft : ℕ} {fb : XMat} {w : List ℝ} (h1 : 1 ≤ fb.length)
    (hp : ∀ v ∈ specRow nfft fb w, ∃ x : ℝ, 0 < x ∧ v = fin x) :
    ((Np.absRfft nfft w).map fun v => 1 / (nfft : ℝ) * (|v| * |v|)).sum ≠ 0 := by
  intro h
  have hz : ∀ v ∈ powRow nfft w, v = 0 := by
    have hs : (powRow nfft w).sum = 0 := by
      rw [← h]
      congr 1
      unfold powRow
      apply List.map_congr_left
      intro v _
      rw [abs_mul_abs_self]
    exact fun v hv => le_antisymm (hs ▸ List.single_le_sum (powRow_nonneg nfft w) v hv) (powRow_nonneg nfft w v hv)
  obtain ⟨f, fs, rfl⟩ := List.exists_cons_of_ne_nil (List.length_pos_iff.mp h1)
  obtain ⟨x, hx, he⟩ := hp (Np.dot ((powRow nfft w).map fin) f) (by simp [specRow])
  rcases dot_zero hz f with h2 | h2
  · rw [h2] at he; injection he with he; exact hx.ne he
  · rw [h2] at he; cases he

theorem core_ms {a : Args} (hn : a.normalize = some "ms") (hl : LiftOk a.lifter) {coeff : ℝ} {fb : XMat}
    {sig : List ℝ} {m x : XMat} {ft : List (List ℝ)} (hx : spectrogram a coeff fb sig = .ok (x, ft)) (hp : AllPos x)
    {c : ℝ} (hc : c ≠ 0) (h : featCore a coeff fb logG sig = .ok m) :
    featCore a coeff fb logG (sig.map (c * ·)) = .ok m := by
  obtain ⟨W, hW, hn0, hcol, ht, hm⟩ := (featCore_ok_iff ..).mp h
  obtain ⟨W', hW', -, -, rfl, -⟩ := (spectrogram_ok_iff ..).mp hx
  obtain rfl : W = W' := by rw [hW] at hW'; injection hW'
  refine (featCore_ok_iff ..).mpr ⟨_, frontEnd_smul_ok hW c, hn0, hcol, ht, ?_⟩
  simp only [normStep, hn, if_neg (show ¬ ("ms" : String) = "" by decide)] at hm ⊢
  have hW0 : W ≠ [] := by
    rintro rfl
    simp [normalizeCeps] at hm
  have hrl : ∀ w, (featRow a fb logG w).length = min a.numCeps fb.length := fun w =>
    tailRow_length ht _ _ (by simp)
  have hmin : 0 < min a.numCeps fb.length := by
    rw [Nat.pos_iff_ne_zero]
    intro h0
    have : (W.map (featRow a fb logG)).flatten = [] := by
      rw [List.flatten_eq_nil_iff]
      intro r hr
      obtain ⟨w, -, rfl⟩ := List.mem_map.mp hr
      exact List.length_eq_zero_iff.mp ((hrl w).trans h0)
    rw [normalizeCeps, if_pos this] at hm
    cases hm
  obtain ⟨v, hv, hshift⟩ := tail_shift (a := a) (N := fb.length) hmin hl (Real.log (c ^ 2)) (Real.log (c ^ 2))
  have hrow : ∀ w ∈ W, ∃ r : List ℝ, r.length = min a.numCeps fb.length ∧ featRow a fb logG w = r.map fin ∧
      featRow a fb logG (w.map (c * ·)) = (List.zipWith (· + ·) r v).map fin := by
    intro w hw
    have hpw := hp _ (List.mem_map.mpr ⟨w, hw, rfl⟩)
    obtain ⟨y, hy⟩ := (finRow_iff (specRow a.nfft fb w)).mp fun u hu => by
      obtain ⟨z, -, hz⟩ := hpw u hu; exact ⟨z, hz⟩
    have hypos : ∀ z ∈ y, 0 < z := by
      intro z hz
      obtain ⟨q, hq, he⟩ := hpw (fin z) (by rw [hy]; exact List.mem_map.mpr ⟨z, hz, rfl⟩)
      injection he with he; rw [he]; exact hq
    have hyl : y.length = fb.length := by simpa using (congrArg List.length hy).symm
    obtain ⟨r, h1, h2, h3⟩ := hshift (y.map Real.log) (by simpa using hyl) (Np.absRfft a.nfft w)
      (Np.absRfft a.nfft (w.map (c * ·))) fun _ => logEnergy_smul hc _ _ (energy_ne_zero ht.2.2.1 hpw)
    refine ⟨r, h1, ?_, ?_⟩
    · rw [← h2]
      unfold featRow
      congr 1
      rw [hy, List.map_map, List.map_map]
      exact List.map_congr_left fun z hz => logG_pos (hypos z hz)
    · rw [← h3]
      unfold featRow
      congr 1
      rw [specRow_smul hc, hy, List.map_map, List.map_map, List.map_map, List.map_map]
      apply List.map_congr_left
      intro z hz
      have hz0 := hypos z hz
      have hc2 : 0 < c ^ 2 := by positivity
      simp only [Function.comp, XF.fin_mul]
      rw [logG_pos (mul_pos hc2 hz0), Real.log_mul hc2.ne' hz0.ne', add_comm]
  choose! R hR1 hR2 hR3 using hrow
  have e1 : W.map (featRow a fb logG) = finMat (W.map R) := by
    unfold finMat
    rw [List.map_map]
    exact List.map_congr_left fun w hw => hR2 w hw
  have e2 : (W.map (List.map (c * ·))).map (featRow a fb logG) =
      finMat ((W.map R).map fun r => List.zipWith (· + ·) r v) := by
    unfold finMat
    rw [List.map_map, List.map_map, List.map_map]
    exact List.map_congr_left fun w hw => hR3 w hw
  rw [e2, C15_ms_shift (fun r hr => by
    obtain ⟨w, hw, rfl⟩ := List.mem_map.mp hr; exact hR1 w hw) (by simpa using hW0) hmin v hv, ← e1]
  exact hm

/-- C141: with 'ms' normalisation mfcc, imfcc, ngcc and lfcc do not depend on the level of the recording: the signal and
`c` times the signal give the same features, whatever `dct_type`, `use_energy` and `lifter` (outside `(-1, 0)`), when no
filter output is zero. -/
theorem C141_ms (f : Feature) (F : Args → List ℝ → Py (XMat × List (List ℝ)))
    (hf : (f, F) ∈ [(mfcc, melSpectrogram), (imfcc, melSpectrogram), (ngcc, melSpectrogram), (lfcc, linearSpectrogram)])
    (a : Args) (hn : a.normalize = some "ms") (hl : LiftOk a.lifter) (fb : XMat) (hb : a.fbanks = some fb)
    (sig : List ℝ) (x : XMat) (ft : List (List ℝ)) (hx : F a sig = .ok (x, ft)) (hp : AllPos x) (c : ℝ) (hc : c ≠ 0)
    (m : XMat) (h : f a sig = .ok m) : f a (sig.map (c * ·)) = .ok m := by
  have key : ∀ coeff, (∀ sig, f a sig = if a.nfilts < a.numCeps then .error (.parameterError ErrorMsgs.nfilts) else
      featCore a coeff fb logG sig) → F a sig = spectrogram a coeff fb sig → f a (sig.map (c * ·)) = .ok m := by
    intro coeff he hF
    rw [he] at h
    rw [hF] at hx
    split_ifs at h with h1
    rw [he, if_neg h1]
    exact core_ms hn hl hx hp hc h
  simp only [List.mem_cons, Prod.mk.injEq, List.not_mem_nil, or_false] at hf
  rcases hf with ⟨rfl, rfl⟩ | ⟨rfl, rfl⟩ | ⟨rfl, rfl⟩ | ⟨rfl, rfl⟩
  · refine key a.preEmphCoeff (fun s => ?_) ?_
    · rw [mfcc_eq, melBankOf, hb]; rfl
    · rw [melSpectrogram, melBankOf, hb]; rfl
  · refine key a.preEmphCoeff (fun s => ?_) ?_
    · rw [imfcc_eq, hb]; rfl
    · rw [melSpectrogram, melBankOf, hb]; rfl
  · refine key a.preEmphCoeff (fun s => ?_) ?_
    · rw [ngcc_eq, gammaBankOf, hb]; rfl
    · rw [melSpectrogram, melBankOf, hb]; rfl
  · refine key 0.97 (fun s => ?_) ?_
    · rw [lfcc_eq, hb]; rfl
    · rw [linearSpectrogram, hb]; rfl

/-! ### 'mvn' on log features -/

/-- Two entries of a row bound the variance of the matrix from below. -/
theorem var_ge_pair {A : List (List ℝ)} {c : ℕ} (h : Np.Rect A c) (hA : A ≠ []) (hc : 2 ≤ c) :
    (Np.at2 A 0 0 - Np.at2 A 0 1) ^ 2 / (2 * (A.length * c)) ≤ Np.var A.flatten := by
  have hl : 0 < A.length := List.length_pos_iff.mpr hA
  have hlR : (0:ℝ) < A.length := by exact_mod_cast hl
  have hcR : (0:ℝ) < c := by exact_mod_cast (by omega : 0 < c)
  rw [var_flatten h]
  have h1 : ∑ j ∈ Finset.range c, (Np.at2 A 0 j - Np.mean A.flatten) ^ 2 ≤
      ∑ i ∈ Finset.range A.length, ∑ j ∈ Finset.range c, (Np.at2 A i j - Np.mean A.flatten) ^ 2 :=
    Finset.single_le_sum (f := fun i => ∑ j ∈ Finset.range c, (Np.at2 A i j - Np.mean A.flatten) ^ 2)
      (fun i _ => Finset.sum_nonneg fun j _ => sq_nonneg _) (Finset.mem_range.mpr hl)
  have h2 : ∑ j ∈ Finset.range 2, (Np.at2 A 0 j - Np.mean A.flatten) ^ 2 ≤
      ∑ j ∈ Finset.range c, (Np.at2 A 0 j - Np.mean A.flatten) ^ 2 :=
    Finset.sum_le_sum_of_subset_of_nonneg (Finset.range_mono hc) fun j _ _ => sq_nonneg _
  rw [Finset.sum_range_succ, Finset.sum_range_one] at h2
  rw [div_le_div_iff₀ (by positivity) (by positivity)]
  generalize Np.mean A.flatten = μ at *
  generalize (∑ i ∈ Finset.range A.length, ∑ j ∈ Finset.range c, (Np.at2 A i j - μ) ^ 2) = S at *
  have h3 : (Np.at2 A 0 0 - Np.at2 A 0 1) ^ 2 ≤ 2 * S := by
    nlinarith [sq_nonneg (Np.at2 A 0 0 - μ + (Np.at2 A 0 1 - μ))]
  have h4 : (0:ℝ) < A.length * c := by positivity
  nlinarith

theorem log_feature_rect (f : Feature) (hf : f ∈ [mfcc, imfcc, ngcc, lfcc]) {a : Args} (hn : a.normalize = none) {fb : XMat}
    (hb : a.fbanks = some fb) {sig : List ℝ} {m : XMat} (h : f a sig = .ok m) :
    Np.Rect m (min a.numCeps fb.length) ∧ m.length ≠ 0 := by
  have key : ∀ coeff, (f a sig = if a.nfilts < a.numCeps then .error (.parameterError ErrorMsgs.nfilts) else
      featCore a coeff fb logG sig) → Np.Rect m (min a.numCeps fb.length) ∧ m.length ≠ 0 := by
    intro coeff he
    rw [he] at h
    split_ifs at h
    obtain ⟨W, hW, -, -, ht, rfl⟩ := (featCore_ok_iff' hn ..).mp h
    refine ⟨fun r hr => ?_, ?_⟩
    · obtain ⟨w, -, rfl⟩ := List.mem_map.mp hr
      exact tailRow_length ht _ _ (by simp)
    · rw [List.length_map]
      exact fun h0 => frontEnd_ne_nil hW (List.length_eq_zero_iff.mp h0)
  simp only [List.mem_cons, List.not_mem_nil, or_false] at hf
  rcases hf with rfl | rfl | rfl | rfl
  · exact key a.preEmphCoeff (by rw [mfcc_eq, melBankOf, hb]; rfl)
  · exact key a.preEmphCoeff (by rw [imfcc_eq, hb]; rfl)
  · exact key a.preEmphCoeff (by rw [ngcc_eq, gammaBankOf, hb]; rfl)
  · exact key 0.97 (by rw [lfcc_eq, hb]; rfl)

theorem getD_toNum {m : XMat} {i j : ℕ} (hi : i < m.length) (hj : j < (m.getD i []).length) :
    Np.at2 (m.map fun r => r.map toNum) i j = ((m.getD i []).getD j 0).toNum := by
  unfold Np.at2
  rw [getD_map_lt _ _ [] _ hi, getD_map_lt _ _ 0 _ hj]

/-- C141 (where the level does matter): with 'mvn' normalisation, mfcc, imfcc, ngcc and lfcc of a recording shrink to zero
as its level grows. ('mvn' divides by the standard deviation of the whole matrix, taken before the column means are
removed, and the level is in that deviation.) -/
theorem C141_mvn_vanishes (f : Feature) (F : Args → List ℝ → Py (XMat × List (List ℝ)))
    (hf : (f, F) ∈ [(mfcc, melSpectrogram), (imfcc, melSpectrogram), (ngcc, melSpectrogram), (lfcc, linearSpectrogram)])
    (a : Args) (hn : a.normalize = some "mvn") (hd : a.dctType = 2) (hu : a.useEnergy = false) (hl : a.lifter = none)
    (fb : XMat) (hb : a.fbanks = some fb) (h2 : 2 ≤ min a.numCeps fb.length)
    (sig : List ℝ) (x : XMat) (ft : List (List ℝ)) (hx : F a sig = .ok (x, ft)) (hp : AllPos x)
    (m : XMat) (h : f a sig = .ok m) (ε : ℝ) (hε : 0 < ε) :
    ∃ g : ℝ, ∀ c, g ≤ |c| → ∃ B : List (List ℝ), f a (sig.map (c * ·)) = .ok (finMat B) ∧
      HasShape B m.length (min a.numCeps fb.length) ∧ ∀ r ∈ B, ∀ v ∈ r, |v| < ε := by
  obtain ⟨a', ha'⟩ : ∃ a', a' = { a with lifter := none, normalize := none } := ⟨_, rfl⟩
  have hf4 : f ∈ [mfcc, imfcc, ngcc, lfcc] := by
    simp only [List.mem_cons, Prod.mk.injEq, List.not_mem_nil, or_false] at hf ⊢
    tauto
  have hf11 : f ∈ [mfcc, imfcc, lfcc, bfcc, gfcc, ngcc, msrcc, psrcc, (fun a => pncc a 0), plp, rplp] := by
    simp only [List.mem_cons, List.not_mem_nil, or_false] at hf4 ⊢
    tauto
  have hpost : ∀ sig, f a sig = f a' sig >>= postProcess none (some "mvn") := by
    intro sig
    rw [C102_post_processing f 0 hf11, ← ha', hl, hn]
  have hx' : F a' sig = .ok (x, ft) := by
    rw [← hx, ha']
    simp only [List.mem_cons, Prod.mk.injEq, List.not_mem_nil, or_false] at hf
    rcases hf with ⟨-, rfl⟩ | ⟨-, rfl⟩ | ⟨-, rfl⟩ | ⟨-, rfl⟩ <;> rfl
  obtain ⟨N, hN⟩ : ∃ N, N = min a.numCeps fb.length := ⟨_, rfl⟩
  have hN' : min a'.numCeps fb.length = N := by rw [ha', hN]
  have hb' : a'.fbanks = some fb := by rw [ha']; exact hb
  rw [← hN] at h2 ⊢
  rw [hpost] at h
  obtain ⟨m0, hm0, h⟩ := (bind_ok_iff ..).mp h
  have hr0 := log_feature_rect f hf4 (by rw [ha']) hb' hm0
  rw [hN'] at hr0
  have hmlen : m.length = m0.length := by
    have : normalizeCeps m0 (Np.ncols m0) "mvn" = .ok m := by simpa [postProcess, ok_bind] using h
    rw [normalizeCeps] at this
    split_ifs at this with h3 h4 <;> first | exact absurd rfl h4 | skip
    injection this with this
    rw [← this]
    simp [subRow]
  have hgain := C43_gain f F hf a' (by rw [ha']; exact hd) (by rw [ha']; exact hu) (by rw [ha']) (by rw [ha']) fb hb' sig x ft
    hx' hp
  rw [hN'] at hgain
  obtain ⟨A, hA⟩ : ∃ A : List (List ℝ), A = m0.map fun r => r.map toNum := ⟨_, rfl⟩
  have hAl : A.length = m0.length := by rw [hA]; simp
  have hAr : Np.Rect A N := by
    intro r hr
    rw [hA] at hr
    obtain ⟨r', hr', rfl⟩ := List.mem_map.mp hr
    rw [List.length_map]; exact hr0.1 r' hr'
  obtain ⟨K, hK⟩ : ∃ K : ℝ, K = ∑ i ∈ Finset.range m0.length, ∑ j ∈ Finset.range N,
      |Np.at2 A i j - Np.mean (Np.col A j)| := ⟨_, rfl⟩
  have hK0 : 0 ≤ K := by rw [hK]; exact Finset.sum_nonneg fun i _ => Finset.sum_nonneg fun j _ => abs_nonneg _
  have hKb : ∀ i j, i < m0.length → j < N → |Np.at2 A i j - Np.mean (Np.col A j)| ≤ K := by
    intro i j hi hj
    rw [hK]
    refine le_trans ?_ (Finset.single_le_sum (f := fun i => ∑ j ∈ Finset.range N, |Np.at2 A i j - Np.mean (Np.col A j)|)
      (fun i _ => Finset.sum_nonneg fun j _ => abs_nonneg _) (Finset.mem_range.mpr hi))
    exact Finset.single_le_sum (f := fun j => |Np.at2 A i j - Np.mean (Np.col A j)|) (fun j _ => abs_nonneg _)
      (Finset.mem_range.mpr hj)
  have hm0pos : 0 < m0.length := Nat.pos_of_ne_zero hr0.2
  have hn0 : (0:ℝ) < m0.length := by exact_mod_cast hm0pos
  have hNR : (0:ℝ) < N := by exact_mod_cast (by omega : 0 < N)
  obtain ⟨q, hq⟩ : ∃ q : ℝ, q = √(2 * (m0.length * N)) := ⟨_, rfl⟩
  have hq0 : 0 < q := by rw [hq]; exact Real.sqrt_pos.mpr (by positivity)
  have hfbN : (1:ℝ) ≤ √fb.length := by
    rw [Real.one_le_sqrt]
    exact_mod_cast (by omega : 1 ≤ fb.length)
  obtain ⟨T, hT⟩ : ∃ T : ℝ, T = |Np.at2 A 0 0 - Np.at2 A 0 1| + (K + 1) * q / ε + 1 := ⟨_, rfl⟩
  have hT0 : 0 < T := by rw [hT]; positivity
  refine ⟨Real.exp T, fun c hc => ?_⟩
  have hcpos : 0 < |c| := lt_of_lt_of_le (Real.exp_pos _) hc
  have hc0 : c ≠ 0 := abs_pos.mp hcpos
  have hlog : T ≤ Real.log |c| := by
    rw [Real.le_log_iff_exp_le hcpos]; exact hc
  obtain ⟨t, ht⟩ : ∃ t : ℝ, t = √fb.length * (2 * Real.log |c|) := ⟨_, rfl⟩
  have htT : T ≤ t := by
    rw [ht]; nlinarith
  obtain ⟨m', hm', hl', hent⟩ := hgain c hc0 m0 hm0
  rw [← ht] at hent
  have hr' := log_feature_rect f hf4 (by rw [ha']) hb' hm'
  rw [hN'] at hr'
  obtain ⟨A', hA'⟩ : ∃ A' : List (List ℝ), A' = m'.map fun r => r.map toNum := ⟨_, rfl⟩
  have hA'l : A'.length = m0.length := by rw [hA', List.length_map, hl']
  have hA'r : Np.Rect A' N := by
    intro r hr
    rw [hA'] at hr
    obtain ⟨r', hr'', rfl⟩ := List.mem_map.mp hr
    rw [List.length_map]; exact hr'.1 r' hr''
  have hat : ∀ i j, i < m0.length → j < N → Np.at2 A' i j = Np.at2 A i j + (if j = 0 then t else 0) ∧
      (m'.getD i []).getD j 0 = fin (Np.at2 A' i j) := by
    intro i j hi hj
    obtain ⟨y, hy1, hy2⟩ := hent i j hi hj
    rw [hA', hA, getD_toNum (hl' ▸ hi) (by rw [rect_row hr'.1 (hl' ▸ hi)]; exact hj),
      getD_toNum hi (by rw [rect_row hr0.1 hi]; exact hj), hy1, hy2]
    refine ⟨?_, rfl⟩
    show (if j = 0 then y + t else y) = y + (if j = 0 then t else 0)
    split_ifs <;> simp
  have hm'A : m' = finMat A' := by
    apply ext_getD [] (by simp [finMat, hA'l, hl'])
    intro i hi
    have hi' : i < m0.length := hl' ▸ hi
    have hlen' : (m'.getD i []).length = N := rect_row hr'.1 hi
    unfold finMat
    rw [getD_map_lt _ A' [] _ (by omega)]
    apply ext_getD 0 (by rw [hlen', List.length_map, rect_row hA'r (by omega)])
    intro j hj
    rw [(hat i j hi' (by omega)).2, getD_map_lt _ _ 0 _ (by rw [rect_row hA'r (by omega)]; omega)]
    rfl
  have hcol : ∀ j < N, Np.mean (Np.col A' j) = Np.mean (Np.col A j) + (if j = 0 then t else 0) := by
    intro j hj
    rw [mean_col, mean_col, hA'l, hAl, Finset.sum_congr rfl fun i hi => (hat i j (Finset.mem_range.mp hi) hj).1,
      Finset.sum_add_distrib, Finset.sum_const, Finset.card_range, nsmul_eq_mul]
    field_simp
  have hA'0 : A' ≠ [] := by
    intro h0; rw [h0] at hA'l; simp at hA'l; omega
  have hdiff : (K + 1) * q / ε < Np.at2 A' 0 0 - Np.at2 A' 0 1 := by
    rw [(hat 0 0 hm0pos (by omega)).1, (hat 0 1 hm0pos (by omega)).1, if_pos rfl, if_neg (by norm_num)]
    have h1 := neg_abs_le (Np.at2 A 0 0 - Np.at2 A 0 1)
    linarith
  have hdiff0 : 0 < Np.at2 A' 0 0 - Np.at2 A' 0 1 := lt_of_le_of_lt (by positivity) hdiff
  have hvar := var_ge_pair hA'r hA'0 h2
  rw [hA'l] at hvar
  have hvpos : 0 < Np.var A'.flatten := lt_of_lt_of_le (by positivity) hvar
  have hsd : (Np.at2 A' 0 0 - Np.at2 A' 0 1) / q ≤ √(Np.var A'.flatten) := by
    rw [hq]
    apply Real.le_sqrt_of_sq_le
    rw [div_pow, Real.sq_sqrt (by positivity)]
    exact hvar
  have hsd2 : (K + 1) / ε < √(Np.var A'.flatten) := by
    refine lt_of_lt_of_le ?_ hsd
    rw [lt_div_iff₀ hq0]
    calc (K + 1) / ε * q = (K + 1) * q / ε := by ring
      _ < _ := hdiff
  obtain ⟨B, hB, hBl, hBr, hBat, -⟩ := C16_mvn hA'r hA'0 (by omega) hvpos.ne'
  refine ⟨B, ?_, ⟨by rw [hBl, hA'l, hmlen], hBr⟩, ?_⟩
  · rw [hpost, hm', ok_bind]
    have hnc : Np.ncols m' = N := by
      cases hm'c : m' with
      | nil => rw [hm'c] at hl'; simp at hl'; omega
      | cons r rs => exact hr'.1 r (by rw [hm'c]; simp)
    show (if ("mvn" : String) = "" then .ok m' else normalizeCeps m' (Np.ncols m') "mvn") = _
    rw [if_neg (by decide), hnc, hm'A]
    exact hB
  · intro r hr v hv
    obtain ⟨i, hi, rfl⟩ := (mem_iff_getD [] _).mp hr
    obtain ⟨j, hj, rfl⟩ := (mem_iff_getD 0 _).mp hv
    rw [rect_row hBr hi] at hj
    rw [hBl] at hi
    have := hBat i j hi hj
    rw [hA'l] at hi
    show |Np.at2 B i j| < ε
    rw [this, (hat i j hi hj).1, hcol j hj, add_sub_add_right_eq_sub, abs_div, abs_of_pos (Real.sqrt_pos.mpr hvpos),
      div_lt_iff₀ (Real.sqrt_pos.mpr hvpos)]
    have h1 := hKb i j hi hj
    rw [div_lt_iff₀ hε] at hsd2
    linarith

/-! Concrete case: two frames, two filters. -/

theorem demo2_energy_pos : ∀ i < 2, ∀ n < 2, 0 < energyOf demo2 demo2.preEmphCoeff [[1, 2], [3, 1]] [5, 1, 4] 2 1 i n := by
  intro i hi n hn
  have hz : frameBin (windowWeight demo2.win.winType 2) (emphasised demo2.preEmph demo2.preEmphCoeff [5, 1, 4]) 2 1 demo2.nfft
      i 0 ≠ 0 := by
    unfold frameBin
    interval_cases i <;>
      simp [demo2, Args.win, windowWeight, emphasised, Finset.sum_range_succ] <;> norm_num [Complex.ext_iff]
  have h1 : (0 : ℝ) < ‖frameBin (windowWeight demo2.win.winType 2)
      (emphasised demo2.preEmph demo2.preEmphCoeff [5, 1, 4]) 2 1 demo2.nfft i 0‖ := norm_pos_iff.mpr hz
  have h2 : (0 : ℝ) < demo2.nfft := by simp [demo2]
  have h3 : demo2.nfft / 2 + 1 = 2 := by simp [demo2]
  unfold energyOf bandEnergy
  rw [h3, Finset.sum_range_succ, Finset.sum_range_one]
  refine add_pos_of_pos_of_nonneg (mul_pos ?_ ?_) (mul_nonneg ?_ ?_)
  · unfold framePower; positivity
  · interval_cases n <;> simp
  · unfold framePower; positivity
  · interval_cases n <;> simp

theorem demo2_allPos : AllPos ((List.range ((([5, 1, 4] : List ℝ).length - 2) / 1 + 1)).map fun (i : ℕ) =>
    ((List.range ([[1, 2], [3, 1]] : List (List ℝ)).length).map
      (energyOf demo2 demo2.preEmphCoeff [[1, 2], [3, 1]] [5, 1, 4] 2 1 i)).map fin) := by
  intro r hr v hv
  obtain ⟨i, hi, rfl⟩ := List.mem_map.mp hr
  obtain ⟨e, he, rfl⟩ := List.mem_map.mp hv
  obtain ⟨n, hn, rfl⟩ := List.mem_map.mp he
  exact ⟨_, demo2_energy_pos i (by simpa using hi) n (by simpa using hn), rfl⟩

theorem demo_normalised {m0 : XMat} (h : HasShape m0 2 2) (name : String) (hn : name ∈ ["vn", "mvn", "ms"]) :
    ∃ m, postProcess none (some name) m0 = .ok m ∧ m.length = 2 := by
  obtain ⟨h1, h2⟩ := h
  have hf : m0.flatten ≠ [] := by
    obtain ⟨r, rs, rfl⟩ := List.exists_cons_of_length_pos (by omega : 0 < m0.length)
    have := h2 r (by simp)
    obtain ⟨v, vs, rfl⟩ := List.exists_cons_of_length_pos (by omega : 0 < r.length)
    simp
  unfold postProcess
  simp only [List.mem_cons, List.not_mem_nil, or_false] at hn
  rcases hn with rfl | rfl | rfl <;>
    · simp only [ok_bind, normalizeCeps, if_neg hf]
      simp [subRow, h1]

/-- With 'ms' the recording at any level gives the same mfcc. -/
example (c : ℝ) (hc : c ≠ 0) : ∃ m, mfcc { demo2 with normalize := some "ms" } [5, 1, 4] = .ok m ∧
    m.length = 2 ∧ mfcc { demo2 with normalize := some "ms" } ([5, 1, 4].map (c * ·)) = .ok m := by
  obtain ⟨ft, hx'⟩ := demo2_setup.spectrogram demo2.preEmphCoeff
  have hx : melSpectrogram { demo2 with normalize := some "ms" } [5, 1, 4] = .ok (_, ft) := hx'
  obtain ⟨m0, h1, h2, -⟩ := C101_meaning demo2 mfcc demo2.preEmphCoeff logFloor (by simp [compressions]) _ _ 2 1
    demo2_setup rfl rfl rfl rfl
  have hm : ∃ m, mfcc { demo2 with normalize := some "ms" } [5, 1, 4] = .ok m ∧ m.length = 2 := by
    obtain ⟨m, hm, hl⟩ := demo_normalised (by simpa [demo2] using h2) "ms" (by simp)
    refine ⟨m, ?_, hl⟩
    rw [C102_post_processing mfcc 0 (by simp)]
    show (mfcc demo2 [5, 1, 4] >>= _) = _
    rw [h1, ok_bind]
    exact hm
  obtain ⟨m, hm, hl⟩ := hm
  refine ⟨m, hm, hl, C141_ms mfcc melSpectrogram (by simp) _ rfl (by simp [LiftOk, demo2]) _ rfl _ _ ft
    hx demo2_allPos c hc m hm⟩

/-- With 'mvn' the mfcc of the recording played louder and louder tend to zero. -/
example (ε : ℝ) (hε : 0 < ε) : ∃ g : ℝ, ∀ c, g ≤ |c| → ∃ B : List (List ℝ),
    mfcc { demo2 with normalize := some "mvn" } ([5, 1, 4].map (c * ·)) = .ok (finMat B) ∧ HasShape B 2 2 ∧
      ∀ r ∈ B, ∀ v ∈ r, |v| < ε := by
  obtain ⟨ft, hx'⟩ := demo2_setup.spectrogram demo2.preEmphCoeff
  have hx : melSpectrogram { demo2 with normalize := some "mvn" } [5, 1, 4] = .ok (_, ft) := hx'
  obtain ⟨m0, h1, h2, -⟩ := C101_meaning demo2 mfcc demo2.preEmphCoeff logFloor (by simp [compressions]) _ _ 2 1
    demo2_setup rfl rfl rfl rfl
  obtain ⟨m, hm, hl⟩ := demo_normalised (by simpa [demo2] using h2) "mvn" (by simp)
  have hm' : mfcc { demo2 with normalize := some "mvn" } [5, 1, 4] = .ok m := by
    rw [C102_post_processing mfcc 0 (by simp)]
    show (mfcc demo2 [5, 1, 4] >>= _) = _
    rw [h1, ok_bind]
    exact hm
  have := C141_mvn_vanishes mfcc melSpectrogram (by simp) _ rfl rfl rfl rfl (finMat [[1, 2], [3, 1]]) rfl
    (by simp [demo2, finMat]) [5, 1, 4] _ ft hx demo2_allPos m hm' ε hε
  rw [hl] at this
  exact this

/-- With 'mvn' the gfcc of the recording at any level are the same. -/
example (c : ℝ) (hc : c ≠ 0) : ∃ m, gfcc { demo2 with normalize := some "mvn" } [5, 1, 4] = .ok m ∧
    m.length = 2 ∧ gfcc { demo2 with normalize := some "mvn" } ([5, 1, 4].map (c * ·)) = .ok m := by
  obtain ⟨m0, h1, h2, -⟩ := C101_meaning demo2 gfcc 0.97 (fun e => e ^ (1 / 3 : ℝ)) (by simp [compressions]) _ _ 2 1
    demo2_setup rfl rfl rfl rfl
  obtain ⟨m, hm, hl⟩ := demo_normalised (by simpa [demo2] using h2) "mvn" (by simp)
  have hm' : gfcc { demo2 with normalize := some "mvn" } [5, 1, 4] = .ok m := by
    rw [C102_post_processing gfcc 0 (by simp)]
    show (gfcc demo2 [5, 1, 4] >>= _) = _
    rw [h1, ok_bind]
    exact hm
  exact ⟨m, hm', hl, ((C141_root { demo2 with normalize := some "mvn" } rfl "mvn" rfl (by simp) _ c hc m).1).mpr hm'⟩

end Props
end Spafe
