import Verif.Props.Meaning
import Verif.Props.Errors
import Mathlib.Analysis.MeanInequalitiesPow

/-! C118: what added noise does to band energies and to the features. -/

set_option linter.unusedSectionVars false

namespace Spafe
namespace Props
open Model XF Spec

/-- Two signals mixed sample by sample. -/
def mixed (x e : List ℝ) : List ℝ := List.zipWith (· + ·) x e

theorem emphasised_mixed (on : Bool) (c : ℝ) {x e : List ℝ} (h : x.length = e.length) (t : ℕ) :
    emphasised on c (mixed x e) t = emphasised on c x t + emphasised on c e t := by
  have hm : ∀ t, (mixed x e).getD t 0 = x.getD t 0 + e.getD t 0 := by
    intro t
    by_cases ht : t < x.length
    · exact getD_zipWith_lt _ _ _ 0 0 0 ht (by omega)
    · rw [List.getD_eq_default _ _ (by simp [mixed]; omega), List.getD_eq_default _ _ (by omega),
        List.getD_eq_default _ _ (by omega), add_zero]
  unfold emphasised
  rw [hm, hm]
  split_ifs <;> ring

theorem frameBin_add (w y z : ℕ → ℝ) (l s nfft i k : ℕ) :
    frameBin w (fun t => y t + z t) l s nfft i k = frameBin w y l s nfft i k + frameBin w z l s nfft i k := by
  unfold frameBin
  rw [← Finset.sum_add_distrib]
  apply Finset.sum_congr rfl
  intro j _
  push_cast
  ring

theorem weight_nonneg {fb : List (List ℝ)} (h : ∀ r ∈ fb, ∀ v ∈ r, 0 ≤ v) (n k : ℕ) :
    0 ≤ (fb.getD n []).getD k 0 := by
  by_cases hn : n < fb.length
  · by_cases hk : k < (fb.getD n []).length
    · exact h _ (getD_mem _ hn) _ (getD_mem _ hk)
    · rw [List.getD_eq_default _ _ (by omega)]
  · rw [List.getD_eq_default fb _ (by omega)]; simp

/-- The root of the band energy obeys the triangle inequality. -/
theorem sqrt_bandEnergy_add {fb : List (List ℝ)} (h : ∀ r ∈ fb, ∀ v ∈ r, 0 ≤ v) (w y z : ℕ → ℝ) (l s nfft i n : ℕ) :
    √(bandEnergy fb w (fun t => y t + z t) l s nfft i n) ≤
      √(bandEnergy fb w y l s nfft i n) + √(bandEnergy fb w z l s nfft i n) := by
  have e : ∀ u : ℕ → ℝ, bandEnergy fb w u l s nfft i n =
      ∑ k ∈ Finset.range (nfft / 2 + 1), (√((fb.getD n []).getD k 0 / nfft) * ‖frameBin w u l s nfft i k‖) ^ 2 := by
    intro u
    unfold bandEnergy framePower
    apply Finset.sum_congr rfl
    intro k _
    rw [mul_pow, Real.sq_sqrt (div_nonneg (weight_nonneg h n k) (Nat.cast_nonneg _))]
    ring
  set p : ℕ → ℝ := fun k => √((fb.getD n []).getD k 0 / nfft) * ‖frameBin w y l s nfft i k‖
  set q : ℕ → ℝ := fun k => √((fb.getD n []).getD k 0 / nfft) * ‖frameBin w z l s nfft i k‖
  have hcs := Real.sum_mul_le_sqrt_mul_sqrt (Finset.range (nfft / 2 + 1)) p q
  rw [Real.sqrt_le_left (by positivity)]
  have h1 : bandEnergy fb w (fun t => y t + z t) l s nfft i n ≤
      ∑ k ∈ Finset.range (nfft / 2 + 1), (p k + q k) ^ 2 := by
    rw [e]
    refine Finset.sum_le_sum fun k _ => pow_le_pow_left₀ (by positivity) ?_ 2
    rw [frameBin_add, ← mul_add]
    exact mul_le_mul_of_nonneg_left (norm_add_le _ _) (Real.sqrt_nonneg _)
  refine h1.trans ?_
  rw [add_sq, Real.sq_sqrt (bandEnergy_nonneg h ..), Real.sq_sqrt (bandEnergy_nonneg h ..), e y, e z]
  simp only [add_sq, Finset.sum_add_distrib, mul_assoc]
  rw [← Finset.mul_sum]
  linarith

theorem bandEnergy_neg (fb : List (List ℝ)) (w y : ℕ → ℝ) (l s nfft i n : ℕ) :
    bandEnergy fb w (fun t => - y t) l s nfft i n = bandEnergy fb w y l s nfft i n := by
  unfold bandEnergy framePower
  apply Finset.sum_congr rfl
  intro k _
  have : frameBin w (fun t => - y t) l s nfft i k = - frameBin w y l s nfft i k := by
    unfold frameBin
    rw [← Finset.sum_neg_distrib]
    apply Finset.sum_congr rfl
    intro j _
    push_cast
    ring
  rw [this, norm_neg]

/-- C118 for the energies: the root of the energy of any band changes by at most the root of the noise's energy in
that band, with any window, pre-emphasis and non-negative bank. -/
theorem C118_energy (fb : List (List ℝ)) (h : ∀ r ∈ fb, ∀ v ∈ r, 0 ≤ v) (w : ℕ → ℝ) (on : Bool) (c : ℝ)
    (x e : List ℝ) (hl : x.length = e.length) (l s nfft i n : ℕ) :
    |√(bandEnergy fb w (emphasised on c (mixed x e)) l s nfft i n) -
      √(bandEnergy fb w (emphasised on c x) l s nfft i n)| ≤ √(bandEnergy fb w (emphasised on c e) l s nfft i n) := by
  have e1 : emphasised on c (mixed x e) = fun t => emphasised on c x t + emphasised on c e t :=
    funext fun t => emphasised_mixed on c hl t
  have e2 : emphasised on c x = fun t => emphasised on c (mixed x e) t + - emphasised on c e t := by
    funext t
    rw [emphasised_mixed on c hl]; ring
  have h1 := sqrt_bandEnergy_add h w (emphasised on c x) (emphasised on c e) l s nfft i n
  have h2 := sqrt_bandEnergy_add h w (emphasised on c (mixed x e)) (fun t => - emphasised on c e t) l s nfft i n
  rw [← e1] at h1
  rw [← e2, bandEnergy_neg] at h2
  rw [abs_le]
  constructor <;> linarith

theorem dctII_eq_dct2 (N : ℕ) (y : ℕ → ℝ) {k : ℕ} (hk : k < N) : dctII N y k = dct2 N y k := by
  have h := dctRow_two N y
  rw [dctRow_fin] at h
  have := congrArg (fun r => r.getD k (fin 0)) h
  beta_reduce at this
  rw [getD_map_lt fin _ 0 _ (by simpa using hk), getD_map_lt fin _ 0 _ (by simpa using hk),
    getD_map_range_lt _ _ (by simpa using hk), getD_map_range_lt _ _ hk] at this
  have := XF.fin_injective this
  rw [← this, dct2, List.length_map, List.length_range]
  apply Finset.sum_congr rfl
  intro n hn
  rw [getD_map_range_lt _ _ (by simpa using hn)]

/-- Keeping `p` coefficients, the DCT does not increase distances. -/
theorem dctII_contracts (N p : ℕ) (hp : p ≤ N) (y z : ℕ → ℝ) :
    ∑ k ∈ Finset.range p, (dctII N y k - dctII N z k) ^ 2 ≤ ∑ n ∈ Finset.range N, (y n - z n) ^ 2 := by
  rw [← dct2_isometry N fun n => y n - z n]
  have hlin : ∀ k, dct2 N (fun n => y n - z n) k = dct2 N y k - dct2 N z k := by
    intro k
    unfold dct2
    rw [← Finset.sum_sub_distrib]
    apply Finset.sum_congr rfl
    intro n _; ring
  calc ∑ k ∈ Finset.range p, (dctII N y k - dctII N z k) ^ 2
      = ∑ k ∈ Finset.range p, (dct2 N (fun n => y n - z n) k) ^ 2 := by
        apply Finset.sum_congr rfl
        intro k hk
        have : k < N := by have := Finset.mem_range.mp hk; omega
        rw [dctII_eq_dct2 N y this, dctII_eq_dct2 N z this, hlin]
    _ ≤ _ := Finset.sum_le_sum_of_subset_of_nonneg (by simpa using hp) fun _ _ _ => sq_nonneg _

theorem Setup.mix {a : Args} {fb : List (List ℝ)} {x e : List ℝ} {l s : ℕ} (h : Setup a fb x l s)
    (hl : x.length = e.length) : Setup a fb (mixed x e) l s :=
  { h with
    long := by simpa [mixed, ← hl] using h.long
    samples := fun p e => h.samples p (by simpa [mixed, ← hl] using congrArg List.length e) }

theorem log_ratio {E E' n : ℝ} {η : ℝ} (h0 : 0 ≤ η) (h1 : η < 1) (hE : 0 < E) (hE' : 0 ≤ E') (hn : n ≤ η ^ 2 * E)
    (hd : |√E' - √E| ≤ √n) : |logFloor E' - logFloor E| ≤ 2 * -Real.log (1 - η) := by
  have hs : √n ≤ η * √E := by
    rw [← Real.sqrt_sq h0, ← Real.sqrt_mul (sq_nonneg _)]
    exact Real.sqrt_le_sqrt hn
  have hE0 : 0 < √E := Real.sqrt_pos.mpr hE
  obtain ⟨d1, d2⟩ := abs_le.mp (hd.trans hs)
  have lo : (1 - η) * √E ≤ √E' := by linarith
  have hi : √E' ≤ (1 + η) * √E := by linarith
  have hη : 0 < 1 - η := by linarith
  have hE'0 : 0 < √E' := lt_of_lt_of_le (by positivity) lo
  have hE'1 : 0 < E' := Real.sqrt_pos.mp hE'0
  have r : ∀ {v : ℝ}, 0 < v → logFloor v = 2 * Real.log (√v) := by
    intro v hv
    rw [logFloor, if_neg hv.ne', Real.log_sqrt hv.le]; ring
  rw [r hE, r hE'1]
  have l1 := Real.log_le_log (by positivity) lo
  have l2 := Real.log_le_log hE'0 hi
  rw [Real.log_mul hη.ne' hE0.ne'] at l1
  rw [Real.log_mul (by linarith) hE0.ne'] at l2
  have l3 : Real.log (1 + η) ≤ - Real.log (1 - η) := by
    rw [← Real.log_inv]
    apply Real.log_le_log (by linarith)
    rw [le_inv_comm₀ (by linarith) hη, ← one_div, le_div_iff₀ (by linarith)]
    nlinarith
  rw [abs_le]
  constructor <;> linarith

/-- C118: if in every band of every frame the noise has at most `η²` times the energy of the signal, `η < 1`, every
row of the logarithmic features moves by at most `√N · 2 · log (1 / (1 - η))` (Euclidean distance, `N` filters). -/
theorem C118_log_features (a : Args) (f : Feature) (coeff : ℝ)
    (hf : (f, coeff) ∈ [(mfcc, a.preEmphCoeff), (imfcc, a.preEmphCoeff), (ngcc, a.preEmphCoeff), (lfcc, (0.97 : ℝ))])
    (fb : List (List ℝ)) (x e : List ℝ) (hl : x.length = e.length) (l s : ℕ) (h : Setup a fb x l s)
    (hd : a.dctType = 2) (hu : a.useEnergy = false) (hli : a.lifter = none) (hn : a.normalize = none)
    (η : ℝ) (h0 : 0 ≤ η) (h1 : η < 1)
    (hE : ∀ i < (x.length - l) / s + 1, ∀ n < fb.length,
      0 < bandEnergy fb (windowWeight a.win.winType l) (emphasised a.preEmph coeff x) l s a.nfft i n ∧
      bandEnergy fb (windowWeight a.win.winType l) (emphasised a.preEmph coeff e) l s a.nfft i n ≤
        η ^ 2 * bandEnergy fb (windowWeight a.win.winType l) (emphasised a.preEmph coeff x) l s a.nfft i n) :
    ∃ m m', f a x = .ok m ∧ f a (mixed x e) = .ok m' ∧ HasShape m ((x.length - l) / s + 1) (min a.numCeps fb.length) ∧
      HasShape m' ((x.length - l) / s + 1) (min a.numCeps fb.length) ∧
      ∀ i < (x.length - l) / s + 1, ∃ c c' : ℕ → ℝ, (∀ k < min a.numCeps fb.length,
          (m.getD i []).getD k nan = fin (c k) ∧ (m'.getD i []).getD k nan = fin (c' k)) ∧
        ∑ k ∈ Finset.range (min a.numCeps fb.length), (c' k - c k) ^ 2 ≤
          fb.length * (2 * Real.log (1 / (1 - η))) ^ 2 := by
  have hc : (f, coeff, logFloor) ∈ compressions a := by
    simp only [List.mem_cons, Prod.mk.injEq, List.not_mem_nil, or_false] at hf
    rcases hf with ⟨rfl, rfl⟩ | ⟨rfl, rfl⟩ | ⟨rfl, rfl⟩ | ⟨rfl, rfl⟩ <;> simp [compressions]
  have hx : (mixed x e).length = x.length := by simp [mixed, hl]
  obtain ⟨m, hm, s1, v1⟩ := C101_meaning a f coeff logFloor hc fb x l s h hd hu hli hn
  obtain ⟨m', hm', s2, v2⟩ := C101_meaning a f coeff logFloor hc fb (mixed x e) l s (h.mix hl) hd hu hli hn
  rw [hx] at s2 v2
  refine ⟨m, m', hm, hm', s1, s2, fun i hi => ⟨_, _, fun k hk => ⟨v1 i k hi hk, v2 i k hi hk⟩, ?_⟩⟩
  refine (dctII_contracts fb.length _ (min_le_right _ _) _ _).trans ?_
  have : ∀ n ∈ Finset.range fb.length, (logFloor (bandEnergy fb (windowWeight a.win.winType l)
      (emphasised a.preEmph coeff (mixed x e)) l s a.nfft i n) - logFloor (bandEnergy fb (windowWeight a.win.winType l)
      (emphasised a.preEmph coeff x) l s a.nfft i n)) ^ 2 ≤ (2 * Real.log (1 / (1 - η))) ^ 2 := by
    intro n hn
    obtain ⟨p1, p2⟩ := hE i hi n (Finset.mem_range.mp hn)
    rw [sq_le_sq, one_div, Real.log_inv]
    refine (log_ratio h0 h1 p1 (bandEnergy_nonneg h.nonneg ..) p2
      (C118_energy fb h.nonneg _ _ _ x e hl ..)).trans (le_abs_self _)
  refine (Finset.sum_le_sum this).trans ?_
  simp

theorem rpow_holder {a b p : ℝ} (ha : 0 ≤ a) (hb : 0 ≤ b) (h0 : 0 ≤ p) (h1 : p ≤ 1) :
    |a ^ p - b ^ p| ≤ |a - b| ^ p := by
  have key : ∀ {a b : ℝ}, 0 ≤ a → 0 ≤ b → b ≤ a → |a ^ p - b ^ p| ≤ |a - b| ^ p := by
    intro a b ha hb hab
    obtain ⟨d, hd⟩ : ∃ d : NNReal, (d : ℝ) = a - b := ⟨⟨a - b, by linarith⟩, rfl⟩
    obtain ⟨b', rfl⟩ : ∃ b' : NNReal, (b' : ℝ) = b := ⟨⟨b, hb⟩, rfl⟩
    have := NNReal.coe_le_coe.mpr (NNReal.rpow_add_le_add_rpow d b' h0 h1)
    push_cast at this
    rw [hd, sub_add_cancel] at this
    rw [abs_of_nonneg (sub_nonneg.mpr (Real.rpow_le_rpow hb hab h0)), abs_of_nonneg (sub_nonneg.mpr hab)]
    linarith
  rcases le_total b a with h | h
  · exact key ha hb h
  · rw [abs_sub_comm, abs_sub_comm a b]; exact key hb ha h

/-- C118 for `gfcc`: because of its cube root the squared distance of the rows is at most the sum over the bands of the
noise's energy to the power 2/3, whatever the signal (silence included). -/
theorem C118_gfcc (a : Args) (fb : List (List ℝ)) (x e : List ℝ) (hl : x.length = e.length) (l s : ℕ)
    (h : Setup a fb x l s) (hd : a.dctType = 2) (hu : a.useEnergy = false) (hli : a.lifter = none)
    (hn : a.normalize = none) :
    ∃ m m', gfcc a x = .ok m ∧ gfcc a (mixed x e) = .ok m' ∧
      HasShape m ((x.length - l) / s + 1) (min a.numCeps fb.length) ∧
      HasShape m' ((x.length - l) / s + 1) (min a.numCeps fb.length) ∧
      ∀ i < (x.length - l) / s + 1, ∃ c c' : ℕ → ℝ, (∀ k < min a.numCeps fb.length,
          (m.getD i []).getD k nan = fin (c k) ∧ (m'.getD i []).getD k nan = fin (c' k)) ∧
        ∑ k ∈ Finset.range (min a.numCeps fb.length), (c' k - c k) ^ 2 ≤
          ∑ n ∈ Finset.range fb.length, (bandEnergy fb (windowWeight a.win.winType l)
            (emphasised a.preEmph 0.97 e) l s a.nfft i n) ^ (2 / 3 : ℝ) := by
  have hc : (gfcc, (0.97 : ℝ), fun e : ℝ => e ^ (1 / 3 : ℝ)) ∈ compressions a := by simp [compressions]
  have hx : (mixed x e).length = x.length := by simp [mixed, hl]
  obtain ⟨m, hm, s1, v1⟩ := C101_meaning a gfcc _ _ hc fb x l s h hd hu hli hn
  obtain ⟨m', hm', s2, v2⟩ := C101_meaning a gfcc _ _ hc fb (mixed x e) l s (h.mix hl) hd hu hli hn
  rw [hx] at s2 v2
  refine ⟨m, m', hm, hm', s1, s2, fun i hi => ⟨_, _, fun k hk => ⟨v1 i k hi hk, v2 i k hi hk⟩, ?_⟩⟩
  refine (dctII_contracts fb.length _ (min_le_right _ _) _ _).trans (Finset.sum_le_sum fun n _ => ?_)
  have hE := C118_energy fb h.nonneg (windowWeight a.win.winType l) a.preEmph 0.97 x e hl l s a.nfft i n
  have p0 := bandEnergy_nonneg h.nonneg (windowWeight a.win.winType l) (emphasised a.preEmph 0.97 (mixed x e)) l s a.nfft i n
  have p1 := bandEnergy_nonneg h.nonneg (windowWeight a.win.winType l) (emphasised a.preEmph 0.97 x) l s a.nfft i n
  have p2 := bandEnergy_nonneg h.nonneg (windowWeight a.win.winType l) (emphasised a.preEmph 0.97 e) l s a.nfft i n
  generalize bandEnergy fb (windowWeight a.win.winType l) (emphasised a.preEmph 0.97 (mixed x e)) l s a.nfft i n = E' at *
  generalize bandEnergy fb (windowWeight a.win.winType l) (emphasised a.preEmph 0.97 x) l s a.nfft i n = E at *
  generalize bandEnergy fb (windowWeight a.win.winType l) (emphasised a.preEmph 0.97 e) l s a.nfft i n = N at *
  have r : ∀ {v : ℝ}, 0 ≤ v → v ^ (1 / 3 : ℝ) = √v ^ (2 / 3 : ℝ) := by
    intro v hv
    rw [Real.sqrt_eq_rpow, ← Real.rpow_mul hv]; norm_num
  rw [r p0, r p1, ← sq_abs]
  have hh := rpow_holder (p := 2 / 3) (Real.sqrt_nonneg E') (Real.sqrt_nonneg E) (by norm_num) (by norm_num)
  have h2 := hh.trans (Real.rpow_le_rpow (abs_nonneg _) hE (by norm_num))
  rw [← r p2] at h2
  calc _ ≤ (N ^ (1 / 3 : ℝ)) ^ 2 := pow_le_pow_left₀ (abs_nonneg _) h2 2
    _ = _ := by rw [← Real.rpow_natCast, ← Real.rpow_mul p2]; norm_num

/-! ### Example: 1 % of the signal added to itself -/

theorem bandEnergy_smul (fb : List (List ℝ)) (w y : ℕ → ℝ) (c : ℝ) (l s nfft i n : ℕ) :
    bandEnergy fb w (fun t => c * y t) l s nfft i n = c ^ 2 * bandEnergy fb w y l s nfft i n := by
  unfold bandEnergy
  rw [Finset.mul_sum]
  apply Finset.sum_congr rfl
  intro k _
  have : frameBin w (fun t => c * y t) l s nfft i k = c * frameBin w y l s nfft i k := by
    unfold frameBin
    rw [Finset.mul_sum]
    apply Finset.sum_congr rfl
    intro j _
    push_cast
    ring
  unfold framePower
  rw [this, norm_mul, Complex.norm_real, mul_pow, Real.norm_eq_abs, sq_abs]
  ring

/-- The rows of `mfcc` move by at most `√2 · 2 · log (1 / 0.99)`. -/
example : ∃ m m', mfcc demo2 [5, 1, 4] = .ok m ∧ mfcc demo2 (mixed [5, 1, 4] [0.05, 0.01, 0.04]) = .ok m' ∧
    HasShape m 2 2 ∧ HasShape m' 2 2 ∧ ∀ i < 2, ∃ c c' : ℕ → ℝ, (∀ k < 2,
      (m.getD i []).getD k nan = fin (c k) ∧ (m'.getD i []).getD k nan = fin (c' k)) ∧
      ∑ k ∈ Finset.range 2, (c' k - c k) ^ 2 ≤ (2 : ℕ) * (2 * Real.log (1 / (1 - 0.01))) ^ 2 := by
  refine C118_log_features demo2 mfcc 0.97 (by simp [demo2]) [[1, 2], [3, 1]] [5, 1, 4] [0.05, 0.01, 0.04] rfl 2 1
    demo2_setup rfl rfl rfl rfl 0.01 (by norm_num) (by norm_num) fun i hi n hn => ⟨?_, ?_⟩
  · have hi : i < 2 := hi
    have hn : n < 2 := hn
    have hw : ∀ j < 2, windowWeight demo2.win.winType 2 j = 0.08 := by
      intro j hj
      have : demo2.win.winType = "hamming" := rfl
      rw [this, windowWeight, if_neg (by norm_num), if_neg (by decide), if_pos rfl]
      have : Real.cos (2 * Real.pi * j / ((2 : ℕ) - 1)) = 1 := by
        interval_cases j
        · simp
        · norm_num
      rw [this]; norm_num
    unfold bandEnergy
    refine lt_of_lt_of_le ?_ (Finset.single_le_sum (a := 0) (fun k _ => mul_nonneg (by unfold framePower; positivity)
      (weight_nonneg demo2_setup.nonneg n k)) (by simp))
    have h0 : 0 < (([[1, 2], [3, 1]] : List (List ℝ)).getD n []).getD 0 0 := by interval_cases n <;> simp
    refine mul_pos ?_ h0
    unfold framePower
    have hnf : demo2.nfft = 2 := rfl
    rw [hnf]
    have : frameBin (windowWeight demo2.win.winType 2) (emphasised demo2.preEmph 0.97 [5, 1, 4]) 2 1 2 i 0 ≠ 0 := by
      have hp : demo2.preEmph = true := rfl
      unfold frameBin
      rw [hp, min_self, Finset.sum_range_succ, Finset.sum_range_one, hw 0 (by norm_num), hw 1 (by norm_num)]
      interval_cases i <;> norm_num [emphasised, Complex.ext_iff]
    positivity
  · have : emphasised demo2.preEmph 0.97 [0.05, 0.01, 0.04] = fun t => 0.01 * emphasised demo2.preEmph 0.97 [5, 1, 4] t := by
      have hp : demo2.preEmph = true := rfl
      funext t
      have hg : ∀ t, ([0.05, 0.01, 0.04] : List ℝ).getD t 0 = 0.01 * ([5, 1, 4] : List ℝ).getD t 0 := by
        intro t
        rcases t with _ | _ | _ | t <;> norm_num
      rw [hp, emphasised, emphasised, hg, hg]
      split_ifs <;> ring
    rw [this, bandEnergy_smul]

end Props
end Spafe
