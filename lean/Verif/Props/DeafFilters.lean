import Verif.Props.SpecMeaning

/-!
C160: filters that hear nothing. A triangular filter that lies between two neighbouring columns of the bank has no positive weight:
the corresponding band is zero for every signal (`spafe/fbanks/mel_fbanks.py:19-330`, `spafe/fbanks/linear_fbanks.py:18-105`).
-/

set_option linter.unusedSectionVars false

namespace Spafe
namespace Spec

/-- Filter `j` of the bank has a positive weight. -/
def Hears (bank : List (List (XF ℝ))) (j : ℕ) : Prop := ∃ k v, (bank.getD j []).getD k (.fin 0) = .fin v ∧ 0 < v

/-- All weights of filter `j` are zero. -/
def Deaf (bank : List (List (XF ℝ))) (j : ℕ) : Prop := ∀ k, (bank.getD j []).getD k (.fin 0) = .fin 0

end Spec

namespace Props

open Model XF Spec Real

variable {scale approach : String} {w : ℕ → ℕ → ℝ} {a b fs low high : ℝ} {hf : Option ℝ}

/-- Frequencies `P 0 = low < P 1 < ... < P (n+1) = high` whose distances do not shrink. -/
structure Edges (P : ℕ → ℝ) (low high : ℝ) (n : ℕ) : Prop where
  first : P 0 = low
  last : P (n + 1) = high
  mono : StrictMono P
  widen : ∀ j, P 2 - P 0 ≤ P (j + 2) - P j

theorem hears_iff {bank : XMat} {P : ℕ → ℝ} {n c : ℕ} {col : ℕ → ℝ} (hw : ∀ j < n, 0 < w n j) (hP : StrictMono P)
    (hM : IsMatrix bank n c (fun j k => w n j * tri (P j) (P (j + 1)) (P (j + 2)) (col k))) {j : ℕ} (hj : j < n) :
    (Hears bank j ↔ ∃ k < c, P j < col k ∧ col k < P (j + 2)) ∧ (¬ Hears bank j → Deaf bank j) := by
  have m1 := hP (show j < j + 1 by omega)
  have m2 := hP (show j + 1 < j + 2 by omega)
  have hrow : (bank.getD j []).length = c := hM.2.1 _ (getD_mem [] (by rw [hM.1]; exact hj))
  have key : ∀ k, (∃ v, (bank.getD j []).getD k (fin 0) = fin v ∧ 0 < v) ∨ (bank.getD j []).getD k (fin 0) = fin 0 := by
    intro k
    by_cases hk : k < c
    · rw [hM.2.2 j k hj hk]
      rcases eq_or_lt_of_le (mul_nonneg (hw j hj).le (tri_nonneg (P j) (P (j + 1)) (P (j + 2)) (col k))) with h | h
      · right; beta_reduce; rw [← h]
      · left; exact ⟨_, rfl, h⟩
    · right
      exact List.getD_eq_default _ _ (by omega)
  refine ⟨⟨?_, ?_⟩, fun hn k => ?_⟩
  · rintro ⟨k, v, hv, hp⟩
    by_cases hk : k < c
    · refine ⟨k, hk, ?_⟩
      rw [hM.2.2 j k hj hk] at hv
      injection hv with hv
      beta_reduce at hv
      by_contra hc
      have : col k ≤ P j ∨ P (j + 2) ≤ col k := by
        rcases not_and_or.1 hc with h | h
        · exact Or.inl (not_lt.1 h)
        · exact Or.inr (not_lt.1 h)
      rw [tri_outside m1 m2 this, mul_zero] at hv
      linarith
    · rw [List.getD_eq_default _ _ (by omega)] at hv
      injection hv with hv
      linarith
  · rintro ⟨k, hk, h1, h2⟩
    exact ⟨k, _, hM.2.2 j k hj hk, mul_pos (hw j hj) (tri_pos h1 h2 m1 m2)⟩
  · rcases key k with ⟨v, hv⟩ | h
    · exact absurd ⟨k, v, hv⟩ hn
    · exact h

/-- All filters between widening edges contain a column iff the first one does, i.e. iff it is wider than one step. -/
theorem grid_iff {P : ℕ → ℝ} {n : ℕ} (hP : Edges P low high n) (hlh : low < high) (hn : 1 ≤ n) (nfft : ℕ) (h2 : 2 ≤ nfft) :
    (∀ j < n, ∃ k < nfft / 2 + 1, P j < colFreq low high nfft k ∧ colFreq low high nfft k < P (j + 2)) ↔
      (high - low) / (nfft / 2 : ℕ) < P 2 - low := by
  have hNn : 0 < nfft / 2 := by omega
  have hN : (0 : ℝ) < (nfft / 2 : ℕ) := by exact_mod_cast hNn
  obtain ⟨N, hNe⟩ : ∃ N, N = nfft / 2 := ⟨_, rfl⟩
  unfold colFreq
  rw [← hNe] at hNn hN
  rw [← hNe]
  have hN0 := hN.ne'
  obtain ⟨d, hd⟩ : ∃ d, d = (high - low) / N := ⟨_, rfl⟩
  have hd0 : 0 < d := by rw [hd]; exact div_pos (by linarith) hN
  have hNd : N * d = high - low := by rw [hd]; field_simp
  have hcol : ∀ k : ℕ, low + k * (high - low) / N = low + k * d := by intro k; rw [hd]; ring
  simp only [hcol]
  rw [← hd]
  constructor
  · intro h
    obtain ⟨k, -, h3, h4⟩ := h 0 (by omega)
    rw [hP.first] at h3
    have hk : 1 ≤ k := by
      by_contra hc
      have : k = 0 := by omega
      subst this
      simp at h3
    have : (1 : ℝ) ≤ k := by exact_mod_cast hk
    simp only [zero_add] at h4
    nlinarith
  · intro h j hj
    have hj0 : low ≤ P j := by rw [← hP.first]; exact hP.mono.monotone (by omega)
    have hj2 : P (j + 2) ≤ high := by rw [← hP.last]; exact hP.mono.monotone (by omega)
    have hw := hP.widen j
    rw [hP.first] at hw
    obtain ⟨q, hq⟩ : ∃ q, q = ⌊(P j - low) / d⌋₊ := ⟨_, rfl⟩
    have f1 : (q : ℝ) ≤ (P j - low) / d := by rw [hq]; exact Nat.floor_le (div_nonneg (by linarith) hd0.le)
    have f2 : (P j - low) / d < q + 1 := by rw [hq]; exact Nat.lt_floor_add_one _
    rw [le_div_iff₀ hd0] at f1
    rw [div_lt_iff₀ hd0] at f2
    refine ⟨q + 1, ?_, ?_, ?_⟩
    · have : ((q : ℝ) + 1) * d < N * d := by nlinarith
      have : (q : ℝ) + 1 < N := lt_of_mul_lt_mul_right this hd0.le
      have : q + 1 < N := by exact_mod_cast this
      omega
    · push_cast; linarith
    · push_cast; nlinarith

theorem linEdges (hlh : low < high) (n : ℕ) : Edges (linPoint low high n) low high n where
  first := linPoint_zero ..
  last := linPoint_last ..
  mono := linPoint_strictMono hlh n
  widen := by
    intro j
    unfold linPoint
    push_cast
    apply le_of_eq
    ring

/-- The edges of a mel bank are a geometric sequence, shifted by `b`. -/
theorem melPoint_geometric (ha : 0 < a) (hb : 0 < b) (h0 : 0 ≤ low) (h1 : low < high) (n j : ℕ) :
    melPoint a b low high n j = (b + low) * ((b + high) / (b + low)) ^ ((j : ℝ) / (n + 1)) - b := by
  have p1 : 0 < 1 + low / b := by positivity
  have p2 : 0 < 1 + high / b := by have : 0 < high := by linarith
                                   positivity
  have e10 : ∀ x : ℝ, 0 < x → (10 : ℝ) ^ Real.logb 10 x = x := fun x hx => Real.rpow_logb (by norm_num) (by norm_num) hx
  unfold melPoint melInv linPoint mel
  have e : (a * Real.logb 10 (1 + low / b) + j * (a * Real.logb 10 (1 + high / b) - a * Real.logb 10 (1 + low / b)) / (n + 1)) / a =
      Real.logb 10 (1 + low / b) + (Real.logb 10 (1 + high / b) - Real.logb 10 (1 + low / b)) * (j / (n + 1)) := by
    field_simp
  rw [e, Real.rpow_add (by norm_num), Real.rpow_mul (by norm_num), Real.rpow_sub (by norm_num), e10 _ p1, e10 _ p2]
  have e2 : (1 + high / b) / (1 + low / b) = (b + high) / (b + low) := by field_simp
  rw [e2]
  field_simp

theorem melEdges (hm : MelConst approach a b) (h0 : 0 ≤ low) (h1 : low < high) (n : ℕ) : Edges (melPoint a b low high n) low high n where
  first := (C26_mel_edges hm h0 h1 n).1
  last := (C26_mel_edges hm h0 h1 n).2.1
  mono := (C26_mel_edges hm h0 h1 n).2.2
  widen := by
    intro j
    obtain ⟨ha, hb⟩ := melConst_pos hm
    rw [melPoint_geometric ha hb h0 h1, melPoint_geometric ha hb h0 h1, melPoint_geometric ha hb h0 h1, melPoint_geometric ha hb h0 h1]
    obtain ⟨r, hr⟩ : ∃ r, r = (b + high) / (b + low) := ⟨_, rfl⟩
    have hr1 : 1 ≤ r := by rw [hr, le_div_iff₀ (by linarith)]; linarith
    rw [← hr]
    have e1 : r ^ (((j + 2 : ℕ) : ℝ) / (n + 1)) = r ^ ((j : ℝ) / (n + 1)) * r ^ (((2 : ℕ) : ℝ) / (n + 1)) := by
      rw [← Real.rpow_add (by linarith)]
      congr 1
      push_cast
      ring
    have e0 : r ^ (((0 : ℕ) : ℝ) / (n + 1)) = 1 := by simp
    rw [e1, e0]
    have g1 : 1 ≤ r ^ ((j : ℝ) / (n + 1)) := Real.one_le_rpow hr1 (by positivity)
    have g2 : 1 ≤ r ^ (((2 : ℕ) : ℝ) / (n + 1)) := Real.one_le_rpow hr1 (by positivity)
    have g3 : 0 < b + low := by linarith
    generalize r ^ ((j : ℝ) / (n + 1)) = A at *
    generalize r ^ (((2 : ℕ) : ℝ) / (n + 1)) = B at *
    have : 0 ≤ (A - 1) * (B - 1) := mul_nonneg (by linarith) (by linarith)
    nlinarith [mul_nonneg g3.le this]

/-- **C160** (mel): all filters of a mel bank hear something iff one FFT bin (of the code's grid) is narrower than the first filter;
the others are no narrower. A filter that hears nothing is deaf: all its weights are zero. -/
theorem C160_mel_iff (hs : Scale scale w) (hm : MelConst approach a b) (he : EffHigh fs hf high)
    (h0 : 0 ≤ low) (h1 : low < high) (h2 : high ≤ fs / 2) (n nfft : ℕ) (hn : 1 ≤ n) (hf2 : 2 ≤ nfft) :
    ∃ bank cs, melFilterBanks n nfft fs low hf scale approach = .ok (bank, cs) ∧
      ((∀ j < n, Hears bank j) ↔
        (high - low) / (nfft / 2 : ℕ) < (b + low) * (((b + high) / (b + low)) ^ (2 / (n + 1 : ℝ)) - 1)) ∧
      ∀ j < n, ¬ Hears bank j → Deaf bank j := by
  obtain ⟨ha, hb⟩ := melConst_pos hm
  obtain ⟨bank, cs, h, hM, -⟩ := C26_mel_triangles hs hm he h0 h1 h2 n nfft
  have hE := melEdges hm h0 h1 n
  have hH := fun j hj => hears_iff (fun j hj => (scale_range hs hj).1) hE.mono hM (j := j) hj
  refine ⟨bank, cs, h, ?_, fun j hj => (hH j hj).2⟩
  rw [show (∀ j < n, Hears bank j) ↔ _ from forall₂_congr fun j hj => (hH j hj).1, grid_iff hE h1 hn nfft hf2,
    melPoint_geometric ha hb h0 h1]
  rw [show (b + low) * ((b + high) / (b + low)) ^ (((2 : ℕ) : ℝ) / (n + 1)) - b - low =
    (b + low) * (((b + high) / (b + low)) ^ (2 / (n + 1 : ℝ)) - 1) by push_cast; ring]

/-- **C160** (inverse mel): the same condition. -/
theorem C160_inverse_iff {scale' : String} (hsw : SwapScale scale scale') (hm : MelConst approach a b)
    (h0 : 0 ≤ low) (h1 : low < high) (h2 : high ≤ fs / 2) (n nfft : ℕ) (hn : 1 ≤ n) (hf2 : 2 ≤ nfft) :
    ∃ bank cs, inverseMelFilterBanks n nfft fs low (some high) scale approach = .ok (bank, cs) ∧
      ((∀ j < n, Hears bank j) ↔
        (high - low) / (nfft / 2 : ℕ) < (b + low) * (((b + high) / (b + low)) ^ (2 / (n + 1 : ℝ)) - 1)) ∧
      ∀ j < n, ¬ Hears bank j → Deaf bank j := by
  obtain ⟨ha, hb⟩ := melConst_pos hm
  obtain ⟨w, hs⟩ : ∃ w, Scale scale' w := by
    cases hsw
    · exact ⟨_, .descendant⟩
    · exact ⟨_, .ascendant⟩
    · exact ⟨_, .constant⟩
  obtain ⟨bank, cs, h, hM⟩ := C31_inverse_mel_weights hsw hs hm h0 h1 h2 n nfft hf2
  have hE := melEdges hm h0 h1 n
  have hH := fun j hj => hears_iff (fun j hj => (scale_range hs hj).1) hE.mono hM (j := j) hj
  refine ⟨bank, cs, h, ?_, fun j hj => (hH j hj).2⟩
  have hN : ((nfft / 2 : ℕ) : ℝ) ≠ 0 := by
    have : nfft / 2 ≠ 0 := by omega
    exact_mod_cast this
  have hflip : ∀ k < nfft / 2 + 1, low + high - colFreq low high nfft k = colFreq low high nfft (nfft / 2 - k) := by
    intro k hk
    unfold colFreq
    rw [Nat.cast_sub (by omega)]
    field_simp
    ring
  have hex : ∀ j, (∃ k < nfft / 2 + 1, melPoint a b low high n j < low + high - colFreq low high nfft k ∧
      low + high - colFreq low high nfft k < melPoint a b low high n (j + 2)) ↔
      ∃ k < nfft / 2 + 1, melPoint a b low high n j < colFreq low high nfft k ∧
        colFreq low high nfft k < melPoint a b low high n (j + 2) := by
    intro j
    constructor
    · rintro ⟨k, hk, h3, h4⟩
      rw [hflip k hk] at h3 h4
      exact ⟨nfft / 2 - k, by omega, h3, h4⟩
    · rintro ⟨k, hk, h3, h4⟩
      refine ⟨nfft / 2 - k, by omega, ?_⟩
      rw [hflip _ (by omega), show nfft / 2 - (nfft / 2 - k) = k by omega]
      exact ⟨h3, h4⟩
  rw [show (∀ j < n, Hears bank j) ↔ _ from forall₂_congr fun j hj => ((hH j hj).1.trans (hex j)), grid_iff hE h1 hn nfft hf2,
    melPoint_geometric ha hb h0 h1]
  rw [show (b + low) * ((b + high) / (b + low)) ^ (((2 : ℕ) : ℝ) / (n + 1)) - b - low =
    (b + low) * (((b + high) / (b + low)) ^ (2 / (n + 1 : ℝ)) - 1) by push_cast; ring]

/-- **C160** (linear): all filters hear something iff there are fewer than `2 * (nfft / 2) - 1` of them. -/
theorem C160_linear_iff (hs : Scale scale w) (he : EffHigh fs hf high)
    (h0 : 0 ≤ low) (h1 : low < high) (h2 : high ≤ fs / 2) (n nfft : ℕ) (hn : 1 ≤ n) (hf2 : 2 ≤ nfft) :
    ∃ bank cs, linearFilterBanks n nfft fs low hf scale = .ok (bank, cs) ∧
      ((∀ j < n, Hears bank j) ↔ n + 1 < 2 * (nfft / 2)) ∧ ∀ j < n, ¬ Hears bank j → Deaf bank j := by
  obtain ⟨bank, cs, h, hM, -⟩ := C30_linear_triangles hs he h0 h1 h2 n nfft
  have hE := linEdges h1 n
  have hH := fun j hj => hears_iff (fun j hj => (scale_range hs hj).1) hE.mono hM (j := j) hj
  refine ⟨bank, cs, h, ?_, fun j hj => (hH j hj).2⟩
  rw [show (∀ j < n, Hears bank j) ↔ _ from forall₂_congr fun j hj => (hH j hj).1, grid_iff hE h1 hn nfft hf2]
  have hNn : 0 < nfft / 2 := by omega
  have hN : (0 : ℝ) < (nfft / 2 : ℕ) := by exact_mod_cast hNn
  have hd : 0 < high - low := by linarith
  unfold linPoint
  rw [show low + ((2 : ℕ) : ℝ) * (high - low) / (n + 1) - low = (2 * (high - low)) / (n + 1) by push_cast; ring,
    div_lt_div_iff₀ hN (by positivity)]
  rw [show (high - low) * ((n : ℝ) + 1) < 2 * (high - low) * (nfft / 2 : ℕ) ↔ ((n : ℝ) + 1) < 2 * (nfft / 2 : ℕ) from
    ⟨fun h => by by_contra hc; push Not at hc; nlinarith [mul_le_mul_of_nonneg_left hc hd.le], fun h => by nlinarith⟩]
  exact_mod_cast Iff.rfl

/-- With the default arguments (16 kHz, 512 points, whole band) the banks of up to 114 mel filters are fine. -/
theorem C160_default (n : ℕ) (hn : 1 ≤ n) :
    ∃ bank cs, melFilterBanks n 512 16000 0 none "constant" "Oshaghnessy" = .ok (bank, cs) ∧
      ((∀ j < n, Hears bank j) ↔ n ≤ 114) := by
  obtain ⟨bank, cs, h, h1, -⟩ := C160_mel_iff .constant .oshaghnessy (.none (fs := 16000)) (le_refl (0 : ℝ)) (by norm_num)
    (le_refl _) n 512 hn (by norm_num)
  refine ⟨bank, cs, h, h1.trans ?_⟩
  have e1 : ((16000 / 2 - 0) / ((512 / 2 : ℕ) : ℝ) < (700 + 0) * (((700 + 16000 / 2) / (700 + 0)) ^ (2 / (n + 1 : ℝ)) - 1)) ↔
      (117 / 112 : ℝ) < (87 / 7) ^ (2 / (n + 1 : ℝ)) := by
    norm_num
    constructor <;> intro h <;> linarith
  rw [e1]
  have hn0 : (0 : ℝ) < n + 1 := by positivity
  have e2 : (117 / 112 : ℝ) < (87 / 7) ^ (2 / (n + 1 : ℝ)) ↔ (117 / 112 : ℝ) ^ (n + 1) < (87 / 7) ^ 2 := by
    have e3 : ((87 / 7 : ℝ) ^ (2 / (n + 1 : ℝ))) ^ (n + 1) = (87 / 7) ^ 2 := by
      rw [← Real.rpow_natCast, ← Real.rpow_mul (by norm_num), Nat.cast_add, Nat.cast_one, div_mul_cancel₀ _ hn0.ne']
      norm_num
    rw [← e3]
    exact (pow_lt_pow_iff_left₀ (by norm_num) (by positivity) (by omega)).symm
  rw [e2]
  constructor
  · intro h
    by_contra hc
    have h3 : (117 / 112 : ℝ) ^ 116 ≤ (117 / 112) ^ (n + 1) := pow_le_pow_right₀ (by norm_num) (by omega)
    have h4 : (87 / 7 : ℝ) ^ 2 < (117 / 112) ^ 116 := by norm_num
    linarith
  · intro h
    have h3 : (117 / 112 : ℝ) ^ (n + 1) ≤ (117 / 112) ^ 115 := pow_le_pow_right₀ (by norm_num) (by omega)
    have h4 : (117 / 112 : ℝ) ^ 115 < (87 / 7 : ℝ) ^ 2 := by norm_num
    linarith

/-- **C160**: the band of a mel filter that contains no column is 0 in `mel_spectrogram`, whatever the signal. -/
theorem C160_silent_band (a : Args) (sig : List ℝ) (l s : ℕ) (h : Auto a sig l s) (high : ℝ) (w : ℕ → ℕ → ℝ)
    (hb : Band a high w) (c d : ℝ) (hm : MelConst a.approach c d) (j : ℕ) (hj : j < a.nfilts)
    (hd : ∀ k < a.nfft / 2 + 1, colFreq a.low high a.nfft k ≤ melPoint c d a.low high a.nfilts j ∨
      melPoint c d a.low high a.nfilts (j + 2) ≤ colFreq a.low high a.nfft k) :
    ∃ out, melSpectrogram a sig = .ok out ∧ ∀ i < (sig.length - l) / s + 1, (out.1.getD i []).getD j (fin 0) = fin 0 := by
  obtain ⟨out, ho, hS, -⟩ := C113_mel a sig l s h high w hb c d hm
  refine ⟨out, ho, fun i hi => ?_⟩
  rw [hS.2.2 i j hi hj]
  have hE := melEdges hm hb.low0 hb.lt a.nfilts
  congr 1
  unfold weightedEnergy
  refine Finset.sum_eq_zero fun k hk => ?_
  beta_reduce
  rw [tri_outside (hE.mono (by omega)) (hE.mono (by omega)) (hd k (Finset.mem_range.1 hk))]
  simp

/-- **C160**, violated: with 128 mel filters and otherwise default arguments the first band is 0 for every signal of at least 400 samples. -/
theorem C160_deaf (sig : List ℝ) (hs : 400 ≤ sig.length) :
    ∃ out, melSpectrogram { nfilts := 128 } sig = .ok out ∧
      ∀ i < (sig.length - 400) / 160 + 1, (out.1.getD i []).getD 0 (fin 0) = fin 0 := by
  have hD := default_auto sig hs
  have hA : Auto { nfilts := 128 } sig 400 160 :=
    ⟨rfl, by norm_num, by norm_num, by norm_num, hD.window, hD.hopLe, hD.len, hD.hop, hD.pos, hD.long, hD.samples⟩
  refine C160_silent_band _ sig 400 160 hA 8000 (fun _ _ => 1) ⟨.constant, ?_, le_refl _, by norm_num, by norm_num⟩ 2595 700 .oshaghnessy
    0 (by norm_num) ?_
  · have := EffHigh.none (fs := 16000)
    norm_num at this
    exact this
  intro k hk
  show colFreq 0 8000 512 k ≤ melPoint 2595 700 0 8000 128 0 ∨ melPoint 2595 700 0 8000 128 2 ≤ colFreq 0 8000 512 k
  rcases Nat.eq_zero_or_pos k with rfl | hk0
  · left
    rw [(C26_mel_edges .oshaghnessy (le_refl (0 : ℝ)) (by norm_num) 128).1]
    simp [colFreq]
  · right
    rw [melPoint_geometric (by norm_num) (by norm_num) (le_refl _) (by norm_num)]
    have h1 : ((700 + 8000) / (700 + 0) : ℝ) ^ (((2 : ℕ) : ℝ) / ((128 : ℕ) + 1)) ≤ 117 / 112 := by
      have e3 : (((700 + 8000) / (700 + 0) : ℝ) ^ (((2 : ℕ) : ℝ) / ((128 : ℕ) + 1))) ^ 129 = (87 / 7) ^ 2 := by
        rw [← Real.rpow_natCast, ← Real.rpow_mul (by norm_num)]
        norm_num
      rw [← pow_le_pow_iff_left₀ (by positivity) (by norm_num) (show 129 ≠ 0 by norm_num), e3]
      norm_num
    have hk1 : (1 : ℝ) ≤ k := by exact_mod_cast hk0
    unfold colFreq
    norm_num at h1 ⊢
    linarith

end Props
end Spafe
