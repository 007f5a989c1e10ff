import Verif.Props.SpecMeaning
import Verif.Props.Loudness

/-! C184: root compression with a small exponent against the logarithm. -/

set_option linter.unusedSectionVars false

namespace Spafe
namespace Props
open Model XF Spec

theorem dctII_linear (N : ℕ) (x y z : ℕ → ℝ) (a : ℝ) (k : ℕ) :
    (dctII N x k - dctII N y k) / a - dctII N z k = dctII N (fun n => (x n - y n) / a - z n) k := by
  unfold dctII
  simp only [sub_mul, Finset.sum_sub_distrib, div_mul_eq_mul_div, ← Finset.sum_div]
  ring

theorem abs_dctII_le {N : ℕ} {y : ℕ → ℝ} {d : ℝ} (hN : 1 ≤ N) (h : ∀ n < N, |y n| ≤ d) (k : ℕ) : |dctII N y k| ≤ √(2 * N) * d := by
  have hNr : (0 : ℝ) < N := by exact_mod_cast hN
  have hd : 0 ≤ d := (abs_nonneg _).trans (h 0 hN)
  unfold dctII
  rw [abs_mul, abs_mul, abs_of_nonneg (Real.sqrt_nonneg _)]
  have h1 : |∑ n ∈ Finset.range N, y n * Real.cos (Real.pi * k * (2 * n + 1) / (2 * N))| ≤ N * d := by
    refine (Finset.abs_sum_le_sum_abs _ _).trans ?_
    refine (Finset.sum_le_card_nsmul _ _ d fun n hn => ?_).trans (by simp)
    rw [abs_mul]
    have a1 := h n (Finset.mem_range.mp hn)
    have a2 := Real.abs_cos_le_one (Real.pi * k * (2 * n + 1) / (2 * N))
    nlinarith [abs_nonneg (y n)]
  have h2 : |(if k = 0 then 1 / √2 else 1 : ℝ)| ≤ 1 := by
    split_ifs
    · rw [abs_of_nonneg (by positivity), div_le_one (by positivity)]
      exact Real.one_le_sqrt.mpr (by norm_num)
    · simp
  have h3 : √(2 / N) * N = √(2 * N) := by
    rw [eq_comm, Real.sqrt_eq_iff_mul_self_eq (by positivity) (by positivity),
      show √(2 / (N : ℝ)) * N * (√(2 / (N : ℝ)) * N) = √(2 / (N : ℝ)) * √(2 / (N : ℝ)) * (N * N) by ring,
      Real.mul_self_sqrt (by positivity)]
    field_simp
  have h4 : √(2 / N) * |(if k = 0 then 1 / √2 else 1 : ℝ)| ≤ √(2 / N) * 1 := mul_le_mul_of_nonneg_left h2 (Real.sqrt_nonneg _)
  calc _ ≤ √(2 / N) * 1 * (N * d) := mul_le_mul h4 h1 (abs_nonneg _) (by positivity)
    _ = √(2 * N) * d := by rw [← h3]; ring

/-- A power with a small exponent is linear in the logarithm. -/
theorem rpow_near_log {x γ Λ : ℝ} (hx : 0 < x) (hγ : γ ≠ 0) (hΛ : |Real.log x| ≤ Λ) (hs : |γ| * Λ ≤ 1) :
    |(x ^ γ - 1) / γ - Real.log x| ≤ |γ| * Λ ^ 2 := by
  have hg := abs_pos.mpr hγ
  have h0 : |Real.log x * γ| ≤ 1 := by
    rw [abs_mul, mul_comm]
    exact (mul_le_mul_of_nonneg_left hΛ hg.le).trans hs
  have h1 := Real.abs_exp_sub_one_sub_id_le h0
  rw [← Real.rpow_def_of_pos hx] at h1
  have e : (x ^ γ - 1) / γ - Real.log x = (x ^ γ - 1 - Real.log x * γ) / γ := by field_simp
  rw [e, abs_div, div_le_iff₀ hg]
  refine h1.trans ?_
  have h2 : Real.log x ^ 2 ≤ Λ ^ 2 := sq_le_sq' (by linarith [neg_abs_le (Real.log x)]) ((le_abs_self _).trans hΛ)
  calc (Real.log x * γ) ^ 2 = |γ| * Real.log x ^ 2 * |γ| := by rw [mul_pow, ← sq_abs γ]; ring
    _ ≤ |γ| * Λ ^ 2 * |γ| := by gcongr

/-- **C184**: if the logarithms of the band energies are between `-Λ` and `Λ` then, for every exponent `γ` with `|γ| Λ ≤ 1`, entry
`(i, k)` of `msrcc` is `γ` times that of `mfcc`, plus `√n` in the first column, up to an error of `γ² Λ² √(2 n)`. -/
theorem C184_root_log (a : Args) (fb : List (List ℝ)) (sig : List ℝ) (l s : ℕ) (h : Setup a fb sig l s)
    (hd : a.dctType = 2) (hu : a.useEnergy = false) (hl : a.lifter = none) (hn : a.normalize = none) {Λ : ℝ}
    (hpos : ∀ i n, i < (sig.length - l) / s + 1 → n < fb.length →
      0 < bandEnergy fb (windowWeight a.win.winType l) (emphasised a.preEmph a.preEmphCoeff sig) l s a.nfft i n ∧
      |Real.log (bandEnergy fb (windowWeight a.win.winType l) (emphasised a.preEmph a.preEmphCoeff sig) l s a.nfft i n)| ≤ Λ) :
    ∃ M, mfcc a sig = .ok M ∧ HasShape M ((sig.length - l) / s + 1) (min a.numCeps fb.length) ∧
      ∀ γ, γ ≠ 0 → |γ| * Λ ≤ 1 → ∃ m, msrcc { a with gamma := γ } sig = .ok m ∧
        HasShape m ((sig.length - l) / s + 1) (min a.numCeps fb.length) ∧
        ∀ i k, i < (sig.length - l) / s + 1 → k < min a.numCeps fb.length →
          ∃ x y, (m.getD i []).getD k nan = fin x ∧ (M.getD i []).getD k nan = fin y ∧
            |(x - if k = 0 then √fb.length else 0) / γ - y| ≤ |γ| * Λ ^ 2 * √(2 * fb.length) := by
  obtain ⟨M, h1, h2, h3⟩ := C101_meaning a mfcc a.preEmphCoeff logFloor (by simp [compressions]) fb sig l s h hd hu hl hn
  refine ⟨M, h1, h2, fun γ hγ hs => ?_⟩
  obtain ⟨m, g1, g2, g3⟩ := C101_msrcc_meaning { a with gamma := γ } fb sig l s
    ⟨h.bank, h.cols, h.nonneg, h.rows, h.ceps, h.nfft, h.window, h.hopLe, h.len, h.hop, h.pos, h.long, h.samples⟩ hd hu hl hn
    (Or.inr fun i n hi hn => (hpos i n hi hn).1)
  refine ⟨m, g1, g2, fun i k hi hk => ⟨_, _, g3 i k hi hk, h3 i k hi hk, ?_⟩⟩
  have hkn : k < fb.length := lt_of_lt_of_le hk (min_le_right _ _)
  have hc := dctII_const hkn 1
  rw [mul_one] at hc
  rw [← hc, dctII_linear, mul_comm _ √(2 * (fb.length : ℝ))]
  refine abs_dctII_le h.rows (fun n hn => ?_) k
  obtain ⟨p1, p2⟩ := hpos i n hi hn
  have := rpow_near_log p1 hγ p2 hs
  unfold logFloor
  rw [if_neg p1.ne']
  exact this

/-- **C184**: as the exponent tends to 0, from either side, the columns of `msrcc` divided by it tend to those of `mfcc` (the first
column after subtracting `√n`). -/
theorem C184_limit (a : Args) (fb : List (List ℝ)) (sig : List ℝ) (l s : ℕ) (h : Setup a fb sig l s)
    (hd : a.dctType = 2) (hu : a.useEnergy = false) (hl : a.lifter = none) (hn : a.normalize = none)
    (hpos : ∀ i n, i < (sig.length - l) / s + 1 → n < fb.length →
      0 < bandEnergy fb (windowWeight a.win.winType l) (emphasised a.preEmph a.preEmphCoeff sig) l s a.nfft i n) :
    ∃ M, mfcc a sig = .ok M ∧ ∀ ε > 0, ∃ δ > 0, ∀ γ, γ ≠ 0 → |γ| < δ → ∃ m, msrcc { a with gamma := γ } sig = .ok m ∧
      HasShape m M.length (min a.numCeps fb.length) ∧
      ∀ i k, i < M.length → k < min a.numCeps fb.length →
        ∃ x y, (m.getD i []).getD k nan = fin x ∧ (M.getD i []).getD k nan = fin y ∧
          |(x - if k = 0 then √fb.length else 0) / γ - y| < ε := by
  obtain ⟨E, hE⟩ : ∃ E : ℕ → ℕ → ℝ, E = fun i n => bandEnergy fb (windowWeight a.win.winType l)
    (emphasised a.preEmph a.preEmphCoeff sig) l s a.nfft i n := ⟨_, rfl⟩
  obtain ⟨Λ, hΛ⟩ : ∃ Λ, Λ = 1 + ∑ i ∈ Finset.range ((sig.length - l) / s + 1), ∑ n ∈ Finset.range fb.length, |Real.log (E i n)| :=
    ⟨_, rfl⟩
  have hΛ1 : 1 ≤ Λ := by
    rw [hΛ]
    have : 0 ≤ ∑ i ∈ Finset.range ((sig.length - l) / s + 1), ∑ n ∈ Finset.range fb.length, |Real.log (E i n)| :=
      Finset.sum_nonneg fun _ _ => Finset.sum_nonneg fun _ _ => abs_nonneg _
    linarith
  obtain ⟨M, h1, h2, h3⟩ := C184_root_log a fb sig l s h hd hu hl hn (Λ := Λ) (fun i n hi hn => ⟨hpos i n hi hn, by
    have e1 : |Real.log (E i n)| ≤ ∑ n ∈ Finset.range fb.length, |Real.log (E i n)| :=
      Finset.single_le_sum (f := fun n => |Real.log (E i n)|) (fun _ _ => abs_nonneg _) (Finset.mem_range.mpr hn)
    have e2 : (∑ n ∈ Finset.range fb.length, |Real.log (E i n)|) ≤
        ∑ i ∈ Finset.range ((sig.length - l) / s + 1), ∑ n ∈ Finset.range fb.length, |Real.log (E i n)| :=
      Finset.single_le_sum (f := fun i => ∑ n ∈ Finset.range fb.length, |Real.log (E i n)|)
        (fun _ _ => Finset.sum_nonneg fun _ _ => abs_nonneg _) (Finset.mem_range.mpr hi)
    rw [hE] at e1 e2 hΛ
    beta_reduce at e1 e2 hΛ
    linarith⟩)
  refine ⟨M, h1, fun ε hε => ?_⟩
  have hN : (0 : ℝ) < fb.length := by exact_mod_cast h.rows
  have hC : 0 < Λ ^ 2 * √(2 * fb.length) := by positivity
  refine ⟨min (1 / Λ) (ε / (Λ ^ 2 * √(2 * fb.length))), lt_min (by positivity) (by positivity), fun γ hγ hd => ?_⟩
  have d1 := hd.trans_le (min_le_left _ _)
  have d2 := hd.trans_le (min_le_right _ _)
  rw [lt_div_iff₀ (by linarith)] at d1
  rw [lt_div_iff₀ hC] at d2
  obtain ⟨m, g1, g2, g3⟩ := h3 γ hγ d1.le
  rw [h2.1]
  refine ⟨m, g1, g2, fun i k hi hk => ?_⟩
  obtain ⟨x, y, e1, e2, e3⟩ := g3 i k hi hk
  exact ⟨x, y, e1, e2, e3.trans_lt (by rw [mul_assoc]; exact d2)⟩

/-- The hypotheses hold for the two bands of `levelDemo`. -/
example : ∃ M, mfcc levelDemo [2] = .ok M ∧ ∀ ε > 0, ∃ δ > 0, ∀ γ, γ ≠ 0 → |γ| < δ →
    ∃ m, msrcc { levelDemo with gamma := γ } [2] = .ok m ∧ HasShape m M.length (min levelDemo.numCeps 2) ∧
      ∀ i k, i < M.length → k < min levelDemo.numCeps 2 →
        ∃ x y, (m.getD i []).getD k nan = fin x ∧ (M.getD i []).getD k nan = fin y ∧
          |(x - if k = 0 then √(2 : ℕ) else 0) / γ - y| < ε :=
  C184_limit levelDemo [[1, 0], [0, 2]] [2] 1 1 (levelDemo_setup 2) rfl rfl rfl rfl (fun i n hi hn => by
    obtain rfl : i = 0 := by simpa using hi
    rw [levelDemo_energy 2 _ n (by simpa using hn)]
    positivity)

end Props
end Spafe
