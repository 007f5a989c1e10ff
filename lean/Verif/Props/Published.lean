import Verif.Props.Compressive
import Verif.Spec.Traunmueller
import Mathlib.Analysis.Complex.ExponentialBounds

/-!
C156: the converters against the publications they cite: `bark2hz(·, "Traunmueller")` inverts the published formula exactly, while
`hz2bark(·, "Traunmueller")` computes neither that formula nor the one in its own docstring; the two mel formulas the docstring of `hz2mel`
calls equivalent differ by six parts in a million.
-/

set_option linter.unusedSectionVars false

namespace Spafe
namespace Props

open Model XF Spec

theorem bark2hz_traun {b h : ℝ} (hh : traunmuellerHelper (fin b) = fin h) (h1 : h ≠ 26.28) :
    bark2hz (fin b) "Traunmueller" = fin (1960 * ((h + 0.53) / (26.28 - h))) := by
  rw [bark2hz, if_neg (by decide), if_neg (by decide), if_neg (by decide), if_neg (by decide),
    if_neg (by decide), if_pos rfl, hh, fin_add, fin_sub, fin_div _ _ (sub_ne_zero.2 h1.symm), fin_mul]

theorem helper_low {b : ℝ} (h : b < 2) : traunmuellerHelper (fin b) = fin ((b - 0.3) / 0.85) := by
  rw [traunmuellerHelper, ltb_fin, if_pos (by simpa using h), fin_sub, fin_div _ _ (by norm_num)]

theorem helper_high {b : ℝ} (h : 20.1 < b) : traunmuellerHelper (fin b) = fin ((b + 4.422) / 1.22) := by
  have h2 : ¬ b < 2 := by norm_num at h ⊢; linarith
  rw [traunmuellerHelper, ltb_fin, if_neg (by simpa using h2), ltb_fin, if_pos (by simpa using h), fin_add,
    fin_div _ _ (by norm_num)]

theorem helper_mid {b : ℝ} (h1 : 2 ≤ b) (h2 : b ≤ 20.1) : traunmuellerHelper (fin b) = fin b := by
  simp [traunmuellerHelper, ltb_fin, not_lt.mpr h1, not_lt.mpr h2]

theorem helper_traunmueller (f : ℝ) : traunmuellerHelper (fin (traunmueller f)) = fin (traunRaw f) := by
  unfold traunmueller
  generalize traunRaw f = z
  by_cases h1 : z < 2
  · rw [if_pos h1, helper_low (by linarith)]
    congr 1
    norm_num
    ring
  · rw [if_neg h1]
    by_cases h2 : 20.1 < z
    · rw [if_pos h2, helper_high (by norm_num at h2 ⊢; linarith)]
      congr 1
      norm_num
      ring
    · rw [if_neg h2]
      exact helper_mid (not_lt.1 h1) (not_lt.1 h2)

/-- **C156** (Traunmueller, backwards). `bark2hz` is the exact inverse of the published formula with both published corrections, at
every frequency. -/
theorem C156_bark2hz_inverts_partial (f : ℝ) (hf : 0 ≤ f) : bark2hz (fin (traunmueller f)) "Traunmueller" = fin f := by
  have hp : (0 : ℝ) < 1960 + f := by linarith
  have e : 26.28 - traunRaw f = 26.81 * 1960 / (1960 + f) := by unfold traunRaw; field_simp; ring
  have hne : traunRaw f ≠ 26.28 := by
    have : 0 < 26.28 - traunRaw f := by rw [e]; positivity
    linarith
  rw [bark2hz_traun (helper_traunmueller f) hne, e]
  congr 1
  unfold traunRaw
  field_simp
  ring

/-- **C156**, the full claim for `hz2bark`: it computes the published formula. It holds at no frequency of at least 148 Hz and at no
positive frequency up to 146 Hz. -/
theorem C156_hz2bark_not_published (f : ℝ) (hf : 0 < f) (h : f ≤ 146 ∨ 148 ≤ f) :
    hz2bark (fin f) "Traunmueller" ≠ fin (traunmueller f) := by
  intro hc
  obtain ⟨f0, h1, h2, h3⟩ := C04_traunmueller_once
  have h4 := C156_bark2hz_inverts_partial f hf.le
  rw [← hc] at h4
  have h5 := (h3 f hf).1 h4
  rcases h with h | h <;> linarith

/-- **C156**, the docstring of `hz2bark`: its formula `26.81 f / (1 + 1960) - 0.53` is not the one computed, except at 0 Hz. -/
theorem C156_hz2bark_docstring (f : ℝ) :
    hz2bark (fin f) "Traunmueller" = fin (26.81 * f / (1 + 1960) - 0.53) ↔ f = 0 := by
  rw [hz2bark_traun]
  constructor
  · intro h
    have h1 : 26.28 * f / (1 + 1960) - 0.53 = 26.81 * f / (1 + 1960) - 0.53 := by injection h
    linarith
  · rintro rfl; simp

/-- **C156**, the docstring of `bark2hz`: its formula without the corrections is the one computed exactly for 2 to 20.1 Bark. -/
theorem C156_bark2hz_docstring (b : ℝ) (h0 : b < 26.28) :
    bark2hz (fin b) "Traunmueller" = fin (1960 * ((b + 0.53) / (26.28 - b))) ↔ 2 ≤ b ∧ b ≤ 20.1 := by
  have inj : ∀ h : ℝ, h < 26.28 → (fin (1960 * ((h + 0.53) / (26.28 - h))) : XF ℝ) =
      fin (1960 * ((b + 0.53) / (26.28 - b))) → h = b := by
    intro h hh e
    have e1 : 1960 * ((h + 0.53) / (26.28 - h)) = 1960 * ((b + 0.53) / (26.28 - b)) := by injection e
    have p1 : 0 < 26.28 - h := by linarith
    have p2 : 0 < 26.28 - b := by linarith
    have e2 : (h + 0.53) / (26.28 - h) = (b + 0.53) / (26.28 - b) := by linarith
    rw [div_eq_div_iff p1.ne' p2.ne'] at e2
    linarith
  constructor
  · intro h
    by_contra hc
    rw [not_and_or, not_le, not_le] at hc
    rcases hc with hc | hc
    · have hl : (b - 0.3) / 0.85 < 26.28 := by rw [div_lt_iff₀ (by norm_num)]; norm_num; linarith
      rw [bark2hz_traun (helper_low hc) hl.ne] at h
      have := inj _ hl h
      rw [div_eq_iff (by norm_num)] at this
      linarith
    · have hl : (b + 4.422) / 1.22 < 26.28 := by
        rw [div_lt_iff₀ (by norm_num)]; norm_num at h0 ⊢; linarith
      rw [bark2hz_traun (helper_high hc) hl.ne] at h
      have := inj _ hl h
      rw [div_eq_iff (by norm_num)] at this
      linarith
  · rintro ⟨h1, h2⟩
    exact bark2hz_traun_mid h1 h2

/-- **C156**, consequence: from 2103 Hz on `hz2bark` leaves the range of the scale, and `bark2hz` turns its values into negative
frequencies. -/
theorem C156_traunmueller_negative (f : ℝ) (hf : 2103 ≤ f) :
    ∃ v < 0, bark2hz (hz2bark (fin f) "Traunmueller") "Traunmueller" = fin v := by
  have hb : 27.6396 < 26.28 * f / (1 + 1960) - 0.53 := by
    rw [lt_sub_iff_add_lt, lt_div_iff₀ (by norm_num)]; norm_num; linarith
  rw [hz2bark_traun]
  generalize 26.28 * f / (1 + 1960) - 0.53 = b at hb
  have hl : 26.28 < (b + 4.422) / 1.22 := by
    rw [lt_div_iff₀ (by norm_num)]; norm_num at hb ⊢; linarith
  rw [bark2hz_traun (helper_high (by norm_num at hb ⊢; linarith)) hl.ne']
  refine ⟨_, ?_, rfl⟩
  have h1 : ((b + 4.422) / 1.22 + 0.53) / (26.28 - (b + 4.422) / 1.22) < 0 :=
    div_neg_of_pos_of_neg (by norm_num at hl ⊢; linarith) (by linarith)
  linarith

/-! ### The two mel formulas -/

theorem log_ten_bounds : 2.302585 < Real.log 10 ∧ Real.log 10 < 2.302586 := by
  have a1 := Real.log_two_gt_d9
  have a2 := Real.log_two_lt_d9
  have b1 := Real.log_five_gt_d9
  have b2 := Real.log_five_lt_d9
  rw [Real.log_ten_eq]
  norm_num at a1 a2 b1 b2 ⊢
  constructor <;> linarith

/-- **C156** (mel). The docstring of `hz2mel` says that `1127 ln(1 + f/700)` (Beranek) corresponds to the formula computed. It is
larger at every positive frequency, by between 5 and 6 millionths; the name itself is not accepted. -/
theorem C156_beranek (f : ℝ) (hf : 0 < f) :
    hz2mel (fin f) "Beranek" = .error .keyError ∧
    ∃ m > 0, hz2mel (fin f) "Oshaghnessy" = .ok (fin m) ∧ 5 / 10 ^ 6 * m < 1127 * Real.log (1 + f / 700) - m ∧
      1127 * Real.log (1 + f / 700) - m < 6 / 10 ^ 6 * m := by
  refine ⟨(C02_unknown_approach "Beranek" (by simp [MelApproach]) _).1, _, ?_, hz2mel_fin_osh (by linarith), ?_, ?_⟩
  all_goals
    obtain ⟨l1, l2⟩ := log_ten_bounds
    have hx : 0 < Real.log (1 + f / 700) := Real.log_pos (by have : 0 < f / 700 := by positivity
                                                             linarith)
    have hL := log10_pos'
    rw [Real.logb]
    generalize Real.log (1 + f / 700) = x at *
    generalize Real.log 10 = L at *
  · positivity
  all_goals
    have e : x = x / L * L := by field_simp
    have hq : 0 < x / L := by positivity
    generalize x / L = q at *
    subst e
    norm_num at l1 l2 ⊢
    nlinarith

example : bark2hz (fin (traunmueller 1000)) "Traunmueller" = fin 1000 := C156_bark2hz_inverts_partial 1000 (by norm_num)

example : ∃ v < 0, bark2hz (hz2bark (fin 4000) "Traunmueller") "Traunmueller" = fin v :=
  C156_traunmueller_negative 4000 (by norm_num)

end Props
end Spafe
