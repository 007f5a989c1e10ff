import Verif.Model.ColumnCqt
import Verif.Props.ColumnInput
import Verif.Props.CqccContinuous

/-! C166 for `cqt_spectrogram` and `cqcc`. -/

set_option linter.unusedSectionVars false

namespace Spafe
namespace Props
open Model XF Spec

/-- **C166** (cqcc): on the documented shape `(N, 1)` the result is that of the flat signal with `pre_emph` switched off. -/
theorem C166_cqcc (a : CqtArgs) (sig : List ℝ) (h : a.preEmph = true → sig ≠ []) :
    cqtSpectrogramCol a (column sig) = cqtSpectrogram { a with preEmph := false } sig ∧
    cqccCol a (column sig) = cqcc { a with preEmph := false } sig := by
  have h1 : cqtSpectrogramCol a (column sig) = cqtSpectrogram { a with preEmph := false } sig := by
    unfold cqtSpectrogramCol cqtSpectrogram
    rw [frontEnd_column a.toArgs _ sig h]
    rfl
  refine ⟨h1, ?_⟩
  unfold cqccCol cqcc
  rw [h1]
  rfl

/-- **C166** (cqcc, partial): agreement of the two shapes without pre-emphasis. Missing: `pre_emph = True`, which is false, see
`C166_cqcc_differs`. -/
theorem C166_cqcc_same_partial (a : CqtArgs) (ha : a.preEmph = false) (sig : List ℝ) : cqccCol a (column sig) = cqcc a sig := by
  have e : { a with preEmph := false } = a := by rw [← ha]
  rw [(C166_cqcc a sig (by simp [ha])).2, e]

/-- **C166** (violated, cqcc): two ones with pre-emphasis. As a flat array the second row is the logarithm of `0.03 ^ 2`, as a column of
shape `(2, 1)` it is the logarithm of 1. -/
theorem C166_cqcc_differs : ∃ m m', cqcc { tinyCqt with preEmph := true } [1, 1] = .ok m ∧
    cqccCol { tinyCqt with preEmph := true } (column [1, 1]) = .ok m' ∧
    (m.getD 1 []).getD 0 nan = fin (Real.log (0.03 ^ 2)) ∧ (m'.getD 1 []).getD 0 nan = fin 0 ∧ Real.log (0.03 ^ 2) < 0 := by
  have hp : preEmphasis ([1, 1] : List ℝ) 0.97 = [1, 0.03] := by
    norm_num [preEmphasis, Np.firFilter, List.range_succ, Finset.sum_range_succ]
  have h1 : cqcc { tinyCqt with preEmph := true } [1, 1] = cqcc tinyCqt [1, 0.03] := by
    have := C47_cqcc_pre_emph_coeff tinyCqt 0.97 [1, 1] (by simp)
    rw [hp] at this
    exact this.2
  obtain ⟨m, hm, -, hv⟩ := tinyCqt_cqcc [1, 0.03] (by simp)
  obtain ⟨m', hm', -, hv'⟩ := tinyCqt_cqcc [1, 1] (by simp)
  have key : ∀ x : ℝ, x ≠ 0 → cqtLogPower (x : ℂ) = Real.log (x ^ 2) := fun x hx => by
    unfold cqtLogPower
    rw [Complex.norm_real, Real.norm_eq_abs, sq_abs, if_neg (by positivity)]
  refine ⟨m, m', h1.trans hm, ?_, ?_, ?_, Real.log_neg (by norm_num) (by norm_num)⟩
  · rw [(C166_cqcc { tinyCqt with preEmph := true } [1, 1] (by simp)).2]
    exact hm'
  · rw [hv 1 (by simp), ← key 0.03 (by norm_num)]
    rfl
  · rw [hv' 1 (by simp)]
    have := key 1 one_ne_zero
    rw [one_pow, Real.log_one] at this
    rw [← this]
    rfl

/-- Two samples without pre-emphasis. -/
example : ∃ m, cqccCol tinyCqt (column [1, -2]) = .ok m ∧ (m.getD 1 []).getD 0 nan = fin (cqtLogPower (-2 : ℝ)) := by
  obtain ⟨m, hm, -, hv⟩ := tinyCqt_cqcc [1, -2] (by simp)
  exact ⟨m, (C166_cqcc_same_partial tinyCqt rfl [1, -2]).trans hm, hv 1 (by simp)⟩

end Props
end Spafe
