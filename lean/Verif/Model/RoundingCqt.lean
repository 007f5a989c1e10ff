import Verif.Model.Rounding
import Verif.Model.Cqt

/-! The constant-Q transform (`spafe/utils/spectral.py:103-127`) in floating point, as a relation like `Model/Rounding.lean`. -/

namespace Spafe
namespace Model

/-- Accuracy of `np.fft.fft` on frames of `l` samples, all bins (`spectral.py:127`): an error of at most `δ` relative to the norm of the
transform. -/
def AccurateFullFft (δ : ℝ) (fft : (ℕ → ℝ) → ℕ → ℂ) (l nfft : ℕ) : Prop :=
  ∀ z : ℕ → ℝ, ∑ k ∈ Finset.range nfft, ‖fft z k - Spec.frameBin (fun _ => 1) z l 0 nfft 0 k‖ ^ 2 ≤
    δ ^ 2 * (nfft * ∑ j ∈ Finset.range l, z j ^ 2)

open Classical in
/-- `K` is a possible row of `kernel_sparse`, `spectral.py:103-117`, where `V` is the exact transform of the exact atom. The computed
transform `V'` (lines 111-113) is at most `κ` off in each entry, and the computed magnitudes `t` (line 116) are at most `μ` away from those of `V`.
Entries of magnitude at most `thr` are dropped (line 116), the others conjugated and multiplied by the rounded `1 / nfft` (line 117). -/
def FlKernel (fl : ℝ → ℝ) (nfft : ℕ) (thr κ μ : ℝ) (V K : ℕ → ℂ) : Prop :=
  ∃ (V' : ℕ → ℂ) (t : ℕ → ℝ), ∀ j < nfft, ‖V' j - V j‖ ≤ κ ∧ |t j - ‖V j‖| ≤ μ ∧
    K j = if t j ≤ thr then 0 else ⟨fl (fl (1 / (nfft : ℝ)) * (V' j).re), -(fl (fl (1 / (nfft : ℝ)) * (V' j).im))⟩

/-- `z` is a possible entry of the product of a row `X` and the sparse matrix (`spectral.py:127`) for its row `K`. scipy
adds the complex products of the stored entries to 0; here: of any list `js` of positions that contains all nonzero ones, in any order. Each of the four
products of a complex multiplication is rounded, or kept exact by a fused multiply-add. -/
def FlSparse (fl : ℝ → ℝ) (nfft : ℕ) (X K : ℕ → ℂ) (z : ℂ) : Prop :=
  ∃ (js : List ℕ) (p q r s : ℕ → ℝ), js.Nodup ∧ (∀ j ∈ js, j < nfft) ∧ (∀ j < nfft, K j ≠ 0 → j ∈ js) ∧
    (∀ j ∈ js, (p j = (X j).re * (K j).re ∨ p j = fl ((X j).re * (K j).re)) ∧
      (q j = (X j).im * (K j).im ∨ q j = fl ((X j).im * (K j).im)) ∧
      (r j = (X j).re * (K j).im ∨ r j = fl ((X j).re * (K j).im)) ∧
      (s j = (X j).im * (K j).re ∨ s j = fl ((X j).im * (K j).re))) ∧
    FlSum fl (0 :: js.flatMap fun j => [p j, -q j]) z.re ∧ FlSum fl (0 :: js.flatMap fun j => [r j, s j]) z.im

/-- `z` is a possible entry of the transform for frame `i` and the kernel row `K` (`cqcc.py:121-136`, `spectral.py:120-127`): pre-emphasis,
framing (a view, exact), windowing (`preprocessing.py:172`), FFT, sparse product. -/
def FlCqt (fl : ℝ → ℝ) (wv : ℕ → ℝ) (fft : (ℕ → ℝ) → ℕ → ℂ) (on : Bool) (c : ℝ) (x : List ℝ) (l s nfft i : ℕ) (K : ℕ → ℂ)
    (z : ℂ) : Prop :=
  ∃ y, FlEmphasised fl on c x y ∧ FlSparse fl nfft (fft fun j => fl (y (i * s + j) * wv j)) K z

end Model
end Spafe
