import Verif.Spec.Lpc

/-! The response of an all-pole filter to an impulse, and what a finite frame cuts off. -/

namespace Spafe
namespace Spec

/-- `x` is the response of the all-pole filter with the denominator `b 0 = 1, b 1, ..., b p` to an impulse of height `g` at
time 0: `x[0] = g` and `x[n] = -b_1 x[n-1] - ... - b_p x[n-p]` afterwards (terms before time 0 count as 0). -/
def IsImpulseResponse (p : ℕ) (b : ℕ → ℝ) (g : ℝ) (x : ℕ → ℝ) : Prop :=
  x 0 = g ∧ ∀ n, 1 ≤ n → x n = -∑ k ∈ Finset.Icc 1 (min n p), b k * x (n - k)

/-- The energy of the prediction error of `b` after the end of the frame, when the frame is continued by zeros. -/
noncomputable def cutOff (x : ℕ → ℝ) (p : ℕ) (b : ℕ → ℝ) (N : ℕ) : ℝ :=
  ∑ m ∈ Finset.range p, (∑ k ∈ Finset.Icc (m + 1) (min p (N + m)), b k * x (N + m - k)) ^ 2

end Spec
end Spafe
