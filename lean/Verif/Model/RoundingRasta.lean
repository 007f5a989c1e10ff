import Verif.Model.Rounding
import Verif.Model.Filters

/-!
`rasta_filter` (`spafe/utils/filters.py:17-47`) in floating point. `fl` rounds a real number to a float.
-/

namespace Spafe
namespace Model

/-- `numer[k]`, `filters.py:32-33`: the integers 2, 1, 0, -1, -2 divided by 10. -/
noncomputable def flNumer (fl : ℝ → ℝ) (k : ℕ) : ℝ := fl ((2 - (k : ℝ)) / 10)

/-- `signal.lfilter(numer, denom, xs, zi=z)`, `filters.py:45`, for a state of four numbers. scipy pads `denom` with zeros and computes
`y = z[0] + b[0] * x`, `z[k] = z[k+1] + b[k+1] * x - a[k+1] * y`, and `b[4] * x - a[4] * y` for the last entry, from left to right and
without fused multiply-add. -/
noncomputable def flIir (fl : ℝ → ℝ) : ℝ × ℝ × ℝ × ℝ → List ℝ → List ℝ
  | _, [] => []
  | (z0, z1, z2, z3), x :: xs =>
    let y := fl (z0 + fl (flNumer fl 0 * x))
    y :: flIir fl (fl (fl (z1 + fl (flNumer fl 1 * x)) - fl (fl (-0.94) * y)), fl (fl (z2 + fl (flNumer fl 2 * x)) - fl (0 * y)),
      fl (fl (z3 + fl (flNumer fl 3 * x)) - fl (0 * y)), fl (fl (flNumer fl 4 * x) - fl (0 * y))) xs

/-- `out` is a possible result of one turn of the loop, `filters.py:39-46`, on the row `r`. The state handed over to line 45 is the end of
the full convolution of `numer` and the first four samples (`z * x[i, 0]` is added to its beginning only): dot products, in any order.
`y1 * 0` (line 42) is 0. -/
def FlRasta (fl : ℝ → ℝ) (r out : List ℝ) : Prop :=
  ∃ z0 z1 z2 z3, FlDot fl (fun i => flNumer fl (1 + i)) (fun i => r.getD (3 - i) 0) 4 z0 ∧
    FlDot fl (fun i => flNumer fl (2 + i)) (fun i => r.getD (3 - i) 0) 3 z1 ∧
    FlDot fl (fun i => flNumer fl (3 + i)) (fun i => r.getD (3 - i) 0) 2 z2 ∧
    FlDot fl (fun i => flNumer fl (4 + i)) (fun i => r.getD (3 - i) 0) 1 z3 ∧
    out = List.replicate (min 4 r.length) 0 ++ flIir fl (z0, z1, z2, z3) (r.drop 4)

end Model
end Spafe
