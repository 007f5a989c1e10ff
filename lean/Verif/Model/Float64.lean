import Verif.Model.Preprocessing
import Mathlib.Data.Int.Log
import Mathlib.Data.Real.Archimedean

/-!
The rounding of IEEE 754 `binary64` (Python `float`, numpy `float64`), round to nearest, ties to even. Overflow and
subnormal numbers are left out: the exponent is unbounded. The quantities rounded here (numbers of samples, ratios of
frequencies) are far from both.
-/

namespace Spafe
namespace Model

/-- The integer nearest to `y`, the even one when two are equally near. -/
noncomputable def roundEven (y : ℝ) : ℤ :=
  if Int.fract y < 1 / 2 then ⌊y⌋
  else if 1 / 2 < Int.fract y then ⌊y⌋ + 1
  else if Even ⌊y⌋ then ⌊y⌋ else ⌊y⌋ + 1

/-- The spacing of the `binary64` numbers around `x`: `2^(e-52)` where `2^e ≤ |x| < 2^(e+1)`. -/
noncomputable def ulp64 (x : ℝ) : ℝ := (2 : ℝ) ^ (Int.log 2 |x| - 52)

/-- The `binary64` number nearest to `x`: the value of a literal `x`, or the result of an operation (`*` in
`preprocessing.py:132-133` and `fundamental_frequencies.py:236-237`, `/` in `fundamental_frequencies.py:235` and
`mfcc.py:156`) with the exact result `x`. -/
noncomputable def fl64 (x : ℝ) : ℝ := roundEven (x / ulp64 x) * ulp64 x

/-- `framing(sig, fs, win_len, win_hop)`, `preprocessing.py:99-143`, in `binary64`: the products of lines 132 and 133 are
rounded. `win_len` and `win_hop` are given as written by the caller and rounded to floats first. -/
noncomputable def framing64 (sig : List ℝ) (fs winLen winHop : ℝ) : Py (List (List ℝ) × ℤ) :=
  framingR fl64 sig fs (fl64 winLen) (fl64 winHop)

end Model
end Spafe
