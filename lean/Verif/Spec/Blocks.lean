import Verif.Basic.Py
import Mathlib.Data.Real.Basic

/-!
Feature extraction from a recording that arrives in blocks, as a caller of the library would write it:

    buf = []
    for block in blocks:
        buf = buf + block
        if len(buf) >= frame_length:
            rows = f(buf)
            emit(rows)
            buf = buf[len(rows) * frame_step:]
-/

namespace Spafe
namespace Spec

/-- The rows emitted by the loop above, started with the samples `buf`. -/
def inBlocks {β : Type} (f : List ℝ → Py (List β)) (l s : ℕ) : List ℝ → List (List ℝ) → Py (List β)
  | _, [] => .ok []
  | buf, c :: cs =>
    if (buf ++ c).length < l then inBlocks f l s (buf ++ c) cs
    else do
      let rows ← f (buf ++ c)
      let rest ← inBlocks f l s ((buf ++ c).drop (rows.length * s)) cs
      .ok (rows ++ rest)

/-- Pre-emphasis `y[t] = x[t] - c x[t-1]` of one block, given the last sample before it. -/
def emphBlock (c prev : ℝ) (x : List ℝ) : List ℝ := List.zipWith (fun v p => v - c * p) x (prev :: x)

/-- Pre-emphasis block by block: the last sample is carried over. -/
def emphBlocks (c : ℝ) : ℝ → List (List ℝ) → List (List ℝ)
  | _, [] => []
  | prev, x :: xs => emphBlock c prev x :: emphBlocks c (x.getLast?.getD prev) xs

end Spec
end Spafe
