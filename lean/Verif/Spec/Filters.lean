import Mathlib.Algebra.Order.Field.Basic

/-! Independent specification of the RASTA filter on one row. -/

namespace Spafe
namespace Spec

/-- `o` is the RASTA response to the row `r`: four zeros, then
`o[n] = 0.2 r[n] + 0.1 r[n-1] - 0.1 r[n-3] - 0.2 r[n-4] + 0.94 o[n-1]`. -/
structure Rasta {α : Type} [Field α] (r o : List α) : Prop where
  length : o.length = r.length
  startup : ∀ n, n < 4 → n < r.length → o.getD n 0 = 0
  rec' : ∀ n, 4 ≤ n → n < r.length →
    o.getD n 0 = 1/5 * r.getD n 0 + 1/10 * r.getD (n-1) 0 - 1/10 * r.getD (n-3) 0
      - 1/5 * r.getD (n-4) 0 + 94/100 * o.getD (n-1) 0

end Spec
end Spafe
