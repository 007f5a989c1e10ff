import Verif.Basic.Py

/-! Tables of checks: which exception a call raises. -/

namespace Spafe
namespace Spec

open Classical in
/-- The exception of the first condition that holds, if any. -/
noncomputable def firstError : List (Prop × Err) → Option Err
  | [] => none
  | (p, e) :: t => if p then some e else firstError t

/-- The exception of a call, if any. -/
def raised {α : Type} : Py α → Option Err
  | .ok _ => none
  | .error e => some e

end Spec
end Spafe
