import Verif.Basic.Np

/-! Model of `spafe/utils/converters.py`. All functions act on extended floats. -/

namespace Spafe
namespace Model

open XF

/-- The constant `A`, `converters.py:19`. -/
noncomputable def erbA : ℝ := (1000 * Real.log 10) / (24.7 * 4.37)

/-- `hz2erb`, `converters.py:24-71`. An unknown approach falls through and returns `None`. -/
noncomputable def hz2erb (f : XF ℝ) (approach : String) : Option (XF ℝ) :=
  if approach = "Glasberg" then some (fin erbA * log10 (fin 1 + f * fin 0.00437)) else none

/-- `erb2hz`, `converters.py:74-115`. -/
noncomputable def erb2hz (fe : XF ℝ) (approach : String) : Option (XF ℝ) :=
  if approach = "Glasberg" then some ((exp10 (fe / fin erbA) - fin 1) / fin 0.00437) else none

/-- `hz2bark`, `converters.py:123-192`. -/
noncomputable def hz2bark (f : XF ℝ) (approach : String) : XF ℝ :=
  if approach = "Wang" then fin 6 * arcsinh (f / fin 600)
  else if approach = "Tjomov" then fin 6.7 * arcsinh ((f + fin 20) / fin 600)
  else if approach = "Schroeder" then fin 7 * arcsinh (f / fin 650)
  else if approach = "Terhardt" then fin 13.3 * arctan ((f * fin 0.75) / fin 1000)
  else if approach = "Zwicker" then fin 8.7 + fin 14.2 * log10 (f / fin 1000)
  else if approach = "Traunmueller" then ((fin 26.28 * f) / (fin 1 + fin 1960)) - fin 0.53
  else fin 6 * arcsinh (f / fin 600)

/-- `__traunmueller_helper`, `converters.py:276-285`. -/
noncomputable def traunmuellerHelper (fi : XF ℝ) : XF ℝ :=
  if ltb fi (fin 2) then (fi - fin 0.3) / fin 0.85
  else if ltb (fin 20.1) fi then (fi + fin 4.422) / fin 1.22
  else fi

/-- `bark2hz`, `converters.py:195-273`. -/
noncomputable def bark2hz (fb : XF ℝ) (approach : String) : XF ℝ :=
  if approach = "Wang" then fin 600 * sinh (fb / fin 6)
  else if approach = "Tjomov" then fin 600 * sinh (fb / fin 6.7) - fin 20
  else if approach = "Schroeder" then fin 650 * sinh (fb / fin 7)
  else if approach = "Terhardt" then (fin 1000 / fin 0.75) * tan (fb / fin 13)
  else if approach = "Zwicker" then exp10 (((fb - fin 8.7) / fin 14.2) + fin 3)
  else if approach = "Traunmueller" then
    fin 1960 * ((traunmuellerHelper fb + fin 0.53) / (fin 26.28 - traunmuellerHelper fb))
  else fin 600 * sinh (fb / fin 6)

/-- `hz2mel`, `converters.py:291-349`: a dictionary lookup, `KeyError` for unknown approaches. -/
noncomputable def hz2mel (f : XF ℝ) (approach : String) : Py (XF ℝ) :=
  if approach = "Oshaghnessy" then .ok (fin 2595 * log10 (fin 1 + f / fin 700))
  else if approach = "Lindsay" then .ok (fin 2410 * log10 (fin 1 + f / fin 625))
  else .error .keyError

/-- `mel2hz`, `converters.py:352-385`. -/
noncomputable def mel2hz (fm : XF ℝ) (approach : String) : Py (XF ℝ) :=
  if approach = "Oshaghnessy" then .ok (fin 700 * (exp10 (fm / fin 2595) - fin 1))
  else if approach = "Lindsay" then .ok (fin 625 * (exp10 (fm / fin 2410) - fin 1))
  else .error .keyError

end Model
end Spafe
