import Mathlib.Data.List.Basic
import Mathlib.Data.Int.Init
import Verif.Model.Err

/-!
Python list primitives with integer arguments.
-/

namespace PFEM

/-- `l[i]` of a Python list with an integer index: negative indices count from the end, out of range raises
`IndexError`. -/
def pyGetZ {α : Type} (l : List α) (i : ℤ) : Py α :=
  if 0 ≤ i then
    match l[i.toNat]? with
    | some a => .ok a
    | none => .error .indexError
  else if 0 ≤ i + l.length then
    match l[(i + l.length).toNat]? with
    | some a => .ok a
    | none => .error .indexError
  else .error .indexError

/-- `l.index(x)`: position of the first occurrence, `ValueError` if there is none. -/
def pyIndexOf {α : Type} [DecidableEq α] (l : List α) (x : α) : Py ℕ :=
  if x ∈ l then .ok (l.idxOf x) else .error .valueError

end PFEM
