import Mathlib.Data.Nat.Sqrt
import Verif.Model.Err

/-!
Model of `/repo/puncturedfem/locfun/poly/multi_index.py` (class `MultiIndex`).
-/

namespace PFEM

/-- `MultiIndex` (multi_index.py L17-58).  The Python object stores `x, y, order, idx`; all four are assigned
together in `set` (L71-84) and nowhere else, so the last two are functions of the first two here. -/
structure MultiIndex where
  x : ℕ
  y : ℕ
  deriving DecidableEq, Repr

namespace MultiIndex

/-- `self.order = self.x + self.y` (multi_index.py L83). -/
def order (a : MultiIndex) : ℕ := a.x + a.y

/-- `self.idx = self.y + self.order * (self.order + 1) // 2` (multi_index.py L84). -/
def idx (a : MultiIndex) : ℕ := a.y + a.order * (a.order + 1) / 2

/-- `validate` (multi_index.py L60-69).  The `isinstance` tests (list, int) are outside the model: the argument is
a list of integers.  Wrong length raises `MultiIndexError`, a negative entry raises `ValueError`. -/
def validate (alpha : List ℤ) : Py Unit :=
  if alpha.length ≠ 2 then .error .multiIndexError
  else if alpha.any (fun a => a < 0) then .error .valueError
  else .ok ()

/-- `set` (multi_index.py L71-84). -/
def set (alpha : List ℤ) : Py MultiIndex := do
  validate alpha
  match alpha with
  | [a, b] => .ok ⟨a.toNat, b.toNat⟩
  | _ => .error .indexError

/-- `__init__` (multi_index.py L47-58): default `[0, 0]`. -/
def init (alpha : Option (List ℤ)) : Py MultiIndex :=
  match alpha with
  | none => set [0, 0]
  | some a => set a

/-- `set_from_idx` (multi_index.py L86-98).  `t = floor((sqrt(8*idx+1)-1)/2)` with the exact real square root is
`(Nat.sqrt (8*idx+1) - 1)/2` (see `Lemmas/MultiIndex.lean`, `floor_formula`); the float rounding of `sqrt` is not
modelled.  `math.sqrt` of a negative number raises `ValueError`. -/
def setFromIdx (idx : ℤ) : Py MultiIndex :=
  if 8 * idx + 1 < 0 then .error .valueError
  else
    let t : ℤ := (Nat.sqrt (8 * idx + 1).toNat - 1) / 2
    let N : ℤ := t * (t + 1) / 2
    set [t - idx + N, idx - N]

/-- `__eq__` (multi_index.py L111-129): equality of ids. -/
def eq (a b : MultiIndex) : Bool := a.idx == b.idx

/-- `__add__` (multi_index.py L131-143): `MultiIndex([self.x + other.x, self.y + other.y])`.  The constructor's
validation cannot fail here (`Props`: `C02_add`). -/
def add (a b : MultiIndex) : Py MultiIndex := set [(a.x : ℤ) + b.x, (a.y : ℤ) + b.y]

end MultiIndex
end PFEM
