import Mathlib.Analysis.SpecialFunctions.Pow.Real
import Verif.Model.Err
import Verif.Model.Poly

/-!
Model of `/repo/puncturedfem/mesh/vert.py`.
-/

namespace PFEM

/-- A vertex: coordinates and global index (vert.py L16-48). -/
structure Vert where
  x : ℝ
  y : ℝ
  idx : ℤ

/-- The argument of an arithmetic operator: a number, a vertex, or anything else. -/
inductive VertArg
  | num (c : ℝ)
  | vert (v : Vert)
  | other

namespace Vert

/-- `Vert(x, y)` with the default index (vert.py L36-48) -/
def mk' (x y : ℝ) : Vert := ⟨x, y, -1⟩

/-- `norm` (vert.py L234-243); `** 0.5` is the square root -/
noncomputable def norm (v : Vert) : ℝ := Real.sqrt (v.x ^ 2 + v.y ^ 2)

/-- `__add__` (vert.py L137-151) -/
def add (v : Vert) : VertArg → Py Vert
  | .vert w => .ok (mk' (v.x + w.x) (v.y + w.y))
  | _ => .error .typeError

/-- `__sub__` (vert.py L153-167) -/
def sub (v : Vert) : VertArg → Py Vert
  | .vert w => .ok (mk' (v.x - w.x) (v.y - w.y))
  | _ => .error .typeError

/-- `__mul__` (vert.py L169-188), `__rmul__` (L190-209) -/
def mul (v : Vert) : VertArg → Py Vert
  | .num c => .ok (mk' (v.x * c) (v.y * c))
  | .vert w => .ok (mk' (v.x * w.x) (v.y * w.y))
  | .other => .error .typeError

/-- `__truediv__` (vert.py L211-232) -/
noncomputable def div (v : Vert) : VertArg → Py Vert
  | .num c => if c = 0 then .error .zeroDivision else .ok (mk' (v.x / c) (v.y / c))
  | .vert w => if w.x = 0 ∨ w.y = 0 then .error .zeroDivision else .ok (mk' (v.x / w.x) (v.y / w.y))
  | .other => .error .typeError

/-- `__eq__` with a vertex (vert.py L121-135): closeness of the difference to 0 -/
noncomputable def beq (v w : Vert) : Bool :=
  match v.sub (.vert w) with
  | .ok d => decide (d.norm < tol ℝ)
  | .error _ => false

end Vert
end PFEM
