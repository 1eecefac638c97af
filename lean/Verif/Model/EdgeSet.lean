import Verif.Model.EdgeGeom

/-!
Model of the constructor and the setters of `/repo/puncturedfem/mesh/edge.py` with arguments of any type: `set_idx`, `set_cells`,
`set_curve_type`, `set_t_bounds`.  A setter is a function of the state that returns the new state and the outcome, because Python leaves the
object as it is at the moment an exception is raised.  Not modelled: NaN as a bound.
-/

namespace PFEM

/-- a Python argument; `True` and `False` count as the integers 1 and 0, as `isinstance(True, int)` does -/
inductive PyArg
  | none
  | int (k : ℤ)
  | float (x : ℝ)
  | str (s : String)
  | other

/-- the attributes of an `Edge` that have setters with checks (edge.py L86-108); `idx = none`: attribute not set -/
structure EdgeAttrs where
  curveType : String
  idx : Option ℤ
  tBounds : ℝ × ℝ
  posCell : ℤ
  negCell : ℤ
  onMeshBoundary : Bool

namespace EdgeAttrs

/-- `set_idx` (edge.py L161-169) -/
def setIdx (s : EdgeAttrs) : PyArg → EdgeAttrs × Py Unit
  | .none => (s, .ok ())
  | .int k => if k < 0 then (s, .error .valueError) else ({ s with idx := some k }, .ok ())
  | _ => (s, .error .typeError)

/-- `set_cells` (edge.py L190-196) -/
def setCells (s : EdgeAttrs) (pos neg : ℤ) : EdgeAttrs × Py Unit :=
  ({ s with posCell := pos, negCell := neg, onMeshBoundary := decide (pos < 0) || decide (neg < 0) }, .ok ())

/-- `isinstance(a, (float, int))` and the value -/
def PyArg.number : PyArg → Option ℝ
  | .int k => some k
  | .float x => some x
  | _ => Option.none

/-- `set_t_bounds` (edge.py L217-232), a pair -/
noncomputable def setTBounds (s : EdgeAttrs) (a b : PyArg) : EdgeAttrs × Py Unit :=
  match PyArg.number a, PyArg.number b with
  | some x, some y => if x ≥ y then (s, .error .valueError) else ({ s with tBounds := (x, y) }, .ok ())
  | _, _ => (s, .error .valueError)

/-- `set_curve_type` (edge.py L200-215): the file that must exist is the one of the *present* curve type (L212); `files` tells which modules
`edgelib/….py` exist.  Python's `FileExistsError` is the error value `fileNotFound`. -/
def setCurveType (files : String → Bool) (s : EdgeAttrs) : PyArg → EdgeAttrs × Py Unit
  | .str c => if files s.curveType then ({ s with curveType := c }, .ok ()) else (s, .error .fileNotFound)
  | _ => (s, .error .valueError)

/-- a call of a setter -/
inductive Call
  | idx (v : PyArg)
  | cells (pos neg : ℤ)
  | tBounds (a b : PyArg)
  | curveType (v : PyArg)

noncomputable def call (files : String → Bool) (s : EdgeAttrs) : Call → EdgeAttrs × Py Unit
  | .idx v => setIdx s v
  | .cells p n => setCells s p n
  | .tBounds a b => setTBounds s a b
  | .curveType v => setCurveType files s v

/-- a program that calls setters one after the other and catches exceptions -/
noncomputable def run (files : String → Bool) (s : EdgeAttrs) (cs : List Call) : EdgeAttrs :=
  cs.foldl (fun s c => (call files s c).1) s

/-- `__init__` (edge.py L105-147): `set_idx`, `set_t_bounds`, `set_cells`; the curve type is stored without a check.  Before the calls the
attributes do not exist; the values they have here are replaced. -/
noncomputable def init (curveType : String) (idx a b : PyArg) (pos neg : ℤ) : Py EdgeAttrs :=
  let s : EdgeAttrs := ⟨curveType, Option.none, (0, 0), 0, 0, false⟩
  match setIdx s idx with
  | (_, .error e) => .error e
  | (s, .ok _) =>
    match setTBounds s a b with
    | (_, .error e) => .error e
    | (s, .ok _) => .ok (setCells s pos neg).1

end EdgeAttrs

/-- `set_t_bounds` on the geometric model (edge.py L217-232): the samples stay -/
noncomputable def EdgeG.setTBounds (e : EdgeG) (a b : ℝ) : Py EdgeG :=
  if a ≥ b then .error .valueError else .ok { e with tBounds := (a, b) }

/-- `set_curve_type` on the geometric model (edge.py L200-215), curve types of the library: the samples stay -/
def EdgeG.setCurve (e : EdgeG) (c : CurveType) : EdgeG := { e with curve := c }

end PFEM
