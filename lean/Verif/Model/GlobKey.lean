import Mathlib.Data.Int.Init
import Verif.Model.Err

/-!
Model of `/repo/puncturedfem/solver/globkey.py`.
-/

namespace PFEM

/-- Function types of a key (globkey.py L71-82). -/
inductive FunType
  | vert
  | edge
  | bubb
  deriving DecidableEq, Repr

/-- `GlobalKey` attributes (globkey.py L33-39); `none`: attribute not set. -/
structure GlobalKey where
  funType : FunType
  vertIdx : ℤ
  edgeIdx : ℤ
  edgeSpaceIdx : ℤ
  bubbSpaceIdx : ℤ
  globIdx : Option ℕ
  onBoundary : Option Bool
  deriving DecidableEq

namespace GlobalKey

/-- `set_fun_type` (globkey.py L71-82) -/
def parseType (s : String) : Py FunType :=
  if s = "vert" then .ok .vert
  else if s = "edge" then .ok .edge
  else if s = "bubb" then .ok .bubb
  else .error .valueError

/-- `set_vert_idx`, `set_edge_idx`, `set_edge_space_idx`, `set_bubb_space_idx` (globkey.py L84-146) share this shape:
the value is kept only if the key has the matching type. -/
def keepIf (own : Bool) (v : ℤ) : ℤ := if ¬ own then -1 else v

/-- `__init__` (globkey.py L41-69), integer arguments -/
def init (s : String) (edgeIdx vertIdx bubbSpaceIdx edgeSpaceIdx : ℤ) : Py GlobalKey := do
  let t ← parseType s
  .ok { funType := t
        vertIdx := keepIf (t == .vert) vertIdx
        edgeIdx := keepIf (t == .edge) edgeIdx
        edgeSpaceIdx := keepIf (t == .edge) edgeSpaceIdx
        bubbSpaceIdx := keepIf (t == .bubb) bubbSpaceIdx
        globIdx := none
        onBoundary := none }

/-- `GlobalKey("vert", vert_idx=v)` -/
def ofVert (v : ℤ) : GlobalKey := ⟨.vert, v, -1, -1, -1, none, none⟩
/-- `GlobalKey("edge", edge_idx=e, edge_space_idx=k)` -/
def ofEdge (e k : ℤ) : GlobalKey := ⟨.edge, -1, e, k, -1, none, none⟩
/-- `GlobalKey(fun_type="bubb", bubb_space_idx=k)` -/
def ofBubb (k : ℤ) : GlobalKey := ⟨.bubb, -1, -1, -1, k, none, none⟩

/-- `set_glob_idx` (globkey.py L148-161) -/
def setGlobIdx (k : GlobalKey) (i : ℤ) : Py GlobalKey :=
  if i < 0 then .error .valueError else .ok { k with globIdx := some i.toNat }

end GlobalKey
end PFEM
