import Verif.Model.ContourGeom
import Verif.Model.PyList

/-!
Model of `/repo/puncturedfem/locfun/trace.py` (class `DirichletTrace`) and of `is_Func_R2_R`
(`/repo/puncturedfem/util/types.py` L26-48).

* The methods that change a trace return the changed trace together with the outcome: when a method raises, the
  changes made before the exception stay.
* The edges of a trace are held by value; what happens to a trace when its edges are sampled again is a change of the
  field `edges` (`Trace.resample`).
* Arguments of a type that the code rejects with `isinstance` are the constructors named `other`; the tests that all
  members of a list are `Edge` objects and that an index is an `int` are typing.
* A missing attribute is `none`; reading it raises `AttributeError`.
-/

namespace PFEM

/-- `FloatLike` (types.py L23): a number, an array, or something else -/
inductive FloatLike
  | num (x : ℝ)
  | arr (l : List ℝ)
  | other

/-- what may be passed as `values`: a `FloatLike` or a list of them -/
inductive TraceArg
  | one (v : FloatLike)
  | list (l : List FloatLike)

/-- what may be passed as a function: a `Polynomial` object, another callable object with the given number of
parameters, or an object that cannot be called -/
inductive PyFn
  | poly (f : ℝ → ℝ → ℝ)
  | call (params : ℕ) (f : ℝ → ℝ → ℝ)
  | other

/-- what may be passed as `funcs` -/
inductive FuncArg
  | one (f : PyFn)
  | list (l : List PyFn)

namespace PyFn

/-- `is_Func_R2_R` (types.py L26-48); `Polynomial.__call__` has two parameters -/
def isR2R : PyFn → Bool
  | poly _ => true
  | call n _ => n == 2
  | other => false

/-- `isinstance(f, Polynomial)` -/
def isPoly : PyFn → Bool
  | poly _ => true
  | _ => false

/-- the call `f(x, y)`: `TypeError` unless `f` takes two arguments -/
def run : PyFn → Py (ℝ → ℝ → ℝ)
  | poly f => .ok f
  | call n f => if n = 2 then .ok f else .error .typeError
  | other => .error .typeError

end PyFn

/-- `DirichletTrace` (trace.py L23-57) -/
structure Trace where
  edges : List EdgeG
  numEdges : ℕ
  numPts : Option ℕ := none
  idx : Option (List (ℕ × ℕ)) := none
  values : Option (List ℝ) := none
  wnd : Option (List ℝ) := none
  wtd : Option (List ℝ) := none
  funcs : Option (List PyFn) := none

namespace Trace
open ContourG (npts)

/-- read an attribute -/
def attr {α : Type} : Option α → Py α
  | some a => .ok a
  | none => .error .attributeError

/-- `edges_are_parametrized` (trace.py L518-529) -/
def ready (t : Trace) : Bool := t.edges.all fun e => e.pts.isSome

/-- the loop of `find_edge_sampled_indices` (trace.py L551-554) -/
def idxLoop (start : ℕ) : List EdgeG → List (ℕ × ℕ)
  | [] => []
  | e :: es => (start, start + (npts e - 1)) :: idxLoop (start + (npts e - 1)) es

/-- `find_num_pts` (trace.py L531-539) and `find_edge_sampled_indices` (L541-554), always called together -/
def findSizes (t : Trace) : Trace :=
  { t with numPts := some (t.edges.map fun e => npts e - 1).sum, idx := some (idxLoop 0 t.edges) }

/-- `num_pts` of an edge: `-1` if it is not parameterized (edge.py L147, L332) -/
def edgeNumPts (e : EdgeG) : ℤ :=
  match e.pts with
  | none => -1
  | some l => l.length

/-- `_validate_values_on_edge` (trace.py L268-276) -/
def validate (n : ℤ) : FloatLike → Py Unit
  | .num _ => .ok ()
  | .other => .error .valueError
  | .arr l => if (l.length : ℤ) ≠ n then .error .valueError else .ok ()

/-- `a[start:end] = v` -/
def assign (a : List ℝ) (s e : ℕ) : FloatLike → Py (List ℝ)
  | .num x => Np.setSlice a s e [x]
  | .arr l => Np.setSlice a s e l
  | .other => .error .valueError

/-- the tests at the head of the three setters for one edge; the result is `start, end` -/
def edgeBlock (t : Trace) (k : ℤ) (v : FloatLike) : Py (ℕ × ℕ) :=
  if k < 0 ∨ k ≥ t.numEdges then .error .valueError
  else do
    let e ← Np.get t.edges k.toNat
    validate (edgeNumPts e - 1) v
    let idx ← attr t.idx
    Np.get idx k.toNat

/-- `set_trace_values_on_edge` (trace.py L248-266) -/
def setOnEdge (t : Trace) (k : ℤ) (v : FloatLike) : Trace × Py Unit :=
  match (do
    let (s, e) ← t.edgeBlock k v
    let a ← attr t.values
    assign a s e v : Py (List ℝ)) with
  | .ok a => ({ t with values := some a }, .ok ())
  | .error er => (t, .error er)

/-- the array of a derivative, or zeros if there is none yet -/
def derivArray (t : Trace) : Option (List ℝ) → Py (List ℝ)
  | some a => .ok a
  | none => do
    let n ← attr t.numPts
    .ok (List.replicate n 0)

/-- `set_weighted_normal_derivative_on_edge` (trace.py L327-348) -/
def setWndOnEdge (t : Trace) (k : ℤ) (v : FloatLike) : Trace × Py Unit :=
  match (do
    let (s, e) ← t.edgeBlock k v
    let a ← t.derivArray t.wnd
    assign a s e v : Py (List ℝ)) with
  | .ok a => ({ t with wnd := some a }, .ok ())
  | .error er => (t, .error er)

/-- `set_weighted_tangential_derivative_on_edge` (trace.py L369-390) -/
def setWtdOnEdge (t : Trace) (k : ℤ) (v : FloatLike) : Trace × Py Unit :=
  match (do
    let (s, e) ← t.edgeBlock k v
    let a ← t.derivArray t.wtd
    assign a s e v : Py (List ℝ)) with
  | .ok a => ({ t with wtd := some a }, .ok ())
  | .error er => (t, .error er)

/-- `isinstance(v, np.ndarray)` -/
def isArr : FloatLike → Bool
  | .arr _ => true
  | _ => false

/-- `_convert_values_to_list_floatlike` (trace.py L297-325); the last two `raise` statements are never reached -/
def convert (t : Trace) : TraceArg → Py (List FloatLike)
  | .list l => if l.all isArr then .ok l else .error .valueError
  | .one (.num x) => .ok (List.replicate t.numEdges (.num x))
  | .one (.arr a) => do
    let n ← attr t.numPts
    if a.length ≠ n then .error .valueError
    else do
      let idx ← attr t.idx
      .ok (idx.map fun p => .arr (Np.slice a p.1 p.2))
  | .one .other => .error .valueError

/-- the loop `for k in range(num_edges): set_…_on_edge(k, values[k])`; `left` is the number of rounds to go -/
def edgeLoop (set : Trace → ℤ → FloatLike → Trace × Py Unit) (vs : List FloatLike) :
    ℕ → ℕ → Trace → Trace × Py Unit
  | 0, _, t => (t, .ok ())
  | left + 1, k, t =>
    match Np.get vs k with
    | .error er => (t, .error er)
    | .ok v =>
      match set t k v with
      | (t, .error er) => (t, .error er)
      | (t, .ok _) => edgeLoop set vs left (k + 1) t

/-- `set_trace_values` (trace.py L278-295) -/
def setValues (t : Trace) (v : TraceArg) : Trace × Py Unit :=
  match (do
    let vs ← t.convert v
    let n ← attr t.numPts
    .ok (vs, n) : Py (List FloatLike × ℕ)) with
  | .error er => (t, .error er)
  | .ok (vs, n) => edgeLoop setOnEdge vs t.numEdges 0 { t with values := some (List.replicate n 0) }

/-- `set_weighted_normal_derivative` (trace.py L350-367) -/
def setWnd (t : Trace) (v : TraceArg) : Trace × Py Unit :=
  match (do
    let vs ← t.convert v
    let n ← attr t.numPts
    .ok (vs, n) : Py (List FloatLike × ℕ)) with
  | .error er => (t, .error er)
  | .ok (vs, n) => edgeLoop setWndOnEdge vs t.numEdges 0 { t with wnd := some (List.replicate n 0) }

/-- `set_weighted_tangential_derivative` (trace.py L392-409) -/
def setWtd (t : Trace) (v : TraceArg) : Trace × Py Unit :=
  match (do
    let vs ← t.convert v
    let n ← attr t.numPts
    .ok (vs, n) : Py (List FloatLike × ℕ)) with
  | .error er => (t, .error er)
  | .ok (vs, n) => edgeLoop setWtdOnEdge vs t.numEdges 0 { t with wtd := some (List.replicate n 0) }

/-- the loop of `find_values` (trace.py L572-574) -/
def valueLoop (idx : List (ℕ × ℕ)) (fs : List PyFn) (k : ℕ) (acc : List ℝ) : List EdgeG → List ℝ × Py Unit
  | [] => (acc, .ok ())
  | e :: es =>
    match (do
      let (s, f) ← Np.get idx k
      let fn ← Np.get fs k
      let fn ← fn.run
      let v ← e.evaluateFunction fn
      Np.setSlice acc s f v : Py (List ℝ)) with
    | .error er => (acc, .error er)
    | .ok acc => valueLoop idx fs (k + 1) acc es

/-- `find_values` (trace.py L556-574) -/
def findValues (t : Trace) : Trace × Py Unit :=
  match t.funcs with
  | none => (t, .error .valueError)
  | some fs =>
    if t.ready then
      let t := t.findSizes
      let r := valueLoop (idxLoop 0 t.edges) fs 0
        (List.replicate (t.edges.map fun e => npts e - 1).sum 0) t.edges
      ({ t with values := some r.1 }, r.2)
    else (t, .error .valueError)

/-- `set_func_on_edge` (trace.py L411-428) -/
def setFuncOnEdge (t : Trace) (k : ℤ) (f : PyFn) : Trace × Py Unit :=
  if k < 0 ∨ k ≥ t.numEdges then (t, .error .valueError)
  else
    match t.funcs with
    | none => (t, .error .attributeError)
    | some fs => if k.toNat < fs.length then ({ t with funcs := some (fs.set k.toNat f) }, .ok ())
      else (t, .error .indexError)

/-- `set_func_from_poly_on_edge` (trace.py L473-497) -/
def setPolyOnEdge (t : Trace) (k : ℤ) (f : PyFn) (compute : Bool := true) : Trace × Py Unit :=
  if k < 0 ∨ k ≥ t.numEdges then (t, .error .valueError)
  else if f.isPoly then
    match t.setFuncOnEdge k f with
    | (t, .error er) => (t, .error er)
    | (t, .ok _) => if compute && t.ready then t.findValues else (t, .ok ())
  else (t, .error .valueError)

/-- `set_funcs` (trace.py L430-471) for a list -/
def setFuncList (t : Trace) (fs : List PyFn) (compute : Bool) : Trace × Py Unit :=
  if fs.all PyFn.isR2R then
    if fs.length ≠ t.numEdges then (t, .error .valueError)
    else
      let t := { t with funcs := some fs }
      if compute && t.ready then t.findValues else (t, .ok ())
  else (t, .error .valueError)

/-- `set_funcs` (trace.py L430-471) -/
def setFuncs (t : Trace) (fs : FuncArg) (compute : Bool := true) : Trace × Py Unit :=
  match fs with
  | .one f => if f.isR2R then t.setFuncList (List.replicate t.numEdges f) compute else (t, .error .valueError)
  | .list l => t.setFuncList l compute

/-- `set_funcs_from_polys` (trace.py L499-516).  `Polynomial` has no attribute `eval`. -/
def setFuncsFromPolys (t : Trace) (ps : FuncArg) : Trace × Py Unit :=
  match ps with
  | .one f => if f.isPoly then (t, .error .attributeError) else (t, .error .valueError)
  | .list l =>
    if l.all PyFn.isPoly then
      match l with
      | [] => t.setFuncs (.list [])
      | _ :: _ => (t, .error .attributeError)
    else (t, .error .valueError)

/-- `set_edges` (trace.py L211-228) and the first lines of `__init__` (L84-89) -/
def bare (edges : List EdgeG) : Trace :=
  let t : Trace := { edges := edges, numEdges := edges.length }
  if t.ready then t.findSizes else t

/-- `__init__` (trace.py L59-97) -/
def init (edges : List EdgeG) (custom : Bool := false) (funcs : Option FuncArg := none)
    (values : Option TraceArg := none) : Py Trace :=
  let t := bare edges
  if custom then .ok t
  else
    match values, funcs with
    | some v, _ => (t.setValues v).2.map fun _ => (t.setValues v).1
    | none, some f => (t.setFuncs f).2.map fun _ => (t.setFuncs f).1
    | none, none => .ok { t with funcs := some (List.replicate edges.length (.call 2 fun _ _ => 0)) }

/-- a setter called on a new trace: the trace is returned unless the setter raises -/
def after (r : Trace × Py Unit) : Py Trace := r.2.map fun _ => r.1

/-- copy a derivative to a new trace if there is one -/
def copyDeriv (set : Trace → TraceArg → Trace × Py Unit) (t : Trace) : Option (List ℝ) → Py Trace
  | none => .ok t
  | some a => after (set t (.one (.arr a)))

/-- `a.op(b)` for two optional arrays: present if both are -/
def both (f : ℝ → ℝ → ℝ) : Option (List ℝ) → Option (List ℝ) → Py (Option (List ℝ))
  | some a, some b => do
    let c ← Np.bin f a b
    .ok (some c)
  | _, _ => .ok none

/-- `__add__` (trace.py L99-127) -/
def add (t s : Trace) : Py Trace :=
  if t.numEdges ≠ s.numEdges then .error .valueError
  else do
    let a ← attr t.values
    let b ← attr s.values
    let c ← Np.bin (· + ·) a b
    let new ← after ((bare t.edges).setValues (.one (.arr c)))
    let dn ← both (· + ·) t.wnd s.wnd
    let new ← copyDeriv setWnd new dn
    let dt ← both (· + ·) t.wtd s.wtd
    copyDeriv setWtd new dt

/-- the common part of `__mul__` (trace.py L129-151) and `__truediv__` (L169-193): a new trace, every entry changed
by `f` -/
def mapData (f : ℝ → ℝ) (t : Trace) : Py Trace := do
  let a ← attr t.values
  let new ← after ((bare t.edges).setValues (.one (.arr (a.map f))))
  let new ← copyDeriv setWnd new (t.wnd.map fun d => d.map f)
  copyDeriv setWtd new (t.wtd.map fun d => d.map f)

/-- `__mul__` (trace.py L129-151) and `__rmul__` (L153-167); the argument is an `int` or a `float` -/
def mul (t : Trace) (c : ℝ) : Py Trace := mapData (· * c) t

/-- `__truediv__` (trace.py L169-193) -/
noncomputable def div (t : Trace) (c : ℝ) : Py Trace := if c = 0 then .error .valueError else mapData (· / c) t

/-- `__sub__` (trace.py L195-209) -/
def sub (t s : Trace) : Py Trace := do
  let m ← s.mul (-1)
  t.add m

/-- `get_edge_sampled_point_indices` (trace.py L230-246); negative indices count from the end -/
def edgeIndices (t : Trace) (k : ℤ) : Py (ℕ × ℕ) := do
  let idx ← attr t.idx
  pyGetZ idx k

/-- The edges of the trace are sampled again, or their sampling is thrown away, by other code. -/
def resample (t : Trace) (es : List EdgeG) : Trace := { t with edges := es }

end Trace
end PFEM
