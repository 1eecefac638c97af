import Verif.Model.CellTopo
import Verif.Model.GlobKey

/-!
Model of `/repo/puncturedfem/solver/globfunsp.py`, of the key generation of
`/repo/puncturedfem/locfun/edge_space.py` and of the construction of local bases in
`/repo/puncturedfem/locfun/local_space.py`.

An edge space is its list of edge-function and vertex-function polynomials with the edge it belongs to; how these
polynomials arise is modelled in `EdgeSpace.lean`.  A local function is its key, the polynomials that give its trace
on the edges of the cell (`none`: the zero function) and the number of its Laplacian monomial (`none`: harmonic);
everything computed numerically from these (Nyström solve, interior values) is left out.  The iteration order of the
Python `set` of vertex indices (local_space.py L217-225) is a parameter.
-/

namespace PFEM

variable {K : Type} [Field K] [LinearOrder K]

/-- `EdgeSpace` attributes (edge_space.py L47-56) -/
structure EdgeSpace (K : Type) where
  edge : ℕ
  edgeTraces : List (Poly K)
  vertTraces : List (Poly K)

namespace EdgeSpace

/-- `num_edge_funs` (edge_space.py L117-119) -/
def numEdgeFuns (b : EdgeSpace K) : ℕ := b.edgeTraces.length

/-- `num_vert_funs` (edge_space.py L113-115) -/
def numVertFuns (b : EdgeSpace K) : ℕ := b.vertTraces.length

/-- `generate_vert_fun_global_keys` (edge_space.py L121-127) -/
def vertKeys (st : EdgeStore K) (b : EdgeSpace K) : List GlobalKey :=
  if (st b.edge).isLoop then [] else
    [GlobalKey.ofVert (st b.edge).anchor.idx, GlobalKey.ofVert (st b.edge).endpnt.idx]

/-- the integer `e.idx`; edges of a mesh have one -/
def edgeIdx (st : EdgeStore K) (b : EdgeSpace K) : ℤ := ((st b.edge).idx.getD 0 : ℕ)

/-- `generate_edge_fun_global_keys` (edge_space.py L129-135) -/
def edgeKeys (st : EdgeStore K) (b : EdgeSpace K) : List GlobalKey :=
  (List.range b.numEdgeFuns).map fun (k : ℕ) => GlobalKey.ofEdge (b.edgeIdx st) (k : ℤ)

end EdgeSpace

/-- `GlobalFunctionSpace` attributes (globfunsp.py L47-56) -/
structure GlobFunSp (K : Type) where
  mesh : PlanarMesh K
  deg : ℕ
  edgeSpaces : List (EdgeSpace K)
  numVertFuns : ℕ
  numEdgeFuns : ℕ
  numBubbFuns : ℕ
  numFuns : ℕ
  edgeFunCumsum : List ℕ
  cellDofs : List (List GlobalKey)

namespace GlobFunSp

/-- `_compute_edge_fun_cumsum` (globfunsp.py L226-231); `last` is `self.edge_fun_cumsum[-1]` -/
def cumsumLoop : ℕ → List (EdgeSpace K) → List ℕ
  | _, [] => []
  | last, b :: bs => (last + b.numEdgeFuns) :: cumsumLoop (last + b.numEdgeFuns) bs

/-- `_compute_num_edge_funs` (globfunsp.py L217-220) -/
def countEdgeFuns (bs : List (EdgeSpace K)) : ℕ := bs.foldl (fun n b => n + b.numEdgeFuns) 0

/-- `__init__` (globfunsp.py L58-87): `space e` is the edge space built for edge object `e` (L137-157), `set_deg`
(L115-133) rejects degrees below 1; dimension counts L206-224 -/
def init (m : PlanarMesh K) (deg : ℤ) (space : ℕ → EdgeSpace K) : Py (GlobFunSp K) :=
  if deg < 1 then .error .valueError else
  let d := deg.toNat
  let bs := m.edges.map space
  let nv := m.numVerts
  let ne := countEdgeFuns bs
  let nb := m.numCells * ((d * (d - 1)) / 2)
  .ok { mesh := m, deg := d, edgeSpaces := bs, numVertFuns := nv, numEdgeFuns := ne, numBubbFuns := nb,
        numFuns := nv + ne + nb, edgeFunCumsum := 0 :: cumsumLoop 0 bs,
        cellDofs := List.replicate m.numCells [] }

/-- `_is_in_range` (globfunsp.py L274-275) -/
def inRange (i lo hi : ℤ) : Bool := decide (lo ≤ i ∧ i < hi)

/-- `get_global_idx` (globfunsp.py L235-272) -/
def getGlobalIdx (s : GlobFunSp K) (key : GlobalKey) (absCell : ℕ) : Py ℤ :=
  let vertStart : ℤ := s.numBubbFuns
  let edgeStart : ℤ := s.numBubbFuns + s.numVertFuns
  match key.funType with
  | .bubb =>
    let i : ℤ := ((s.deg * (s.deg - 1)) / 2 : ℕ) * (absCell : ℤ) + key.bubbSpaceIdx
    if inRange i 0 vertStart then .ok i else .error .indexError
  | .vert => do
    let k ← pyIndexOf s.mesh.vertIdxList key.vertIdx
    let i : ℤ := vertStart + k
    if inRange i vertStart edgeStart then .ok i else .error .indexError
  | .edge => do
    let c ← pyGetZ s.edgeFunCumsum key.edgeIdx
    let i : ℤ := edgeStart + c + key.edgeSpaceIdx
    if inRange i edgeStart s.numFuns then .ok i else .error .indexError

/-- `fun_is_on_boundary` (globfunsp.py L277-292) -/
def funIsOnBoundary (s : GlobFunSp K) (key : GlobalKey) : Py Bool :=
  match key.funType with
  | .bubb => .ok false
  | .vert => .ok (s.mesh.vertIsOnBoundary key.vertIdx)
  | .edge => s.mesh.edgeIsOnBoundary key.edgeIdx

end GlobFunSp

/-- A local basis function: key, trace polynomials edge by edge, number of the Laplacian monomial. -/
structure LocFun (K : Type) where
  key : GlobalKey
  traces : List (Option (Poly K))
  lap : Option ℕ

namespace LocSpace

/-- `_build_bubb_funs` (local_space.py L176-201); the trace is zero on every edge -/
def bubbFuns (deg numEdges : ℕ) : List (LocFun K) :=
  if deg < 2 then []
  else (List.range ((deg * (deg - 1)) / 2)).map fun (k : ℕ) => ⟨.ofBubb (k : ℤ), List.replicate numEdges none, some k⟩

/-- the vertex indices collected in the set (local_space.py L217-222), in the order of insertion -/
def vertIdxs (st : EdgeStore K) (edges : List ℕ) : List ℤ :=
  edges.flatMap fun e => if (st e).isLoop then [] else [(st e).anchor.idx, (st e).endpnt.idx]

/-- the trace of a vertex function on edge space `b` (local_space.py L243-247): the last matching key wins;
`vert_fun_global_keys[k]` is out of range only if there are more traces than keys (`IndexError`) -/
def vertTraceOn (st : EdgeStore K) (v : ℤ) (b : EdgeSpace K) : ℕ → Option (Poly K) → List (Poly K) → Py (Option (Poly K))
  | _, cur, [] => .ok cur
  | k, cur, p :: ps =>
    match (b.vertKeys st)[k]? with
    | none => .error .indexError
    | some key => vertTraceOn st v b (k + 1) (if key.vertIdx = v then some p else cur) ps

/-- the loop over the edge spaces of `_build_vert_funs` (local_space.py L242-247) -/
def vertTraces (st : EdgeStore K) (v : ℤ) : List (EdgeSpace K) → Py (List (Option (Poly K)))
  | [] => .ok []
  | b :: bs => do
    let t ← vertTraceOn st v b 0 none b.vertTraces
    let ts ← vertTraces st v bs
    .ok (t :: ts)

/-- the loop over the vertex keys of `_build_vert_funs` (local_space.py L238-255) -/
def vertFunLoop (st : EdgeStore K) (bs : List (EdgeSpace K)) : List ℤ → Py (List (LocFun K))
  | [] => .ok []
  | v :: vs => do
    let ts ← vertTraces st v bs
    let fs ← vertFunLoop st bs vs
    .ok (⟨.ofVert v, ts, none⟩ :: fs)

/-- `_build_vert_funs` (local_space.py L211-255); `ord` enumerates the Python set of vertex indices -/
def vertFuns (ord : List ℤ → List ℤ) (st : EdgeStore K) (edges : List ℕ) (bs : List (EdgeSpace K)) : Py (List (LocFun K)) :=
  vertFunLoop st bs (ord (vertIdxs st edges))

/-- `_build_edge_funs` (local_space.py L257-292): the edge is located by its number -/
def edgeFuns (st : EdgeStore K) (edges : List ℕ) : List (EdgeSpace K) → Py (List (LocFun K))
  | [] => .ok []
  | b :: bs => do
    let pos ← pyIndexOf (edges.map fun e => (st e).idx) (st b.edge).idx
    let fs := (b.edgeKeys st).zipWith (fun key p => (⟨key, (List.replicate edges.length none).set pos (some p), none⟩ : LocFun K))
      b.edgeTraces
    let rest ← edgeFuns st edges bs
    .ok (fs ++ rest)

/-- `_build_basis` and `get_basis` (local_space.py L136-145, L166-174); degree check L121-134 -/
def basis (ord : List ℤ → List ℤ) (st : EdgeStore K) (edges : List ℕ) (bs : List (EdgeSpace K)) (deg : ℕ) :
    Py (List (LocFun K)) :=
  if deg < 1 then .error .valueError else do
    let v ← vertFuns ord st edges bs
    let e ← edgeFuns st edges bs
    .ok (v ++ e ++ bubbFuns deg edges.length)

end LocSpace

namespace GlobFunSp

/-- the loop at the end of `build_local_function_space` (globfunsp.py L197-201), returning the numbered keys.
An exception leaves the keys already appended in place; the caller of the model then has no space to use. -/
def numberLoop (s : GlobFunSp K) (absCell : ℕ) : List (LocFun K) → Py (List (LocFun K))
  | [] => .ok []
  | v :: vs => do
    let i ← s.getGlobalIdx v.key absCell
    let key ← v.key.setGlobIdx i
    let b ← s.funIsOnBoundary key
    let rest ← numberLoop s absCell vs
    .ok ({ v with key := { key with onBoundary := some b } } :: rest)

/-- collecting the edge spaces (globfunsp.py L185-188): `self.edge_spaces[e.idx]` -/
def cellEdgeSpaces (s : GlobFunSp K) : List ℕ → Py (List (EdgeSpace K))
  | [] => .ok []
  | e :: es => do
    let b ← pyGetZ s.edgeSpaces (((s.mesh.store e).idx.getD 0 : ℕ) : ℤ)
    let bs ← cellEdgeSpaces s es
    .ok (b :: bs)

/-- `build_local_function_space` (globfunsp.py L159-202): the basis and the space with the keys appended to
`cell_dofs`. `perm` stands for the reordering of the contours during parameterization (cell.py L346-361). -/
def buildLocal (ord : List ℤ → List ℤ) (perm : CellTopo → List ℕ) (s : GlobFunSp K) (cell : ℤ) :
    Py (GlobFunSp K × List (LocFun K)) := do
  let absCell ← s.mesh.getAbsCellIdx cell
  let kcell ← s.mesh.getCell cell
  let edges := perm kcell
  let bs ← s.cellEdgeSpaces edges
  let fs ← LocSpace.basis ord s.mesh.store edges bs s.deg
  let fs' ← s.numberLoop absCell fs
  .ok ({ s with cellDofs := s.cellDofs.modify absCell (· ++ fs'.map LocFun.key) }, fs')

end GlobFunSp
end PFEM
