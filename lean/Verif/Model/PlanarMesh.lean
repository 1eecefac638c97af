import Mathlib.Data.List.Sort
import Mathlib.Algebra.Order.Field.Basic
import Verif.Model.PyList
import Verif.Model.Poly

/-!
Model of `/repo/puncturedfem/mesh/planar_mesh.py` and of the topological attributes of
`/repo/puncturedfem/mesh/edge.py`.

Edges are Python objects that several lists refer to and that are changed in place (`set_idx`), so they live in a
store addressed by object identity (a natural number); `e in self.edges` compares identities because `Edge` defines
no `__eq__`.  Coordinates lie in an ordered field; comparisons of distances are made on squares.
-/

namespace PFEM

/-- Vertex data of an edge: coordinates and index (vert.py L32-48). -/
structure PVert (K : Type) where
  x : K
  y : K
  idx : ℤ
  deriving DecidableEq

/-- Square of the distance of two vertices. -/
def PVert.dist2 {K : Type} [Field K] (a b : PVert K) : K := (a.x - b.x) ^ 2 + (a.y - b.y) ^ 2

/-- The attributes of `Edge` that the mesh reads (edge.py L171-196). `idx = none`: attribute not set yet. -/
structure EdgeRec (K : Type) where
  anchor : PVert K
  endpnt : PVert K
  pos : ℤ
  neg : ℤ
  idx : Option ℕ
  deriving DecidableEq

/-- The store of `Edge` objects. -/
abbrev EdgeStore (K : Type) := ℕ → EdgeRec K

namespace EdgeRec

variable {K : Type} [Field K] [LinearOrder K]

/-- `is_loop = self.anchor == self.endpnt` (edge.py L184, vert.py L121-135); `norm(d) < tol` on squares -/
def isLoop (e : EdgeRec K) : Bool := decide (e.anchor.dist2 e.endpnt < tol K ^ 2)

/-- `cell_idx in (e.pos_cell_idx, e.neg_cell_idx)` (planar_mesh.py L189) -/
def borders (e : EdgeRec K) (c : ℤ) : Bool := decide (c = e.pos ∨ c = e.neg)

/-- `is_on_mesh_boundary` (edge.py L194-196) -/
def onMeshBoundary (e : EdgeRec K) : Bool := decide (e.pos < 0 ∨ e.neg < 0)

end EdgeRec

/-- `PlanarMesh` attributes (planar_mesh.py L75-80) together with the store holding the edges. -/
structure PlanarMesh (K : Type) where
  store : EdgeStore K
  edges : List ℕ
  numEdges : ℕ
  vertIdxList : List ℤ
  numVerts : ℕ
  cellIdxList : List ℤ
  numCells : ℕ

namespace PlanarMesh

variable {K : Type} [Field K] [LinearOrder K]

/-- `add_edge` (planar_mesh.py L113-132) on the pair (edges, num_edges) -/
def addEdge (st : EdgeStore K) (s : List ℕ × ℕ) (e : ℕ) : Py (List ℕ × ℕ) :=
  if (st e).neg < 0 ∧ (st e).pos < 0 then .error .valueError
  else if e ∈ s.1 then .ok s
  else .ok (s.1 ++ [e], s.2 + 1)

/-- `add_edges` (planar_mesh.py L134-144) -/
def addEdges (st : EdgeStore K) : List ℕ → List ℕ × ℕ → Py (List ℕ × ℕ)
  | [], s => .ok s
  | e :: es, s => do
    let s' ← addEdge st s e
    addEdges st es s'

/-- `_find_edge_global_index` (planar_mesh.py L146-148), started at position `k` -/
def setIdx : EdgeStore K → ℕ → List ℕ → EdgeStore K
  | st, _, [] => st
  | st, k, e :: es => setIdx (Function.update st e { st e with idx := some k }) (k + 1) es

/-- one edge of the loop of `_build_vert_idx_list` (planar_mesh.py L153-157) -/
def vertStep (st : EdgeStore K) (l : List ℤ) (e : ℕ) : List ℤ :=
  if (st e).isLoop then l
  else [(st e).anchor.idx, (st e).endpnt.idx].foldl (fun l v => if 0 ≤ v ∧ v ∉ l then l ++ [v] else l) l

/-- `_build_vert_idx_list` (planar_mesh.py L150-159); `list.sort` is an insertion sort here -/
def buildVertList (st : EdgeStore K) (edges : List ℕ) : List ℤ :=
  (edges.foldl (vertStep st) []).insertionSort (· ≤ ·)

/-- one edge of the loop of `_build_cell_idx_list` (planar_mesh.py L164-167) -/
def cellStep (st : EdgeStore K) (l : List ℤ) (e : ℕ) : List ℤ :=
  [(st e).pos, (st e).neg].foldl (fun l c => if 0 ≤ c ∧ c ∉ l then l ++ [c] else l) l

/-- `_build_cell_idx_list` (planar_mesh.py L161-169) -/
def buildCellList (st : EdgeStore K) (edges : List ℕ) : List ℤ :=
  (edges.foldl (cellStep st) []).insertionSort (· ≤ ·)

/-- `__init__` (planar_mesh.py L82-103) -/
def init (st : EdgeStore K) (edges : List ℕ) : Py (PlanarMesh K) := do
  let (es, n) ← addEdges st edges ([], 0)
  let st' := setIdx st 0 es
  let cells := buildCellList st' es
  let verts := buildVertList st' es
  .ok { store := st', edges := es, numEdges := n, vertIdxList := verts, numVerts := verts.length,
        cellIdxList := cells, numCells := cells.length }

/-- the edges collected by `get_cell` (planar_mesh.py L185-190) -/
def getCellEdges (m : PlanarMesh K) (c : ℤ) : Py (List ℕ) :=
  if c ∈ m.cellIdxList then .ok (m.edges.filter fun e => (m.store e).borders c) else .error .indexError

/-- `get_abs_cell_idx` (planar_mesh.py L193-207) -/
def getAbsCellIdx (m : PlanarMesh K) (c : ℤ) : Py ℕ := pyIndexOf m.cellIdxList c

/-- `vert_is_on_boundary` (planar_mesh.py L209-227) -/
def vertIsOnBoundary (m : PlanarMesh K) (v : ℤ) : Bool :=
  m.edges.any fun e =>
    decide (v = (m.store e).anchor.idx ∨ v = (m.store e).endpnt.idx) && decide ((m.store e).pos < 0 ∨ (m.store e).neg < 0)

/-- `edge_is_on_boundary` (planar_mesh.py L229-244): list indexing, so negative indices count from the end -/
def edgeIsOnBoundary (m : PlanarMesh K) (k : ℤ) : Py Bool := do
  let e ← pyGetZ m.edges k
  .ok (decide ((m.store e).pos < 0 ∨ (m.store e).neg < 0))

end PlanarMesh
end PFEM
