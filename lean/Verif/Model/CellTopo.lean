import Verif.Model.PlanarMesh

/-!
Model of the topological part of `/repo/puncturedfem/mesh/cell.py` and of the edge management of
`/repo/puncturedfem/mesh/closed_contour.py`.

The two `while` loops of `find_boundary_components` run on fuel; `none` means "not finished within the fuel".
-/

namespace PFEM

variable {K : Type} [Field K] [LinearOrder K]

/-- `ClosedContour` attributes set by its constructor (closed_contour.py L64-94). -/
structure Contour where
  edges : List ℕ
  orients : List ℤ
  numEdges : ℕ
  deriving DecidableEq

namespace Contour

/-- `add_edge` (closed_contour.py L124-143) -/
def addEdge (c : Contour) (e : ℕ) (o : ℤ) : Py Contour :=
  if ¬(o = 1 ∨ o = -1) then .error .valueError
  else if e ∈ c.edges then .ok c
  else .ok ⟨c.edges ++ [e], c.orients ++ [o], c.numEdges + 1⟩

/-- the loop of `add_edges` (closed_contour.py L165-166) -/
def addLoop : Contour → List (ℕ × ℤ) → Py Contour
  | c, [] => .ok c
  | c, (e, o) :: l => do
    let c' ← addEdge c e o
    addLoop c' l

/-- `__init__` with `set_mesh_id` (closed_contour.py L64-121) and `add_edges` (L145-166) -/
def init (cellId : ℤ) (edges : List ℕ) (orients : List ℤ) : Py Contour :=
  if cellId < 0 then .error .valueError
  else if edges.length ≠ orients.length then .error .valueError
  else addLoop ⟨[], [], 0⟩ (edges.zip orients)

end Contour

/-- `MeshCell` attributes set by its constructor (cell.py L72-102), without the interior mesh. -/
structure CellTopo where
  idx : ℤ
  edgeOrients : List ℤ
  components : List Contour
  numHoles : ℤ
  numEdges : ℕ
  deriving DecidableEq

namespace CellTopo

/-- orientation of one edge (cell.py L135-143) -/
def orient (st : EdgeStore K) (c : ℤ) (e : ℕ) : Py ℤ :=
  if c = (st e).pos then .ok 1
  else if c = (st e).neg then .ok (-1)
  else .error .embedding

/-- `find_edge_orientations` (cell.py L121-143) -/
def orients (st : EdgeStore K) (c : ℤ) : List ℕ → Py (List ℤ)
  | [] => .ok []
  | e :: es => do
    let o ← orient st c e
    let os ← orients st c es
    .ok (o :: os)

/-- the vertex `a` at which edge `i` starts (cell.py L185-190); `EmbeddingError` for other orientations -/
def startPt (st : EdgeStore K) (e : ℕ) (o : ℤ) : Py (PVert K) :=
  if o = 1 then .ok (st e).anchor else if o = -1 then .ok (st e).endpnt else .error .embedding

/-- the vertex `b` at which edge `j` ends (cell.py L192-197) -/
def endPt (st : EdgeStore K) (e : ℕ) (o : ℤ) : Py (PVert K) :=
  if o = 1 then .ok (st e).endpnt else if o = -1 then .ok (st e).anchor else .error .embedding

/-- tolerance of the incidence test (cell.py L201) -/
def incTol (K : Type) [Field K] : K := 1 / 10 ^ 6

/-- one row of `incidence_mat`: does edge `i` start where edge `j` ends? (cell.py L183-206, merged loops) -/
def incRow (st : EdgeStore K) (a : PVert K) : List (ℕ × ℤ) → Py (List ℕ)
  | [] => .ok []
  | (e, o) :: l => do
    let b ← endPt st e o
    let r ← incRow st a l
    .ok ((if a.dist2 b < incTol K ^ 2 then 1 else 0) :: r)

/-- `incidence_mat` (cell.py L182-206) -/
def incMat (st : EdgeStore K) (all : List (ℕ × ℤ)) : List (ℕ × ℤ) → Py (List (List ℕ))
  | [] => .ok []
  | (e, o) :: l => do
    let a ← startPt st e o
    let r ← incRow st a all
    let m ← incMat st all l
    .ok (r :: m)

/-- `np.sum(incidence_mat, axis=0)` (cell.py L209) -/
def colSums (n : ℕ) (m : List (List ℕ)) : List ℕ :=
  m.foldr (fun r acc => List.zipWith (· + ·) r acc) (List.replicate n 0)

/-- `incidence[j] = i` where `j` is the first column with a nonzero entry in row `i` (cell.py L222-227);
running off the end of a row is an `IndexError` -/
def incidenceLoop : List (List ℕ) → ℕ → List ℕ → Py (List ℕ)
  | [], _, inc => .ok inc
  | r :: rs, i, inc =>
    let j := r.findIdx (· ≠ 0)
    if j < r.length then incidenceLoop rs (i + 1) (inc.set j i) else .error .indexError

/-- `get_edge_endpoint_incidence` (cell.py L172-229). The norms of the integer vectors `row_sum - 1`, `col_sum - 1`
are below `1e-6` exactly if all sums are 1. -/
def incidence (st : EdgeStore K) (all : List (ℕ × ℤ)) : Py (List ℕ) := do
  let m ← incMat st all all
  if (colSums all.length m).all (· == 1) && (m.map List.sum).all (· == 1) then
    incidenceLoop m 0 (List.replicate all.length 0)
  else .error .embedding

/-- inner loop of `find_boundary_components` (cell.py L267-270): (fuel) (next_edge) (edges_on_contour) (is_marked) -/
def follow (inc : List ℕ) (start : ℕ) : ℕ → ℕ → List ℕ → List Bool → Option (List ℕ × List Bool)
  | 0, _, _, _ => none
  | f + 1, next, acc, marked =>
    if next = start then some (acc, marked)
    else follow inc start f (inc.getD next 0) (acc ++ [next]) (marked.set next true)

/-- outer loop of `find_boundary_components` (cell.py L256-274): (fuel) (num_marked) (is_marked) (contour_idx).
The scan of L260-261 runs off the array (`IndexError`) if every edge is marked. -/
def contourLoop (inc : List ℕ) (n : ℕ) : ℕ → ℕ → List Bool → List (List ℕ) → Option (Py (List (List ℕ)))
  | 0, _, _, _ => none
  | f + 1, num, marked, cs =>
    if num < n then
      let s := marked.findIdx (! ·)
      if s < marked.length then
        match follow inc s f (inc.getD s 0) [s] (marked.set s true) with
        | none => none
        | some (c, marked') => contourLoop inc n f (num + c.length) marked' (cs ++ [c])
      else some (.error .indexError)
    else some (.ok cs)

/-- last loop of `find_boundary_components` (cell.py L278-285) -/
def contours (c : ℤ) (edges : List ℕ) (os : List ℤ) : List (List ℕ) → Py (List Contour)
  | [] => .ok []
  | ci :: cs => do
    let k ← Contour.init c (ci.map fun i => edges.getD i 0) (ci.map fun i => os.getD i 0)
    let ks ← contours c edges os cs
    .ok (k :: ks)

/-- `__init__` (cell.py L72-102) with `set_idx`, `find_edge_orientations`, `find_boundary_components` (L231-285) and
`find_num_edges` (L148-155); `self.components` is empty when `is_parameterized` is asked, so that test passes. -/
def init (st : EdgeStore K) (fuel : ℕ) (c : ℤ) (edges : List ℕ) : Option (Py CellTopo) :=
  if c < 0 then some (.error .valueError) else
  match orients st c edges with
  | .error x => some (.error x)
  | .ok os =>
    match incidence st (edges.zip os) with
    | .error x => some (.error x)
    | .ok inc =>
      match contourLoop inc edges.length fuel 0 (List.replicate edges.length false) [] with
      | none => none
      | some (.error x) => some (.error x)
      | some (.ok cs) =>
        match contours c edges os cs with
        | .error x => some (.error x)
        | .ok ks => some (.ok ⟨c, os, ks, -1 + cs.length, (ks.map Contour.numEdges).sum⟩)

/-- `get_edges` (cell.py L157-170) -/
def getEdges (k : CellTopo) : List ℕ := k.components.flatMap Contour.edges

end CellTopo
end PFEM

namespace PFEM

variable {K : Type} [Field K] [LinearOrder K]

/-- The constructor with enough fuel (`C29_terminates`). -/
def CellTopo.make (st : EdgeStore K) (c : ℤ) (edges : List ℕ) : Py CellTopo :=
  match CellTopo.init st (edges.length + 1) c edges with
  | some r => r
  | none => .error .runtimeError

/-- `get_cell` (planar_mesh.py L171-191) -/
def PlanarMesh.getCell (m : PlanarMesh K) (c : ℤ) : Py CellTopo := do
  let es ← m.getCellEdges c
  CellTopo.make m.store c es

end PFEM
