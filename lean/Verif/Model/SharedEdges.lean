import Mathlib.Logic.Function.Basic
import Verif.Model.SolverG

/-!
Model of contours and cells that refer to `Edge` objects: `/repo/puncturedfem/mesh/closed_contour.py`, `/repo/puncturedfem/mesh/cell.py`,
`build_edge_spaces` and `build_local_function_space` of `/repo/puncturedfem/solver/globfunsp.py`, and assembly in
`/repo/puncturedfem/solver/solver.py`.

Two cells on the two sides of an edge hold the same `Edge` object: `get_cell` (planar_mesh.py L171-191) hands out the objects of the mesh.  In
`ContourGeom.lean`, `CellGeom.lean` and `SolverG.lean` the sampled edges are values; here they are addresses in a heap, and every method that
changes an edge changes the heap.  Methods that only look at the edges are those of the value models, applied to what the heap holds at the time
of the call.

Simplified: what a call that raises leaves behind is not modelled (the result is the exception alone).  `fuel` bounds the search for interior points;
by C32 it ends within 8 rounds.
-/

namespace PFEM

/-- the `Edge` objects by their identity -/
abbrev EdgeHeap := ℕ → EdgeG

namespace EdgeHeap

/-- `e.parameterize(quad_dict)` (edge.py L261-328) -/
noncomputable def parameterize (h : EdgeHeap) (d : Quad × Quad) (e : ℕ) : Py EdgeHeap := do
  let x ← (h e).parameterize d
  .ok (Function.update h e x)

/-- `e.deparameterize()` (edge.py L330-338) -/
def deparameterize (h : EdgeHeap) (e : ℕ) : EdgeHeap := Function.update h e (h e).deparameterize

/-- `e.reverse_orientation()` (edge.py L491-511) -/
def reverse (h : EdgeHeap) (e : ℕ) : EdgeHeap := Function.update h e (h e).reverse

end EdgeHeap

/-- `ClosedContour` (closed_contour.py L24-94) with references to its edges -/
structure ContourRef where
  edges : List ℕ
  orients : List ℤ
  numPts : ℕ := 0
  vertIdx : List ℕ := []
  closest : List ℕ := []
  interior : Option Vert := none

namespace ContourRef

/-- what a method that looks at the edges sees -/
def read (h : EdgeHeap) (c : ContourRef) : ContourG := ⟨c.edges.map h, c.orients, c.numPts, c.vertIdx, c.closest, c.interior⟩

/-- the attributes other than the edges, as a method has set them -/
def keep (c : ContourRef) (g : ContourG) : ContourRef :=
  { c with numPts := g.numPts, vertIdx := g.vertIdx, closest := g.closest, interior := g.interior }

/-- the sampling loop of `parameterize` (closed_contour.py L189-192) -/
noncomputable def sampleEdges (d : Quad × Quad) : EdgeHeap → List ℕ → List ℤ → Py EdgeHeap
  | h, e :: es, o :: os => do
    let h ← h.parameterize d e
    sampleEdges d (if o = -1 then h.reverse e else h) es os
  | h, _, _ => .ok h

/-- `parameterize` (closed_contour.py L180-196) -/
noncomputable def parameterize (inside : InsideTest) (fuel : ℕ) (d : Quad × Quad) (h : EdgeHeap) (c : ContourRef) :
    Option (Py (EdgeHeap × ContourRef)) :=
  match sampleEdges d h c.edges c.orients with
  | .error e => some (.error e)
  | .ok h =>
    match (do
      let g ← (c.read h).findNumPts
      let g ← g.findLocalVertIdx
      g.findClosest : Py ContourG) with
    | .error e => some (.error e)
    | .ok g =>
      match g.findInteriorPoint inside fuel with
      | none => none
      | some (.error e) => some (.error e)
      | some (.ok g) => some (.ok (h, c.keep g))

/-- `deparameterize` (closed_contour.py L198-203) -/
def deparameterize (h : EdgeHeap) (c : ContourRef) : EdgeHeap × ContourRef :=
  (c.edges.foldl EdgeHeap.deparameterize h, { c with numPts := 0, closest := [] })

end ContourRef

/-- `MeshCell` (cell.py L72-102) with references to its edges -/
structure CellRef where
  components : List ContourRef
  numPts : ℕ := 0
  startIdx : List ℕ := []
  closest : List ℕ := []
  meshSize : ℕ × ℕ := (33, 33)
  rtol : ℝ := 0.05
  atol : ℝ := 0.05
  interior : List (ℝ × ℝ) := []

namespace CellRef

/-- what a method that looks at the edges sees -/
noncomputable def read (h : EdgeHeap) (K : CellRef) : CellG :=
  ⟨K.components.map (ContourRef.read h), K.numPts, K.startIdx, K.closest, K.meshSize, K.rtol, K.atol, K.interior⟩

/-- `get_edges` (cell.py L157-170) -/
def getEdges (K : CellRef) : List ℕ := K.components.flatMap ContourRef.edges

/-- the cell that the constructor makes (cell.py L72-102), with the contours of `CellTopo.lean` -/
noncomputable def ofTopo (k : CellTopo) : CellRef := { components := k.components.map fun c => { edges := c.edges, orients := c.orients } }

/-- the loop over the components in `parameterize` (cell.py L313-314) -/
noncomputable def sampleContours (inside : InsideTest) (fuel : ℕ) (d : Quad × Quad) :
    EdgeHeap → List ContourRef → Option (Py (EdgeHeap × List ContourRef))
  | h, [] => some (.ok (h, []))
  | h, c :: cs =>
    match c.parameterize inside fuel d h with
    | none => none
    | some (.error e) => some (.error e)
    | some (.ok (h, c)) =>
      match sampleContours inside fuel d h cs with
      | none => none
      | some (.error e) => some (.error e)
      | some (.ok (h, cs)) => some (.ok (h, c :: cs))

/-- `_find_outer_boundary` (cell.py L346-361) -/
noncomputable def findOuter (inside : InsideTest) (h : EdgeHeap) (K : CellRef) : Py CellRef := do
  (K.read h).guard
  let k ← CellG.outerLoop inside 0 0 (K.read h).components
  let cs ← CellG.swap0 K.components k
  .ok { K with components := cs }

/-- `parameterize` after the loop over the components (cell.py L315-322); `points` is `compute_interior_points` -/
noncomputable def finish (inside : InsideTest) (points : Bool) (h : EdgeHeap) (K : CellRef) : Py CellRef := do
  let g ← (K.read h).findNumPts
  let K := { K with numPts := g.numPts }
  let K ← K.findOuter inside h
  let g ← (K.read h).findStartIdx
  let K := { K with startIdx := g.startIdx }
  let g ← (K.read h).findClosest
  let K := { K with closest := g.closest }
  if points then do
    let g ← (K.read h).generateInteriorPoints inside
    .ok { K with interior := g.interior }
  else .ok K

/-- `parameterize` (cell.py L299-322) -/
noncomputable def parameterize (inside : InsideTest) (fuel : ℕ) (d : Quad × Quad) (points : Bool) (h : EdgeHeap) (K : CellRef) :
    Option (Py (EdgeHeap × CellRef)) :=
  match sampleContours inside fuel d h K.components with
  | none => none
  | some (.error e) => some (.error e)
  | some (.ok (h, cs)) => some (do
    let K ← finish inside points h { K with components := cs }
    .ok (h, K))

/-- the loop of `deparameterize` (cell.py L326-327) -/
def dropContours : EdgeHeap → List ContourRef → EdgeHeap × List ContourRef
  | h, [] => (h, [])
  | h, c :: cs =>
    let r := c.deparameterize h
    let s := dropContours r.1 cs
    (s.1, r.2 :: s.2)

/-- `deparameterize` (cell.py L324-329) -/
noncomputable def deparameterize (h : EdgeHeap) (K : CellRef) : EdgeHeap × CellRef :=
  let r := dropContours h K.components
  (r.1, { K with components := r.2, numPts := 0, startIdx := [] })

end CellRef

namespace SharedSolver
noncomputable section

/-- what the model leaves open, and the arguments: `inside` is matplotlib's test, `quad` is `quad_dict` -/
structure Env where
  gmres : Nystrom.Gmres
  ord : List ℤ → List ℤ
  inside : InsideTest
  fuel : ℕ
  quad : Quad × Quad
  evalInt : Bool
  evalGrad : Bool

/-- `mesh_cell.parameterize(...)` of a new cell (globfunsp.py L181-186) -/
def newCell (E : Env) (h : EdgeHeap) (k : CellTopo) (points : Bool) : Py (EdgeHeap × CellRef) :=
  match (CellRef.ofTopo k).parameterize E.inside E.fuel E.quad points h with
  | some r => r
  | none => .error .runtimeError

/-- the loop of `build_edge_spaces` (globfunsp.py L137-157); `space e` makes the edge space of a sampled edge (`EdgeSpace.lean`) -/
def buildEdgeSpaces (d : Quad × Quad) (space : ℕ → EdgeG → Py (EdgeSpace ℝ)) : EdgeHeap → List ℕ → Py (EdgeHeap × List (EdgeSpace ℝ))
  | h, [] => .ok (h, [])
  | h, e :: es => do
    let h ← h.parameterize d e
    let b ← space e (h e)
    let (h, bs) ← buildEdgeSpaces d space (h.deparameterize e) es
    .ok (h, b :: bs)

/-- `build_local_function_space` (globfunsp.py L159-202) -/
def buildLocal (E : Env) (h : EdgeHeap) (s : GlobFunSp ℝ) (cell : ℤ) : Py (EdgeHeap × GlobFunSp ℝ × CellRef × List LocSpaceG.Fn) := do
  let absCell ← s.mesh.getAbsCellIdx cell
  let k ← s.mesh.getCell cell
  let (h, K) ← newCell E h k (E.evalInt || E.evalGrad)
  let bs ← s.cellEdgeSpaces K.getEdges
  let fs ← LocSpaceG.basis E.gmres (K.read h) E.ord s.mesh.store K.getEdges bs s.deg E.evalInt E.evalGrad
  let fs' ← SolverG.numberLoop s absCell fs
  .ok (h, { s with cellDofs := s.cellDofs.modify absCell (· ++ fs'.map LocSpaceG.Fn.key) }, K, fs')

/-- what the loop over the cells accumulates -/
structure Accum where
  heap : EdgeHeap
  space : GlobFunSp ℝ
  triplets : List (Triplet ℝ)
  rhs : List (ℕ × ℝ)
  locSpaces : List (Option (CellRef × List LocSpaceG.Fn))

/-- body of the loop over the cells (solver.py L205-235) -/
def cellStep (E : Env) (B : BilinForm) (acc : Accum) (a : ℕ) : Py Accum := do
  let c ← pyGetZ acc.space.mesh.cellIdxList a
  let (h, s, K, fs) ← buildLocal E acc.heap acc.space c
  let (ts, rs) ← SolverG.cellValues B fs
  .ok { heap := h
        space := s
        triplets := acc.triplets ++ ts
        rhs := acc.rhs ++ rs
        locSpaces := if E.evalInt then acc.locSpaces.set a (some (K, fs)) else acc.locSpaces }

/-- the loop over the cells -/
def cellLoop (E : Env) (B : BilinForm) : List ℕ → Accum → Py Accum
  | [], acc => .ok acc
  | a :: as, acc => do
    let acc' ← cellStep E B acc a
    cellLoop E B as acc'

/-- what assembly leaves behind -/
structure State where
  heap : EdgeHeap
  space : GlobFunSp ℝ
  triplets : List (Triplet ℝ)
  rhs : List (ℕ × ℝ)
  locSpaces : List (Option (CellRef × List LocSpaceG.Fn))
  numFuns : ℕ
  globMat : ℕ → ℕ → ℝ
  globRhs : ℕ → ℝ
  stiffMat : ℕ → ℕ → ℝ
  massMat : ℕ → ℕ → ℝ

/-- `assemble` (solver.py L158-184) -/
def assemble (E : Env) (B : BilinForm) (h : EdgeHeap) (s : GlobFunSp ℝ) : Py State := do
  let acc ← cellLoop E B (List.range s.mesh.numCells) ⟨h, s, [], [], List.replicate s.mesh.numCells none⟩
  let (ts, rhs) := Solver.imposeBc acc.space (acc.triplets, acc.rhs)
  let n := acc.space.numFuns
  Solver.checkIdx n (rhs.map Prod.fst)
  Solver.checkIdx n (ts.map Triplet.row)
  Solver.checkIdx n (ts.map Triplet.col)
  .ok { heap := acc.heap, space := acc.space, triplets := ts, rhs := rhs, locSpaces := acc.locSpaces, numFuns := n,
        globMat := Solver.csr Triplet.a ts, globRhs := Solver.csrRhs rhs,
        stiffMat := Solver.csr Triplet.h1 ts, massMat := Solver.csr Triplet.l2 ts }

end
end SharedSolver
end PFEM
