import Verif.Model.CellTopo
import Verif.Model.Np
import Verif.Model.EdgeGeom
import Verif.Model.Pegboard

/-!
Model of `mesh_builder` (`/repo/puncturedfem/mesh/meshlib/__builder__.py`) for meshes that are given by a list of points and
a list of calls `Edge(verts[a], verts[b], ...)`, and of the meshes `square_circular_hole`, `pacman` and `pacman_subdiv`
(`/repo/puncturedfem/mesh/meshlib/*.py`).

The coordinates lie in an ordered field `K`; `w` stands for `ROOT3OVER2`.  The arguments of the curves are real numbers.
-/

namespace PFEM

/-- the arguments of one call `Edge(verts[a], verts[b], pos_cell_idx=pos, neg_cell_idx=neg, curve_type=..., ...)` -/
structure EdgeArgs where
  a : ℕ
  b : ℕ
  pos : ℤ
  neg : ℤ := -1
  curve : CurveType := .line
  quad : String := "kress"
  opts : CurveOpts := {}

/-- the `Edge` object that a call makes, as far as mesh and geometry read it -/
structure LibEdge (K : Type) where
  topo : EdgeRec K
  curve : CurveType
  quad : String
  opts : CurveOpts

namespace Meshlib

variable {K : Type} [Field K] [LinearOrder K]

/-- `Edge(verts[a], verts[b], ...)` (edge.py L104-147) -/
def edge (verts : List (PVert K)) (e : EdgeArgs) : Py (LibEdge K) := do
  let a ← Np.get verts e.a
  let b ← Np.get verts e.b
  .ok ⟨⟨a, b, e.pos, e.neg, none⟩, e.curve, e.quad, e.opts⟩

/-- the calls `edges.append(Edge(...))` one after the other -/
def edges (verts : List (PVert K)) : List EdgeArgs → Py (List (LibEdge K))
  | [] => .ok []
  | e :: l => do
    let e' ← edge verts e
    let r ← edges verts l
    .ok (e' :: r)

/-- the store in which edge number `k` of the list is object `k`; what lies beyond does not matter -/
def toStore (l : List (LibEdge K)) : EdgeStore K := fun k =>
  match l[k]? with
  | some e => e.topo
  | none => ⟨⟨0, 0, -1⟩, ⟨0, 0, -1⟩, -1, -1, none⟩

/-- `mesh_builder` (__builder__.py L53-66): the vertices are numbered in the order of the list -/
def meshBuilder (pts : List (K × K)) (args : List EdgeArgs) : Py (List (LibEdge K) × PlanarMesh K) := do
  let es ← edges (Pegboard.number 0 pts) args
  let m ← PlanarMesh.init (toStore es) (List.range es.length)
  .ok (es, m)

/-- `_get_verts` (square_circular_hole.py L43-50) -/
def squareHoleVerts : List (K × K) := [(0, 0), (1, 0), (1, 1), (0, 1), (1 / 2, 1 / 2)]

/-- `_get_edges` (square_circular_hole.py L53-70) -/
noncomputable def squareHoleEdges : List EdgeArgs :=
  [{ a := 0, b := 1, pos := 0 },
   { a := 1, b := 2, pos := 0 },
   { a := 2, b := 3, pos := 0 },
   { a := 3, b := 0, pos := 0 },
   { a := 4, b := 4, pos := 1, neg := 0, curve := .circle, quad := "trap", opts := { radius := some (1 / 4) } }]

/-- `square_circular_hole` (square_circular_hole.py L22-40) -/
noncomputable def squareCircularHole : Py (List (LibEdge K) × PlanarMesh K) := meshBuilder squareHoleVerts squareHoleEdges

/-- `_get_verts` (pacman.py L48-126); `PACMAN_SCALE = 0.4`, `PACMAN_XSHIFT = PACMAN_YSHIFT = 0.5`, `GHOST_SCALE = 0.6`,
`GHOST_X_SHIFT = 3.5`, `GHOST_Y_SHIFT = 0.5` (L19-24) -/
def pacmanVerts (w : K) : List (K × K) :=
  [(0, 0), (1, 0), (3, 0), (4, 0), (4, 1), (3, 1), (1, 1), (0, 1),
   (1 / 2, 1 / 2), (1 / 2 + 2 / 5 * w, 1 / 2 + 2 / 5 * (1 / 2)), (1 / 2 + 2 / 5 * w, 1 / 2 - 2 / 5 * (1 / 2)),
   (1 / 2 + 2 / 5 * (-(1 / 10)), 1 / 2 + 2 / 5 * (1 / 2)),
   (3 / 2, 1 / 2), (2, 1 / 2), (5 / 2, 1 / 2),
   (7 / 2 + 3 / 5 * (-(1 / 2)), 1 / 2 + 3 / 5 * (-(3 / 5))), (7 / 2 + 3 / 5 * (1 / 2), 1 / 2 + 3 / 5 * (-(3 / 5))),
   (7 / 2 + 3 / 5 * (1 / 2), 1 / 2 + 3 / 5 * (1 / 5)), (7 / 2 + 3 / 5 * (-(1 / 2)), 1 / 2 + 3 / 5 * (1 / 5)),
   (7 / 2 + 3 / 5 * (-(1 / 4)), 1 / 2 + 3 / 5 * (1 / 10)), (7 / 2 + 3 / 5 * (1 / 4), 1 / 2 + 3 / 5 * (1 / 10))]

/-- the sides of the rectangles (pacman.py L137-144, pacman_subdiv.py L141-148) -/
noncomputable def rectEdges : List EdgeArgs :=
  [{ a := 0, b := 1, pos := 0 },
   { a := 1, b := 2, pos := 3 },
   { a := 2, b := 3, pos := 7 },
   { a := 3, b := 4, pos := 7 },
   { a := 4, b := 5, pos := 7 },
   { a := 5, b := 6, pos := 3 },
   { a := 6, b := 7, pos := 0 },
   { a := 7, b := 0, pos := 0 }]

/-- Pac-Man, the dots and the ghost (pacman.py L149-255, pacman_subdiv.py L155-261) -/
noncomputable def figureEdges : List EdgeArgs :=
  [{ a := 8, b := 9, pos := 1, neg := 0 },
   { a := 9, b := 10, pos := 1, neg := 0, curve := .circularArcDeg, opts := { theta0 := some 300 } },
   { a := 10, b := 8, pos := 1, neg := 0 },
   { a := 11, b := 11, pos := 2, neg := 1, quad := "trap", curve := .circle, opts := { radius := some (1 / 4 * (2 / 5)) } },
   { a := 12, b := 12, pos := 4, neg := 3, quad := "trap", curve := .circle, opts := { radius := some (1 / 10) } },
   { a := 13, b := 13, pos := 5, neg := 3, quad := "trap", curve := .circle, opts := { radius := some (1 / 10) } },
   { a := 14, b := 14, pos := 6, neg := 3, quad := "trap", curve := .circle, opts := { radius := some (1 / 10) } },
   { a := 15, b := 16, pos := 8, neg := 7, curve := .sineWave, opts := { amp := some (1 / 10), freq := some 6 } },
   { a := 16, b := 17, pos := 8, neg := 7 },
   { a := 17, b := 18, pos := 8, neg := 7, curve := .circularArcDeg, opts := { theta0 := some 180 } },
   { a := 18, b := 15, pos := 8, neg := 7 },
   { a := 19, b := 19, pos := 9, neg := 8, quad := "trap", curve := .ellipse, opts := { a := some (3 / 20 * (3 / 5)), b := some (1 / 5 * (3 / 5)) } },
   { a := 20, b := 20, pos := 10, neg := 8, quad := "trap", curve := .ellipse, opts := { a := some (3 / 20 * (3 / 5)), b := some (1 / 5 * (3 / 5)) } }]

/-- `_get_edges` (pacman.py L132-257) -/
noncomputable def pacmanEdges : List EdgeArgs :=
  rectEdges ++ [{ a := 1, b := 6, pos := 0, neg := 3 }, { a := 2, b := 5, pos := 3, neg := 7 }] ++ figureEdges

/-- `pacman` (pacman.py L27-45) -/
noncomputable def pacman (w : K) : Py (List (LibEdge K) × PlanarMesh K) := meshBuilder (pacmanVerts w) pacmanEdges

/-- `_get_verts` (pacman_subdiv.py L48-130) -/
def pacmanSubdivVerts (w : K) : List (K × K) := pacmanVerts w ++ [(1, 1 / 2), (3, 1 / 2)]

/-- `_get_edges` (pacman_subdiv.py L136-263) -/
noncomputable def pacmanSubdivEdges : List EdgeArgs :=
  rectEdges ++ [{ a := 1, b := 21, pos := 0, neg := 3 }, { a := 21, b := 6, pos := 0, neg := 3 },
    { a := 2, b := 22, pos := 3, neg := 7 }, { a := 22, b := 5, pos := 3, neg := 7 }] ++ figureEdges

/-- `pacman_subdiv` (pacman_subdiv.py L27-45) -/
noncomputable def pacmanSubdiv (w : K) : Py (List (LibEdge K) × PlanarMesh K) :=
  meshBuilder (pacmanSubdivVerts w) pacmanSubdivEdges

end Meshlib

/-- the geometric part of an edge (edge.py L104-147), with the default parameter bounds -/
noncomputable def LibEdge.geom (e : LibEdge ℝ) : Py EdgeG :=
  EdgeG.init ⟨e.topo.anchor.x, e.topo.anchor.y, e.topo.anchor.idx⟩ ⟨e.topo.endpnt.x, e.topo.endpnt.y, e.topo.endpnt.idx⟩
    e.curve e.opts e.quad (0, 2 * Real.pi) e.topo.pos e.topo.neg

end PFEM
