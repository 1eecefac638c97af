import Mathlib.Analysis.SpecialFunctions.Sqrt
import Verif.Model.CellGeom

/-!
Model of the triangulation of a cell and its masks: `/repo/puncturedfem/mesh/cell.py` L762-971.

* `matplotlib.tri.Triangulation(x, y)` (Delaunay) is a parameter `delaunay`: the triangles, each as three indices, or an
  error.
* `matplotlib.path.Path(polygon).contains_point(p, radius=r)` is a parameter `PathTest`.
* The attribute `triangulation` is the pair of coordinate arrays with the triangles; its mask is `holeMask`.
-/

namespace PFEM

/-- `Path(polygon).contains_point(p, radius=r)` -/
abbrev PathTest := List (ℝ × ℝ) → ℝ × ℝ → ℝ → Bool

/-- `tri.Triangulation`: the points and the corners of the triangles -/
structure Tri where
  x : List ℝ
  y : List ℝ
  triangles : List (ℕ × ℕ × ℕ)

namespace Masks
open ContourG (mapPy)

/-- `point_x in path_x and point_y in path_y`: `_point_is_on_boundary_simple` (cell.py L879-886) -/
noncomputable def pointOnPath (x y : ℝ) (px py : List ℝ) : Bool :=
  open Classical in decide (x ∈ px) && decide (y ∈ py)

/-- the loop over the holes in `_point_is_on_boundary` (cell.py L873-875) -/
noncomputable def pointOnHoles (x y : ℝ) : List (List ℝ × List ℝ) → Bool
  | [] => false
  | h :: hs => if pointOnPath x y h.1 h.2 then true else pointOnHoles x y hs

/-- `_point_is_on_boundary` (cell.py L862-876) -/
noncomputable def pointOnBoundary (x y : ℝ) (ox oy : List ℝ) (hx hy : List (List ℝ)) : Bool :=
  if pointOnPath x y ox oy then true else pointOnHoles x y (hx.zip hy)

/-- the loop over the corners of one triangle in `_get_boundary_mask` (cell.py L847-858) -/
noncomputable def cornerLoop (T : Tri) (ox oy : List ℝ) (hx hy : List (List ℝ)) (mask : Bool) : List ℕ → Py Bool
  | [] => .ok mask
  | a :: l =>
    if mask then cornerLoop T ox oy hx hy mask l
    else do
      let x ← Np.get T.x a
      let y ← Np.get T.y a
      cornerLoop T ox oy hx hy (pointOnBoundary x y ox oy hx hy) l

/-- `_get_boundary_mask` (cell.py L836-859) -/
noncomputable def boundaryMask (T : Tri) (ox oy : List ℝ) (hx hy : List (List ℝ)) : Py (List Bool) :=
  mapPy (fun t => cornerLoop T ox oy hx hy false [t.1, t.2.1, t.2.2]) T.triangles

/-- `np.linalg.norm` of a vector with two entries -/
noncomputable def norm2 (a b : ℝ) : ℝ := Real.sqrt (a ^ 2 + b ^ 2)

/-- `_edge_is_on_boundary_segment` (cell.py L926-941) -/
noncomputable def onSegment (ex ey : ℝ × ℝ) (x1 y1 x2 y2 radius : ℝ) : Bool :=
  let a := (x2 - x1, y2 - y1)
  let b := (ex.2 - ex.1, ey.2 - ey.1)
  open Classical in
  if norm2 (a.1 - b.1) (a.2 - b.2) < radius then true
  else if norm2 (a.1 + b.1) (a.2 + b.2) < radius then true
  else false

/-- the loop of `_edge_is_on_boundary_simple` (cell.py L918-923) -/
noncomputable def onPathLoop (ex ey : ℝ × ℝ) (px py : List ℝ) (radius : ℝ) : List ℕ → Py Bool
  | [] => .ok false
  | i :: is => do
    let x1 ← Np.get px i
    let y1 ← Np.get py i
    let x2 ← Np.get px ((i + 1) % px.length)
    let y2 ← Np.get py ((i + 1) % px.length)
    if onSegment ex ey x1 y1 x2 y2 radius then .ok true else onPathLoop ex ey px py radius is

/-- `_edge_is_on_boundary_simple` (cell.py L907-923) -/
noncomputable def edgeOnPath (ex ey : ℝ × ℝ) (px py : List ℝ) (radius : ℝ) : Py Bool :=
  onPathLoop ex ey px py radius (List.range px.length)

/-- the loop over the holes in `_edge_is_on_boundary` (cell.py L901-903) -/
noncomputable def edgeOnHoles (ex ey : ℝ × ℝ) (radius : ℝ) : List (List ℝ × List ℝ) → Py Bool
  | [] => .ok false
  | h :: hs => do
    let b ← edgeOnPath ex ey h.1 h.2 radius
    if b then .ok true else edgeOnHoles ex ey radius hs

/-- `_edge_is_on_boundary` (cell.py L889-904) -/
noncomputable def edgeOnBoundary (ex ey : ℝ × ℝ) (ox oy : List ℝ) (hx hy : List (List ℝ)) (radius : ℝ) : Py Bool := do
  let b ← edgeOnPath ex ey ox oy radius
  if b then .ok true else edgeOnHoles ex ey radius (hx.zip hy)

/-- `_point_is_inside_simple` (cell.py L961-971); the assignment of a column fails if the lengths differ -/
def pointInPath (test : PathTest) (p : ℝ × ℝ) (px py : List ℝ) (radius : ℝ) : Py Bool :=
  if py.length = px.length then .ok (test (px.zip py) p radius)
  else if py.length = 1 then .ok (test (px.map fun x => (x, py.headD 0)) p radius)
  else .error .valueError

/-- the loop over the holes in `_point_is_inside` (cell.py L955-957) -/
def pointOutsideHoles (test : PathTest) (p : ℝ × ℝ) (radius : ℝ) : List (List ℝ × List ℝ) → Py Bool
  | [] => .ok true
  | h :: hs => do
    let b ← pointInPath test p h.1 h.2 radius
    if b then .ok false else pointOutsideHoles test p radius hs

/-- `_point_is_inside` (cell.py L944-958) -/
def pointInside (test : PathTest) (p : ℝ × ℝ) (ox oy : List ℝ) (hx hy : List (List ℝ)) (radius : ℝ) : Py Bool := do
  let b ← pointInPath test p ox oy radius
  if !b then .ok false else pointOutsideHoles test p radius (hx.zip hy)

/-- the loop over the sides of one triangle in `_get_hole_mask` (cell.py L812-832) -/
noncomputable def sideLoop (test : PathTest) (T : Tri) (ox oy : List ℝ) (hx hy : List (List ℝ)) (radius : ℝ)
    (mask : Bool) : List (ℕ × ℕ) → Py Bool
  | [] => .ok mask
  | (a, b) :: l =>
    if mask then sideLoop test T ox oy hx hy radius mask l
    else do
      let xa ← Np.get T.x a
      let xb ← Np.get T.x b
      let ya ← Np.get T.y a
      let yb ← Np.get T.y b
      let on ← edgeOnBoundary (xa, xb) (ya, yb) ox oy hx hy radius
      if !on then do
        let ins ← pointInside test (0.5 * (xa + xb), 0.5 * (ya + yb)) ox oy hx hy radius
        sideLoop test T ox oy hx hy radius (!ins) l
      else sideLoop test T ox oy hx hy radius mask l

/-- the sides `(triangles[t, i], triangles[t, (i + 1) % 3])` for `i = 0, 1, 2` -/
def sides (t : ℕ × ℕ × ℕ) : List (ℕ × ℕ) := [(t.1, t.2.1), (t.2.1, t.2.2), (t.2.2, t.1)]

/-- `_get_hole_mask` (cell.py L800-833) -/
noncomputable def holeMask (test : PathTest) (T : Tri) (ox oy : List ℝ) (hx hy : List (List ℝ)) (radius : ℝ) :
    Py (List Bool) :=
  mapPy (fun t => sideLoop test T ox oy hx hy radius false (sides t)) T.triangles

end Masks

/-- what `_build_triangulation` stores: `triangulation`, `hole_mask`, `boundary_mask` -/
structure Triangulated where
  tri : Tri
  holeMask : List Bool
  boundaryMask : List Bool

namespace CellG
open ContourG (mapPy)

/-- `_build_triangulation` (cell.py L762-797) -/
noncomputable def buildTriangulation (test : PathTest) (delaunay : List ℝ → List ℝ → Py (List (ℕ × ℕ × ℕ)))
    (K : CellG) : Py Triangulated := do
  let (y1, y2) ← K.getBoundaryPoints
  let x1 := K.interior.map Prod.fst ++ y1
  let x2 := K.interior.map Prod.snd ++ y2
  let ts ← delaunay x1 x2
  let o ← Np.get K.components 0
  let (ox, oy) ← o.getSampledPoints
  let hs ← mapPy ContourG.getSampledPoints (K.components.drop 1)
  let h ← Masks.holeMask test ⟨x1, x2, ts⟩ ox oy (hs.map Prod.fst) (hs.map Prod.snd) (1 / 10 ^ 6)
  let b ← Masks.boundaryMask ⟨x1, x2, ts⟩ ox oy (hs.map Prod.fst) (hs.map Prod.snd)
  .ok ⟨⟨x1, x2, ts⟩, h, b⟩

end CellG
end PFEM
