import Mathlib.Order.WithBot
import Verif.Model.EdgeQuad

/-!
Model of the sampled boundary of a cell: `/repo/puncturedfem/mesh/closed_contour.py` L168-635 and
`/repo/puncturedfem/mesh/cell.py` L285-760.

* A contour holds its edges by value here; edges shared between cells are in `SharedEdges.lean`.
* `Path(...).contains_point` of matplotlib is a parameter `inside`: a Boolean for every list of points and every point.
* The triangulation (cell.py L762-971) is in `Masks.lean`.
* The arrays `x`, `y` of the interior tests are modelled point by point, so that their shapes agree by construction.
* Sizes are natural numbers: `num_pts - 1` of an edge is that of a nonempty array (`Edge.parameterize` makes at least
  nine columns).
-/

namespace PFEM

/-- `Path(polygon).contains_point(p)` -/
abbrev InsideTest := List (ℝ × ℝ) → ℝ × ℝ → Bool

/-- `ClosedContour` (closed_contour.py L24-62): the attributes that belong to the sampled boundary -/
structure ContourG where
  edges : List EdgeG
  orients : List ℤ
  numPts : ℕ := 0
  vertIdx : List ℕ := []
  closest : List ℕ := []
  interior : Option Vert := none

namespace ContourG
open EdgeG

/-- `is_parameterized` (closed_contour.py L169-178) -/
def isParameterized (c : ContourG) : Bool := c.edges.all fun e => e.pts.isSome

/-- the guard at the head of most methods -/
def guard (c : ContourG) : Py Unit := if c.isParameterized then .ok () else .error .notParameterized

/-- `e.num_pts` of a parameterized edge -/
def npts (e : EdgeG) : ℕ := (e.pts.getD []).length

/-- `find_num_pts` (closed_contour.py L205-222) -/
def findNumPts (c : ContourG) : Py ContourG := do
  guard c
  .ok { c with numPts := c.edges.foldl (fun n e => n + (npts e - 1)) 0 }

/-- the loop of `find_local_vert_idx` (closed_contour.py L237-239): `last` is `vert_idx[-1]` -/
def vertIdxLoop (last : ℕ) : List EdgeG → List ℕ
  | [] => [last]
  | e :: es => last :: vertIdxLoop (last + (npts e - 1)) es

/-- `find_local_vert_idx` (closed_contour.py L224-239) -/
def findLocalVertIdx (c : ContourG) : Py ContourG := do
  guard c
  .ok { c with vertIdx := vertIdxLoop 0 c.edges }

/-- the second loop of `find_closest_local_vertex_index` (closed_contour.py L267-273); `i` is the loop variable.  The
right hand sides are single integers, written to every entry of the slice. -/
def closestLoop (vertIdx : List ℕ) (numPts : ℕ) (i : ℕ) (acc : List ℕ) : List EdgeG → Py (List ℕ)
  | [] => .ok acc
  | e :: es => do
    let v ← Np.get vertIdx i
    let v' ← Np.get vertIdx (i + 1)
    let mid := v + npts e / 2
    let acc ← Np.setSlice acc v mid [v]
    if numPts = 0 then .error .zeroDivision
    else do
      let acc ← Np.setSlice acc mid v' [v' % numPts]
      closestLoop vertIdx numPts (i + 1) acc es

/-- `find_closest_local_vertex_index` (closed_contour.py L241-273) -/
def findClosest (c : ContourG) : Py ContourG := do
  guard c
  let l ← closestLoop c.vertIdx c.numPts 0 (List.replicate c.numPts 0) c.edges
  .ok { c with closest := l }

/-- `evaluate_function_on_contour` (closed_contour.py L418-441) -/
def evaluateFunction (c : ContourG) (f : ℝ → ℝ → ℝ) : Py (List ℝ) := do
  guard c
  Np.blockLoop (fun e _ _ => e.evaluateFunction f) c.vertIdx 0 (List.replicate c.numPts 0) c.edges

/-- `get_sampled_points` (closed_contour.py L443-461) -/
def getSampledPoints (c : ContourG) : Py (List ℝ × List ℝ) := do
  guard c
  let x1 ← c.evaluateFunction fun x _ => x
  let x2 ← c.evaluateFunction fun _ y => y
  .ok (x1, x2)

/-- `dot_with_tangent` (closed_contour.py L463-497) -/
def dotWithTangent (c : ContourG) (c1 c2 : List ℝ) : Py (List ℝ) := do
  guard c
  Np.blockLoop (fun e j j' => e.dotWithTangent (Np.slice c1 j j') (Np.slice c2 j j')) c.vertIdx 0
    (List.replicate c.numPts 0) c.edges

/-- `dot_with_normal` (closed_contour.py L499-533) -/
def dotWithNormal (c : ContourG) (c1 c2 : List ℝ) : Py (List ℝ) := do
  guard c
  Np.blockLoop (fun e j j' => e.dotWithNormal (Np.slice c1 j j') (Np.slice c2 j j')) c.vertIdx 0
    (List.replicate c.numPts 0) c.edges

/-- `multiply_by_dx_norm` (closed_contour.py L535-569) -/
def multiplyByDxNorm (c : ContourG) (vals : List ℝ) : Py (List ℝ) := do
  guard c
  if vals.length ≠ c.numPts then .error .sizeMismatch
  else
    Np.blockLoop (fun e j j' => e.multiplyByDxNorm (Np.slice vals j j')) c.vertIdx 0 (List.replicate c.numPts 0) c.edges

/-- `integrate_over_closed_contour_preweighted` (closed_contour.py L592-635) -/
noncomputable def integratePreweighted (c : ContourG) (w : List ℝ) : Py ℝ := do
  guard c
  if w.length ≠ c.numPts then .error .sizeMismatch
  else do
    let y ← Np.blockLoop (fun e j j' =>
      if npts e = 1 then .error .zeroDivision
      else .ok ((Np.slice w j j').map ((2 * Real.pi / ((npts e : ℝ) - 1)) * ·))) c.vertIdx 0
      (List.replicate c.numPts 0) c.edges
    .ok y.sum

/-- `integrate_over_closed_contour` (closed_contour.py L572-590) -/
noncomputable def integrate (c : ContourG) (vals : List ℝ) : Py ℝ := do
  guard c
  let w ← c.multiplyByDxNorm vals
  c.integratePreweighted w

/-- the loop of `get_distance_to_boundary` (closed_contour.py L299-303) on squared distances; `⊤` is `np.inf` -/
noncomputable def distLoop (x y : ℝ) (dist : WithTop ℝ) : List EdgeG → Py (WithTop ℝ)
  | [] => .ok dist
  | e :: es => do
    let l ← sampled e
    let d ← Np.min (l.map fun s => (s.x - x) ^ 2 + (s.y - y) ^ 2)
    distLoop x y (min dist d) es

/-- `get_distance_to_boundary` (closed_contour.py L276-303) -/
noncomputable def distance (c : ContourG) (x y : ℝ) : Py (WithTop ℝ) := do
  guard c
  let d ← distLoop x y ⊤ c.edges
  .ok (d.map Real.sqrt)

/-- `is_in_interior_contour` (closed_contour.py L305-351), the test of one point -/
def isInInterior (inside : InsideTest) (c : ContourG) (p : ℝ × ℝ) : Py Bool := do
  let (x1, x2) ← c.getSampledPoints
  .ok (inside (x1.zip x2) p)

/-- one distance matrix of `find_interior_point` (closed_contour.py L385-400), row by row: zero outside -/
noncomputable def distEntry (inside : InsideTest) (c : ContourG) (p : ℝ × ℝ) : Py (WithTop ℝ) := do
  let b ← isInInterior inside c p
  if b then c.distance p.1 p.2 else .ok 0

/-- point `(i, j)` of the grid `np.meshgrid(x_coord, y_coord)` with `i = k // m`, `j = k % m` -/
noncomputable def gridPt (box : ℝ × ℝ × ℝ × ℝ) (m k : ℕ) : ℝ × ℝ :=
  (Np.linspace box.1 box.2.1 m (k % m), Np.linspace box.2.2.1 box.2.2.2 m (k / m))

/-- one after the other, stopping at the first error -/
def mapPy {α β : Type} (f : α → Py β) : List α → Py (List β)
  | [] => .ok []
  | a :: l => do
    let b ← f a
    let r ← mapPy f l
    .ok (b :: r)

/-- The `while` loop of `find_interior_point` (closed_contour.py L383-415).  `M` and `N` are always equal; `d` is the
last distance.  `none`: out of fuel. -/
noncomputable def searchLoop (inside : InsideTest) (c : ContourG) (box : ℝ × ℝ × ℝ × ℝ) (tol : ℝ) :
    ℕ → ℕ → WithTop ℝ → Option Vert → Option (Py (Option Vert))
  | 0, _, _, _ => none
  | fuel + 1, m, d, pt =>
    if d < tol then
      match mapPy (fun k => distEntry inside c (gridPt box m k)) (List.range (m * m)) with
      | .error e => some (.error e)
      | .ok dist =>
        match Np.argmax dist with
        | .error e => some (.error e)
        | .ok k =>
          let m' := 4 * (m / 2) + 1
          if m' * m' > 1000000 then some (.error .interiorPoint)
          else searchLoop inside c box tol fuel m' (dist.getD k 0)
            (some (Vert.mk' (gridPt box m k).1 (gridPt box m k).2))
    else some (.ok pt)

/-- `find_interior_point` (closed_contour.py L353-415); the result is the contour with its new `interior_point` -/
noncomputable def findInteriorPoint (inside : InsideTest) (c : ContourG) (fuel : ℕ) : Option (Py ContourG) :=
  match (do
    guard c
    let (x, y) ← c.getSampledPoints
    getBoundingBox x y : Py (ℝ × ℝ × ℝ × ℝ)) with
  | .error e => some (.error e)
  | .ok box =>
    let tol := 0.01 * min (box.2.1 - box.1) (box.2.2.2 - box.2.2.1)
    match searchLoop inside c box tol fuel 9 0 c.interior with
    | none => none
    | some (.error e) => some (.error e)
    | some (.ok pt) => some (.ok { c with interior := pt })

/-- the sampling loop of `parameterize` (closed_contour.py L189-192) -/
noncomputable def sampleEdges (d : Quad × Quad) : List EdgeG → List ℤ → Py (List EdgeG)
  | e :: es, o :: os => do
    let e' ← e.parameterize d
    let r ← sampleEdges d es os
    .ok ((if o = -1 then e'.reverse else e') :: r)
  | es, _ => .ok es

/-- `parameterize` (closed_contour.py L180-196) without the last call, `find_interior_point` -/
noncomputable def parameterize (d : Quad × Quad) (c : ContourG) : Py ContourG := do
  let es ← sampleEdges d c.edges c.orients
  let c ← findNumPts { c with edges := es }
  let c ← findLocalVertIdx c
  findClosest c

/-- `deparameterize` (closed_contour.py L198-203) -/
def deparameterize (c : ContourG) : ContourG :=
  { c with edges := c.edges.map EdgeG.deparameterize, numPts := 0, closest := [] }

end ContourG
end PFEM
