import Verif.Model.ContourGeom

/-!
Model of the sampled boundary of a cell: `/repo/puncturedfem/mesh/cell.py` L285-760, and of
`/repo/puncturedfem/locfun/poly/integrate_poly.py`.

The loops `for i in range(self.num_holes + 1)` run over all components (`C29`: there are `num_holes + 1`).
-/

namespace PFEM

/-- `MeshCell`: the attributes that belong to the sampled boundary (cell.py L72-104), with the defaults of the constructor -/
structure CellG where
  components : List ContourG
  numPts : ℕ := 0
  startIdx : List ℕ := []
  closest : List ℕ := []
  meshSize : ℕ × ℕ := (33, 33)
  rtol : ℝ := 0.05
  atol : ℝ := 0.05
  /-- `int_x1`, `int_x2` -/
  interior : List (ℝ × ℝ) := []

namespace CellG
open ContourG (mapPy)

/-- `is_parameterized` (cell.py L288-297) -/
def isParameterized (K : CellG) : Bool := K.components.all ContourG.isParameterized

/-- the guard at the head of most methods -/
def guard (K : CellG) : Py Unit := if K.isParameterized then .ok () else .error .notParameterized

/-- `_find_num_pts` (cell.py L331-334) -/
def findNumPts (K : CellG) : Py CellG := do
  guard K
  .ok { K with numPts := (K.components.map ContourG.numPts).sum }

/-- the loop of `_find_component_start_idx` (cell.py L339-344) -/
def startLoop (idx : ℕ) : List ContourG → List ℕ
  | [] => [idx]
  | c :: cs => idx :: startLoop (idx + c.numPts) cs

/-- `_find_component_start_idx` (cell.py L336-344) -/
def findStartIdx (K : CellG) : Py CellG := do
  guard K
  .ok { K with startIdx := startLoop 0 K.components }

/-- is contour `b` inside contour `a`?  (cell.py L354-356) -/
def contains (inside : InsideTest) (a b : ContourG) : Py Bool := do
  let (x1, x2) ← b.getSampledPoints
  let l ← mapPy (ContourG.isInInterior inside a) (x1.zip x2)
  .ok (l.all id)

/-- the inner loop of `_find_outer_boundary` (cell.py L352-357) over the contours `j > i` -/
def outerInner (inside : InsideTest) (i : ℕ) (ci : ContourG) (outer : ℕ) : List ContourG → Py ℕ
  | [] => .ok outer
  | cj :: cs => do
    let b ← contains inside ci cj
    outerInner inside i ci (if b then i else outer) cs

/-- the outer loop of `_find_outer_boundary` (cell.py L351-357) -/
def outerLoop (inside : InsideTest) (i outer : ℕ) : List ContourG → Py ℕ
  | [] => .ok outer
  | ci :: cs => do
    let outer ← outerInner inside i ci outer cs
    outerLoop inside (i + 1) outer cs

/-- the swap (cell.py L359-361) -/
def swap0 {α : Type} (l : List α) (k : ℕ) : Py (List α) := do
  let t ← Np.get l 0
  let u ← Np.get l k
  .ok ((l.set 0 u).set k t)

/-- `_find_outer_boundary` (cell.py L346-361) -/
def findOuter (inside : InsideTest) (K : CellG) : Py CellG := do
  guard K
  let k ← outerLoop inside 0 0 K.components
  let cs ← swap0 K.components k
  .ok { K with components := cs }

/-- `_find_closest_vert_idx` (cell.py L363-370) -/
def findClosest (K : CellG) : Py CellG := do
  guard K
  let l ← Np.blockLoop (fun c _ _ => .ok c.closest) K.startIdx 0 (List.replicate K.numPts 0) K.components
  .ok { K with closest := l }

/-- the loop over the components in `parameterize` (cell.py L313-314) with the calls of `find_interior_point`; `fuel`
bounds the search -/
noncomputable def sampleContours (inside : InsideTest) (fuel : ℕ) (d : Quad × Quad) :
    List ContourG → Option (Py (List ContourG))
  | [] => some (.ok [])
  | c :: cs =>
    match c.parameterize d with
    | .error e => some (.error e)
    | .ok c =>
      match c.findInteriorPoint inside fuel with
      | none => none
      | some (.error e) => some (.error e)
      | some (.ok c) =>
        match sampleContours inside fuel d cs with
        | none => none
        | some (.error e) => some (.error e)
        | some (.ok cs) => some (.ok (c :: cs))

/-- `parameterize` with `compute_interior_points=False` (cell.py L299-322) -/
noncomputable def parameterize (inside : InsideTest) (fuel : ℕ) (d : Quad × Quad) (K : CellG) : Option (Py CellG) :=
  match sampleContours inside fuel d K.components with
  | none => none
  | some (.error e) => some (.error e)
  | some (.ok cs) => some (do
    let K ← findNumPts { K with components := cs }
    let K ← findOuter inside K
    let K ← findStartIdx K
    findClosest K)

/-- `evaluate_function_on_boundary` (cell.py L530-551) -/
def evaluateFunction (K : CellG) (f : ℝ → ℝ → ℝ) : Py (List ℝ) := do
  guard K
  Np.blockLoop (fun c _ _ => c.evaluateFunction f) K.startIdx 0 (List.replicate K.numPts 0) K.components

/-- `get_boundary_points` (cell.py L553-574): one array per coordinate -/
def getBoundaryPoints (K : CellG) : Py (List ℝ × List ℝ) := do
  guard K
  let x1 ← Np.blockLoop (fun c _ _ => do let p ← c.getSampledPoints; .ok p.1) K.startIdx 0 (List.replicate K.numPts 0)
      K.components
  let x2 ← Np.blockLoop (fun c _ _ => do let p ← c.getSampledPoints; .ok p.2) K.startIdx 0 (List.replicate K.numPts 0)
      K.components
  .ok (x1, x2)

/-- `dot_with_tangent` (cell.py L618-650) -/
def dotWithTangent (K : CellG) (c1 c2 : List ℝ) : Py (List ℝ) := do
  guard K
  if c1.length ≠ K.numPts ∨ c2.length ≠ K.numPts then .error .sizeMismatch
  else
    Np.blockLoop (fun c j j' => c.dotWithTangent (Np.slice c1 j j') (Np.slice c2 j j')) K.startIdx 0
      (List.replicate K.numPts 0) K.components

/-- `dot_with_normal` (cell.py L652-684) -/
def dotWithNormal (K : CellG) (c1 c2 : List ℝ) : Py (List ℝ) := do
  guard K
  if c1.length ≠ K.numPts ∨ c2.length ≠ K.numPts then .error .sizeMismatch
  else
    Np.blockLoop (fun c j j' => c.dotWithNormal (Np.slice c1 j j') (Np.slice c2 j j')) K.startIdx 0
      (List.replicate K.numPts 0) K.components

/-- `multiply_by_dx_norm` (cell.py L686-714) -/
def multiplyByDxNorm (K : CellG) (vals : List ℝ) : Py (List ℝ) := do
  guard K
  if vals.length ≠ K.numPts then .error .sizeMismatch
  else
    Np.blockLoop (fun c j j' => c.multiplyByDxNorm (Np.slice vals j j')) K.startIdx 0 (List.replicate K.numPts 0)
      K.components

/-- `integrate_over_boundary_preweighted` (cell.py L734-766) -/
noncomputable def integratePreweighted (K : CellG) (w : List ℝ) : Py ℝ := do
  guard K
  if w.length ≠ K.numPts then .error .sizeMismatch
  else do
    let y ← Np.blockLoop (fun c j j' =>
      if c.numPts = 0 then .error .zeroDivision
      else .ok ((Np.slice w j j').map ((2 * Real.pi * c.edges.length / c.numPts) * ·))) K.startIdx 0
      (List.replicate K.numPts 0) K.components
    .ok y.sum

/-- `integrate_over_boundary` (cell.py L716-732) -/
noncomputable def integrate (K : CellG) (vals : List ℝ) : Py ℝ := do
  guard K
  let w ← K.multiplyByDxNorm vals
  K.integratePreweighted w

/-- `get_bounding_box` (cell.py L373-395) -/
noncomputable def boundingBox (K : CellG) : Py (ℝ × ℝ × ℝ × ℝ) := do
  guard K
  let (x1, x2) ← K.getBoundaryPoints
  let xmin ← Np.min x1
  let xmax ← Np.max x1
  let ymin ← Np.min x2
  let ymax ← Np.max x2
  .ok (xmin, xmax, ymin, ymax)

/-- `is_in_interior` (cell.py L397-422), the test of one point -/
def isInInterior (inside : InsideTest) (K : CellG) (p : ℝ × ℝ) : Py Bool := do
  guard K
  match K.components with
  | [] => .error .indexError
  | c :: cs => do
    let b ← c.isInInterior inside p
    let hs ← mapPy (fun h => ContourG.isInInterior inside h p) cs
    .ok (b && hs.all (!·))

/-- the loop of `get_distance_to_boundary` (cell.py L441-444) -/
noncomputable def distLoop (x y : ℝ) (dist : WithTop ℝ) : List ContourG → Py (WithTop ℝ)
  | [] => .ok dist
  | c :: cs => do
    let d ← c.distance x y
    distLoop x y (min dist d) cs

/-- `get_distance_to_boundary` (cell.py L424-444) -/
noncomputable def distance (K : CellG) (x y : ℝ) : Py (WithTop ℝ) := do
  guard K
  distLoop x y ⊤ K.components

/-- `set_interior_mesh_size` (cell.py L447-458); the sizes are natural numbers -/
def setMeshSize (K : CellG) (rows cols : ℕ) : CellG := { K with meshSize := (rows, cols) }

/-- `set_interior_point_tolerance` (cell.py L459-483): the cell afterwards and the outcome.  The arguments are numbers, or
objects of another type (`none`); `nan` is not modelled. -/
noncomputable def setTolerance (K : CellG) (rtol atol : Option ℝ) : CellG × Py Unit :=
  match atol with
  | none => (K, .error .typeError)
  | some a =>
    if a ≤ 0 then (K, .error .typeError)
    else
      let K := { K with atol := a }
      match rtol with
      | none => (K, .error .typeError)
      | some r => if r ≤ 0 then (K, .error .typeError) else ({ K with rtol := r }, .ok ())

/-- the last two lines of the constructor (cell.py L101-102) -/
noncomputable def withSettings (components : List ContourG) (size : ℕ × ℕ) (rtol atol : Option ℝ) : Py CellG :=
  let r := ({ components } : CellG).setMeshSize size.1 size.2 |>.setTolerance rtol atol
  match r.2 with
  | .error e => .error e
  | .ok _ => .ok r.1

/-- the grid of `np.meshgrid(x_coord, y_coord)`: `cols` rows of `rows` points each (cell.py L500-503) -/
noncomputable def grid (box : ℝ × ℝ × ℝ × ℝ) (rows cols : ℕ) : List (List (ℝ × ℝ)) :=
  (List.range cols).map fun (i : ℕ) => (List.range rows).map fun (j : ℕ) =>
    (Np.linspace box.1 box.2.1 rows j, Np.linspace box.2.2.1 box.2.2.2 cols i)

/-- the loop that drops points near the boundary (cell.py L512-520); the list holds the index pairs in the order of the
two nested loops -/
noncomputable def nearLoop (K : CellG) (g : List (List (ℝ × ℝ))) (minDist : ℝ) (mask : List (List Bool)) :
    List (ℕ × ℕ) → Py (List (List Bool))
  | [] => .ok mask
  | (i, j) :: l => do
    let row ← Np.get mask i
    let b ← Np.get row j
    if b then do
      let prow ← Np.get g i
      let p ← Np.get prow j
      let d ← K.distance p.1 p.2
      nearLoop K g minDist (if d < minDist then mask.set i (row.set j false) else mask) l
    else nearLoop K g minDist mask l

/-- `generate_interior_points` (cell.py L485-527) up to the triangulation -/
noncomputable def generateInteriorPoints (inside : InsideTest) (K : CellG) : Py CellG := do
  let (rows, cols) := K.meshSize
  let box ← K.boundingBox
  let g := grid box rows cols
  let mask ← mapPy (mapPy (K.isInInterior inside)) g
  let h := min (box.2.1 - box.1) (box.2.2.2 - box.2.2.1)
  let minDist := max K.atol (K.rtol * h)
  let idx := (List.range rows).flatMap fun (i : ℕ) => (List.range cols).map fun (j : ℕ) => (i, j)
  let mask ← nearLoop K g minDist mask idx
  .ok { K with interior := ((g.flatten.zip mask.flatten).filter Prod.snd).map Prod.fst }

end CellG
end PFEM
