import Mathlib.Analysis.SpecialFunctions.Complex.Arg
import Verif.Model.Curves
import Verif.Model.Quad
import Verif.Model.Vert

/-!
Model of the geometric part of `/repo/puncturedfem/mesh/edge.py` (class `Edge`).

The five arrays of a parameterized edge (`x`, `unit_tangent`, `unit_normal`, `dx_norm`, `curvature`) always have the
same number of columns; they are one list of records here.  numpy's division by a zero speed (NaN) is not modelled:
statements about tangents assume curves without such points (property C20).  Python's `arctan2(y, x)` is
`Complex.arg (x + i y)`.
-/

namespace PFEM

/-- One column of the sampled arrays (edge.py L102-106). -/
structure Sample where
  x : ℝ
  y : ℝ
  tx : ℝ
  ty : ℝ
  nx : ℝ
  ny : ℝ
  dxNorm : ℝ
  curv : ℝ

/-- A 2 by 2 matrix `[[a, b], [c, d]]`. -/
structure Mat2 where
  a : ℝ
  b : ℝ
  c : ℝ
  d : ℝ

/-- `np.linalg.norm(np.transpose(A) @ A - np.eye(2))` (edge.py L582) -/
noncomputable def Mat2.orthDefect (A : Mat2) : ℝ :=
  Real.sqrt ((A.a ^ 2 + A.c ^ 2 - 1) ^ 2 + (A.a * A.b + A.c * A.d) ^ 2 + (A.a * A.b + A.c * A.d) ^ 2 +
    (A.b ^ 2 + A.d ^ 2 - 1) ^ 2)

/-- `np.array([[c, -s], [s, c]])` for an angle in degrees (edge.py L448-450) -/
noncomputable def Mat2.rot (theta : ℝ) : Mat2 :=
  let c := Real.cos (theta * Real.pi / 180)
  let s := Real.sin (theta * Real.pi / 180)
  ⟨c, -s, s, c⟩

/-- The transformations that are recorded in the diary (edge.py L108, L186-188, and the `write_diary` branches). -/
inductive EdgeOp
  | joinPoints (a b : Vert)
  | rotate (theta : ℝ)
  | reflectX
  | reflectY
  | translate (a : Vert)
  | dilate (alpha : ℝ)
  | orthogonal (A : Mat2)

/-- `Edge` attributes (edge.py L86-108) except `idx`; `pts = none`: not parameterized. -/
structure EdgeG where
  anchor : Vert
  endpnt : Vert
  curve : CurveType
  opts : CurveOpts
  quadType : String
  tBounds : ℝ × ℝ
  isLoop : Bool
  diary : List EdgeOp
  pts : Option (List Sample)
  posCell : ℤ := -1
  negCell : ℤ := -1

namespace EdgeG

/-- `TOL` (edge.py L30 region, transform.py L28) -/
noncomputable def TOL : ℝ := 1 / 10 ^ 12

/-- `set_verts` (edge.py L171-188) -/
noncomputable def setVerts (e : EdgeG) (a b : Vert) : EdgeG :=
  let loop := a.beq b
  { e with anchor := a, endpnt := b, isLoop := loop,
           diary := if loop then [.translate a] else [.joinPoints a b] }

/-- `__init__` (edge.py L110-150) with `set_t_bounds` (L217-232); the tests on the cell indices are in
`PlanarMesh.lean` -/
noncomputable def init (anchor endpnt : Vert) (curve : CurveType) (opts : CurveOpts) (quadType : String) (tb : ℝ × ℝ)
    (pos neg : ℤ := -1) : Py EdgeG :=
  if tb.1 ≥ tb.2 then .error .valueError
  else .ok (setVerts ⟨anchor, endpnt, curve, opts, quadType, tb, false, [], none, pos, neg⟩ anchor endpnt)

/-- record in the diary if asked to -/
def note (w : Bool) (op : EdgeOp) (e : EdgeG) : EdgeG := if w then { e with diary := e.diary ++ [op] } else e

/-- apply a function to every sample if the edge is parameterized -/
def mapPts (f : Sample → Sample) (e : EdgeG) : EdgeG := { e with pts := e.pts.map fun l => l.map f }

/-- `translate` (edge.py L513-531) -/
def translate (e : EdgeG) (a : Vert) (w : Bool) : EdgeG :=
  mapPts (fun s => { s with x := s.x + a.x, y := s.y + a.y }) (note w (.translate a) e)

/-- `dilate` (edge.py L533-558) -/
noncomputable def dilate (e : EdgeG) (alpha : ℝ) (w : Bool) : Py EdgeG :=
  if |alpha| < TOL then .error .edgeTransformation
  else .ok (mapPts (fun s => { s with x := s.x * alpha, y := s.y * alpha, dxNorm := s.dxNorm * |alpha|,
                                      curv := s.curv * (1 / alpha) }) (note w (.dilate alpha) e))

/-- the change of one sample in `apply_orthogonal_transformation` (edge.py L590-603); the normal is recomputed from
the new tangent -/
noncomputable def orthSample (A : Mat2) (s : Sample) : Sample :=
  let tx := A.a * s.tx + A.b * s.ty
  let ty := A.c * s.tx + A.d * s.ty
  { x := A.a * s.x + A.b * s.y, y := A.c * s.x + A.d * s.y
    tx := tx, ty := ty, nx := ty, ny := -tx, dxNorm := s.dxNorm
    curv := if |A.b - A.c| < TOL ∧ |A.a + A.d| < TOL then s.curv * (-1) else s.curv }

/-- `apply_orthogonal_transformation` (edge.py L560-603); the shape test is typing -/
noncomputable def orthogonal (e : EdgeG) (A : Mat2) (w : Bool) : Py EdgeG :=
  if A.orthDefect > TOL then .error .edgeTransformation
  else .ok (mapPts (orthSample A) (note w (.orthogonal A) e))

/-- `rotate` (edge.py L431-451); the check inside `apply_orthogonal_transformation` runs only if parameterized -/
noncomputable def rotate (e : EdgeG) (theta : ℝ) (w : Bool) : Py EdgeG :=
  let e := note w (.rotate theta) e
  if e.pts.isSome then orthogonal e (Mat2.rot theta) false else .ok e

/-- `reflect_across_x_axis` (edge.py L453-469) -/
noncomputable def reflectX (e : EdgeG) (w : Bool) : Py EdgeG :=
  let e := note w .reflectX e
  if e.pts.isSome then orthogonal e ⟨1, 0, 0, -1⟩ false else .ok e

/-- `reflect_across_y_axis` (edge.py L471-487) -/
noncomputable def reflectY (e : EdgeG) (w : Bool) : Py EdgeG :=
  let e := note w .reflectY e
  if e.pts.isSome then orthogonal e ⟨-1, 0, 0, 1⟩ false else .ok e

/-- `join_points` (edge.py L379-429).  `x` and `y` are views into `self.x`, so after the first translation they are
`0` and `y - x`: the differences used for the angle are the same. -/
noncomputable def joinPoints (e : EdgeG) (a b : Vert) (w : Bool) : Py EdgeG :=
  let abNorm := Real.sqrt ((a.x - b.x) ^ 2 + (a.y - b.y) ^ 2)
  if abNorm < TOL then .error .edgeTransformation
  else
    let e := note w (.joinPoints a b) e
    match e.pts with
    | none => .ok e
    | some [] => .error .indexError
    | some (s :: rest) =>
      let f := (s :: rest).getLast (by simp)
      let xyNorm := Real.sqrt ((s.x - f.x) ^ 2 + (s.y - f.y) ^ 2)
      if xyNorm < TOL then .error .edgeTransformation
      else do
        let e := translate e (Vert.mk' (-s.x) (-s.y)) false
        let theta := -Complex.arg ⟨f.x - s.x, f.y - s.y⟩ + Complex.arg ⟨b.x - a.x, b.y - a.y⟩
        let e ← rotate e (theta * (180 / Real.pi)) false
        let e ← dilate e (abNorm / xyNorm) false
        let e := translate e a false
        .ok (setVerts e a b)

/-- call of the method named in a diary entry (edge.py L246-248) -/
noncomputable def apply (e : EdgeG) (op : EdgeOp) (w : Bool) : Py EdgeG :=
  match op with
  | .joinPoints a b => joinPoints e a b w
  | .rotate th => rotate e th w
  | .reflectX => reflectX e w
  | .reflectY => reflectY e w
  | .translate a => .ok (translate e a w)
  | .dilate al => dilate e al w
  | .orthogonal A => orthogonal e A w

/-- `run_transform_diary` (edge.py L234-248): the loop iterates over the list object that `self.diary` was at its
start, even if `set_verts` binds the attribute to a new list meanwhile -/
noncomputable def runDiary : List EdgeOp → EdgeG → Py EdgeG
  | [], e => .ok e
  | op :: ops, e => do
    let e' ← apply e op false
    runDiary ops e'

/-- one column of the arrays before transformation (edge.py L285-316): `t` is the node, `g` the weight -/
noncomputable def baseSample (c : CurveType) (o : CurveOpts) (a dt t g : ℝ) : Py Sample := do
  let t := dt * t + a
  let x ← Curve.X c o t
  let d ← Curve.DX c o t
  let dx := dt * d.1
  let dy := dt * d.2
  let dx2 := dx ^ 2 + dy ^ 2
  let tx := dx / Real.sqrt dx2
  let ty := dy / Real.sqrt dx2
  let nx := ty
  let ny := -tx
  let dd ← Curve.DDX c o t
  let ddx := dt ^ 2 * dd.1
  let ddy := dt ^ 2 * dd.2
  .ok { x := x.1, y := x.2, tx := tx, ty := ty, nx := nx, ny := ny
        dxNorm := Real.sqrt dx2 * g, curv := (ddx * nx + ddy * ny) / dx2 }

/-- all columns -/
noncomputable def baseSamples (c : CurveType) (o : CurveOpts) (a dt : ℝ) : List (ℝ × ℝ) → Py (List Sample)
  | [] => .ok []
  | (t, g) :: l => do
    let s ← baseSample c o a dt t g
    let r ← baseSamples c o a dt l
    .ok (s :: r)

/-- the rule chosen from the dictionary (edge.py L277-281) -/
def pickQuad (qt : String) (d : Quad × Quad) : Py Quad :=
  if qt = "trap" then .ok d.1 else if qt = "kress" then .ok d.2 else .error .valueError

/-- `parameterize` (edge.py L261-328) -/
noncomputable def parameterize (e : EdgeG) (d : Quad × Quad) : Py EdgeG := do
  let q ← pickQuad e.quadType d
  let dt := 0.5 * (e.tBounds.2 - e.tBounds.1) / Real.pi
  let l ← baseSamples e.curve e.opts e.tBounds.1 dt (q.t.zip q.wgt)
  let e' ← runDiary e.diary { e with pts := some l }
  .ok { e' with quadType := q.type }

/-- `deparameterize` (edge.py L330-338) -/
def deparameterize (e : EdgeG) : EdgeG := { e with pts := none }

/-- `reverse_orientation` (edge.py L491-511) -/
def reverse (e : EdgeG) : EdgeG :=
  { e with pts := e.pts.map fun l => (l.map fun s =>
      { s with tx := -s.tx, ty := -s.ty, nx := -s.nx, ny := -s.ny, curv := -s.curv }).reverse }

/-- `num_pts` (edge.py L284, L332): -1 if not parameterized -/
def numPts (e : EdgeG) : ℤ :=
  match e.pts with
  | none => -1
  | some l => l.length

/-- `get_sampled_points` (edge.py L340-356) -/
def getSampledPoints (e : EdgeG) (ignoreEndpoint : Bool) : Py (List (ℝ × ℝ)) :=
  match e.pts with
  | none => .error .notParameterized
  | some l => .ok ((if ignoreEndpoint then l.dropLast else l).map fun s => (s.x, s.y))

end EdgeG
end PFEM
