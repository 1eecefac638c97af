import Mathlib.Data.List.Sort
import Verif.Model.EdgeGeom

/-!
Model of `/repo/puncturedfem/mesh/transform.py` and `/repo/puncturedfem/mesh/split_edge.py`.

A column `(x, y)` of a plain array of points is the complex number `x + i y`.
-/

namespace PFEM

namespace Transform
open EdgeG (TOL)

/-- `translate` (transform.py L139-158) -/
def translate (x : List ℂ) (a : Vert) : List ℂ := x.map fun z => ⟨z.re + a.x, z.im + a.y⟩

/-- `dilate` (transform.py L161-180) -/
noncomputable def dilate (x : List ℂ) (alpha : ℝ) : Py (List ℂ) :=
  if |alpha| < TOL then .error .edgeTransformation else .ok (x.map fun z => ⟨alpha * z.re, alpha * z.im⟩)

/-- `apply_orthogonal_transformation` (transform.py L183-214) -/
noncomputable def orthogonal (x : List ℂ) (A : Mat2) : Py (List ℂ) :=
  if A.orthDefect > TOL then .error .edgeTransformation
  else .ok (x.map fun z => ⟨A.a * z.re + A.b * z.im, A.c * z.re + A.d * z.im⟩)

/-- `rotate` (transform.py L78-98) -/
noncomputable def rotate (x : List ℂ) (theta : ℝ) : Py (List ℂ) := orthogonal x (Mat2.rot theta)

/-- `join_points` (transform.py L30-75); `xi`, `xf` are views into `x`, which `translate` changes in place: their
difference stays the same -/
noncomputable def joinPoints (x : List ℂ) (a b : Vert) : Py (List ℂ) :=
  let abNorm := Real.sqrt ((a.x - b.x) ^ 2 + (a.y - b.y) ^ 2)
  if abNorm < TOL then .error .edgeTransformation
  else
    match x with
    | [] => .error .indexError
    | xi :: rest =>
      let xf := (xi :: rest).getLast (by simp)
      let xixf := Real.sqrt ((xi.re - xf.re) ^ 2 + (xi.im - xf.im) ^ 2)
      if xixf < TOL then .error .edgeTransformation
      else do
        let y := translate (xi :: rest) (Vert.mk' (-xi.re) (-xi.im))
        let theta := -Complex.arg ⟨xf.re - xi.re, xf.im - xi.im⟩ + Complex.arg ⟨b.x - a.x, b.y - a.y⟩
        let y ← rotate y (theta * (180 / Real.pi))
        let y ← dilate y (abNorm / xixf)
        .ok (translate y a)

/-- the function of this module named in a diary entry (split_edge.py L94-96) -/
noncomputable def apply (x : List ℂ) : EdgeOp → Py (List ℂ)
  | .joinPoints a b => joinPoints x a b
  | .rotate th => rotate x th
  | .reflectX => orthogonal x ⟨1, 0, 0, -1⟩
  | .reflectY => orthogonal x ⟨-1, 0, 0, 1⟩
  | .translate a => .ok (translate x a)
  | .dilate al => dilate x al
  | .orthogonal A => orthogonal x A

/-- the loop of split_edge.py L94-96 -/
noncomputable def run : List EdgeOp → List ℂ → Py (List ℂ)
  | [], x => .ok x
  | op :: ops, x => do
    let y ← apply x op
    run ops y

end Transform

/-- `_split_edge_single` (split_edge.py L88-124) -/
noncomputable def splitSingle (e : EdgeG) (t : ℝ) : Py (EdgeG × EdgeG) := do
  let xa ← Curve.X e.curve e.opts e.tBounds.1
  let xt ← Curve.X e.curve e.opts t
  let xb ← Curve.X e.curve e.opts e.tBounds.2
  let v ← Transform.run e.diary [⟨xa.1, xa.2⟩, ⟨xt.1, xt.2⟩, ⟨xb.1, xb.2⟩]
  let va := v.getD 0 0
  let vt := v.getD 1 0
  let vb := v.getD 2 0
  let newAnchor := Vert.mk' va.re va.im
  let splitVert := Vert.mk' vt.re vt.im
  let newEndpnt := Vert.mk' vb.re vb.im
  let e1 ← EdgeG.init newAnchor splitVert e.curve e.opts "kress" (e.tBounds.1, t) e.posCell e.negCell
  let e2 ← EdgeG.init splitVert newEndpnt e.curve e.opts "kress" (t, e.tBounds.2) e.posCell e.negCell
  .ok (e1, e2)

/-- the loop of `_split_edge_multiple` (split_edge.py L79-85) on the sorted list; `last` is the variable `e2` -/
noncomputable def splitLoop (e : EdgeG) (last : Option EdgeG) : List ℝ → Py (List EdgeG)
  | [] =>
    match last with
    | none => .error .unboundLocal
    | some e2 => .ok [e2]
  | t :: ts => do
    let p ← splitSingle e t
    let r ← splitLoop p.2 (some p.2) ts
    .ok (p.1 :: r)

/-- `_split_edge_multiple` (split_edge.py L77-85) -/
noncomputable def splitMultiple (e : EdgeG) (ts : List ℝ) : Py (List EdgeG) :=
  splitLoop e none (ts.insertionSort (· ≤ ·))

/-- the argument `t_split`: missing, a number, a list or array of floats, anything else -/
inductive SplitArg
  | missing
  | num (t : ℝ)
  | list (ts : List ℝ)
  | other

/-- `split_edge` (split_edge.py L19-74); a pair is returned as a list of two -/
noncomputable def splitEdge (e : EdgeG) (arg : SplitArg) (numEdges : Option ℤ) : Py (List EdgeG) :=
  match numEdges with
  | some k =>
    if k < 2 then .error .valueError
    else splitMultiple e ((List.range (k.toNat - 1)).map fun (i : ℕ) =>
      e.tBounds.1 + ((i + 1 : ℕ) : ℝ) * ((e.tBounds.2 - e.tBounds.1) / (k.toNat : ℝ)))
  | none =>
    match arg with
    | .missing => .error .valueError
    | .num t => do
      let p ← splitSingle e t
      .ok [p.1, p.2]
    | .list ts => splitMultiple e ts
    | .other => .error .valueError

end PFEM
