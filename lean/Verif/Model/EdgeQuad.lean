import Verif.Model.EdgeGeom
import Verif.Model.Np

/-!
Model of the function evaluation and integration methods of `/repo/puncturedfem/mesh/edge.py` (L605-796) and of
`/repo/puncturedfem/mesh/bounding_box.py`.  Arrays of floats are lists of reals.
-/

namespace PFEM

/-- `get_bounding_box` (bounding_box.py L12-52) -/
noncomputable def getBoundingBox (x y : List ℝ) (tol : ℝ := 1 / 10 ^ 12) : Py (ℝ × ℝ × ℝ × ℝ) := do
  let xmin ← Np.min x
  let xmax ← Np.max x
  let ymin ← Np.min y
  let ymax ← Np.max y
  let dx := xmax - xmin
  let dy := ymax - ymin
  let d := max dx dy
  if d < tol then .ok (xmin - d / 2, xmax + d / 2, ymin - d / 2, ymax + d / 2)
  else
    let xs := if dx < tol then (xmin - d / 2, xmin + d / 2) else (xmin, xmax)
    let ys := if dy < tol then (ymin - d / 2, ymin + d / 2) else (ymin, ymax)
    .ok (xs.1, xs.2, ys.1, ys.2)

namespace EdgeG

/-- the sampled columns, or `NotParameterizedError` -/
def sampled (e : EdgeG) : Py (List Sample) :=
  match e.pts with
  | none => .error .notParameterized
  | some l => .ok l

/-- `get_bounding_box` (edge.py L358-375) -/
noncomputable def boundingBox (e : EdgeG) : Py (ℝ × ℝ × ℝ × ℝ) := do
  let l ← sampled e
  getBoundingBox (l.map Sample.x) (l.map Sample.y)

/-- `evaluate_function` (edge.py L607-635) -/
def evaluateFunction (e : EdgeG) (f : ℝ → ℝ → ℝ) (ignoreEndpoint : Bool := true) : Py (List ℝ) := do
  let l ← sampled e
  .ok ((if ignoreEndpoint then l.dropLast else l).map fun s => f s.x s.y)

/-- `multiply_by_dx_norm` (edge.py L637-665) -/
def multiplyByDxNorm (e : EdgeG) (vals : List ℝ) (ignoreEndpoint : Bool := true) : Py (List ℝ) := do
  let l ← sampled e
  if ignoreEndpoint then
    if (vals.length : ℤ) ≠ (l.length : ℤ) - 1 then .error .sizeMismatch
    else Np.bin (· * ·) vals (l.map Sample.dxNorm).dropLast
  else
    if vals.length ≠ l.length then .error .sizeMismatch
    else Np.bin (· * ·) vals (l.map Sample.dxNorm)

/-- the common body of `dot_with_tangent` and `dot_with_normal`; with `k = 0` the slice `[:-0]` is empty -/
def dotWith (v1 v2 : Sample → ℝ) (e : EdgeG) (c1 c2 : List ℝ) (ignoreEndpoint : Bool := true) : Py (List ℝ) := do
  let l ← sampled e
  let k : ℤ := if ignoreEndpoint then 1 else 0
  if (c1.length : ℤ) ≠ (l.length : ℤ) - k ∨ (c2.length : ℤ) ≠ (l.length : ℤ) - k then .error .sizeMismatch
  else do
    let cols := if ignoreEndpoint then l.dropLast else []
    let a ← Np.bin (· * ·) c1 (cols.map v1)
    let b ← Np.bin (· * ·) c2 (cols.map v2)
    Np.bin (· + ·) a b

/-- `dot_with_tangent` (edge.py L667-699) -/
def dotWithTangent (e : EdgeG) (c1 c2 : List ℝ) (ignoreEndpoint : Bool := true) : Py (List ℝ) :=
  dotWith Sample.tx Sample.ty e c1 c2 ignoreEndpoint

/-- `dot_with_normal` (edge.py L701-732) -/
def dotWithNormal (e : EdgeG) (c1 c2 : List ℝ) (ignoreEndpoint : Bool := true) : Py (List ℝ) :=
  dotWith Sample.nx Sample.ny e c1 c2 ignoreEndpoint

/-- `integrate_over_edge_preweighted` (edge.py L762-796) -/
noncomputable def integratePreweighted (e : EdgeG) (w : List ℝ) (ignoreEndpoint : Bool := false) : Py ℝ := do
  let l ← sampled e
  if l.length = 1 then .error .zeroDivision
  else
    let h := 2 * Real.pi / ((l.length : ℝ) - 1)
    if ignoreEndpoint then
      if (w.length : ℤ) ≠ (l.length : ℤ) - 1 then .error .sizeMismatch
      else .ok (w.dropLast.map (h * ·)).sum
    else
      if w.length ≠ l.length then .error .sizeMismatch
      else
        match w with
        | [] => .error .indexError
        | a :: r => .ok (0.5 * h * (a + (a :: r).getLast (by simp)) + (r.dropLast.map (h * ·)).sum)

/-- `integrate_over_edge` (edge.py L736-760) -/
noncomputable def integrate (e : EdgeG) (vals : List ℝ) (ignoreEndpoint : Bool := false) : Py ℝ := do
  let w ← multiplyByDxNorm e vals ignoreEndpoint
  integratePreweighted e w ignoreEndpoint

end EdgeG
end PFEM
