import Verif.Model.EdgeSpace

/-!
Model of `/repo/puncturedfem/locfun/poly/poly_eval.py` and of `barycentric_products`
(`/repo/puncturedfem/locfun/poly/barycentric.py` L104-157): tables of values of polynomials, one row for each polynomial.
-/

namespace PFEM

/-- `get_poly_vals` (poly_eval.py L33-55): `np.array` of the rows -/
noncomputable def getPolyVals (x y : List ℝ) (polys : List (Poly ℝ)) : Py (List (List ℝ)) :=
  if y.length ≠ x.length then .error .sizeMismatch
  else .ok (polys.map fun p => List.zipWith (fun a b => Poly.eval p a b) x y)

/-- `get_poly_traces_edge` (poly_eval.py L18-30) -/
noncomputable def getPolyTracesEdge (e : EdgeG) (polys : List (Poly ℝ)) : Py (List (List ℝ)) := do
  let l ← e.sampled
  getPolyVals (l.map Sample.x) (l.map Sample.y) polys

/-- entrywise product of two rows and a number, `c * a * b` -/
def rowMul (c : ℝ) (a b : List ℝ) : List ℝ := List.zipWith (fun u v => c * u * v) a b

/-- `barycentric_products` (barycentric.py L104-157): the list of rows.  The last three rows multiply `ell_i ell_j` by itself
(barycentric.py L150-155). -/
noncomputable def barycentricProducts (e : EdgeG) (deg : ℤ) : Py (List (List ℝ)) :=
  if deg > 3 then .error .notImplemented
  else do
    let (z0, z1) ← EdgeSpaceG.endPoints e
    let (l0, l1, l2) ← barycentricEdge z0 z1
    let l ← e.sampled
    let t0 := l.map fun s => Poly.eval l0 s.x s.y
    let t1 := l.map fun s => Poly.eval l1 s.x s.y
    let t2 := l.map fun s => Poly.eval l2 s.x s.y
    let linear := [t0, t1, t2]
    let quadratic := if deg > 1 then [rowMul 4 t0 t1, rowMul 4 t0 t2, rowMul 4 t1 t2] else []
    let cubic := if deg > 2 then
        [rowMul 1 (rowMul 27 t0 t1) t2, rowMul 1 (rowMul root3over2 t0 t1) (rowMul 1 t0 t1),
         rowMul 1 (rowMul root3over2 t0 t2) (rowMul 1 t0 t2), rowMul 1 (rowMul root3over2 t1 t2) (rowMul 1 t1 t2)]
      else []
    .ok (linear ++ quadratic ++ cubic)

end PFEM
