import Verif.Model.Poly
import Verif.Model.Legendre

/-!
Model of `/repo/puncturedfem/locfun/poly/piecewise_poly.py`.  An edge is the list of its sampled points.
-/

namespace PFEM

variable {K : Type} [Field K] [LinearOrder K]

/-- The attributes of `PiecewisePolynomial` (piecewise_poly.py L41-43). -/
structure Piecewise (K : Type) where
  idx : ℤ
  numPolys : ℤ
  polys : List (Poly K)

namespace Piecewise

/-- `__init__`, `set_idx`, `set_num_polys`, `set_polys` (piecewise_poly.py L45-108), integer arguments -/
def init (numPolys : ℤ) (polys : Option (List (Poly K))) (idx : ℤ) : Py (Piecewise K) :=
  if idx < 0 then .error .valueError
  else if numPolys < 1 then .error .valueError
  else .ok ⟨idx, numPolys, polys.getD (List.replicate numPolys.toNat [])⟩

/-- first loop of `eval_on_edges` (piecewise_poly.py L126-129): the values on every edge -/
def evalLoop (polys : List (Poly K)) : ℕ → List (List (K × K)) → Py (List (List K))
  | _, [] => .ok []
  | i, e :: es => do
    let p ← pyGet polys i
    let rest ← evalLoop polys (i + 1) es
    .ok (e.map (fun z => Poly.eval p z.1 z.2) :: rest)

/-- second loop of `eval_on_edges` (piecewise_poly.py L131-134): `vals[idx : idx + e.num_pts] = vals_arr[i]` with
`idx = 0` in every iteration, as in the code -/
def fill : List (List K) → List K → List K
  | [], vals => vals
  | v :: vs, vals => fill vs (v ++ vals.drop v.length)

/-- `eval_on_edges` (piecewise_poly.py L110-135) -/
def evalOnEdges (pw : Piecewise K) (edges : List (List (K × K))) : Py (List K) :=
  if (edges.length : ℤ) ≠ pw.numPolys then .error .polynomialError
  else do
    let valsArr ← evalLoop pw.polys 0 edges
    .ok (fill valsArr (List.replicate (edges.map List.length).sum 0))

end Piecewise
end PFEM
