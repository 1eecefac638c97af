import Verif.Model.CellGeom
import Verif.Model.Poly

/-!
Model of `/repo/puncturedfem/locfun/poly/integrate_poly.py`.
-/

namespace PFEM

/-- the loop `for m in p.monos` (integrate_poly.py L37-40); `val` is the running sum.  `m.eval(x1, x2)` works entry by
entry. -/
noncomputable def integratePolyLoop (K : CellG) (x1 x2 xn : List ℝ) (val : ℝ) : List (Mono ℝ) → Py ℝ
  | [] => .ok val
  | m :: ms => do
    let a ← Np.bin (· * ·) xn (List.zipWith m.eval x1 x2)
    let integrand := a.map (· / ((2 : ℝ) + m.alpha.order))
    let i ← K.integrate integrand
    integratePolyLoop K x1 x2 xn (val + i) ms

/-- `integrate_poly_over_mesh_cell` (integrate_poly.py L13-41) -/
noncomputable def integratePoly (p : Poly ℝ) (K : CellG) : Py ℝ := do
  let (x1, x2) ← K.getBoundaryPoints
  let xn ← K.dotWithNormal x1 x2
  integratePolyLoop K x1 x2 xn 0 p

end PFEM
