import Mathlib.Analysis.SpecialFunctions.Pow.Real
import Verif.Model.Poly

/-!
Model of `/repo/puncturedfem/locfun/poly/barycentric.py`.  Points are pairs of reals; the three vertices are indexed
by `Fin 3`, whose arithmetic is the `% 3` of the code.
-/

namespace PFEM

/-- `ROOT3OVER2` (barycentric.py L18) -/
noncomputable def root3over2 : ℝ := Real.sqrt 3 / 2

/-- `dist[j] = norm(z[j] - z[(j - 1) % 3])` (barycentric.py L79-80) -/
noncomputable def baryDist (z : Fin 3 → ℝ × ℝ) (j : Fin 3) : ℝ :=
  Real.sqrt (((z j).1 - (z (j - 1)).1) ^ 2 + ((z j).2 - (z (j - 1)).2) ^ 2)

/-- `h` (barycentric.py L85-86) -/
noncomputable def baryH (z : Fin 3 → ℝ × ℝ) : ℝ :=
  let s := (baryDist z 0 + baryDist z 1 + baryDist z 2) / 2
  2 * Real.sqrt (s * (s - baryDist z 0) * (s - baryDist z 1) * (s - baryDist z 2))

/-- body of the second loop (barycentric.py L93-99) -/
noncomputable def baryEll (z : Fin 3 → ℝ × ℝ) (h : ℝ) (j : Fin 3) : Py (Poly ℝ) := do
  let x ← Poly.set [((1 : ℝ), 1, 0)]
  let y ← Poly.set [((1 : ℝ), 0, 1)]
  let a ← Poly.subScalar x (z j).1
  let b ← Poly.subScalar y (z j).2
  let e1 := Poly.smul a ((z (j - 1)).2 - (z (j + 1)).2)
  let e2 := Poly.sub e1 (Poly.smul b ((z (j - 1)).1 - (z (j + 1)).1))
  let e3 := Poly.smul e2 (-1 / h)
  Poly.iaddScalar e3 1

/-- `barycentric_coordinates` (barycentric.py L51-101).  When the three points are collinear `h` is 0 and numpy
divides by zero without raising, giving polynomials with infinite coefficients; there are no infinities in the model,
which answers `.error .exception` in that case. -/
noncomputable def barycentric (z : Fin 3 → ℝ × ℝ) : Py (Poly ℝ × Poly ℝ × Poly ℝ) :=
  if baryDist z 0 < tol ℝ then .error .degenerateTriangle
  else if baryDist z 1 < tol ℝ then .error .degenerateTriangle
  else if baryDist z 2 < tol ℝ then .error .degenerateTriangle
  else if baryH z = 0 then .error .exception
  else do
    let l0 ← baryEll z (baryH z) 0
    let l1 ← baryEll z (baryH z) 1
    let l2 ← baryEll z (baryH z) 2
    .ok (l0, l1, l2)

/-- the triangle built by `barycentric_coordinates_edge` from the two end points (barycentric.py L44-47);
`R (a, b) = (b, -a)` -/
noncomputable def edgeTriangle (z0 z1 : ℝ × ℝ) : Fin 3 → ℝ × ℝ :=
  ![z0, z1, (0.5 * (z1.1 + z0.1) - root3over2 * (z1.2 - z0.2), 0.5 * (z1.2 + z0.2) - root3over2 * (-(z1.1 - z0.1)))]

/-- `barycentric_coordinates_edge` (barycentric.py L21-48), given the first and last sampled point of the edge -/
noncomputable def barycentricEdge (z0 z1 : ℝ × ℝ) : Py (Poly ℝ × Poly ℝ × Poly ℝ) :=
  barycentric (edgeTriangle z0 z1)

end PFEM
