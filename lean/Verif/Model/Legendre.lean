import Mathlib.Analysis.SpecialFunctions.Pow.Real
import Verif.Model.Poly

/-!
Model of `/repo/puncturedfem/locfun/poly/legendre.py`.  Degrees are natural numbers (a negative `deg` behaves like
`deg = 1` for `legendre_polynomials` and gives an empty list of tensor products; not modelled).
-/

namespace PFEM

variable {K : Type} [Field K] [LinearOrder K]

/-- Python list indexing with a nonnegative index: `IndexError` when out of range. -/
def pyGet {α : Type} (l : List α) (i : ℕ) : Py α :=
  match l[i]? with
  | some a => .ok a
  | none => .error .indexError

/-- the body of the loop of `legendre_polynomials` (legendre.py L35-38) -/
def legendreStep (polys : List (Poly K)) (n : ℕ) : Py (Poly K) := do
  let p1 ← pyGet polys 1
  let pm1 ← pyGet polys (n - 1)
  let t ← Poly.mul (Poly.smul p1 (2 * (n : K) - 1)) pm1
  let pm2 ← pyGet polys (n - 2)
  Poly.div (Poly.sub t (Poly.smul pm2 ((n : K) - 1))) (n : K)

/-- `for n in range(n, n + count)` in `legendre_polynomials` (legendre.py L34-39) -/
def legendreLoop : (count n : ℕ) → List (Poly K) → Py (List (Poly K))
  | 0, _, polys => .ok polys
  | count + 1, n, polys => do
    let pn ← legendreStep polys n
    legendreLoop count (n + 1) (polys ++ [pn])

/-- `legendre_polynomials` (legendre.py L18-40) -/
def legendrePolynomials (K : Type) [Field K] [LinearOrder K] (deg : ℕ) : Py (List (Poly K)) := do
  let p0 ← Poly.set [((1 : K), 0, 0)]
  let p1 ← Poly.set [((1 : K), 1, 0)]
  legendreLoop (deg + 1 - 2) 2 [p0, p1]

/-- `swap_coordinates_of_poly_argument` (legendre.py L120-135) -/
def swapLoop : Poly K → Poly K → Py (Poly K)
  | q, [] => .ok q
  | q, m :: rest => do
    let t ← Poly.set [(m.coef, (m.alpha.y : ℤ), (m.alpha.x : ℤ))]
    swapLoop (Poly.iadd q t) rest

/-- `swap_coordinates_of_poly_argument` (legendre.py L120-135) -/
def swapCoordinates (p : Poly K) : Py (Poly K) := swapLoop [] p

/-- `for pn in p: q.append(swap_coordinates_of_poly_argument(pn))` (legendre.py L62-65, L109-112) -/
def swapAll : List (Poly K) → Py (List (Poly K))
  | [] => .ok []
  | p :: ps => do
    let q ← swapCoordinates p
    let qs ← swapAll ps
    .ok (q :: qs)

/-- inner loop `for n in range(deg + 1 - m): pq.append(p[m] * q[n])` (legendre.py L68-69, L115-116) -/
def tensorInner (p q : List (Poly K)) (m : ℕ) : (count n : ℕ) → List (Poly K) → Py (List (Poly K))
  | 0, _, pq => .ok pq
  | count + 1, n, pq => do
    let pm ← pyGet p m
    let qn ← pyGet q n
    let r ← Poly.mul pm qn
    tensorInner p q m count (n + 1) (pq ++ [r])

/-- outer loop `for m in range(deg + 1)` (legendre.py L67-69, L114-116) -/
def tensorOuter (p q : List (Poly K)) (deg : ℕ) : (count m : ℕ) → List (Poly K) → Py (List (Poly K))
  | 0, _, pq => .ok pq
  | count + 1, m, pq => do
    let pq ← tensorInner p q m (deg + 1 - m) 0 pq
    tensorOuter p q deg count (m + 1) pq

/-- `legendre_tensor_products` (legendre.py L43-71) -/
def legendreTensorProducts (K : Type) [Field K] [LinearOrder K] (deg : ℕ) : Py (List (Poly K)) := do
  let p ← legendrePolynomials K deg
  let q ← swapAll p
  tensorOuter p q deg (deg + 1) 0 []

/-- loop of `integrated_legendre_polynomials` (legendre.py L92-95) -/
noncomputable def intLegendreLoop (p : List (Poly ℝ)) : (count n : ℕ) → List (Poly ℝ) → Py (List (Poly ℝ))
  | 0, _, polys => .ok polys
  | count + 1, n, polys => do
    let pn ← pyGet p n
    let pm ← pyGet p (n - 2)
    let qn ← Poly.div (Poly.sub pn pm) (Real.sqrt (4 * (n : ℝ) - 2))
    intLegendreLoop p count (n + 1) (polys ++ [qn])

/-- `integrated_legendre_polynomials` (legendre.py L74-96) -/
noncomputable def integratedLegendrePolynomials (deg : ℕ) : Py (List (Poly ℝ)) := do
  let p ← legendrePolynomials ℝ deg
  let p0 ← pyGet p 0
  let p1 ← pyGet p 1
  intLegendreLoop p (deg + 1 - 2) 2 [p0, p1]

/-- `integrated_legendre_tensor_products` (legendre.py L99-117) -/
noncomputable def integratedLegendreTensorProducts (deg : ℕ) : Py (List (Poly ℝ)) := do
  let p ← integratedLegendrePolynomials deg
  let q ← swapAll p
  tensorOuter p q deg (deg + 1) 0 []

end PFEM
