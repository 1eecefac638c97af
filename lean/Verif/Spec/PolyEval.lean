import Verif.Model.PolyEval
import Verif.Spec.Plane
import Mathlib.Algebra.BigOperators.Intervals

/-!
Specification vocabulary: polynomial functions of bounded degree and rows of values that span their traces.
-/

namespace PFEM

/-- `f` is a polynomial in two variables of total degree at most `d` -/
def IsPolyFn (d : ℕ) (f : ℝ → ℝ → ℝ) : Prop :=
  ∃ c : ℕ → ℕ → ℝ, ∀ x y, f x y = ∑ i ∈ Finset.range (d + 1), ∑ j ∈ Finset.range (d + 1 - i), c i j * x ^ i * y ^ j

/-- the values of `f` at the samples `L` are a linear combination of the rows -/
def InRowSpan (L : List Sample) (rows : List (List ℝ)) (f : ℝ → ℝ → ℝ) : Prop :=
  ∃ c : List ℝ, c.length = rows.length ∧
    ∀ (k : ℕ) (s : Sample), L[k]? = some s → f s.x s.y = (List.zipWith (fun a r => a * (r[k]?).getD 0) c rows).sum

/-- `barycentric_coordinates_edge` returns the barycentric coordinates of the triangle over the edge from `a` to `b`, without loss of terms -/
def ExactCoords (a b : ℝ × ℝ) : Prop :=
  ∃ l0 l1 l2, barycentricEdge a b = .ok (l0, l1, l2) ∧
    ∀ (j : Fin 3) x y, Poly.eval (![l0, l1, l2] j) x y = baryCoord (edgeTriangle a b) j (x, y)

end PFEM
