import Verif.Spec.Bounded

/-!
Specification vocabulary: the points inside an ellipse that keep a distance from it.
-/

namespace PFEM

/-- the points inside the ellipse with the centre `(x0, y0)` and the half-axes `a`, `b` at distance at least `δ` from every point of the ellipse -/
def ellipseInner (x0 y0 a b δ : ℝ) : Set (ℝ × ℝ) :=
  {p | p ∈ ellipseRegion x0 y0 a b ∧ ∀ t, δ ^ 2 ≤ (p.1 - (x0 + a * Real.cos t)) ^ 2 + (p.2 - (y0 + b * Real.sin t)) ^ 2}

/-- `1 - δ / (a + b)`, the rate of convergence at distance `δ` from the ellipse -/
noncomputable def ellipseRate (a b δ : ℝ) : ℝ := 1 - δ / (a + b)

end PFEM
