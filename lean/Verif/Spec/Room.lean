import Verif.Model.CellGeom

/-!
Specification: contours with room for an interior point.
-/

namespace PFEM

/-- `p` lies in the rectangle about `q` with half-sides `a` and `b` -/
def InRect (q : ℝ × ℝ) (a b : ℝ) (p : ℝ × ℝ) : Prop := |p.1 - q.1| ≤ a ∧ |p.2 - q.2| ≤ b

/-- All points of some rectangle, whose sides are the 256th part of the sides of the bounding box `[x0, x1] × [y0, y1]` and whose
centre lies in the box, are accepted by the inside test and have at least the distance `tol` from all samples of the contour. -/
def ContourG.Roomy (inside : InsideTest) (c : ContourG) (x0 x1 y0 y1 tol : ℝ) : Prop :=
  ∃ q : ℝ × ℝ, x0 ≤ q.1 ∧ q.1 ≤ x1 ∧ y0 ≤ q.2 ∧ q.2 ≤ y1 ∧ ∀ p, InRect q ((x1 - x0) / 512) ((y1 - y0) / 512) p →
    inside (c.edges.flatMap fun e => (e.pts.getD []).dropLast.map fun s => (s.x, s.y)) p = true ∧
    ∀ e ∈ c.edges, ∀ s ∈ e.pts.getD [], tol ≤ Real.sqrt ((s.x - p.1) ^ 2 + (s.y - p.2) ^ 2)

end PFEM
