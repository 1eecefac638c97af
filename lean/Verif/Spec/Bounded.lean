import Verif.Spec.Ellipse

/-!
Specification vocabulary: bounds for the samples of a cell, and the region inside an ellipse.
-/

namespace PFEM

/-- the samples of a cell: points within `X` of the axes, speeds at most `D`, tangents and normals of length at most one in every component -/
structure CellG.BoundedBy (K : CellG) (X D : ℝ) : Prop where
  x : ∀ z ∈ K.cols, |z.x| ≤ X
  y : ∀ z ∈ K.cols, |z.y| ≤ X
  dx : ∀ z ∈ K.cols, |z.dxNorm| ≤ D
  tx : ∀ z ∈ K.cols, |z.tx| ≤ 1
  ty : ∀ z ∈ K.cols, |z.ty| ≤ 1
  nx : ∀ z ∈ K.cols, |z.nx| ≤ 1
  ny : ∀ z ∈ K.cols, |z.ny| ≤ 1

/-- the region inside the ellipse with the centre `(x0, y0)` and the half-axes `a`, `b` -/
def ellipseRegion (x0 y0 a b : ℝ) : Set (ℝ × ℝ) := {p | ((p.1 - x0) / a) ^ 2 + ((p.2 - y0) / b) ^ 2 < 1}

end PFEM
