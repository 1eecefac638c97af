import Verif.Spec.Disc

/-!
Specification vocabulary: an ellipse with equispaced samples.
-/

namespace PFEM

/-- sample `j` of `N` equispaced samples of the ellipse `(x0 + a cos t, y0 + b sin t)`, counter-clockwise: point, unit tangent, outward
unit normal, speed and signed curvature -/
noncomputable def ellipseSample (x0 y0 a b : ℝ) (N j : ℕ) : Sample :=
  let θ := 2 * Real.pi * j / N
  let g := Real.sqrt (a ^ 2 * Real.sin θ ^ 2 + b ^ 2 * Real.cos θ ^ 2)
  ⟨x0 + a * Real.cos θ, y0 + b * Real.sin θ, -a * Real.sin θ / g, b * Real.cos θ / g, b * Real.cos θ / g, a * Real.sin θ / g, g,
    -(a * b) / g ^ 3⟩

/-- `K` is an ellipse: its boundary is one closed edge, sampled with the trapezoidal rule at `N` equispaced points, the first of which counts
as its vertex -/
structure CellG.IsEllipse (K : CellG) (x0 y0 a b : ℝ) (N : ℕ) : Prop where
  ready : K.Ready
  ellipse : ∃ c e, K.components = [c] ∧ c.edges = [e] ∧ ¬ e.IsKress ∧ e.cols = (List.range N).map (ellipseSample x0 y0 a b N)
  vertex : K.closest = List.replicate N 0

/-- `|a - b| / (a + b)`, which is zero for a circle and tends to one for flat ellipses; with `a = cosh s` and `b = sinh s` it is `exp (-2s)` -/
noncomputable def flatness (a b : ℝ) : ℝ := |a - b| / (a + b)

/-- the sum of `|q_k| R^k` over the coefficients of a polynomial -/
noncomputable def coeffSum (Q : Polynomial ℂ) (R : ℝ) : ℝ := ∑ k ∈ Finset.range (Q.natDegree + 1), ‖Q.coeff k‖ * R ^ k

end PFEM
