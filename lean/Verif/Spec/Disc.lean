import Verif.Spec.Nystrom
import Verif.Spec.Calculus
import Verif.Spec.Poly
import Verif.Model.NystromSolve
import Mathlib.Algebra.Polynomial.Eval.Defs
import Mathlib.Analysis.SpecialFunctions.Trigonometric.Basic

/-!
Specification vocabulary: a disc with equispaced samples.
-/

namespace PFEM

/-- sample `j` of `N` equispaced samples of the circle of radius `r` about `(x0, y0)`, counter-clockwise: point, unit tangent, outward
unit normal, speed and signed curvature -/
noncomputable def circleSample (x0 y0 r : ℝ) (N j : ℕ) : Sample :=
  let θ := 2 * Real.pi * j / N
  ⟨x0 + r * Real.cos θ, y0 + r * Real.sin θ, -Real.sin θ, Real.cos θ, Real.cos θ, Real.sin θ, r, -1 / r⟩

/-- `K` is a disc: its boundary is one closed edge, sampled with the trapezoidal rule at `N` equispaced points -/
structure CellG.IsDisc (K : CellG) (x0 y0 r : ℝ) (N : ℕ) : Prop where
  ready : K.Ready
  circle : ∃ c e, K.components = [c] ∧ c.edges = [e] ∧ ¬ e.IsKress ∧ e.cols = (List.range N).map (circleSample x0 y0 r N)

/-- the real part of the polynomial `Q` in `z - z0`, where `z = x + iy` and `z0 = x0 + i y0`; all harmonic polynomials are of this form -/
noncomputable def rePoly (Q : Polynomial ℂ) (x0 y0 x y : ℝ) : ℝ := (Q.eval ⟨x - x0, y - y0⟩).re

/-- its imaginary part -/
noncomputable def imPoly (Q : Polynomial ℂ) (x0 y0 x y : ℝ) : ℝ := (Q.eval ⟨x - x0, y - y0⟩).im

/-- `|y - z0| / r` for a disc about `z0 = (x0, y0)` of radius `r` -/
noncomputable def discRatio (x0 y0 r : ℝ) (y : ℝ × ℝ) : ℝ := Real.sqrt ((y.1 - x0) ^ 2 + (y.2 - y0) ^ 2) / r

/-- the disc of radius `r` about `(x0, y0)` -/
def disc (x0 y0 r : ℝ) : Set (ℝ × ℝ) := {p | (p.1 - x0) ^ 2 + (p.2 - y0) ^ 2 < r ^ 2}

/-- `u` is a polynomial with Laplacian `f`; `p` is the anti-Laplacian of `f` that the code finds, `P` that of `p`, and both are exact (see
C09) -/
structure PolyProblem (u f p P : Poly ℝ) : Prop where
  canonical : Poly.Canonical f
  solution : HasLaplacian Set.univ u.eval f.eval
  anti : Poly.antiLaplacian f = .ok p
  antiExact : HasLaplacian Set.univ p.eval f.eval
  anti2 : Poly.antiLaplacian p = .ok P
  anti2Exact : HasLaplacian Set.univ P.eval p.eval

/-- the solver of linear systems returns something whenever there is a solution -/
def Nystrom.Finds (gmres : Nystrom.Gmres) : Prop := ∀ A b M x, A x = .ok b → ∃ y, gmres A b M = .ok y

end PFEM
