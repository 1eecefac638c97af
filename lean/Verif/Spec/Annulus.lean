import Verif.Spec.Ellipse
import Verif.Spec.Parts

/-!
Specification vocabulary: a ring between two concentric circles, with equispaced samples.
-/

namespace PFEM

/-- sample `j` of `N` equispaced samples of the circle of radius `r` about `(x0, y0)`, clockwise, as on the boundary of a hole: point, unit
tangent, unit normal (pointing to the centre), speed and signed curvature -/
noncomputable def holeSample (x0 y0 r : ℝ) (N j : ℕ) : Sample :=
  let θ := 2 * Real.pi * j / N
  ⟨x0 + r * Real.cos θ, y0 - r * Real.sin θ, -Real.sin θ, -Real.cos θ, -Real.cos θ, Real.sin θ, r, 1 / r⟩

/-- `K` is the ring `a < |z - z0| < b`: its boundary has two closed edges, both sampled with the trapezoidal rule at `N` equispaced points; the
interior point of the hole is its centre; the nearest vertex of a sample is the first sample of one of the two circles -/
structure CellG.IsAnnulus (K : CellG) (x0 y0 a b : ℝ) (N : ℕ) : Prop where
  ready : K.Ready
  circles : ∃ c d e f, K.components = [c, d] ∧ c.edges = [e] ∧ d.edges = [f] ∧ ¬ e.IsKress ∧ ¬ f.IsKress ∧
    e.cols = (List.range N).map (circleSample x0 y0 b N) ∧ f.cols = (List.range N).map (holeSample x0 y0 a N) ∧
    ∃ p, d.interior = some p ∧ p.x = x0 ∧ p.y = y0
  vertices : K.closest.length = 2 * N ∧ ∀ i ∈ K.closest, i = 0 ∨ i = N

/-- the Laurent polynomial `Q(w) + R(1/w)` of `w = z - z0`, `z = x + iy` -/
noncomputable def laurent (Q R : Polynomial ℂ) (x0 y0 x y : ℝ) : ℂ := Q.eval ⟨x - x0, y - y0⟩ + R.eval ((⟨x - x0, y - y0⟩ : ℂ)⁻¹)

/-- the residuals of the solver of linear systems are at most `tol b` for right-hand side `b`, entry by entry (scipy: the Euclidean norm of the
residual is at most `max(rtol * ‖b‖, atol)`) -/
def Nystrom.ResidualWithin (gmres : Nystrom.Gmres) (tol : List ℝ → ℝ) : Prop :=
  ∀ A b M x, gmres A b M = .ok x → ∃ y, A x = .ok y ∧ PFEM.Within (tol b) y b

/-- boundary data on a ring: a multiple of the logarithm of the distance to the centre plus the real part of a Laurent polynomial -/
noncomputable def ringData (A : ℝ) (Q R : Polynomial ℂ) (x0 y0 x y : ℝ) : ℝ :=
  A * Real.log (Real.sqrt ((x - x0) ^ 2 + (y - y0) ^ 2)) + (laurent Q R x0 y0 x y).re

/-- the harmonic conjugate of the real part of the Laurent polynomial, without its constant term -/
noncomputable def ringConj (Q R : Polynomial ℂ) (x0 y0 x y : ℝ) : ℝ := (laurent Q R x0 y0 x y).im - (Q.coeff 0 + R.coeff 0).im

/-- a bound for the terms of the Laurent polynomial on the ring -/
noncomputable def ringSum (Q R : Polynomial ℂ) (a b : ℝ) : ℝ := coeffSum Q b + coeffSum R a⁻¹

/-- the constant in the error bound for rings: it grows if the ring gets thin or small -/
noncomputable def ringConst (a b : ℝ) : ℝ := 40 / (1 - a / b) + 1 / (a + b)

/-- the mean value of `ringData A Q R` over the boundary of the ring, with respect to arc length -/
noncomputable def ringMean (A : ℝ) (Q R : Polynomial ℂ) (a b : ℝ) : ℝ :=
  A * ((b * Real.log b + a * Real.log a) / (b + a)) + (Q.coeff 0 + R.coeff 0).re

/-- `(g1, g2)` is the gradient of `ringData A Q R` outside the centre -/
def RingGradient (A : ℝ) (Q R : Polynomial ℂ) (x0 y0 : ℝ) (g1 g2 : ℝ → ℝ → ℝ) : Prop :=
  ∀ x y, ¬(x = x0 ∧ y = y0) → HasDerivAt (fun t => ringData A Q R x0 y0 t y) (g1 x y) x ∧ HasDerivAt (fun t => ringData A Q R x0 y0 x t) (g2 x y) y

end PFEM
