import Verif.Spec.DiscSpace
import Verif.Spec.Bounded

/-!
Specification vocabulary: polynomials on an ellipse.
-/

namespace PFEM
open MvPolynomial MeasureTheory

namespace Poly2.Ell

/-- the polynomial vanishes on the ellipse with the half-axes `a`, `b` about `(x0, y0)` -/
def VanishOn (x0 y0 a b : ℝ) (p : Poly2) : Prop := ∀ θ : ℝ, ev p (x0 + a * Real.cos θ) (y0 + b * Real.sin θ) = 0

/-- `∫ ∇u · ∇v` over the ellipse -/
noncomputable def energy (x0 y0 a b : ℝ) (u v : Poly2) : ℝ :=
  ∫ z in ellipseRegion x0 y0 a b, (ev (pderiv 0 u) z.1 z.2 * ev (pderiv 0 v) z.1 z.2 + ev (pderiv 1 u) z.1 z.2 * ev (pderiv 1 v) z.1 z.2)

/-- `∫ u v` over the ellipse -/
noncomputable def mass (x0 y0 a b : ℝ) (u v : Poly2) : ℝ := ∫ z in ellipseRegion x0 y0 a b, ev u z.1 z.2 * ev v z.1 z.2

end Poly2.Ell
end PFEM
