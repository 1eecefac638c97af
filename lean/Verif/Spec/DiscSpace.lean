import Verif.Spec.Disc
import Verif.Model.LocSpace
import Mathlib.Algebra.MvPolynomial.PDeriv
import Mathlib.MeasureTheory.Integral.Bochner.Set
import Mathlib.MeasureTheory.Measure.Lebesgue.Basic

/-!
Specification vocabulary: polynomials on a disc as Mathlib polynomials in two variables.
-/

namespace PFEM
open MvPolynomial MeasureTheory

/-- polynomials in two variables -/
abbrev Poly2 := MvPolynomial (Fin 2) ℝ

namespace Poly2

/-- value at a point -/
noncomputable abbrev ev (p : Poly2) (x y : ℝ) : ℝ := MvPolynomial.eval ![x, y] p

/-- Laplacian -/
noncomputable def lap (p : Poly2) : Poly2 := pderiv 0 (pderiv 0 p) + pderiv 1 (pderiv 1 p)

/-- the polynomial vanishes on the circle of radius `r` about `(x0, y0)` -/
def VanishOn (x0 y0 r : ℝ) (p : Poly2) : Prop := ∀ θ : ℝ, ev p (x0 + r * Real.cos θ) (y0 + r * Real.sin θ) = 0

/-- `∫ ∇u · ∇v` over the disc -/
noncomputable def energy (x0 y0 r : ℝ) (u v : Poly2) : ℝ :=
  ∫ z in disc x0 y0 r, (ev (pderiv 0 u) z.1 z.2 * ev (pderiv 0 v) z.1 z.2 + ev (pderiv 1 u) z.1 z.2 * ev (pderiv 1 v) z.1 z.2)

/-- `∫ u v` over the disc -/
noncomputable def mass (x0 y0 r : ℝ) (u v : Poly2) : ℝ := ∫ z in disc x0 y0 r, ev u z.1 z.2 * ev v z.1 z.2

/-- `(x - c1)^i (y - c2)^j` times `a` -/
noncomputable def shifted (c : ℝ × ℝ) (a : ℝ) (i j : ℕ) : Poly2 := C a * ((X 0 - C c.1) ^ i * (X 1 - C c.2) ^ j)

end Poly2

/-- The polynomial operations behind the bubble function number `k` lose nothing (see C06, C09, C80): the Laplacian is the centred monomial, its
two iterated anti-Laplacians are exact, and the coefficients of the first lie on the lattice of multiples of `δ`. -/
def LocSpaceG.BubbleExact (c : ℝ × ℝ) (A δ : ℝ) (k : ℕ) : Prop :=
  ∃ i j m p P, (MultiIndex.mk i j).idx = k ∧ centeredMonomial c A k = .ok m ∧ Poly.Canonical m ∧
    (∀ x y, m.eval x y = -1 / A ^ 2 * ((x - c.1) ^ i * (y - c.2) ^ j)) ∧ m.antiLaplacian = .ok p ∧ HasLaplacian Set.univ p.eval m.eval ∧
    p.antiLaplacian = .ok P ∧ HasLaplacian Set.univ P.eval p.eval ∧ Poly.OnLattice δ p

end PFEM
