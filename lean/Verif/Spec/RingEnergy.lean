import Mathlib.MeasureTheory.Integral.Bochner.Set
import Mathlib.MeasureTheory.Measure.Lebesgue.Basic
import Verif.Spec.Annulus

/-!
Specification vocabulary: the energy inner product of two functions on a ring.
-/

namespace PFEM
open MeasureTheory

/-- the points whose distance to `(x0, y0)` is between `a` and `b` -/
def ring (x0 y0 a b : ℝ) : Set (ℝ × ℝ) := {p | a ^ 2 < (p.1 - x0) ^ 2 + (p.2 - y0) ^ 2 ∧ (p.1 - x0) ^ 2 + (p.2 - y0) ^ 2 < b ^ 2}

/-- the area integral over the ring of the inner product of two gradients -/
noncomputable def ringEnergy (x0 y0 a b : ℝ) (g1 g2 k1 k2 : ℝ → ℝ → ℝ) : ℝ :=
  ∫ p in ring x0 y0 a b, (g1 p.1 p.2 * k1 p.1 p.2 + g2 p.1 p.2 * k2 p.1 p.2)

/-- a bound for the values of `ringData A Q R` on the boundary of the ring -/
noncomputable def ringBound (A : ℝ) (Q R : Polynomial ℂ) (a b : ℝ) : ℝ := |A| * max |Real.log a| |Real.log b| + ringSum Q R a b

end PFEM
