import Mathlib.Algebra.Polynomial.Derivative
import Verif.Spec.RingEnergy

/-!
Specification vocabulary: error bounds for the values and gradients of local functions inside a ring.
-/

namespace PFEM
open Polynomial

/-- the distance of a point to `(x0, y0)` -/
noncomputable def radius (x0 y0 : ℝ) (y : ℝ × ℝ) : ℝ := Real.sqrt ((y.1 - x0) ^ 2 + (y.2 - y0) ^ 2)

/-- a bound for the error of the logarithmic coefficient if the residuals are at most `τ` (C114) -/
noncomputable def ringLogErr (a b τ : ℝ) : ℝ := τ / (2 * Real.pi * Real.log (b / a))

/-- a bound for the error of the conjugate pair on the boundary: the bound of C114 for the conjugate plus the contribution of the logarithmic term -/
noncomputable def ringPairErr (a b : ℝ) (n d : ℕ) (τ : ℝ) (Q R : ℂ[X]) : ℝ :=
  ringConst a b * (τ + 5 * ((a / b) ^ (2 * n - d) / (1 - a / b)) * ringSum Q R a b) + ringLogErr a b τ * max |Real.log a| |Real.log b|

/-- a bound for the error of values at distance `δ` from the boundary -/
noncomputable def ringValueErr (a b δ : ℝ) (n d : ℕ) (τ : ℝ) (Q R : ℂ[X]) : ℝ :=
  4 * (b / δ) * (ringPairErr a b n d τ Q R + ringSum Q R a b * (1 - δ / b) ^ (2 * n)) + ringLogErr a b τ * max |Real.log a| |Real.log b|

/-- a bound for the error of partial derivatives at distance `δ` from the boundary -/
noncomputable def ringGradErr (a b δ : ℝ) (n d : ℕ) (τ : ℝ) (Q R : ℂ[X]) : ℝ :=
  4 * (b / δ ^ 2) * ringPairErr a b n d τ Q R +
    (2 * (b / δ) * ringSum (derivative Q) (-(derivative R * X ^ 2)) a b + 8 * (n / a) * (b / δ) ^ 2 * ringSum Q R a b) * (1 - δ / b) ^ (2 * n) +
    ringLogErr a b τ / a

end PFEM
