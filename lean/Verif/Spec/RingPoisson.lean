import Verif.Spec.RingInterior

/-!
Specification vocabulary: error of the flux of a harmonic function through the boundary of a ring.
-/

namespace PFEM

/-- a bound for the entries of the right-hand side of the linear system for the conjugate of `ringData A Q R` -/
noncomputable def ringRhsBound (a b : ℝ) (n d : ℕ) (A : ℝ) (Q R : Polynomial ℂ) : ℝ :=
  (3 + 5 * ((a / b) ^ (2 * n - d) / (1 - a / b))) * ringSum Q R a b + 2 * Real.pi * |A| * Real.log (b / a)

/-- error of the normal derivative of `ringData A Q R` on the boundary of a ring with `N` samples, `2n` of them on each circle: `τ` is the residual
of the linear solver and `d` the degree -/
noncomputable def ringFluxErr (N : ℕ) (a b : ℝ) (n d : ℕ) (τ : ℝ) (Q R : Polynomial ℂ) : ℝ :=
  Real.sqrt N * N / 2 * (ringConst a b * (τ + 5 * ((a / b) ^ (2 * n - d) / (1 - a / b)) * ringSum Q R a b)) + ringLogErr a b τ

end PFEM
