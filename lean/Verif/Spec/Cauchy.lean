import Mathlib.Analysis.Complex.Basic
import Mathlib.Analysis.SpecialFunctions.Complex.Log
import Verif.Spec.LocRep

/-!
Specification vocabulary: Cauchy's integral formula with the quadrature of a cell.
-/

namespace PFEM

/-- the quadrature nodes of the boundary of `K` as complex numbers: the position `z` and the increment `dz` (the step of the rule on the edge
times the derivative of the parameterization) -/
noncomputable def CellG.nodes (K : CellG) : List (ℂ × ℂ) := K.getEdges.flatMap fun e =>
  e.cols.map fun s => (⟨s.x, s.y⟩, ⟨2 * Real.pi / e.cols.length * s.dxNorm * s.tx, 2 * Real.pi / e.cols.length * s.dxNorm * s.ty⟩)

/-- the quadrature sum for `(1 / 2πi) ∮ F(z) / (z - ζ)^n dz`; `F` is given at the nodes -/
noncomputable def cauchySum (nodes : List (ℂ × ℂ)) (F : List ℂ) (n : ℕ) (ζ : ℂ) : ℂ :=
  (List.zipWith (fun p f => f / (p.1 - ζ) ^ n * p.2) nodes F).sum / (2 * Real.pi * Complex.I)

/-- the function `P + Σ a_k log|· - ξ_k| + Re (1 / 2πi) ∮ (ψ + i ψ') / (z - ·) dz` -/
noncomputable def cauchyValue (K : CellG) (P : ℝ → ℝ → ℝ) (a psi psiHat : List ℝ) (x y : ℝ) : ℝ :=
  P x y + withLogs K a (fun x y => (cauchySum K.nodes (List.zipWith Complex.mk psi psiHat) 1 ⟨x, y⟩).re) x y

/-- the point is neither a sample of the boundary of `K` nor the interior point of a hole -/
def CellG.Off (K : CellG) (y : ℝ × ℝ) : Prop :=
  (∀ s ∈ K.cols, (s.x, s.y) ≠ y) ∧ ∀ c ∈ K.components.tail, ∀ p, c.interior = some p → y ∈ away p

/-- all edges of the cell have `N` samples (as after `parameterize`, which uses the same rule on every edge) -/
def CellG.EqualEdges (K : CellG) (N : ℕ) : Prop := K.getEdges ≠ [] ∧ ∀ e ∈ K.getEdges, e.cols.length = N

/-- What `compute_interior_values` reads: the cell, the polynomial part `P` with its gradient, the logarithmic coefficients, the values `ψ`,
`ψ'` of the conjugate pair on the boundary, and the interior points of the holes.  The points of evaluation are no samples and no poles. -/
structure LocPoisson.Parts (f : LocPoisson) (K : CellG) (P q1 q2 : Poly ℝ) (a psi psiHat : List ℝ) : Prop where
  cell : f.cell = some K
  poly : ∃ p, f.poly = some p ∧ p.exact = P ∧ p.grad1 = some q1 ∧ p.grad2 = some q2
  harm : ∃ u t t', f.harm = some u ∧ u.logCoef = some a ∧ u.psi = some t ∧ t.values = some psi ∧ u.conj = some t' ∧ t'.values = some psiHat
  coefs : a.length = K.numHoles
  psi_len : psi.length = K.numPts
  psiHat_len : psiHat.length = K.numPts
  holes : ∀ c ∈ K.components.tail, ∃ p, c.interior = some p
  off : ∀ y ∈ K.interior, K.Off y

/-- `N` equispaced nodes on the circle of radius `r` about `c`, counter-clockwise, with the trapezoidal rule -/
noncomputable def circleNodes (c : ℂ) (r : ℝ) (N : ℕ) : List (ℂ × ℂ) := (List.range N).map fun j : ℕ =>
  (c + r * Complex.exp (2 * Real.pi * Complex.I * (j / N)), 2 * Real.pi / N * (Complex.I * (r * Complex.exp (2 * Real.pi * Complex.I * (j / N)))))

end PFEM
