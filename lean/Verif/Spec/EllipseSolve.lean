import Verif.Spec.DiscSolve
import Verif.Spec.EllipseSpace
import Verif.Spec.Ellipse

/-!
Specification vocabulary: meshes that consist of one ellipse, and what it means that the solver discretizes a problem up to small errors.
-/

namespace PFEM
namespace SolverG
open Nystrom

/-- The mesh has one edge, a closed curve on the mesh boundary; its cell is parameterized as the ellipse with the half-axes `a`, `b` about
`(x0, y0)` with `2 n` samples; edge functions have polynomial traces of low degree; and GMRES solves exactly.  The number of samples is limited
by the thresholds of the code (`high`, `spread`; see C106) and must not be too small for flat ellipses (`fine`). -/
structure EllipseMesh (S : Setup ℝ) (E : Env) (K : CellG) (x0 y0 a b : ℝ) (n : ℕ) : Prop where
  ord : E.ord = S.ord
  perm : E.perm = S.perm
  edge : ∃ e, S.es = [e] ∧ (S.st e).isLoop = true ∧ ((S.st e).pos < 0 ∨ (S.st e).neg < 0) ∧
    ∀ p ∈ (S.space e).edgeTraces, ∀ m ∈ p, m.alpha.x + m.alpha.y + 1 < n
  geo : ∀ c k b, S.m.getCell c = .ok k → E.geo k b = .ok K
  exact : Exact E.gmres
  finds : Finds E.gmres
  ellipse : K.IsEllipse x0 y0 a b (2 * n)
  spread : (2 * n : ℕ) / (4 * 10 ^ 6) ≤ min a b
  low : 4 ≤ n
  high : n ≤ 2 * 10 ^ 7
  fine : 4 * flatness a b ^ (2 * n - 1) ≤ 1 - flatness a b
  inside : ∀ y ∈ K.interior, y ∈ ellipseRegion x0 y0 a b
  degree : S.p + 1 < n

/-- `D ∫ ∇u · ∇w + R ∫ u w` over the ellipse -/
noncomputable def weakE (B : BilinForm) (x0 y0 a b : ℝ) (u w : Poly2) : ℝ :=
  B.diffusion * Poly2.Ell.energy x0 y0 a b u w + B.reaction * Poly2.Ell.mass x0 y0 a b u w

/-- `∫ f w` over the ellipse -/
noncomputable def loadE (B : BilinForm) (x0 y0 a b : ℝ) (w : Poly2) : ℝ :=
  ∫ z in ellipseRegion x0 y0 a b, B.rhsPoly.eval z.1 z.2 * Poly2.ev w z.1 z.2

/-- the exact Galerkin solution: the polynomial of degree at most `p` that vanishes on the ellipse and solves the weak equation for all such
polynomials as test functions -/
structure GalerkinSol (B : BilinForm) (x0 y0 a b : ℝ) (p : ℕ) (w : Poly2) : Prop where
  vanish : Poly2.Ell.VanishOn x0 y0 a b w
  degree : w.totalDegree ≤ p
  weak : ∀ z, Poly2.Ell.VanishOn x0 y0 a b z → z.totalDegree ≤ p → weakE B x0 y0 a b w z = loadE B x0 y0 a b z

/-- The assembled system is the Galerkin system for the functions `v` up to errors of size `ε`: boundary functions have unit rows, the others form
a basis of the polynomials of degree at most `p` that vanish on the ellipse. -/
structure State.NearGalerkin (R : State) (S : Setup ℝ) (B : BilinForm) (x0 y0 a b : ℝ) (v : ℕ → Poly2) (ε : ℝ) : Prop where
  num : R.numFuns = S.s0.numFuns
  mat : ∀ i < R.numFuns, ¬ S.BoundaryNumber i → ∀ j < R.numFuns, ¬ S.BoundaryNumber j →
    |R.globMat i j - weakE B x0 y0 a b (v i) (v j)| ≤ ε
  rhs : ∀ i < R.numFuns, ¬ S.BoundaryNumber i → |R.globRhs i - loadE B x0 y0 a b (v i)| ≤ ε
  boundary : ∀ i < R.numFuns, S.BoundaryNumber i → 0 < R.globMat i i ∧ (∀ j, j ≠ i → R.globMat i j = 0) ∧ R.globRhs i = 0
  vanish : ∀ i < R.numFuns, ¬ S.BoundaryNumber i → Poly2.Ell.VanishOn x0 y0 a b (v i) ∧ (v i).totalDegree ≤ S.p
  independent : ∀ y : ℕ → ℝ, (∀ i < R.numFuns, S.BoundaryNumber i → y i = 0) → R.combine v y = 0 → ∀ i < R.numFuns, y i = 0
  spans : ∀ w, Poly2.Ell.VanishOn x0 y0 a b w → w.totalDegree ≤ S.p →
    ∃ y : ℕ → ℝ, (∀ i < R.numFuns, S.BoundaryNumber i → y i = 0) ∧ R.combine v y = w

end SolverG
end PFEM
