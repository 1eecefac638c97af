import Verif.Props.Solver
import Verif.Spec.SolverG
import Verif.Props.Augmented
import Verif.Spec.DiscSpace

/-!
Specification vocabulary: meshes that consist of one disc, and what it means that the solver discretizes a problem exactly.
-/

namespace PFEM
namespace SolverG
open Nystrom

/-- The mesh has one edge, a closed curve on the mesh boundary; its cell is parameterized as `K`, which is bounded by one edge. -/
structure LoopMesh (S : Setup ℝ) (E : Env) (K : CellG) : Prop where
  ord : E.ord = S.ord
  perm : E.perm = S.perm
  edge : ∃ e, S.es = [e] ∧ (S.st e).isLoop = true ∧ ((S.st e).pos < 0 ∨ (S.st e).neg < 0)
  geo : ∀ c k b, S.m.getCell c = .ok k → E.geo k b = .ok K
  ready : K.Ready
  one : K.getEdges.length = 1

/-- The mesh has one edge, a closed curve on the mesh boundary; its cell is parameterized as the disc of radius `r` about `(x0, y0)` with `2 n`
samples; edge functions have polynomial traces of low degree; GMRES solves exactly; and the polynomial operations behind the bubbles lose
nothing (`BubbleExact`, see C81 for sufficient conditions). -/
structure DiscMesh (S : Setup ℝ) (E : Env) (K : CellG) (x0 y0 r : ℝ) (n : ℕ) (δ : ℝ) : Prop where
  ord : E.ord = S.ord
  perm : E.perm = S.perm
  edge : ∃ e, S.es = [e] ∧ (S.st e).isLoop = true ∧ ((S.st e).pos < 0 ∨ (S.st e).neg < 0) ∧
    ∀ p ∈ (S.space e).edgeTraces, ∀ m ∈ p, m.alpha.x + m.alpha.y + 1 < n
  geo : ∀ c k b, S.m.getCell c = .ok k → E.geo k b = .ok K
  exact : Exact E.gmres
  finds : Finds E.gmres
  disc : K.IsDisc x0 y0 r (2 * n)
  corners : Corners K
  radius : 1 / 10 ^ 14 ≤ r
  low : 4 ≤ n
  high : n ≤ 2 * 10 ^ 7
  inside : ∀ y ∈ K.interior, (y.1 - x0) ^ 2 + (y.2 - y0) ^ 2 < r ^ 2
  degree : S.p + 1 < n
  lattice : 1 / 10 ^ 12 ≤ δ * δ
  bubbles : ∀ k < S.p * (S.p - 1) / 2, LocSpaceG.BubbleExact (x0, y0) (Real.pi * r ^ 2) δ k

/-- the polynomial operations behind the right-hand side lose nothing -/
def LoadExact (B : BilinForm) (n : ℕ) (δ : ℝ) : Prop :=
  ∃ ε q, Poly.OnLattice ε B.rhsPoly ∧ 1 / 10 ^ 12 ≤ δ * ε ∧ (∀ m ∈ B.rhsPoly, m.alpha.x + m.alpha.y + 1 < n) ∧
    B.rhsPoly.antiLaplacian = .ok q ∧ HasLaplacian Set.univ q.eval B.rhsPoly.eval

/-- `x` solves the assembled system -/
def State.Solves (R : State) (x : ℕ → ℝ) : Prop :=
  ∀ i < R.numFuns, ∑ j ∈ Finset.range R.numFuns, R.globMat i j * x j = R.globRhs i

/-- the function with the coefficients `x` -/
noncomputable def State.combine (R : State) (v : ℕ → Poly2) (x : ℕ → ℝ) : Poly2 := ∑ i ∈ Finset.range R.numFuns, x i • v i

/-- `D ∫ ∇u · ∇w + R ∫ u w` over the disc -/
noncomputable def weak (B : BilinForm) (x0 y0 r : ℝ) (u w : Poly2) : ℝ :=
  B.diffusion * Poly2.energy x0 y0 r u w + B.reaction * Poly2.mass x0 y0 r u w

/-- `-D Δu + R u = f` for the coefficients and the right-hand side of the form -/
def Pde (B : BilinForm) (u : Poly2) : Prop :=
  ∀ x y, B.reaction * Poly2.ev u x y - B.diffusion * Poly2.ev (Poly2.lap u) x y = B.rhsPoly.eval x y

/-- The assembled system is the Galerkin system for the functions `v`, with exact integrals over the disc: boundary functions are harmonic and
have unit rows, the others form a basis of the polynomials of degree at most `p` that vanish on the circle. -/
structure State.Galerkin (R : State) (S : Setup ℝ) (B : BilinForm) (x0 y0 r : ℝ) (v : ℕ → Poly2) : Prop where
  num : R.numFuns = S.s0.numFuns
  stiff : ∀ i < R.numFuns, ∀ j < R.numFuns, R.stiffMat i j = Poly2.energy x0 y0 r (v i) (v j)
  mass : ∀ i < R.numFuns, ∀ j < R.numFuns, R.massMat i j = Poly2.mass x0 y0 r (v i) (v j)
  mat : ∀ i < R.numFuns, ¬ S.BoundaryNumber i → ∀ j < R.numFuns, R.globMat i j = weak B x0 y0 r (v i) (v j)
  rhs : ∀ i < R.numFuns, ¬ S.BoundaryNumber i →
    R.globRhs i = ∫ z in PFEM.disc x0 y0 r, B.rhsPoly.eval z.1 z.2 * Poly2.ev (v i) z.1 z.2
  boundary : ∀ i < R.numFuns, S.BoundaryNumber i →
    Poly2.lap (v i) = 0 ∧ 0 < R.globMat i i ∧ (∀ j, j ≠ i → R.globMat i j = 0) ∧ R.globRhs i = 0
  vanish : ∀ i < R.numFuns, ¬ S.BoundaryNumber i → Poly2.VanishOn x0 y0 r (v i) ∧ (v i).totalDegree ≤ S.p
  independent : ∀ y : ℕ → ℝ, (∀ i < R.numFuns, S.BoundaryNumber i → y i = 0) → R.combine v y = 0 → ∀ i < R.numFuns, y i = 0
  spans : ∀ w, Poly2.VanishOn x0 y0 r w → w.totalDegree ≤ S.p →
    ∃ y : ℕ → ℝ, (∀ i < R.numFuns, S.BoundaryNumber i → y i = 0) ∧ R.combine v y = w

end SolverG
end PFEM
