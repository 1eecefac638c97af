import Mathlib.Analysis.Calculus.Deriv.Basic
import Mathlib.Analysis.SpecialFunctions.Log.Basic
import Mathlib.Analysis.SpecialFunctions.Log.Deriv
import Mathlib.Analysis.SpecialFunctions.Sqrt
import Verif.Spec.Boundary
import Verif.Model.Trace

/-!
Specification vocabulary: gradients and Laplacians in the plane, functions sampled on the boundary of a cell.
-/

namespace PFEM

/-- the partial derivatives of `u` at `(x, y)` are `g1` and `g2` -/
def HasGrad (u : ℝ → ℝ → ℝ) (x y g1 g2 : ℝ) : Prop := HasDerivAt (fun s => u s y) g1 x ∧ HasDerivAt (fun s => u x s) g2 y

/-- On `S` the Laplacian of `u` is `f`: `u` has partial derivatives there, these have partial derivatives, and the sum of the unmixed
second ones is `f`. -/
def HasLaplacian (S : Set (ℝ × ℝ)) (u f : ℝ → ℝ → ℝ) : Prop :=
  ∃ u1 u2 : ℝ → ℝ → ℝ, ∀ x y, (x, y) ∈ S → HasGrad u x y (u1 x y) (u2 x y) ∧
    ∃ u11 u22, HasDerivAt (fun s => u1 s y) u11 x ∧ HasDerivAt (fun s => u2 x s) u22 y ∧ u11 + u22 = f x y

/-- the plane without a point -/
def away (p : Vert) : Set (ℝ × ℝ) := {q | q.1 ≠ p.x ∨ q.2 ≠ p.y}

/-- the logarithm of the distance to `p` -/
noncomputable def logDist (p : Vert) (x y : ℝ) : ℝ := Real.log (Real.sqrt ((x - p.x) ^ 2 + (y - p.y) ^ 2))

/-- the values of `u` at the samples of a cell -/
def CellG.samplesOf (K : CellG) (u : ℝ → ℝ → ℝ) : List ℝ := K.cols.map fun s => u s.x s.y

/-- the weighted normal derivative of a function with gradient `(g1, g2)` -/
def CellG.normalOf (K : CellG) (g1 g2 : ℝ → ℝ → ℝ) : List ℝ :=
  K.cols.map fun s => (g1 s.x s.y * s.nx + g2 s.x s.y * s.ny) * s.dxNorm

/-- the weighted tangential derivative of a function with gradient `(g1, g2)` -/
def CellG.tangentOf (K : CellG) (g1 g2 : ℝ → ℝ → ℝ) : List ℝ :=
  K.cols.map fun s => (g1 s.x s.y * s.tx + g2 s.x s.y * s.ty) * s.dxNorm

/-- `t` is the trace of `u` on the boundary of `K`, with its normal derivative and, if `tang`, its tangential derivative.  `S` is a
set in which `u` has partial derivatives; it contains all samples. -/
def TraceOf (K : CellG) (S : Set (ℝ × ℝ)) (u : ℝ → ℝ → ℝ) (tang : Bool) (t : Trace) : Prop :=
  t.edges = K.components.flatMap ContourG.edges ∧ t.values = some (K.samplesOf u) ∧ (∀ s ∈ K.cols, (s.x, s.y) ∈ S) ∧
  ∃ g1 g2 : ℝ → ℝ → ℝ, (∀ x y, (x, y) ∈ S → HasGrad u x y (g1 x y) (g2 x y)) ∧ t.wnd = some (K.normalOf g1 g2) ∧
    t.wtd = if tang then some (K.tangentOf g1 g2) else none

/-- every hole has an interior point, and no sample of the boundary lies there -/
def CellG.Holes (K : CellG) : Prop :=
  ∀ c ∈ K.components.tail, ∃ p, c.interior = some p ∧ ∀ s ∈ K.cols, (s.x, s.y) ∈ away p

/-- the partial derivatives of `u` are `g1`, `g2` everywhere in `S` -/
def HasGradOn (S : Set (ℝ × ℝ)) (u g1 g2 : ℝ → ℝ → ℝ) : Prop := ∀ x y, (x, y) ∈ S → HasGrad u x y (g1 x y) (g2 x y)

/-- `u` and `v` are conjugate in `S`: they have partial derivatives there, and these satisfy the Cauchy-Riemann equations -/
def ConjugateOn (S : Set (ℝ × ℝ)) (u v : ℝ → ℝ → ℝ) : Prop :=
  ∃ p q : ℝ → ℝ → ℝ, HasGradOn S u p q ∧ HasGradOn S v (fun x y => -q x y) p

/-- `vals` and `wnd` are the values and the weighted normal derivatives, at the samples of `K`, of a function whose Laplacian in `S` is `f` -/
def AntilaplacianData (K : CellG) (S : Set (ℝ × ℝ)) (f : ℝ → ℝ → ℝ) (vals wnd : List ℝ) : Prop :=
  ∃ P g1 g2 : ℝ → ℝ → ℝ, HasLaplacian S P f ∧ HasGradOn S P g1 g2 ∧ vals = K.samplesOf P ∧ wnd = K.normalOf g1 g2

end PFEM
