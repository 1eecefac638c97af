import Verif.Model.Plot
import Verif.Spec.LocRep
import Verif.Spec.Masks

/-!
Specification vocabulary for plots.
-/

namespace PFEM

/-- tangents are unit vectors, normals are the tangents turned clockwise by a right angle -/
def CellG.Frames (K : CellG) : Prop := ∀ s ∈ K.cols, s.tx ^ 2 + s.ty ^ 2 = 1 ∧ s.nx = s.ty ∧ s.ny = -s.tx

/-- what a gradient plot shows at a sample: nothing (`nan`) where the weighted speed is below `10⁻⁸` or the value above
`1000` -/
noncomputable def shown (s : Sample) (g : ℝ) : Option ℝ :=
  if s.dxNorm < 1 / 10 ^ 8 then none else if 1000 < g then none else some g

/-- the triangulation belongs to the cell: its points are the interior points and the samples, the corners of its
triangles are among them, and there is one entry of the masks for each triangle -/
structure Triangulated.Of (R : Triangulated) (K : CellG) : Prop where
  x : R.tri.x = K.cloud.map Prod.fst
  y : R.tri.y = K.cloud.map Prod.snd
  corners : ∀ t ∈ R.tri.triangles, t.1 < K.cloud.length ∧ t.2.1 < K.cloud.length ∧ t.2.2 < K.cloud.length
  holes : R.holeMask.length = R.tri.triangles.length
  boundary : R.boundaryMask.length = R.tri.triangles.length

/-- the values of a function at the interior points -/
def CellG.interiorOf (K : CellG) (u : ℝ → ℝ → ℝ) : List ℝ := K.interior.map fun p => u p.1 p.2

/-- `r` consists of the smallest and the largest number in `S` -/
def IsRange (S : Set ℝ) (r : EReal × EReal) : Prop := ∃ lo hi : ℝ, r = ((lo : EReal), (hi : EReal)) ∧ IsLeast S lo ∧ IsGreatest S hi

/-- the interior values of the functions -/
def valuesOf (fs : List LocPoisson) : Set ℝ := {x | ∃ f ∈ fs, ∃ v, f.intVals = some v ∧ x ∈ v}

/-- the first components of their gradients at the interior points -/
def grad1Of (fs : List LocPoisson) : Set ℝ := {x | ∃ f ∈ fs, ∃ v, f.intGrad1 = some v ∧ x ∈ v}

/-- the second components -/
def grad2Of (fs : List LocPoisson) : Set ℝ := {x | ∃ f ∈ fs, ∃ v, f.intGrad2 = some v ∧ x ∈ v}

/-- the norms of the gradients -/
def normOf (fs : List LocPoisson) : Set ℝ :=
  {x | ∃ f ∈ fs, ∃ a b, f.intGrad1 = some a ∧ f.intGrad2 = some b ∧
    ∃ (k : ℕ) (p q : ℝ), a[k]? = some p ∧ b[k]? = some q ∧ x = Real.sqrt (p ^ 2 + q ^ 2)}

/-- the function has interior values and gradients, at one interior point at least -/
def LocPoisson.Drawable (f : LocPoisson) : Prop :=
  ∃ v a b, f.intVals = some v ∧ f.intGrad1 = some a ∧ f.intGrad2 = some b ∧ v ≠ [] ∧ a ≠ [] ∧ a.length = b.length

/-- the sampled points of the edges -/
def sampledPoints (es : List EdgeG) : Set (ℝ × ℝ) := {p | ∃ e ∈ es, ∃ l, e.pts = some l ∧ ∃ s ∈ l, p = (s.x, s.y)}

end PFEM
