import Mathlib.MeasureTheory.Integral.IntervalIntegral.Basic
import Mathlib.Analysis.Calculus.ContDiff.Defs
import Verif.Model.CellGeom
import Verif.Spec.Edge

/-!
Specification of line integrals: the curve that an edge follows, the curves that make up the boundary of a cell, and the
integrals along them that the quadrature is meant to approximate.
-/

namespace PFEM

namespace PCurve

/-- the integral of `f` along the curve with respect to arc length -/
noncomputable def lineIntegral (C : PCurve) (f : ℝ → ℝ → ℝ) : ℝ :=
  ∫ s in (0 : ℝ)..2 * Real.pi, f (C.x s) (C.y s) * C.speed s

/-- the flux of the field `(f, g)` through the curve, to the right of its direction: the integral of `f dy - g dx` -/
noncomputable def flux (C : PCurve) (f g : ℝ → ℝ → ℝ) : ℝ :=
  ∫ s in (0 : ℝ)..2 * Real.pi, (f (C.x s) (C.y s) * C.dy s - g (C.x s) (C.y s) * C.dx s)

/-- the circulation of the field `(f, g)` along the curve: the integral of `f dx + g dy` -/
noncomputable def circulation (C : PCurve) (f g : ℝ → ℝ → ℝ) : ℝ :=
  ∫ s in (0 : ℝ)..2 * Real.pi, (f (C.x s) (C.y s) * C.dx s + g (C.x s) (C.y s) * C.dy s)

end PCurve

/-- The curve that an edge follows: the curve of the library with the shape parameters of the edge, on the piece between the
parameter bounds, moved by the transformations noted in the diary. -/
def EdgeG.Follows (e : EdgeG) (C : PCurve) : Prop :=
  ∃ γ : PCurve, γ.Smooth ∧ (∀ t, Curve.X e.curve e.opts t = .ok (γ.x t, γ.y t)) ∧
    C = e.diary.foldl (fun C o => o.act C) (γ.retime e.tBounds.1 ((e.tBounds.2 - e.tBounds.1) / (2 * Real.pi)))

/-- the curve run in the direction in which the contour passes it -/
noncomputable def oriented (o : ℤ) (C : PCurve) : PCurve := if o = -1 then C.reverse else C

/-- the curves of the boundary of a cell, in the order of its edges and in the direction in which it passes them -/
def CellG.BoundaryCurves (K : CellG) (Cs : List PCurve) : Prop :=
  List.Forall₂ (fun (q : EdgeG × ℤ) C => ∃ C0, q.1.Follows C0 ∧ C = oriented q.2 C0)
    (K.components.flatMap fun c => c.edges.zip c.orients) Cs

/-- every component has edges, each with an orientation -/
def CellG.Shaped (K : CellG) : Prop := ∀ c ∈ K.components, c.edges ≠ [] ∧ c.edges.length = c.orients.length

/-- every transformation in the diaries keeps the geometry right -/
def CellG.GoodDiaries (K : CellG) : Prop := ∀ c ∈ K.components, ∀ e ∈ c.edges, ∀ o ∈ e.diary, o.Good

/-- `f` is continuous at every point of the curve -/
def PCurve.ContinuousOnCurve (C : PCurve) (f : ℝ → ℝ → ℝ) : Prop :=
  ∀ s ∈ Set.Icc 0 (2 * Real.pi), ContinuousAt (fun q : ℝ × ℝ => f q.1 q.2) (C.x s, C.y s)

/-- `f` has `k` continuous derivatives near every point of the curve -/
def PCurve.SmoothOnCurve (C : PCurve) (k : ℕ) (f : ℝ → ℝ → ℝ) : Prop :=
  ∀ s ∈ Set.Icc 0 (2 * Real.pi), ContDiffAt ℝ k (fun q : ℝ × ℝ => f q.1 q.2) (C.x s, C.y s)

/-- the curve closes up smoothly: it is periodic -/
def PCurve.Closed (C : PCurve) : Prop := ∀ s, C.x (s + 2 * Real.pi) = C.x s ∧ C.y (s + 2 * Real.pi) = C.y s

/-- the speed of the curve is nowhere zero -/
def PCurve.Moving (C : PCurve) : Prop := ∀ s ∈ Set.Icc 0 (2 * Real.pi), C.dx s ≠ 0 ∨ C.dy s ≠ 0

/-- the quadrature rule of an edge has order `k`: it is the Kress rule, of order `p` if its parameter `p` is even and `p + 1` if
it is odd, or the trapezoidal rule on a curve that closes up smoothly -/
def SuitedRule (p : ℤ) (k : ℕ) (quadType : String) (C : PCurve) : Prop :=
  quadType = "kress" ∧ (k : ℤ) ≤ p + p % 2 ∨ quadType = "trap" ∧ C.Closed

/-- the rules of all edges have order `k` -/
def CellG.SuitedRules (K : CellG) (p : ℤ) (k : ℕ) (Cs : List PCurve) : Prop :=
  List.Forall₂ (fun (q : EdgeG × ℤ) C => SuitedRule p k q.1.quadType C)
    (K.components.flatMap fun c => c.edges.zip c.orients) Cs

end PFEM
