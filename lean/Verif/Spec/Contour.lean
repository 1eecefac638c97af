import Verif.Spec.LineIntegral
import Verif.Spec.Calculus

/-!
Specification vocabulary for closed contours made of several curves.
-/

namespace PFEM

/-- the curves of a contour, in the order of its edges and in the direction in which it passes them -/
def ContourG.Curves (c : ContourG) (Cs : List PCurve) : Prop :=
  List.Forall₂ (fun (q : EdgeG × ℤ) C => ∃ C0, q.1.Follows C0 ∧ C = oriented q.2 C0) (c.edges.zip c.orients) Cs

/-- every curve starts where the one before it ends, and the first where the last one ends -/
def Chained (Cs : List PCurve) : Prop :=
  ∀ i C C', Cs[i]? = some C → Cs[(i + 1) % Cs.length]? = some C' → C.x (2 * Real.pi) = C'.x 0 ∧ C.y (2 * Real.pi) = C'.y 0

/-- the contour is sampled so that functions with `k + 2` derivatives stay smooth along it: all edges with the Kress rule of
parameter at least `k + 2`, or a single edge that closes up smoothly with the trapezoidal rule -/
def ContourG.SmoothRule (c : ContourG) (p : ℤ) (k : ℕ) (Cs : List PCurve) : Prop :=
  (∀ e ∈ c.edges, e.quadType = "kress") ∧ (k : ℤ) + 2 ≤ p ∨
    ∃ e C, c.edges = [e] ∧ e.quadType = "trap" ∧ Cs = [C] ∧ C.Closed

/-- the weighted tangential derivative at a sample -/
noncomputable def tangAt (g1 g2 : ℝ → ℝ → ℝ) (s : Sample) : ℝ := (g1 s.x s.y * s.tx + g2 s.x s.y * s.ty) * s.dxNorm

/-- two lists of the same length whose entries differ by at most `ε` -/
def Near (ε : ℝ) (u v : List ℝ) : Prop := List.Forall₂ (fun a b => |a - b| ≤ ε) u v

/-- a contour and a function with gradient `(g1, g2)` along it: the edges follow curves that close up, the rule has order `k`, and the
function has `k + 2` continuous derivatives near the curves -/
structure Spectral (c : ContourG) (p : ℤ) (k : ℕ) (Cs : List PCurve) (f g1 g2 : ℝ → ℝ → ℝ) : Prop where
  nonempty : c.edges ≠ []
  orients : c.edges.length = c.orients.length
  diaries : ∀ e ∈ c.edges, ∀ o ∈ e.diary, o.Good
  curves : c.Curves Cs
  chained : Chained Cs
  rule : c.SmoothRule p k Cs
  smooth : ∀ C ∈ Cs, C.SmoothOnCurve (k + 2) f
  grad : ∀ C ∈ Cs, ∀ s ∈ Set.Icc 0 (2 * Real.pi), HasGrad f (C.x s) (C.y s) (g1 (C.x s) (C.y s)) (g2 (C.x s) (C.y s))

end PFEM
