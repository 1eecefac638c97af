import Mathlib.Analysis.SpecialFunctions.Trigonometric.Deriv
import Verif.Model.EdgeGeom

/-!
Specification of what a sampled edge should be: the values of a smooth curve, its unit tangent, its unit normal, its
speed and its signed curvature at the nodes of a quadrature rule.
-/

namespace PFEM

/-- A plane curve `(x, y)` on the real line with its first and second derivative. -/
structure PCurve where
  x : ℝ → ℝ
  y : ℝ → ℝ
  dx : ℝ → ℝ
  dy : ℝ → ℝ
  ddx : ℝ → ℝ
  ddy : ℝ → ℝ

namespace PCurve

/-- `dx`, `dy`, `ddx`, `ddy` are the derivatives. -/
def Smooth (C : PCurve) : Prop :=
  ∀ s, HasDerivAt C.x (C.dx s) s ∧ HasDerivAt C.y (C.dy s) s ∧
    HasDerivAt C.dx (C.ddx s) s ∧ HasDerivAt C.dy (C.ddy s) s

/-- length of the velocity -/
noncomputable def speed (C : PCurve) (s : ℝ) : ℝ := Real.sqrt (C.dx s ^ 2 + C.dy s ^ 2)

/-- What the arrays should hold at the node `s` with weight `g`: the point; the velocity divided by its length; the
same turned clockwise by a right angle; speed times weight; and the curvature, positive if the curve bends to its right:
`(y' x'' - x' y'') / speed^3`. -/
noncomputable def sample (C : PCurve) (s g : ℝ) : Sample where
  x := C.x s
  y := C.y s
  tx := C.dx s / C.speed s
  ty := C.dy s / C.speed s
  nx := C.dy s / C.speed s
  ny := -(C.dx s / C.speed s)
  dxNorm := C.speed s * g
  curv := (C.dy s * C.ddx s - C.dx s * C.ddy s) / C.speed s ^ 3

/-- samples at a list of (node, weight) -/
noncomputable def samples (C : PCurve) (l : List (ℝ × ℝ)) : List Sample := l.map fun p => C.sample p.1 p.2

/-- image under `z ↦ A z + (u, v)` -/
def affine (A : Mat2) (u v : ℝ) (C : PCurve) : PCurve where
  x s := A.a * C.x s + A.b * C.y s + u
  y s := A.c * C.x s + A.d * C.y s + v
  dx s := A.a * C.dx s + A.b * C.dy s
  dy s := A.c * C.dx s + A.d * C.dy s
  ddx s := A.a * C.ddx s + A.b * C.ddy s
  ddy s := A.c * C.ddx s + A.d * C.ddy s

/-- the same curve on `[0, 2 pi]` run backwards -/
noncomputable def reverse (C : PCurve) : PCurve where
  x s := C.x (2 * Real.pi - s)
  y s := C.y (2 * Real.pi - s)
  dx s := -C.dx (2 * Real.pi - s)
  dy s := -C.dy (2 * Real.pi - s)
  ddx s := C.ddx (2 * Real.pi - s)
  ddy s := C.ddy (2 * Real.pi - s)

/-- the curve with its parameter changed to `t = dt * s + a` -/
def retime (a dt : ℝ) (C : PCurve) : PCurve where
  x s := C.x (dt * s + a)
  y s := C.y (dt * s + a)
  dx s := dt * C.dx (dt * s + a)
  dy s := dt * C.dy (dt * s + a)
  ddx s := dt ^ 2 * C.ddx (dt * s + a)
  ddy s := dt ^ 2 * C.ddy (dt * s + a)

end PCurve

/-- The matrix of multiplication by the complex number `(p + i q)`. -/
def Mat2.complex (p q : ℝ) : Mat2 := ⟨p, -q, q, p⟩

/-- What a transformation should do to a curve on `[0, 2 pi]`.  `join_points(a, b)` is multiplication by the complex
number `(b - a) / (last - first)`, then the translation that brings the first point to `a`. -/
noncomputable def EdgeOp.act : EdgeOp → PCurve → PCurve
  | .translate a, C => C.affine ⟨1, 0, 0, 1⟩ a.x a.y
  | .dilate al, C => C.affine ⟨al, 0, 0, al⟩ 0 0
  | .rotate th, C => C.affine (.complex (Real.cos (th * Real.pi / 180)) (Real.sin (th * Real.pi / 180))) 0 0
  | .reflectX, C => C.affine ⟨1, 0, 0, -1⟩ 0 0
  | .reflectY, C => C.affine ⟨-1, 0, 0, 1⟩ 0 0
  | .orthogonal A, C => C.affine A 0 0
  | .joinPoints a b, C =>
    let wx := C.x (2 * Real.pi) - C.x 0
    let wy := C.y (2 * Real.pi) - C.y 0
    let p := ((b.x - a.x) * wx + (b.y - a.y) * wy) / (wx ^ 2 + wy ^ 2)
    let q := ((b.y - a.y) * wx - (b.x - a.x) * wy) / (wx ^ 2 + wy ^ 2)
    C.affine (.complex p q) (a.x - (p * C.x 0 - q * C.y 0)) (a.y - (q * C.x 0 + p * C.y 0))

/-- `A^T A = I` -/
def Mat2.IsOrth (A : Mat2) : Prop := A.a ^ 2 + A.c ^ 2 = 1 ∧ A.b ^ 2 + A.d ^ 2 = 1 ∧ A.a * A.b + A.c * A.d = 0

/-- Transformations for which the stored geometry stays right: positive dilation factors and matrices that are
orthogonal exactly (not only up to the tolerance). -/
def EdgeOp.Good : EdgeOp → Prop
  | .dilate al => 0 < al
  | .orthogonal A => A.IsOrth
  | _ => True

/-- One user action on an edge: a transformation (with its `write_diary` argument) or a reversal. -/
inductive EdgeAct
  | op (o : EdgeOp) (write : Bool)
  | reverse

/-- effect on the curve -/
noncomputable def EdgeAct.act : EdgeAct → PCurve → PCurve
  | .op o _, C => o.act C
  | .reverse, C => C.reverse

def EdgeAct.Good : EdgeAct → Prop
  | .op o _ => o.Good
  | .reverse => True

/-- run a list of user actions on the model -/
noncomputable def EdgeG.run : List EdgeAct → EdgeG → Py EdgeG
  | [], e => .ok e
  | .op o w :: l, e => do
    let e' ← e.apply o w
    run l e'
  | .reverse :: l, e => run l e.reverse

/-! ### transformations as maps of the complex plane -/

/-- the place of a sample as a complex number -/
def Sample.z (s : Sample) : ℂ := ⟨s.x, s.y⟩
/-- a vertex as a complex number -/
def Vert.z (v : Vert) : ℂ := ⟨v.x, v.y⟩

/-- The map of the plane that a transformation is, given the first and last point of the list it is applied to. -/
noncomputable def opMap (z0 z1 : ℂ) : EdgeOp → ℂ → ℂ
  | .translate a, z => z + a.z
  | .dilate al, z => al * z
  | .rotate th, z => ⟨Real.cos (th * Real.pi / 180), Real.sin (th * Real.pi / 180)⟩ * z
  | .reflectX, z => ⟨z.re, -z.im⟩
  | .reflectY, z => ⟨-z.re, z.im⟩
  | .orthogonal A, z => ⟨A.a * z.re + A.b * z.im, A.c * z.re + A.d * z.im⟩
  | .joinPoints a b, z => a.z + (b.z - a.z) / (z1 - z0) * (z - z0)

/-- the maps of a diary composed -/
noncomputable def opsMap : List EdgeOp → ℂ → ℂ → ℂ → ℂ
  | [], _, _, z => z
  | op :: ops, z0, z1, z => opsMap ops (opMap z0 z1 op z0) (opMap z0 z1 op z1) (opMap z0 z1 op z)

/-- no reflection -/
def EdgeOp.Direct : EdgeOp → Prop
  | .reflectX => False
  | .reflectY => False
  | .orthogonal A => A.d = A.a ∧ A.c = -A.b
  | _ => True

end PFEM
