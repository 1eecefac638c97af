import Mathlib.Analysis.SpecialFunctions.Trigonometric.Inverse
import Mathlib.Analysis.SpecialFunctions.Pow.Real
import Verif.Model.Err

/-!
Model of the curve library `/repo/puncturedfem/mesh/edgelib/*.py` (all curves except `spline.py`).

`X`, `DX`, `DDX` act entry by entry on an array of parameter values; the model gives the entry for one value `t`.
The keyword arguments are optional reals; a missing key that is read with `kwargs["..."]` raises `KeyError`.
-/

namespace PFEM

/-- `curve_opts` (edge.py L114): the keyword arguments of an edge that the curves read. -/
structure CurveOpts where
  radius : Option ℝ := none
  a : Option ℝ := none
  b : Option ℝ := none
  H : Option ℝ := none
  theta0 : Option ℝ := none
  amp : Option ℝ := none
  freq : Option ℝ := none
  alpha : Option ℝ := none

/-- `curve_type` (edge.py L112): the file names in `edgelib`. -/
inductive CurveType
  | bean | cartioid | circle | circularArc | circularArcDeg | ellipse | line | sineWave | teardrop
  deriving DecidableEq

/-- `kwargs["key"]` -/
def kwarg (o : Option ℝ) : Py ℝ :=
  match o with
  | some v => .ok v
  | none => .error .keyError

namespace Curve

/-- `R = kwargs["radius"]` or 1 (circle.py L12-15, L24-27, L36-39) -/
def radius (o : CurveOpts) : ℝ := o.radius.getD 1

/-- `unpack` of circular_arc.py L12-20: (H, R, t0, omega) -/
noncomputable def unpackArc (o : CurveOpts) : Py (ℝ × ℝ × ℝ × ℝ) := do
  let H ← kwarg o.H
  let R := Real.sqrt (0.25 + H ^ 2)
  let t0 := Real.arcsin (H / R)
  let omega := -0.5 - t0 / Real.pi
  .ok (H, R, t0, omega)

/-- `unpack` of circular_arc_deg.py L10-22 -/
noncomputable def unpackDeg (o : CurveOpts) : Py ℝ :=
  match o.theta0 with
  | none => .error .valueError
  | some theta0 => if theta0 ≤ 0 ∨ theta0 > 360 then .error .valueError else .ok (theta0 / 360)

/-- `unpack` of sine_wave.py L16-26 -/
def unpackSine (o : CurveOpts) : Py (ℝ × ℝ) :=
  match o.amp with
  | none => .error .valueError
  | some a =>
    match o.freq with
    | none => .error .valueError
    | some omega => .ok (a, omega)

/-- `unpack` of teardrop.py L11-20 -/
noncomputable def unpackTear (o : CurveOpts) : Py ℝ :=
  let alpha := o.alpha.getD (3 / 2)
  if alpha ≤ 1 then .error .valueError else .ok (Real.tan (0.5 * Real.pi / alpha))

/-- `r` (cartioid.py L19, L30, L42) -/
noncomputable def cartR (a t : ℝ) : ℝ := 1 + a * (1 - t / Real.pi) ^ 8
/-- `dr` (cartioid.py L31, L43) -/
noncomputable def cartDr (a t : ℝ) : ℝ := -(8 * a / Real.pi) * (1 - t / Real.pi) ^ 7
/-- `ddr` (cartioid.py L44) -/
noncomputable def cartDdr (a t : ℝ) : ℝ := (56 * a / (Real.pi * Real.pi)) * (1 - t / Real.pi) ^ 6

/-- `X` (bean.py L11-16, cartioid.py L16-24, circle.py L10-19, circular_arc.py L23-30, circular_arc_deg.py L25-31,
ellipse.py L10-15, line.py L10-14, sine_wave.py L29-35, teardrop.py L23-29) -/
noncomputable def X (c : CurveType) (o : CurveOpts) (t : ℝ) : Py (ℝ × ℝ) :=
  match c with
  | .bean => .ok (Real.cos t + 0.65 * Real.cos (2 * t), 1.5 * Real.sin t)
  | .cartioid => do
    let a ← kwarg o.a
    .ok (cartR a t * Real.cos t, cartR a t * Real.sin t)
  | .circle => .ok (radius o * Real.cos t, radius o * Real.sin t)
  | .circularArc => do
    let (H, R, t0, omega) ← unpackArc o
    let theta := t0 + Real.pi + omega * t
    .ok (0.5 + R * Real.cos theta, H + R * Real.sin theta)
  | .circularArcDeg => do
    let omega ← unpackDeg o
    .ok (Real.cos (omega * t), Real.sin (omega * t))
  | .ellipse => do
    let a ← kwarg o.a
    let b ← kwarg o.b
    .ok (a * Real.cos t, b * Real.sin t)
  | .line => .ok (t / (2 * Real.pi), 0)
  | .sineWave => do
    let (a, omega) ← unpackSine o
    .ok (t / (2 * Real.pi), a * Real.sin (omega * t / 2))
  | .teardrop => do
    let beta ← unpackTear o
    .ok (2 * Real.sin (t / 2), -beta * Real.sin t)

/-- `DX` (bean.py L19-24, cartioid.py L27-36, circle.py L22-31, circular_arc.py L33-40, circular_arc_deg.py L34-40,
ellipse.py L18-23, line.py L17-21, sine_wave.py L38-44, teardrop.py L32-38) -/
noncomputable def DX (c : CurveType) (o : CurveOpts) (t : ℝ) : Py (ℝ × ℝ) :=
  match c with
  | .bean => .ok (-Real.sin t - 2 * 0.65 * Real.sin (2 * t), 1.5 * Real.cos t)
  | .cartioid => do
    let a ← kwarg o.a
    .ok (cartDr a t * Real.cos t - cartR a t * Real.sin t, cartDr a t * Real.sin t + cartR a t * Real.cos t)
  | .circle => .ok (-radius o * Real.sin t, radius o * Real.cos t)
  | .circularArc => do
    let (_, R, t0, omega) ← unpackArc o
    let theta := t0 + Real.pi + omega * t
    .ok (-omega * R * Real.sin theta, omega * R * Real.cos theta)
  | .circularArcDeg => do
    let omega ← unpackDeg o
    .ok (-omega * Real.sin (omega * t), omega * Real.cos (omega * t))
  | .ellipse => do
    let a ← kwarg o.a
    let b ← kwarg o.b
    .ok (-a * Real.sin t, b * Real.cos t)
  | .line => .ok (1 / (2 * Real.pi), 0)
  | .sineWave => do
    let (a, omega) ← unpackSine o
    .ok (1 / (2 * Real.pi), 0.5 * a * omega * Real.cos (omega * t / 2))
  | .teardrop => do
    let beta ← unpackTear o
    .ok (Real.cos (t / 2), -beta * Real.cos t)

/-- `DDX` (bean.py L27-32, cartioid.py L39-49, circle.py L34-43, circular_arc.py L43-50, circular_arc_deg.py L43-49,
ellipse.py L26-31, line.py L24-27, sine_wave.py L47-52, teardrop.py L41-47) -/
noncomputable def DDX (c : CurveType) (o : CurveOpts) (t : ℝ) : Py (ℝ × ℝ) :=
  match c with
  | .bean => .ok (-Real.cos t - 4 * 0.65 * Real.cos (2 * t), -1.5 * Real.sin t)
  | .cartioid => do
    let a ← kwarg o.a
    .ok ((cartDdr a t - cartR a t) * Real.cos t - 2 * cartDr a t * Real.sin t,
      (cartDdr a t - cartR a t) * Real.sin t + 2 * cartDr a t * Real.cos t)
  | .circle => .ok (-radius o * Real.cos t, -radius o * Real.sin t)
  | .circularArc => do
    let (_, R, t0, omega) ← unpackArc o
    let theta := t0 + Real.pi + omega * t
    .ok (-omega * omega * R * Real.cos theta, -omega * omega * R * Real.sin theta)
  | .circularArcDeg => do
    let omega ← unpackDeg o
    .ok (-omega * omega * Real.cos (omega * t), -omega * omega * Real.sin (omega * t))
  | .ellipse => do
    let a ← kwarg o.a
    let b ← kwarg o.b
    .ok (-a * Real.cos t, -b * Real.sin t)
  | .line => .ok (0, 0)
  | .sineWave => do
    let (a, omega) ← unpackSine o
    .ok (0, -0.25 * a * omega * omega * Real.sin (omega * t / 2))
  | .teardrop => do
    let beta ← unpackTear o
    .ok (-0.5 * Real.sin (t / 2), beta * Real.sin t)

end Curve
end PFEM
