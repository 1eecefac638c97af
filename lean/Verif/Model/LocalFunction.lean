import Verif.Model.LocFun

/-!
Model of the deprecated class `LocalFunction` (`/repo/puncturedfem/locfun/locfun.py`), which the package still exports.

* The attribute `key` is not modelled (no operation reads it), nor is the warning of `deprecated`.
* An attribute that has not been set is `none`; reading it raises `AttributeError`.
* The argument `nyst` is a `NystromSolver`; the test of its type (L242-245) is typing.
-/

namespace PFEM
open Trace (attr after)
open Nystrom (Solver Gmres arr)

noncomputable section

/-- `LocalFunction` (locfun.py L25-99).  `biharm = none`: the attribute has not been set. -/
structure OldFun where
  nyst : Solver
  poly : Poly ℝ
  polyAnti : Poly ℝ
  polyTrace : Trace
  harm : Trace
  conj : Trace
  logCoef : List ℝ
  biharm : Option Trace := none
  intVals : Option (List (Option ℝ)) := none

/-- what may be passed to an inner product -/
inductive OldArg
  | fn (g : OldFun)
  | other

namespace OldFun

/-- `_compute_polynomial_part` (locfun.py L247-262): polynomial, anti-Laplacian, trace -/
def polynomialPart (K : CellG) (laplacian : Poly ℝ) : Py (Poly ℝ × Poly ℝ × Trace) := do
  let P ← laplacian.antiLaplacian
  let Q ← P.antiLaplacian
  let t ← Trace.init K.getEdges (funcs := some (.one (.poly P.eval)))
  let (x1, x2) ← K.getBoundaryPoints
  let (g1, g2) ← P.grad
  let nd ← K.dotWithNormal (List.zipWith g1.eval x1 x2) (List.zipWith g2.eval x1 x2)
  let w ← K.multiplyByDxNorm nd
  let t ← after (t.setWnd (.one (.arr w)))
  .ok (P, Q, t)

/-- `_get_conjugable_part` (locfun.py L289-293) -/
def conjugablePart (s : Solver) (v a : List ℝ) : Py (List ℝ) := do
  let K := s.ops.K
  let lam ← LocHarm.logLoop s a (fun t => attr t.values) K.numHoles 0 (List.replicate K.numPts 0)
  Np.sub v lam

/-- `_compute_biharmonic` (locfun.py L295-307) -/
def biharmonic (gmres : Gmres) (s : Solver) (v c a : List ℝ) : Py Trace := do
  let psi ← conjugablePart s v a
  let (P, W) ← Antilap.antilaplacian gmres s psi c a
  let b ← Trace.init s.ops.K.getEdges (values := some (.one (.arr P)))
  after (b.setWnd (.one (.arr W)))

/-- `compute_interior_values` (locfun.py L309-408).  Its first statement reads `K.int_x1` and `K.is_inside`; no cell has an attribute
`is_inside` (in cell.py L483-525 it is a local variable). -/
def computeInterior (_ : OldFun) (_grad : Bool := true) : Py OldFun := .error .attributeError

/-- `__init__` (locfun.py L101-145) with `_compute_harmonic_part_trace` (L264-268), `_compute_harmonic_conjugate` (L270-277) and
`_compute_harmonic_weighted_normal_derivative` (L279-287) -/
def init (gmres : Gmres) (s : Solver) (laplacian : Poly ℝ) (trace : LocPoisson.TraceOr) (l2 : Bool := true) (ints : Bool := false)
    (grads : Bool := false) : Py OldFun := do
  let K := s.ops.K
  let (P, Q, pt) ← polynomialPart K laplacian
  let t ← (match trace with
    | .trace t => .ok t
    | .value .other => .error .attributeError
    | .value v => Trace.init K.getEdges (values := some (.one v)) : Py Trace)
  let u ← attr t.values
  let p ← attr pt.values
  let d ← Np.sub u p
  let ht ← Trace.init K.getEdges (values := some (.one (.arr d)))
  let v ← attr ht.values
  let (c, a) ← Nystrom.conjugate gmres s v
  let conj ← Trace.init K.getEdges (values := some (.one (.arr c)))
  let c ← attr conj.values
  let w ← wtdFromTrace K c
  let w ← LocHarm.logLoop s a (fun t => arr t.wnd) K.numHoles 0 w
  let ht ← after (ht.setWnd (.one (.arr w)))
  let f : OldFun := { nyst := s, poly := P, polyAnti := Q, polyTrace := pt, harm := ht, conj := conj, logCoef := a }
  let f ← (if l2 then do
      let b ← biharmonic gmres s v c a
      .ok { f with biharm := some b }
    else .ok f : Py OldFun)
  if ints || grads then f.computeInterior grads else .ok f

/-- `get_h1_semi_inner_prod` (locfun.py L147-180) -/
def getH1 (f : OldFun) : OldArg → Py ℝ
  | .other => .error .typeError
  | .fn g => do
    let K := f.nyst.ops.K
    let (px, py) ← f.poly.grad
    let (qx, qy) ← g.poly.grad
    let m1 ← px.mul qx
    let m2 ← py.mul qy
    let val ← integratePoly (m1.add m2) K
    let a ← arr f.harm.wnd
    let b ← attr g.polyTrace.values
    let m ← Np.mul a b
    let i ← K.integratePreweighted m
    let val := val + i
    let a ← attr f.polyTrace.values
    let b ← arr g.harm.wnd
    let m ← Np.mul a b
    let i ← K.integratePreweighted m
    let val := val + i
    let a ← arr f.harm.wnd
    let b ← attr g.harm.values
    let m ← Np.mul a b
    let i ← K.integratePreweighted m
    .ok (val + i)

/-- the terms `phi * Q` and `P * psi` of `get_l2_inner_prod` (locfun.py L203-211, L214-222): the harmonic part `t` with the polynomial `q` -/
def l2Mixed (K : CellG) (t : Trace) (q : Poly ℝ) (val : ℝ) : Py ℝ := do
  let R ← q.antiLaplacian
  let r ← R.onBoundary K
  let w ← R.weightedNormal K
  let a ← attr t.values
  let m ← Np.mul a w
  let i ← K.integratePreweighted m
  let val := val + i
  let a ← arr t.wnd
  let m ← Np.mul a r
  let i ← K.integratePreweighted m
  .ok (val - i)

/-- `get_l2_inner_prod` (locfun.py L182-233) -/
def getL2 (f : OldFun) : OldArg → Py ℝ
  | .other => .error .typeError
  | .fn g => do
    let K := f.nyst.ops.K
    let B ← attr f.biharm
    let _ ← attr g.biharm
    let _ ← K.getBoundaryPoints
    let m ← f.poly.mul g.poly
    let val ← integratePoly m K
    let val ← l2Mixed K f.harm g.poly val
    let val ← l2Mixed K g.harm f.poly val
    let a ← arr B.wnd
    let b ← attr g.harm.values
    let m ← Np.mul a b
    let i ← K.integratePreweighted m
    let val := val + i
    let a ← attr B.values
    let b ← arr g.harm.wnd
    let m ← Np.mul a b
    let i ← K.integratePreweighted m
    .ok (val - i)

end OldFun
end
end PFEM
