import Verif.Model.Antilap
import Verif.Model.IntegratePoly

/-!
Model of local functions: `/repo/puncturedfem/locfun/local_polynomial.py`, `local_harmonic.py`, `local_poisson.py`, `inner_prod.py` and
the methods of `Polynomial` that need a cell (`/repo/puncturedfem/locfun/poly/poly.py` L382-422).

* An attribute that has not been set is `none`; reading it raises `AttributeError`.
* `Obj` is what may stand on the right of an operator or be passed to an inner product.  Numbers are `int` or `float`.
* The attribute `key` of a local Poisson function is not modelled (no operation reads it), nor is `__rmul__`, which calls `__mul__`.
* `LocalHarmonic.__init__` stores and completes the trace object it is given.  Here the completed trace is the field `trace` of the
  result; that the caller's object changes too is in `Model/TraceHeap.lean`.
* Arrays of shape `(N, M)` in `compute_interior_values` are handled row by row, and a method that raises leaves no half-changed object.
-/

namespace PFEM
open Trace (attr after)
open Nystrom (Solver Gmres arr)

noncomputable section

namespace Poly

/-- `get_weighted_normal_derivative` (poly.py L382-401) -/
def weightedNormal (p : Poly ℝ) (K : CellG) : Py (List ℝ) := do
  let (x1, x2) ← K.getBoundaryPoints
  let (gx, gy) ← p.grad
  Antilap.weightedNormal K (List.zipWith gx.eval x1 x2) (List.zipWith gy.eval x1 x2)

/-- `get_weighted_tangential_derivative` (poly.py L403-422) -/
def weightedTangent (p : Poly ℝ) (K : CellG) : Py (List ℝ) := do
  let (x1, x2) ← K.getBoundaryPoints
  let (gx, gy) ← p.grad
  Antilap.weightedTangent K (List.zipWith gx.eval x1 x2) (List.zipWith gy.eval x1 x2)

/-- `p(*K.get_boundary_points())` -/
def onBoundary (p : Poly ℝ) (K : CellG) : Py (List ℝ) := do
  let (x1, x2) ← K.getBoundaryPoints
  .ok (List.zipWith p.eval x1 x2)

end Poly

/-- `LocalPolynomial` (local_polynomial.py L19-51) -/
structure LocPoly where
  exact : Poly ℝ
  trace : Option Trace := none
  grad1 : Option (Poly ℝ) := none
  grad2 : Option (Poly ℝ) := none
  antilap : Option (Poly ℝ) := none
  antilapTrace : Option Trace := none

/-- `LocalHarmonic` (local_harmonic.py L22-60).  `biharm = some none` means that `biharmonic_trace` is `None`. -/
structure LocHarm where
  trace : Trace
  psi : Option Trace := none
  conj : Option Trace := none
  logCoef : Option (List ℝ) := none
  biharm : Option (Option Trace) := none

/-- `LocalPoissonFunction` (local_poisson.py L26-86) -/
structure LocPoisson where
  cell : Option CellG := none
  poly : Option LocPoly := none
  harm : Option LocHarm := none
  intVals : Option (List ℝ) := none
  intGrad1 : Option (List ℝ) := none
  intGrad2 : Option (List ℝ) := none

/-- an object of unknown type -/
inductive Obj
  | num (c : ℝ)
  | poly (p : LocPoly)
  | harm (h : LocHarm)
  | poisson (f : LocPoisson)
  | other

namespace LocPoly

/-- `__init__` (local_polynomial.py L53-87) -/
def init (p : Poly ℝ) : Option CellG → Py LocPoly
  | none => .ok { exact := p }
  | some K => do
    let v ← p.onBoundary K
    let t ← Trace.init K.getEdges (values := some (.one (.arr v)))
    let (g1, g2) ← p.grad
    let w ← p.weightedNormal K
    let t ← after (t.setWnd (.one (.arr w)))
    let w ← p.weightedTangent K
    let t ← after (t.setWtd (.one (.arr w)))
    let q ← p.antiLaplacian
    let v ← q.onBoundary K
    let s ← Trace.init K.getEdges (values := some (.one (.arr v)))
    let w ← q.weightedNormal K
    let s ← after (s.setWnd (.one (.arr w)))
    .ok { exact := p, trace := some t, grad1 := some g1, grad2 := some g2, antilap := some q, antilapTrace := some s }

/-- `a.op(b)` for an attribute of two objects -/
def attr₂ {α : Type} (f : α → α → Py α) (a b : Option α) : Py α := do
  let a ← attr a
  let b ← attr b
  f a b

/-- `a.op` for an attribute of an object -/
def attr₁ {α : Type} (f : α → Py α) (a : Option α) : Py α := do
  let a ← attr a
  f a

/-- the common part of `__add__` (local_polynomial.py L89-113) and `__sub__` (L185-209): the operation `f` on polynomials and `g` on traces,
attribute by attribute -/
def zip (f : Poly ℝ → Poly ℝ → Poly ℝ) (g : Trace → Trace → Py Trace) (p q : LocPoly) : Py LocPoly := do
  let t ← attr₂ g p.trace q.trace
  let g1 ← attr₂ (fun a b => .ok (f a b)) p.grad1 q.grad1
  let g2 ← attr₂ (fun a b => .ok (f a b)) p.grad2 q.grad2
  let a ← attr₂ (fun a b => .ok (f a b)) p.antilap q.antilap
  let s ← attr₂ g p.antilapTrace q.antilapTrace
  .ok ⟨f p.exact q.exact, some t, some g1, some g2, some a, some s⟩

/-- the common part of `__mul__` (local_polynomial.py L115-139) and `__truediv__` (L157-183) -/
def map (f : Poly ℝ → Py (Poly ℝ)) (g : Trace → Py Trace) (p : LocPoly) : Py LocPoly := do
  let e ← f p.exact
  let t ← attr₁ g p.trace
  let g1 ← attr₁ f p.grad1
  let g2 ← attr₁ f p.grad2
  let a ← attr₁ f p.antilap
  let s ← attr₁ g p.antilapTrace
  .ok ⟨e, some t, some g1, some g2, some a, some s⟩

/-- `__add__` (local_polynomial.py L89-113) -/
def add (p : LocPoly) : Obj → Py LocPoly
  | .poly q => zip Poly.add Trace.add p q
  | _ => .error .typeError

/-- `__sub__` (local_polynomial.py L185-209) -/
def sub (p : LocPoly) : Obj → Py LocPoly
  | .poly q => zip Poly.sub Trace.sub p q
  | _ => .error .typeError

/-- `__mul__` (local_polynomial.py L115-139) -/
def mul (p : LocPoly) : Obj → Py LocPoly
  | .num c => map (fun q => .ok (q.smul c)) (fun t => t.mul c) p
  | _ => .error .typeError

/-- `__truediv__` (local_polynomial.py L157-183) -/
def div (p : LocPoly) : Obj → Py LocPoly
  | .num c => if c = 0 then .error .valueError else map (fun q => q.div c) (fun t => t.div c) p
  | _ => .error .typeError

end LocPoly

namespace LocHarm
open LocPoly (attr₁ attr₂)

/-- the loop `acc += self.log_coef[j] * get(nyst.lam_trace[j])` for `n` values of `j` from `j` on (local_harmonic.py L216-228 and
L233-234); all arrays have one entry for every sample -/
def logLoop (s : Solver) (a : List ℝ) (get : Trace → Py (List ℝ)) : ℕ → ℕ → List ℝ → Py (List ℝ)
  | 0, _, acc => .ok acc
  | n + 1, j, acc => do
    let g ← attr s.log
    let t ← Np.get g.lam j
    let v ← get t
    let x ← Np.get a j
    let acc ← Np.add acc (Np.smul x v)
    logLoop s a get n (j + 1) acc

/-- `nyst.lam_trace[j].w_norm_deriv` with the test of `_compute_harmonic_weighted_normal_derivative` (local_harmonic.py L217-222) -/
def lamNormal (t : Trace) : Py (List ℝ) :=
  match t.wnd with
  | some w => .ok w
  | none => .error .valueError

/-- `__init__` (local_harmonic.py L62-84) with `_compute_harmonic_conjugate` (L201-208), `_compute_conjugable_part` (L231-237),
`_compute_harmonic_weighted_normal_derivative` (L210-229) and `_compute_biharmonic` (L239-252) -/
def init (gmres : Gmres) (t : Trace) : Option Solver → Py LocHarm
  | none => .ok { trace := t }
  | some s => do
    let K := s.ops.K
    let v ← attr t.values
    let w ← wtdFromTrace K v
    let t ← after (t.setWtd (.one (.arr w)))
    let (c, a) ← Nystrom.conjugate gmres s v
    let conj ← Trace.init K.getEdges (values := some (.one (.arr c)))
    let lam ← logLoop s a (fun t => attr t.values) K.numHoles 0 (List.replicate K.numPts 0)
    let u ← Np.sub v lam
    let psi ← Trace.init K.getEdges (values := some (.one (.arr u)))
    let w ← wtdFromTrace K c
    let w ← logLoop s a lamNormal K.numHoles 0 w
    let t ← after (t.setWnd (.one (.arr w)))
    let (P, Pn) ← Antilap.antilaplacian gmres s u c a
    let b ← Trace.init K.getEdges (values := some (.one (.arr P)))
    let b ← after (b.setWnd (.one (.arr Pn)))
    .ok ⟨t, some psi, some conj, some a, some (some b)⟩

/-- `__add__` (local_harmonic.py L86-111).  A `LocalPolynomial` has an attribute `trace` but no `psi`; other objects have no `trace`. -/
def add (h : LocHarm) : Obj → Py LocHarm
  | .harm k => do
    let t ← h.trace.add k.trace
    let p ← attr₂ Trace.add h.psi k.psi
    let c ← attr₂ Trace.add h.conj k.conj
    let a ← attr₂ (fun a b => .ok (List.zipWith (· + ·) a b)) h.logCoef k.logCoef
    let b ← attr h.biharm
    match b with
    | none => .ok ⟨t, some p, some c, some a, none⟩
    | some b => do
      let d ← attr k.biharm
      match d with
      | none => .ok ⟨t, some p, some c, some a, none⟩
      | some d => do
        let r ← b.add d
        .ok ⟨t, some p, some c, some a, some (some r)⟩
  | .poly q => do
    let s ← attr q.trace
    let _ ← h.trace.add s
    .error .attributeError
  | _ => .error .attributeError

/-- the common part of `__mul__` (local_harmonic.py L113-133) and `__truediv__` (L167-191) -/
def map (f : ℝ → ℝ) (g : Trace → Py Trace) (h : LocHarm) : Py LocHarm := do
  let t ← g h.trace
  let p ← attr₁ g h.psi
  let c ← attr₁ g h.conj
  let a ← attr₁ (fun a => .ok (a.map f)) h.logCoef
  let b ← attr h.biharm
  match b with
  | none => .ok ⟨t, some p, some c, some a, none⟩
  | some b => do
    let r ← g b
    .ok ⟨t, some p, some c, some a, some (some r)⟩

/-- `__mul__` (local_harmonic.py L113-133); `DirichletTrace.__mul__` raises `ValueError` for anything but a number (trace.py L143-144) -/
def mul (h : LocHarm) : Obj → Py LocHarm
  | .num c => map (· * c) (fun t => t.mul c) h
  | _ => .error .valueError

/-- `__truediv__` (local_harmonic.py L167-191) -/
def div (h : LocHarm) : Obj → Py LocHarm
  | .num c => if c = 0 then .error .valueError else map (· / c) (fun t => t.div c) h
  | _ => .error .typeError

end LocHarm

/-! ### inner products -/

/-- `_h1_semi_inner_prod_harmonic_harmonic` (inner_prod.py L88-93) -/
def h1HarmHarm (φ ψ : LocHarm) (K : CellG) : Py ℝ := do
  let a ← arr φ.trace.wnd
  let b ← attr ψ.trace.values
  let p ← Np.mul a b
  K.integratePreweighted p

/-- `_h1_semi_inner_prod_harmonic_polynomial` (inner_prod.py L96-101) -/
def h1HarmPoly (φ : LocHarm) (q : LocPoly) (K : CellG) : Py ℝ := do
  let t ← attr q.trace
  let a ← arr φ.trace.wnd
  let b ← attr t.values
  let p ← Np.mul a b
  K.integratePreweighted p

/-- `_h1_semi_inner_prod_polynomial_polynomial` (inner_prod.py L104-109) -/
def h1PolyPoly (p q : LocPoly) (K : CellG) : Py ℝ := do
  let a ← attr p.grad1
  let b ← attr q.grad1
  let m1 ← a.mul b
  let a ← attr p.grad2
  let b ← attr q.grad2
  let m2 ← a.mul b
  integratePoly (m1.add m2) K

/-- `_l2_inner_prod_harmonic_harmonic` (inner_prod.py L112-123) -/
def l2HarmHarm (φ ψ : LocHarm) (K : CellG) : Py ℝ := do
  let B ← attr φ.biharm
  match B with
  | none => .error .valueError
  | some B => do
    let C ← attr ψ.biharm
    match C with
    | none => .error .valueError
    | some _ => do
      let a ← arr B.wnd
      let b ← attr ψ.trace.values
      let p ← Np.mul a b
      let v ← K.integratePreweighted p
      let a ← attr B.values
      let b ← arr ψ.trace.wnd
      let p ← Np.mul a b
      let w ← K.integratePreweighted p
      .ok (v - w)

/-- `_l2_inner_prod_harmonic_polynomial` (inner_prod.py L126-137) -/
def l2HarmPoly (φ : LocHarm) (q : LocPoly) (K : CellG) : Py ℝ := do
  let R ← attr q.antilapTrace
  match R.wnd with
  | none => .error .valueError
  | some d => do
    let a ← attr φ.trace.values
    let p ← Np.mul a d
    let v ← K.integratePreweighted p
    let a ← arr φ.trace.wnd
    let b ← attr R.values
    let p ← Np.mul a b
    let w ← K.integratePreweighted p
    .ok (v - w)

/-- `_l2_inner_prod_polynomial_polynomial` (inner_prod.py L140-144) -/
def l2PolyPoly (p q : LocPoly) (K : CellG) : Py ℝ := do
  let r ← p.exact.mul q.exact
  integratePoly r K

/-- `h1_semi_inner_prod` (inner_prod.py L22-52); `K` is a `MeshCell` -/
def h1 (v w : Obj) (K : CellG) : Py ℝ :=
  match v, w with
  | .harm φ, .harm ψ => h1HarmHarm φ ψ K
  | .harm φ, .poly q => h1HarmPoly φ q K
  | .poly q, .harm φ => h1HarmPoly φ q K
  | .poly p, .poly q => h1PolyPoly p q K
  | _, _ => .error .typeError

/-- `l2_inner_prod` (inner_prod.py L55-85) -/
def l2 (v w : Obj) (K : CellG) : Py ℝ :=
  match v, w with
  | .harm φ, .harm ψ => l2HarmHarm φ ψ K
  | .harm φ, .poly q => l2HarmPoly φ q K
  | .poly q, .harm φ => l2HarmPoly φ q K
  | .poly p, .poly q => l2PolyPoly p q K
  | _, _ => .error .typeError

namespace CellG

/-- `get_unit_tangent` (cell.py L574-587) -/
def unitTangent (K : CellG) : Py (List ℝ × List ℝ) := do
  let t1 ← K.dotWithTangent (List.replicate K.numPts 1) (List.replicate K.numPts 0)
  let t2 ← K.dotWithTangent (List.replicate K.numPts 0) (List.replicate K.numPts 1)
  .ok (t1, t2)

/-- `get_dx_norm` (cell.py L604-616) -/
def dxNorm (K : CellG) : Py (List ℝ) := K.multiplyByDxNorm (List.replicate K.numPts 1)

end CellG

namespace LocPoisson
open LocPoly (attr₁ attr₂)

/-- `a + b` if both are present -/
def both (a b : Option (List ℝ)) : Py (Option (List ℝ)) := Trace.both (· + ·) a b

/-- `__add__` (local_poisson.py L137-163) -/
def add (f : LocPoisson) : Obj → Py LocPoisson
  | .poisson g => do
    let K ← attr f.cell
    let p ← attr₂ (fun p q => p.add (.poly q)) f.poly g.poly
    let h ← attr₂ (fun h k => h.add (.harm k)) f.harm g.harm
    let v ← both f.intVals g.intVals
    let d1 ← both f.intGrad1 g.intGrad1
    let d2 ← both f.intGrad2 g.intGrad2
    .ok ⟨some K, some p, some h, v, d1, d2⟩
  | _ => .error .typeError

/-- `__mul__` (local_poisson.py L165-191) -/
def mul (f : LocPoisson) : Obj → Py LocPoisson
  | .num c => do
    let K ← attr f.cell
    let p ← attr₁ (fun p => p.mul (.num c)) f.poly
    let h ← attr₁ (fun h => h.mul (.num c)) f.harm
    .ok ⟨some K, some p, some h, f.intVals.map (List.map (· * c)), f.intGrad1.map (List.map (· * c)), f.intGrad2.map (List.map (· * c))⟩
  | _ => .error .typeError

/-- `other * c` (the `__mul__` of the class of `other`); `TypeError` for an object that cannot be multiplied -/
def _root_.PFEM.Obj.times (c : ℝ) : Obj → Py Obj
  | .num a => .ok (.num (a * c))
  | .poly p => do
    let r ← p.mul (.num c)
    .ok (.poly r)
  | .harm h => do
    let r ← h.mul (.num c)
    .ok (.harm r)
  | .poisson f => do
    let r ← f.mul (.num c)
    .ok (.poisson r)
  | .other => .error .typeError

/-- `__sub__` (local_poisson.py L209-223): `self + other * -1` -/
def sub (f : LocPoisson) (o : Obj) : Py LocPoisson := do
  let r ← o.times (-1)
  f.add r

/-- `LocalHarmonic.__sub__` (local_harmonic.py L151-165): `self + other * -1` -/
def _root_.PFEM.LocHarm.sub (h : LocHarm) (o : Obj) : Py LocHarm := do
  let r ← o.times (-1)
  h.add r

/-- `__truediv__` (local_poisson.py L225-243) -/
def div (f : LocPoisson) : Obj → Py LocPoisson
  | .num c => if c = 0 then .error .valueError else f.mul (.num (1 / c))
  | _ => .error .typeError

/-- `get_trace_values` (local_poisson.py L245-255) -/
def traceValues (f : LocPoisson) : Py (List ℝ) := do
  let h ← attr f.harm
  let a ← attr h.trace.values
  let p ← attr f.poly
  let t ← attr p.trace
  let b ← attr t.values
  Np.add a b

/-- `get_h1_semi_inner_prod` (local_poisson.py L257-284) -/
def getH1 (f : LocPoisson) (o : Obj) : Py ℝ :=
  match o with
  | .poisson g => do
    let a ← attr f.harm
    let b ← attr g.harm
    let K ← attr f.cell
    let v ← PFEM.h1 (.harm a) (.harm b) K
    let p ← attr f.poly
    let q ← attr g.poly
    let w ← PFEM.h1 (.poly p) (.poly q) K
    let v := v + w
    let w ← PFEM.h1 (.harm a) (.poly q) K
    let v := v + w
    let w ← PFEM.h1 (.poly p) (.harm b) K
    .ok (v + w)
  | .harm _ | .poly _ => do
    let a ← attr f.harm
    let K ← attr f.cell
    let v ← PFEM.h1 (.harm a) o K
    let p ← attr f.poly
    let w ← PFEM.h1 (.poly p) o K
    .ok (v + w)
  | _ => .error .typeError

/-- `get_l2_inner_prod` (local_poisson.py L286-313) -/
def getL2 (f : LocPoisson) (o : Obj) : Py ℝ :=
  match o with
  | .poisson g => do
    let a ← attr f.harm
    let b ← attr g.harm
    let K ← attr f.cell
    let v ← PFEM.l2 (.harm a) (.harm b) K
    let q ← attr g.poly
    let w ← PFEM.l2 (.harm a) (.poly q) K
    let v := v + w
    let p ← attr f.poly
    let w ← PFEM.l2 (.poly p) (.harm b) K
    let v := v + w
    let w ← PFEM.l2 (.poly p) (.poly q) K
    .ok (v + w)
  | .harm _ | .poly _ => do
    let a ← attr f.harm
    let K ← attr f.cell
    let v ← PFEM.l2 (.harm a) o K
    let p ← attr f.poly
    let w ← PFEM.l2 (.poly p) o K
    .ok (v + w)
  | _ => .error .typeError

/-! ### interior values -/

/-- the logarithmic part at the point `y` (local_poisson.py L371-380): the loop over the holes, `k` the loop variable; value and gradient so
far.  The value at the interior point of a hole would be infinite; this is `ZeroDivisionError` here. -/
def logPart (a : List ℝ) (grad : Bool) (y : ℝ × ℝ) : ℕ → List ContourG → ℝ × ℝ × ℝ → Py (ℝ × ℝ × ℝ)
  | _, [], acc => .ok acc
  | k, c :: cs, (v, g1, g2) => do
    let xi ← attr c.interior
    let d1 := y.1 - xi.x
    let d2 := y.2 - xi.y
    let n2 := d1 ^ 2 + d2 ^ 2
    if n2 = 0 then .error .zeroDivision
    else do
      let ak ← Np.get a k
      let v := v + 0.5 * ak * Real.log n2
      if grad then logPart a grad y (k + 1) cs (v, g1 + ak * d1 / n2, g2 + ak * d2 / n2)
      else logPart a grad y (k + 1) cs (v, g1, g2)

/-- the integrands `f`, `g1`, `g2` at the point `y` (local_poisson.py L389-408) -/
def integrands (x1 x2 t1 t2 psi psiHat : List ℝ) (y : ℝ × ℝ) : Py (List ℝ × List ℝ × List ℝ) := do
  let d1 := Np.shift x1 y.1
  let d2 := Np.shift x2 y.2
  let n2 ← Np.bin (fun a b => a ^ 2 + b ^ 2) d1 d2
  if 0 ∈ n2 then .error .zeroDivision
  else do
    let a ← Np.mul d1 psi
    let b ← Np.mul d2 psiHat
    let eta ← Np.add a b
    let eta ← Np.bin (· / ·) eta n2
    let a ← Np.mul d1 psiHat
    let b ← Np.mul d2 psi
    let etaHat ← Np.sub a b
    let etaHat ← Np.bin (· / ·) etaHat n2
    let a ← Np.mul t1 etaHat
    let b ← Np.mul t2 eta
    let f ← Np.add a b
    let a ← Np.mul d1 eta
    let b ← Np.mul d2 etaHat
    let om ← Np.add a b
    let om ← Np.bin (· / ·) om n2
    let a ← Np.mul d1 etaHat
    let b ← Np.mul d2 eta
    let omHat ← Np.sub a b
    let omHat ← Np.bin (· / ·) omHat n2
    let a ← Np.mul t1 omHat
    let b ← Np.mul t2 om
    let g1 ← Np.add a b
    let a ← Np.mul t1 om
    let b ← Np.mul t2 omHat
    let g2 ← Np.sub a b
    .ok (f, g1, g2)

/-- `np.sum(dx_norm * f, axis=1) * 0.5 / np.pi` (local_poisson.py L417-420), one row -/
def rowSum (w f : List ℝ) : Py ℝ := do
  let p ← Np.mul w f
  .ok (p.sum * 0.5 / Real.pi)

/-- value and gradient at one interior point (local_poisson.py L352-420) -/
def interiorAt (K : CellG) (p : LocPoly) (a psi psiHat x1 x2 t1 t2 w : List ℝ) (grad : Bool) (y : ℝ × ℝ) :
    Py (ℝ × ℝ × ℝ) := do
  let v := p.exact.eval y.1 y.2
  let (g1, g2) ← (if grad then do
      let q1 ← attr p.grad1
      let q2 ← attr p.grad2
      .ok (q1.eval y.1 y.2, q2.eval y.1 y.2)
    else .ok (0, 0) : Py (ℝ × ℝ))
  let (v, g1, g2) ← logPart a grad y 0 K.components.tail (v, g1, g2)
  let (f, h1, h2) ← integrands x1 x2 t1 t2 psi psiHat y
  let s ← rowSum w f
  if grad then do
    let s1 ← rowSum w h1
    let s2 ← rowSum w h2
    .ok (v + s, g1 + s1, g2 + s2)
  else .ok (v + s, g1, g2)

/-- `compute_interior_values` (local_poisson.py L327-420).  The interior points of the cell have been generated. -/
def computeInterior (f : LocPoisson) (grad : Bool := true) : Py LocPoisson := do
  let K ← attr f.cell
  let p ← attr f.poly
  let h ← attr f.harm
  let a ← (if K.numHoles = 0 then .ok [] else attr h.logCoef : Py (List ℝ))
  let psi ← attr h.psi
  let psi ← attr psi.values
  let psiHat ← attr h.conj
  let psiHat ← attr psiHat.values
  let (x1, x2) ← K.getBoundaryPoints
  let (t1, t2) ← K.unitTangent
  let dx ← K.dxNorm
  if K.numPts = 0 then .error .zeroDivision
  else do
    let step := 2 * Real.pi * K.getEdges.length / K.numPts
    let rows ← ContourG.mapPy (interiorAt K p a psi psiHat x1 x2 t1 t2 (dx.map (· * step)) grad) K.interior
    .ok ⟨some K, some p, some h, some (rows.map fun r => r.1), some (rows.map fun r => r.2.1), some (rows.map fun r => r.2.2)⟩

/-- what may be passed as the trace of a local Poisson function -/
inductive TraceOr
  | trace (t : Trace)
  | value (v : FloatLike)

/-- `__init__` (local_poisson.py L88-135) -/
def init (gmres : Gmres) (nyst : Option Solver) (laplacian : Poly ℝ) (trace : TraceOr) (evalInt : Bool := true)
    (evalGrad : Bool := false) : Py LocPoisson :=
  match nyst with
  | none => .ok {}
  | some s => do
    let K := s.ops.K
    let P ← laplacian.antiLaplacian
    let p ← LocPoly.init P (some K)
    let t ← (match trace with
      | .trace t => .ok t
      | .value .other => .error .attributeError
      | .value v => Trace.init K.getEdges (values := some (.one v)) : Py Trace)
    let a ← attr t.values
    let pt ← attr p.trace
    let b ← attr pt.values
    let d ← Np.sub a b
    let ht ← Trace.init K.getEdges (values := some (.one (.arr d)))
    let h ← LocHarm.init gmres ht (some s)
    let f : LocPoisson := { cell := some K, poly := some p, harm := some h }
    if evalInt || evalGrad then f.computeInterior evalGrad else .ok f

end LocPoisson
end
end PFEM
