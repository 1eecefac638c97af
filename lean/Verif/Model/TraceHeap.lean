import Verif.Model.LocFun

/-!
Trace objects that several functions refer to.  `LocalHarmonic.__init__` (`/repo/puncturedfem/locfun/local_harmonic.py` L62-84) keeps the
`DirichletTrace` object it is given and stores derivatives in it; `LocalPoissonFunction.__init__` (`local_poisson.py` L88-135) makes a new object.

* A heap holds the trace objects that have been made; references are numbers.  The traces `psi`, `conj_trace` and `biharmonic_trace` are made by the
  constructor for itself and are held by value, as in `Model/LocFun.lean`.
* When a constructor raises, the changes that it has made to the object of the caller stay.
-/

namespace PFEM
open Trace (attr after)
open Nystrom (Solver Gmres)

noncomputable section

/-- the trace objects made so far have the numbers below `next` -/
structure TraceHeap where
  obj : ℕ → Trace
  next : ℕ

namespace TraceHeap

/-- the object `i` gets new attributes -/
def put (σ : TraceHeap) (i : ℕ) (t : Trace) : TraceHeap := { σ with obj := fun j => if j = i then t else σ.obj j }

/-- a new object -/
def alloc (σ : TraceHeap) (t : Trace) : TraceHeap := { σ.put σ.next t with next := σ.next + 1 }

end TraceHeap

/-- `LocalHarmonic` with the reference to its trace object (local_harmonic.py L193-199) -/
structure HarmRef where
  trace : ℕ
  psi : Option Trace := none
  conj : Option Trace := none
  logCoef : Option (List ℝ) := none
  biharm : Option (Option Trace) := none

namespace HarmRef

/-- the attributes as they are now -/
def read (σ : TraceHeap) (h : HarmRef) : LocHarm := ⟨σ.obj h.trace, h.psi, h.conj, h.logCoef, h.biharm⟩

/-- conjugate, conjugable part and normal derivative of `__init__` (local_harmonic.py L201-237) -/
def middle (gmres : Gmres) (s : Solver) (v : List ℝ) : Py (Trace × Trace × List ℝ × List ℝ × List ℝ × List ℝ) := do
  let K := s.ops.K
  let (c, a) ← Nystrom.conjugate gmres s v
  let conj ← Trace.init K.getEdges (values := some (.one (.arr c)))
  let lam ← LocHarm.logLoop s a (fun t => attr t.values) K.numHoles 0 (List.replicate K.numPts 0)
  let u ← Np.sub v lam
  let psi ← Trace.init K.getEdges (values := some (.one (.arr u)))
  let w ← wtdFromTrace K c
  let w ← LocHarm.logLoop s a LocHarm.lamNormal K.numHoles 0 w
  .ok (psi, conj, c, a, u, w)

/-- `_compute_biharmonic` (local_harmonic.py L239-252) -/
def biharmonic (gmres : Gmres) (s : Solver) (u c a : List ℝ) : Py Trace := do
  let (P, Pn) ← Antilap.antilaplacian gmres s u c a
  let b ← Trace.init s.ops.K.getEdges (values := some (.one (.arr P)))
  after (b.setWnd (.one (.arr Pn)))

/-- `__init__` (local_harmonic.py L62-84) for the trace object `i` -/
def init (gmres : Gmres) (i : ℕ) (nyst : Option Solver) (σ : TraceHeap) : TraceHeap × Py HarmRef :=
  match nyst with
  | none => (σ, .ok { trace := i })
  | some s =>
    match (do
      let v ← attr (σ.obj i).values
      let w ← wtdFromTrace s.ops.K v
      .ok (v, w) : Py (List ℝ × List ℝ)) with
    | .error r => (σ, .error r)
    | .ok (v, w) =>
      let q := (σ.obj i).setWtd (.one (.arr w))
      let σ := σ.put i q.1
      match q.2 with
      | .error r => (σ, .error r)
      | .ok _ =>
        match middle gmres s v with
        | .error r => (σ, .error r)
        | .ok (psi, conj, c, a, u, w) =>
          let q := (σ.obj i).setWnd (.one (.arr w))
          let σ := σ.put i q.1
          match q.2 with
          | .error r => (σ, .error r)
          | .ok _ =>
            match biharmonic gmres s u c a with
            | .error r => (σ, .error r)
            | .ok b => (σ, .ok ⟨i, some psi, some conj, some a, some (some b)⟩)

end HarmRef

/-- `LocalPoissonFunction` whose harmonic part refers to a trace object -/
structure PoissonRef where
  cell : Option CellG := none
  poly : Option LocPoly := none
  harm : Option HarmRef := none
  intVals : Option (List ℝ) := none
  intGrad1 : Option (List ℝ) := none
  intGrad2 : Option (List ℝ) := none

namespace PoissonRef

/-- the attributes as they are now -/
def read (σ : TraceHeap) (f : PoissonRef) : LocPoisson :=
  ⟨f.cell, f.poly, f.harm.map (HarmRef.read σ), f.intVals, f.intGrad1, f.intGrad2⟩

/-- what may be passed as the trace: a trace object or a value -/
inductive Arg
  | trace (i : ℕ)
  | value (v : FloatLike)

/-- the argument as the value model has it -/
def Arg.read (σ : TraceHeap) : Arg → LocPoisson.TraceOr
  | .trace i => .trace (σ.obj i)
  | .value v => .value v

/-- polynomial part and trace of the harmonic part (local_poisson.py L124-132) -/
def parts (s : Solver) (laplacian : Poly ℝ) (trace : LocPoisson.TraceOr) : Py (LocPoly × Trace) := do
  let K := s.ops.K
  let P ← laplacian.antiLaplacian
  let p ← LocPoly.init P (some K)
  let t ← (match trace with
    | .trace t => .ok t
    | .value .other => .error .attributeError
    | .value v => Trace.init K.getEdges (values := some (.one v)) : Py Trace)
  let a ← attr t.values
  let pt ← attr p.trace
  let b ← attr pt.values
  let d ← Np.sub a b
  let ht ← Trace.init K.getEdges (values := some (.one (.arr d)))
  .ok (p, ht)

/-- `__init__` (local_poisson.py L88-135) -/
def init (gmres : Gmres) (nyst : Option Solver) (laplacian : Poly ℝ) (trace : Arg) (evalInt evalGrad : Bool) (σ : TraceHeap) :
    TraceHeap × Py PoissonRef :=
  match nyst with
  | none => (σ, .ok {})
  | some s =>
    match parts s laplacian (trace.read σ) with
    | .error r => (σ, .error r)
    | .ok (p, ht) =>
      match HarmRef.init gmres σ.next (some s) (σ.alloc ht) with
      | (σ, .error r) => (σ, .error r)
      | (σ, .ok h) =>
        if evalInt || evalGrad then
          match LocPoisson.computeInterior { cell := some s.ops.K, poly := some p, harm := some (h.read σ) } evalGrad with
          | .error r => (σ, .error r)
          | .ok f => (σ, .ok ⟨f.cell, f.poly, some h, f.intVals, f.intGrad1, f.intGrad2⟩)
        else (σ, .ok { cell := some s.ops.K, poly := some p, harm := some h })

end PoissonRef

/-- what a program does with traces and functions: make a trace (also as the result of an operator), call a method that changes a trace, make a
harmonic function from a trace object, make a local Poisson function -/
inductive TraceOp
  | new (t : Trace)
  | method (i : ℕ) (f : Trace → Trace)
  | harmonic (i : ℕ) (nyst : Option Solver)
  | poisson (nyst : Option Solver) (laplacian : Poly ℝ) (trace : PoissonRef.Arg) (evalInt evalGrad : Bool)

namespace TraceOp

/-- the trace objects afterwards; if a constructor raises, the program goes on -/
def run (gmres : Gmres) (σ : TraceHeap) : TraceOp → TraceHeap
  | new t => σ.alloc t
  | method i f => σ.put i (f (σ.obj i))
  | harmonic i nyst => (HarmRef.init gmres i nyst σ).1
  | poisson nyst laplacian trace ei eg => (PoissonRef.init gmres nyst laplacian trace ei eg σ).1

/-- the operation changes the object `k` -/
def touches (k : ℕ) : TraceOp → Prop
  | new _ => False
  | method i _ => i = k
  | harmonic i _ => i = k
  | poisson .. => False

end TraceOp

end
end PFEM
