import Verif.Model.LocFun
import Verif.Spec.Trace
import Verif.Spec.Poly

/-!
Specification vocabulary for local functions: complete objects on a cell, and linear combinations of everything an object stores.
-/

namespace PFEM

/-- a trace on the given edges that has values -/
structure Trace.On (es : List EdgeG) (t : Trace) : Prop where
  good : t.Good
  edges : t.edges = es
  values : ∃ a, t.values = some a

/-- a local polynomial with all its attributes, its traces on the given edges -/
structure LocPoly.On (es : List EdgeG) (p : LocPoly) : Prop where
  trace : ∃ t, p.trace = some t ∧ t.On es
  grad1 : ∃ q, p.grad1 = some q
  grad2 : ∃ q, p.grad2 = some q
  antilap : ∃ q, p.antilap = some q
  antilapTrace : ∃ t, p.antilapTrace = some t ∧ t.On es

/-- a local harmonic function with all its attributes, its traces on the given edges, and `m` logarithmic coefficients -/
structure LocHarm.On (es : List EdgeG) (m : ℕ) (h : LocHarm) : Prop where
  trace : h.trace.On es
  psi : ∃ t, h.psi = some t ∧ t.On es
  conj : ∃ t, h.conj = some t ∧ t.On es
  logCoef : ∃ a, h.logCoef = some a ∧ a.length = m
  biharm : ∃ t, h.biharm = some (some t) ∧ t.On es

/-- a local Poisson function on the cell `K` with all its attributes; interior values may be missing -/
structure LocPoisson.On (K : CellG) (f : LocPoisson) : Prop where
  cell : f.cell = some K
  poly : ∃ p, f.poly = some p ∧ p.On K.getEdges
  harm : ∃ h, f.harm = some h ∧ h.On K.getEdges K.numHoles
  intVals : ∀ v, f.intVals = some v → v.length = K.interior.length
  intGrad1 : ∀ v, f.intGrad1 = some v → v.length = K.interior.length
  intGrad2 : ∀ v, f.intGrad2 = some v → v.length = K.interior.length

/-- the array `a u + b v`; present if `u` and `v` are -/
def combOpt (a b : ℝ) : Option (List ℝ) → Option (List ℝ) → Option (List ℝ)
  | some u, some v => some (List.zipWith (fun x y => a * x + b * y) u v)
  | _, _ => none

/-- the attributes `x`, `y`, `z` are present and related -/
def Related {α : Type} (R : α → α → α → Prop) (x y z : Option α) : Prop :=
  ∃ u v w, x = some u ∧ y = some v ∧ z = some w ∧ R u v w

/-- `r` is `a t + b s`: its values are, and so are those derivatives that `t` and `s` both have -/
structure Trace.Comb (a b : ℝ) (t s r : Trace) : Prop where
  edges : r.edges = t.edges
  values : r.values = combOpt a b t.values s.values
  wnd : r.wnd = combOpt a b t.wnd s.wnd
  wtd : r.wtd = combOpt a b t.wtd s.wtd

/-- `r` is `a p + b q`, all attributes at once: traces entry by entry, polynomials in the sense of `R` -/
structure LocPoly.Comb (R : Poly ℝ → Poly ℝ → Poly ℝ → Prop) (a b : ℝ) (p q r : LocPoly) : Prop where
  exact : R p.exact q.exact r.exact
  trace : Related (Trace.Comb a b) p.trace q.trace r.trace
  grad1 : Related R p.grad1 q.grad1 r.grad1
  grad2 : Related R p.grad2 q.grad2 r.grad2
  antilap : Related R p.antilap q.antilap r.antilap
  antilapTrace : Related (Trace.Comb a b) p.antilapTrace q.antilapTrace r.antilapTrace

/-- `r` is `a h + b k`, all attributes at once -/
structure LocHarm.Comb (a b : ℝ) (h k r : LocHarm) : Prop where
  trace : Trace.Comb a b h.trace k.trace r.trace
  psi : Related (Trace.Comb a b) h.psi k.psi r.psi
  conj : Related (Trace.Comb a b) h.conj k.conj r.conj
  logCoef : r.logCoef = combOpt a b h.logCoef k.logCoef
  biharm : Related (Related (Trace.Comb a b)) h.biharm k.biharm r.biharm

/-- `r` is `a f + b g`, all attributes at once; interior data are present if both have them -/
structure LocPoisson.Comb (R : Poly ℝ → Poly ℝ → Poly ℝ → Prop) (a b : ℝ) (f g r : LocPoisson) : Prop where
  cell : r.cell = f.cell
  poly : Related (LocPoly.Comb R a b) f.poly g.poly r.poly
  harm : Related (LocHarm.Comb a b) f.harm g.harm r.harm
  intVals : r.intVals = combOpt a b f.intVals g.intVals
  intGrad1 : r.intGrad1 = combOpt a b f.intGrad1 g.intGrad1
  intGrad2 : r.intGrad2 = combOpt a b f.intGrad2 g.intGrad2

/-- as functions, `r = a p + b q` -/
def PolyComb (a b : ℝ) (p q r : Poly ℝ) : Prop := ∀ x y, r.eval x y = a * p.eval x y + b * q.eval x y

/-- … up to `1e-12` per monomial -/
def PolyNear (a b : ℝ) (p q r : Poly ℝ) : Prop :=
  ∀ x y B, p.MonoBound x y B → q.MonoBound x y B →
    |r.eval x y - (a * p.eval x y + b * q.eval x y)| ≤ ((p.length + q.length : ℕ) : ℝ) * (1 / 10 ^ 12) * B

/-- all polynomials of a local polynomial -/
def LocPoly.polys (p : LocPoly) : List (Poly ℝ) :=
  p.exact :: (p.grad1.toList ++ p.grad2.toList ++ p.antilap.toList)

/-- all polynomials of a local Poisson function -/
def LocPoisson.polys (f : LocPoisson) : List (Poly ℝ) := (f.poly.map LocPoly.polys).getD []

end PFEM
