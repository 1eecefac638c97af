import Verif.Spec.LocFun

/-!
Specification vocabulary for inner products of local functions.
-/

namespace PFEM

/-- a local harmonic function with all its attributes and normal derivatives -/
structure LocHarm.Full (es : List EdgeG) (m : ℕ) (h : LocHarm) : Prop extends h.On es m where
  wnd : ∃ a, h.trace.wnd = some a
  bwnd : ∃ b a, h.biharm = some (some b) ∧ b.wnd = some a

/-- a local polynomial with all its attributes and the normal derivative of its anti-Laplacian -/
structure LocPoly.Full (es : List EdgeG) (p : LocPoly) : Prop extends p.On es where
  awnd : ∃ b a, p.antilapTrace = some b ∧ b.wnd = some a

/-- a local Poisson function on `K` with complete parts -/
structure LocPoisson.Full (K : CellG) (f : LocPoisson) : Prop where
  cell : f.cell = some K
  poly : ∃ p, f.poly = some p ∧ p.Full K.getEdges
  harm : ∃ h, f.harm = some h ∧ h.Full K.getEdges K.numHoles

namespace Obj

/-- a complete local function on `K` of any kind -/
def Full (K : CellG) : Obj → Prop
  | harm h => h.Full K.getEdges K.numHoles
  | poly p => p.Full K.getEdges
  | poisson f => f.Full K
  | _ => False

/-- all polynomials of a local function -/
def polys : Obj → List (Poly ℝ)
  | poly p => p.polys
  | poisson f => f.polys
  | _ => []

/-- `r` is `a u + b v`, for local functions of one kind -/
inductive Comb (a b : ℝ) : Obj → Obj → Obj → Prop
  | harm {h k r} : LocHarm.Comb a b h k r → Comb a b (.harm h) (.harm k) (.harm r)
  | poly {p q r} : LocPoly.Comb (PolyComb a b) a b p q r → Comb a b (.poly p) (.poly q) (.poly r)
  | poisson {f g r} : LocPoisson.Comb (PolyComb a b) a b f g r → Comb a b (.poisson f) (.poisson g) (.poisson r)

/-- a harmonic function or a polynomial -/
def IsPart : Obj → Prop
  | harm _ | poly _ => True
  | _ => False

end Obj

/-- three computations succeed, and the third result is `a` times the first plus `b` times the second -/
def Linear (a b : ℝ) (x y z : Py ℝ) : Prop := ∃ I J, x = .ok I ∧ y = .ok J ∧ z = .ok (a * I + b * J)

/-- the arrays of a harmonic function: values, normal derivative, and those of its anti-Laplacian -/
structure HarmArrays (K : CellG) (h : LocHarm) (v n V N : List ℝ) : Prop where
  ev : h.trace.values = some v
  en : h.trace.wnd = some n
  eB : ∃ b, h.biharm = some (some b) ∧ b.values = some V ∧ b.wnd = some N
  vl : v.length = K.numPts
  nl : n.length = K.numPts
  Vl : V.length = K.numPts
  Nl : N.length = K.numPts

/-- the arrays of a polynomial: values, and those of its anti-Laplacian -/
structure PolyArrays (K : CellG) (p : LocPoly) (v V N : List ℝ) (g1 g2 : Poly ℝ) : Prop where
  ev : ∃ t, p.trace = some t ∧ t.values = some v
  eB : ∃ b, p.antilapTrace = some b ∧ b.values = some V ∧ b.wnd = some N
  e1 : p.grad1 = some g1
  e2 : p.grad2 = some g2
  vl : v.length = K.numPts
  Vl : V.length = K.numPts
  Nl : N.length = K.numPts

/-- the boundary integral of the product of two data vectors, one of them with the weighted speed included, is `I` -/
def Integral (K : CellG) (u v : List ℝ) (I : ℝ) : Prop := ∃ p, Np.mul u v = .ok p ∧ K.integratePreweighted p = .ok I

end PFEM
