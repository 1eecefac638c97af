import Verif.Spec.SolverG
import Verif.Spec.LocFun
import Verif.Spec.Nystrom

/-!
Specification vocabulary for linear combinations of basis functions on a cell.
-/

namespace PFEM

/-- the arrays that a local Poisson function stores -/
inductive Item
  | harmValues | harmNormal | harmTangent | psi | conj | logs | biharmValues | biharmNormal
  | polyValues | polyNormal | polyTangent | antilapValues | antilapNormal
  | interior | gradient1 | gradient2

/-- the array; `none`: missing -/
def LocPoisson.item (f : LocPoisson) : Item → Option (List ℝ)
  | .harmValues => f.harm.bind fun h => h.trace.values
  | .harmNormal => f.harm.bind fun h => h.trace.wnd
  | .harmTangent => f.harm.bind fun h => h.trace.wtd
  | .psi => f.harm.bind fun h => h.psi.bind fun t => t.values
  | .conj => f.harm.bind fun h => h.conj.bind fun t => t.values
  | .logs => f.harm.bind fun h => h.logCoef
  | .biharmValues => f.harm.bind fun h => h.biharm.bind fun b => b.bind fun t => t.values
  | .biharmNormal => f.harm.bind fun h => h.biharm.bind fun b => b.bind fun t => t.wnd
  | .polyValues => f.poly.bind fun p => p.trace.bind fun t => t.values
  | .polyNormal => f.poly.bind fun p => p.trace.bind fun t => t.wnd
  | .polyTangent => f.poly.bind fun p => p.trace.bind fun t => t.wtd
  | .antilapValues => f.poly.bind fun p => p.antilapTrace.bind fun t => t.values
  | .antilapNormal => f.poly.bind fun p => p.antilapTrace.bind fun t => t.wnd
  | .interior => f.intVals
  | .gradient1 => f.intGrad1
  | .gradient2 => f.intGrad2

/-- its length: one entry for each hole, interior point or boundary sample -/
def Item.size (K : CellG) : Item → ℕ
  | .logs => K.numHoles
  | .interior | .gradient1 | .gradient2 => K.interior.length
  | _ => K.numPts

/-- one entry; 0 if there is none -/
def LocPoisson.entry (f : LocPoisson) (i : Item) (k : ℕ) : ℝ := ((f.item i).getD []).getD k 0

/-- a local Poisson function on the cell `K` with all its arrays -/
structure LocPoisson.Whole (K : CellG) (f : LocPoisson) : Prop where
  on : f.On K
  items : ∀ i, ∃ v, f.item i = some v ∧ v.length = i.size K

namespace SolverG

/-- the coefficient with which the function number `i` enters a linear combination: coefficients below `1e-4` in magnitude are dropped -/
noncomputable def used (u : List ℝ) (i : ℕ) : ℝ := if |u.getD i 0| < 1 / 10 ^ 4 then 0 else u.getD i 0

/-- GMRES returns vectors of the size of the right-hand side -/
def Sized (gmres : Nystrom.Gmres) : Prop := ∀ A b M x, gmres A b M = .ok x → x.length = b.length

/-- what makes the number of logarithmic coefficients right on cells with holes: an even number of subintervals, and `Sized` -/
def LogsFit (gmres : Nystrom.Gmres) (K : CellG) : Prop := K.numHoles ≠ 0 → K.Even ∧ Sized gmres

/-- the function that a linear combination starts from -/
noncomputable def zeroFn (E : Env) (K : CellG) : Py LocPoisson := do
  let s ← Nystrom.init E.gmres K "fft" "jacobi"
  LocPoisson.init E.gmres (some s) [] (.value (.num 0)) true true

end SolverG
end PFEM
