import Verif.Model.Plot
import Verif.Model.SolverG

/-!
Model of the constructor of `GlobalFunctionPlot` (`/repo/puncturedfem/plot/globfun_plot.py` L52-104).
-/

namespace PFEM
namespace Plot

/-- what may be passed as `coef`: nothing, an array with its shape and its entries in row-major order, or something else -/
inductive CoefArg
  | none
  | array (shape : List ℕ) (data : List ℝ)
  | other

/-- `set_coefficients` (globfun_plot.py L83-104): `soln` is the attribute of the solver, a vector if it is set -/
def setCoefficients (soln : Option (List ℝ)) (numFuns : ℕ) (coef : CoefArg) : Py (List ℝ) := do
  let coef ← match coef with
    | .none =>
      match soln with
      | Option.none => .error .attributeError
      | some u => .ok (CoefArg.array [u.length] u)
    | c => .ok c
  match coef with
  | .array shape data => if shape ≠ [numFuns] then .error .valueError else .ok data
  | _ => .error .typeError

/-- `__init__` (globfun_plot.py L52-69); `set_solver` checks a type only -/
noncomputable def globalPlot (E : SolverG.Env) (S : SolverG.State) (coef : CoefArg) (cells : List ℤ) :
    Py (List ℝ × List LocPoisson × Ranges) := do
  let c ← setCoefficients S.soln S.space.numFuns coef
  let r ← buildGlobal (fun i => SolverG.linearCombo E S i c) cells
  .ok (c, r)

end Plot
end PFEM
