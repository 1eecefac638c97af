import Verif.Model.Solver
import Verif.Model.LocSpace

/-!
Model of `/repo/puncturedfem/solver/solver.py` and of `build_local_function_space` of `/repo/puncturedfem/solver/globfunsp.py` with the objects
that stand for local functions (`Model/Solver.lean` has the inner products as parameters).

The parameterized cell is a parameter: `geo` gives for the topological cell the outcome of `mesh_cell.parameterize` (cell.py L299-361, modelled in
`Model/CellGeom.lean`), `perm` the order of its edges afterwards.  The set of vertex indices is enumerated by `ord`, GMRES and `spsolve` are
parameters.  Types are not checked (`set_global_function_space`, `set_bilinear_form`, L113-137).  Printing is left out.
-/

namespace PFEM
namespace SolverG
noncomputable section

open LocSpaceG

/-- what the model leaves open, and the flags `compute_interior_values`, `compute_interior_gradient` -/
structure Env where
  gmres : Nystrom.Gmres
  geo : CellTopo → Bool → Py CellG
  ord : List ℤ → List ℤ
  perm : CellTopo → List ℕ
  evalInt : Bool
  evalGrad : Bool

/-- the loop at the end of `build_local_function_space` (globfunsp.py L197-201), returning the functions with numbered keys -/
def numberLoop (s : GlobFunSp ℝ) (absCell : ℕ) : List Fn → Py (List Fn)
  | [] => .ok []
  | v :: vs => do
    let i ← s.getGlobalIdx v.key absCell
    let key ← v.key.setGlobIdx i
    let b ← s.funIsOnBoundary key
    let rest ← numberLoop s absCell vs
    .ok ({ v with key := { key with onBoundary := some b } } :: rest)

/-- `build_local_function_space` (globfunsp.py L159-202): the space with the keys appended to `cell_dofs`, the parameterized cell, the basis -/
def buildLocal (E : Env) (s : GlobFunSp ℝ) (cell : ℤ) : Py (GlobFunSp ℝ × CellG × List Fn) := do
  let absCell ← s.mesh.getAbsCellIdx cell
  let k ← s.mesh.getCell cell
  let K ← E.geo k (E.evalInt || E.evalGrad)
  let bs ← s.cellEdgeSpaces (E.perm k)
  let fs ← LocSpaceG.basis E.gmres K E.ord s.mesh.store (E.perm k) bs s.deg E.evalInt E.evalGrad
  let fs' ← numberLoop s absCell fs
  .ok ({ s with cellDofs := s.cellDofs.modify absCell (· ++ fs'.map Fn.key) }, K, fs')

/-- `v.key.glob_idx` -/
def glob (v : Fn) : ℕ := v.key.globIdx.getD 0

/-- `_compute_and_set_matrix_values` (solver.py L272-290) -/
def matrixValues (B : BilinForm) (v w : Fn) (sym : Bool) : Py (List (Triplet ℝ)) := do
  let h1 ← v.val.getH1 (.poisson w.val)
  let l2 ← v.val.getL2 (.poisson w.val)
  let aij := B.evalWith h1 l2
  let t : Triplet ℝ := ⟨glob v, glob w, aij, h1, l2⟩
  .ok (if sym then [t, ⟨glob w, glob v, aij, h1, l2⟩] else [t])

/-- the inner loop for `j > i` (solver.py L233-235) -/
def pairLoop (B : BilinForm) (v : Fn) : List Fn → Py (List (Triplet ℝ))
  | [] => .ok []
  | w :: ws => do
    let t ← matrixValues B v w true
    let ts ← pairLoop B v ws
    .ok (t ++ ts)

/-- the double loop over local basis functions (solver.py L229-235): for each `v` the right-hand side (`_set_rhs_values`, L267-270), then the
functions from `v` on -/
def cellValues (B : BilinForm) : List Fn → Py (List (Triplet ℝ) × List (ℕ × ℝ))
  | [] => .ok ([], [])
  | v :: vs => do
    let r ← B.evalRhs v.val
    let d ← matrixValues B v v false
    let t ← pairLoop B v vs
    let (ts, rs) ← cellValues B vs
    .ok (d ++ t ++ ts, (glob v, r) :: rs)

/-- what the loop over the cells accumulates -/
structure Accum where
  space : GlobFunSp ℝ
  triplets : List (Triplet ℝ)
  rhs : List (ℕ × ℝ)
  locSpaces : List (Option (CellG × List Fn))

/-- body of the loop over the cells (solver.py L205-235) -/
def cellStep (E : Env) (B : BilinForm) (acc : Accum) (a : ℕ) : Py Accum := do
  let c ← pyGetZ acc.space.mesh.cellIdxList a
  let (s, K, fs) ← buildLocal E acc.space c
  let (ts, rs) ← cellValues B fs
  .ok { space := s
        triplets := acc.triplets ++ ts
        rhs := acc.rhs ++ rs
        locSpaces := if E.evalInt then acc.locSpaces.set a (some (K, fs)) else acc.locSpaces }

/-- the loop over the cells -/
def cellLoop (E : Env) (B : BilinForm) : List ℕ → Accum → Py Accum
  | [], acc => .ok acc
  | a :: as, acc => do
    let acc' ← cellStep E B acc a
    cellLoop E B as acc'

/-- what assembly leaves in the solver (solver.py L54-70); `soln = none`: attribute not set -/
structure State where
  space : GlobFunSp ℝ
  triplets : List (Triplet ℝ)
  rhs : List (ℕ × ℝ)
  locSpaces : List (Option (CellG × List Fn))
  numFuns : ℕ
  globMat : ℕ → ℕ → ℝ
  globRhs : ℕ → ℝ
  stiffMat : ℕ → ℕ → ℝ
  massMat : ℕ → ℕ → ℝ
  soln : Option (List ℝ)

/-- `assemble` (solver.py L158-184) -/
def assemble (E : Env) (B : BilinForm) (s : GlobFunSp ℝ) (soln : Option (List ℝ)) : Py State := do
  let acc ← cellLoop E B (List.range s.mesh.numCells) ⟨s, [], [], List.replicate s.mesh.numCells none⟩
  let (ts, rhs) := Solver.imposeBc acc.space (acc.triplets, acc.rhs)
  let n := acc.space.numFuns
  Solver.checkIdx n (rhs.map Prod.fst)
  Solver.checkIdx n (ts.map Triplet.row)
  Solver.checkIdx n (ts.map Triplet.col)
  .ok { space := acc.space, triplets := ts, rhs := rhs, locSpaces := acc.locSpaces, numFuns := n,
        globMat := Solver.csr Triplet.a ts, globRhs := Solver.csrRhs rhs,
        stiffMat := Solver.csr Triplet.h1 ts, massMat := Solver.csr Triplet.l2 ts, soln := soln }

/-- `__init__` (solver.py L72-97) -/
def init (E : Env) (B : BilinForm) (s : GlobFunSp ℝ) : Py State := assemble E B s none

/-- `solve` (solver.py L139-141) -/
def solve (spsolve : (ℕ → ℕ → ℝ) → (ℕ → ℝ) → ℕ → List ℝ) (S : State) : State :=
  { S with soln := some (spsolve S.globMat S.globRhs S.numFuns) }

/-- `get_coef_on_mesh_cell` (solver.py L399-417) -/
def getCoef (S : State) (c : ℤ) (u : List ℝ) : Py (List ℝ) := do
  let a ← S.space.mesh.getAbsCellIdx c
  let keys ← pyGetZ S.space.cellDofs a
  keys.mapM fun key => pyGetZ u (key.globIdx.getD 0 : ℕ)

/-- the loop of `compute_linear_combo_on_mesh_cell` (solver.py L392-396); `+=` is `__add__` -/
def comboLoop (coef : List ℝ) : ℕ → LocPoisson → List Fn → Py LocPoisson
  | _, w, [] => .ok w
  | i, w, v :: vs =>
    match coef[i]? with
    | none => .error .indexError
    | some x =>
      if |x| < 1 / 10 ^ 4 then comboLoop coef (i + 1) w vs
      else do
        let t ← v.val.mul (.num x)
        let w ← w.add (.poisson t)
        comboLoop coef (i + 1) w vs

/-- `compute_linear_combo_on_mesh_cell` (solver.py L374-397).  `loc_fun_sp.nyst` is made again here from the cell, which gives the same object. -/
def linearCombo (E : Env) (S : State) (c : ℤ) (u : List ℝ) : Py LocPoisson := do
  let a ← S.space.mesh.getAbsCellIdx c
  match ← pyGetZ S.locSpaces a with
  | none => .error .valueError
  | some (K, fs) => do
    let coef ← getCoef S c u
    let s ← Nystrom.init E.gmres K "fft" "jacobi"
    let w ← LocPoisson.init E.gmres (some s) [] (.value (.num 0)) true true
    comboLoop coef 0 w fs

end
end SolverG
end PFEM
