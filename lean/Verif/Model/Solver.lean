import Mathlib.Algebra.Module.Defs
import Mathlib.Algebra.Order.Group.Unbundled.Abs
import Verif.Model.GlobFunSp

/-!
Model of `/repo/puncturedfem/solver/solver.py` and `/repo/puncturedfem/solver/bilinear_form.py`.

The inner products of local functions (numerical quadrature) enter as arbitrary functions of the cell position and the
local functions.  The five parallel lists of the matrix (`row_idx`, `col_idx`, `mat_vals`, `stiff_vals`,
`mass_vals`; always appended together, solver.py L292-299) are one list of records, `rhs_idx` and `rhs_vals` one list
of pairs.  `glob_idx` of every key is set by `build_local_function_space`, so the unset case is not tracked.
`csr_matrix((vals, (rows, cols)))` adds up duplicates.  `spsolve` is a parameter.  Printing is left out.
-/

namespace PFEM

variable {K : Type} [Field K] [LinearOrder K]

/-- `BilinearForm` (bilinear_form.py L36-66): the constants, and the values of `eval_h1`, `eval_l2`, `eval_rhs`
(L105-134, L164-176) -/
structure WeakForm (K : Type) where
  diffusion : K
  reaction : K
  h1 : ℕ → LocFun K → LocFun K → K
  l2 : ℕ → LocFun K → LocFun K → K
  rhs : ℕ → LocFun K → K

/-- `eval_with_h1_and_l2` (bilinear_form.py L135-147) -/
def WeakForm.eval (F : WeakForm K) (h1 l2 : K) : K := F.diffusion * h1 + F.reaction * l2

/-- one entry of the five lists (solver.py L60-64) -/
structure Triplet (K : Type) where
  row : ℕ
  col : ℕ
  a : K
  h1 : K
  l2 : K

/-- `v.key.glob_idx` -/
def LocFun.glob (v : LocFun K) : ℕ := v.key.globIdx.getD 0

/-- what assembly leaves in the solver (solver.py L54-70); `soln = none`: attribute not set -/
structure Solver (K : Type) where
  space : GlobFunSp K
  triplets : List (Triplet K)
  rhs : List (ℕ × K)
  locSpaces : List (Option (List (LocFun K)))
  numFuns : ℕ
  globMat : ℕ → ℕ → K
  globRhs : ℕ → K
  stiffMat : ℕ → ℕ → K
  massMat : ℕ → ℕ → K
  soln : Option (List K)

namespace Solver

/-- `_compute_and_set_matrix_values` (solver.py L272-290) -/
def matrixValues (F : WeakForm K) (a : ℕ) (v w : LocFun K) (sym : Bool) : List (Triplet K) :=
  let h1 := F.h1 a v w
  let l2 := F.l2 a v w
  let aij := F.eval h1 l2
  let t : Triplet K := ⟨v.glob, w.glob, aij, h1, l2⟩
  if sym then [t, ⟨w.glob, v.glob, aij, h1, l2⟩] else [t]

/-- the double loop over local basis functions (solver.py L229-235): for each `v` the functions from `v` on -/
def cellTriplets (F : WeakForm K) (a : ℕ) : List (LocFun K) → List (Triplet K)
  | [] => []
  | v :: vs => matrixValues F a v v false ++ vs.flatMap (fun w => matrixValues F a v w true) ++ cellTriplets F a vs

/-- `_set_rhs_values` for all local functions (solver.py L267-270) -/
def cellRhs (F : WeakForm K) (a : ℕ) (fs : List (LocFun K)) : List (ℕ × K) := fs.map fun v => (v.glob, F.rhs a v)

/-- what the loop over the cells accumulates -/
structure Accum (K : Type) where
  space : GlobFunSp K
  triplets : List (Triplet K)
  rhs : List (ℕ × K)
  locSpaces : List (Option (List (LocFun K)))

/-- body of the loop over the cells (solver.py L205-235) -/
def cellStep (ord : List ℤ → List ℤ) (perm : CellTopo → List ℕ) (F : WeakForm K) (interior : Bool) (acc : Accum K)
    (a : ℕ) : Py (Accum K) := do
  let c ← pyGetZ acc.space.mesh.cellIdxList a
  let (s, fs) ← acc.space.buildLocal ord perm c
  .ok { space := s
        triplets := acc.triplets ++ cellTriplets F a fs
        rhs := acc.rhs ++ cellRhs F a fs
        locSpaces := if interior then acc.locSpaces.set a (some fs) else acc.locSpaces }

/-- the loop over the cells -/
def cellLoop (ord : List ℤ → List ℤ) (perm : CellTopo → List ℕ) (F : WeakForm K) (interior : Bool) :
    List ℕ → Accum K → Py (Accum K)
  | [], acc => .ok acc
  | a :: as, acc => do
    let acc' ← cellStep ord perm F interior acc a
    cellLoop ord perm F interior as acc'

/-- `_set_rhs_from_key(key, 0.0)` (solver.py L308-311) -/
def zeroRhs (g : ℕ) (rhs : List (ℕ × K)) : List (ℕ × K) := rhs.map fun r => if r.1 = g then (r.1, 0) else r

/-- `_zero_mat_row` (solver.py L313-320): only `mat_vals` changes -/
def zeroRow (g : ℕ) (ts : List (Triplet K)) : List (Triplet K) :=
  ts.map fun t => if t.row = g then (if t.col = g then { t with a := 1 } else { t with a := 0 }) else t

/-- one key of `_impose_zero_dirichlet_bc` (solver.py L303-306) -/
def bcStep (st : List (Triplet K) × List (ℕ × K)) (key : GlobalKey) : List (Triplet K) × List (ℕ × K) :=
  if key.onBoundary = some true then (zeroRow (key.globIdx.getD 0) st.1, zeroRhs (key.globIdx.getD 0) st.2) else st

/-- `_impose_zero_dirichlet_bc` (solver.py L301-306); the loop runs over `cell_dofs[0..num_cells-1]` -/
def imposeBc (s : GlobFunSp K) (st : List (Triplet K) × List (ℕ × K)) : List (Triplet K) × List (ℕ × K) :=
  (List.range s.mesh.numCells).foldl (fun st a => (s.cellDofs.getD a []).foldl bcStep st) st

/-- `_check_indices_do_not_exceed_num_funs` (solver.py L331-338); `max([])` raises `ValueError` -/
def checkIdx (n : ℕ) (l : List ℕ) : Py Unit :=
  match l.max? with
  | none => .error .valueError
  | some size => if n ≤ size then .error .valueError else .ok ()

/-- `csr_matrix` from triplets: duplicates are added (solver.py L340-370) -/
def csr (val : Triplet K → K) (ts : List (Triplet K)) (i j : ℕ) : K :=
  ((ts.filter fun t => decide (t.row = i ∧ t.col = j)).map val).sum

/-- the right-hand side vector (solver.py L345-348) -/
def csrRhs (rhs : List (ℕ × K)) (i : ℕ) : K := ((rhs.filter fun r => decide (r.1 = i)).map Prod.snd).sum

/-- `assemble` (solver.py L158-184) with `_build_values_and_indexes` (L186-238) and `_initialize_linear_system_arrays`
(L240-250); `soln` is left as it was -/
def assemble (ord : List ℤ → List ℤ) (perm : CellTopo → List ℕ) (F : WeakForm K) (interior : Bool) (s : GlobFunSp K)
    (soln : Option (List K)) : Py (Solver K) := do
  let acc ← cellLoop ord perm F interior (List.range s.mesh.numCells)
    ⟨s, [], [], List.replicate s.mesh.numCells none⟩
  let (ts, rhs) := imposeBc acc.space (acc.triplets, acc.rhs)
  let n := acc.space.numFuns
  checkIdx n (rhs.map Prod.fst)
  checkIdx n (ts.map Triplet.row)
  checkIdx n (ts.map Triplet.col)
  .ok { space := acc.space, triplets := ts, rhs := rhs, locSpaces := acc.locSpaces, numFuns := n,
        globMat := csr Triplet.a ts, globRhs := csrRhs rhs,
        stiffMat := csr Triplet.h1 ts, massMat := csr Triplet.l2 ts, soln := soln }

/-- `__init__` (solver.py L72-97): `soln` is only annotated in the class body, so the attribute does not exist -/
def init (ord : List ℤ → List ℤ) (perm : CellTopo → List ℕ) (F : WeakForm K) (interior : Bool) (s : GlobFunSp K) :
    Py (Solver K) := assemble ord perm F interior s none

/-- `solve` (solver.py L139-141) -/
def solve (spsolve : (ℕ → ℕ → K) → (ℕ → K) → ℕ → List K) (S : Solver K) : Solver K :=
  { S with soln := some (spsolve S.globMat S.globRhs S.numFuns) }

/-- `get_solution` (solver.py L143-154): reading `self.soln` raises `AttributeError` while the attribute does not exist;
it is never `None`, so the branch that solves is not reachable -/
def getSolution (S : Solver K) : Py (List K) :=
  match S.soln with
  | none => .error .attributeError
  | some x => .ok x

/-- `get_coef_on_mesh_cell` (solver.py L399-417) -/
def getCoef (S : Solver K) (c : ℤ) (u : List K) : Py (List K) := do
  let a ← S.space.mesh.getAbsCellIdx c
  let keys ← pyGetZ S.space.cellDofs a
  keys.mapM fun key => pyGetZ u (key.globIdx.getD 0 : ℕ)

/-- the loop of `compute_linear_combo_on_mesh_cell` (solver.py L392-396); `val v` is the local function as an element
of the vector space of local functions -/
def comboLoop {M : Type} [AddCommGroup M] [Module K M] (val : LocFun K → M) (coef : List K) :
    ℕ → M → List (LocFun K) → Py M
  | _, w, [] => .ok w
  | i, w, v :: vs =>
    match coef[i]? with
    | none => .error .indexError
    | some x => comboLoop val coef (i + 1) (if |x| < 1 / 10 ^ 4 then w else w + x • val v) vs

/-- `compute_linear_combo_on_mesh_cell` (solver.py L374-397) -/
def linearCombo {M : Type} [AddCommGroup M] [Module K M] (val : LocFun K → M) (S : Solver K) (c : ℤ) (u : List K) :
    Py M := do
  let a ← S.space.mesh.getAbsCellIdx c
  match ← pyGetZ S.locSpaces a with
  | none => .error .valueError
  | some fs => do
    let coef ← S.getCoef c u
    comboLoop val coef 0 0 fs

end Solver
end PFEM
