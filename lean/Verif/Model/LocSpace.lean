import Verif.Model.GlobFunSp
import Verif.Model.LocFun

/-!
Model of `LocalPoissonSpace` (`/repo/puncturedfem/locfun/local_space.py`) with the numerical objects of its basis, and of
`BilinearForm` (`/repo/puncturedfem/solver/bilinear_form.py`) on such objects.

* `GlobFunSp.lean` models the same class with a local function reduced to its key, its trace polynomials and the number of its Laplacian
  monomial; here each function is the `LocalPoissonFunction` object that the code constructs.
* The edge objects behind the sampled edges of the cell (their numbers, vertices, and whether they are loops) are those of the mesh: `st` is
  the store of edge objects and `edges` lists the objects in the order of `K.get_edges()`.
* The iteration order of the Python set of vertex numbers is the parameter `ord`; GMRES is a parameter.
* Progress bars, `verbose` and the default for missing edge spaces (L106-109) are left out.
* Numpy divides by zero without raising; a cell of area zero is `ZeroDivisionError` here.
-/

namespace PFEM

/-- `np.mean` of an array; the mean of no numbers (NaN in numpy) is `ZeroDivisionError` here -/
noncomputable def Np.mean (a : List ℝ) : Py ℝ := if a.length = 0 then .error .zeroDivision else .ok (a.sum / a.length)

namespace LocSpaceG
open Nystrom (Gmres)

noncomputable section

/-- `_build_centroid` (local_space.py L147-151) -/
def centroid (K : CellG) : Py (ℝ × ℝ) := do
  let (x1, x2) ← K.getBoundaryPoints
  let c1 ← Np.mean x1
  let c2 ← Np.mean x2
  .ok (c1, c2)

/-- `_find_area` (local_space.py L153-156) -/
def area (K : CellG) : Py ℝ := do
  let (x1, x2) ← K.getBoundaryPoints
  let xn ← K.dotWithNormal x1 x2
  let s ← K.integrate xn
  .ok (0.5 * s)

/-- `_build_centered_monomial` (local_space.py L203-209) -/
def centeredMonomial (c : ℝ × ℝ) (area : ℝ) (idx : ℤ) : Py (Poly ℝ) := do
  let x ← Poly.set [((1 : ℝ), 1, 0)]
  let m1 ← Poly.subScalar x c.1
  let y ← Poly.set [((1 : ℝ), 0, 1)]
  let m2 ← Poly.subScalar y c.2
  if area = 0 then .error .zeroDivision
  else do
    let p ← Poly.addMonomialWithIdx [] (-1 / area ^ 2) idx
    p.compose m1 m2

/-- a local Poisson function with its key -/
structure Fn where
  key : GlobalKey
  val : LocPoisson

/-- what the constructor has set up before the functions are built -/
structure Ctx where
  gmres : Gmres
  nyst : Nystrom.Solver
  centroid : ℝ × ℝ
  area : ℝ
  evalInt : Bool
  evalGrad : Bool

/-- `nyst.K` -/
def Ctx.K (x : Ctx) : CellG := x.nyst.ops.K

/-- the body of the loop of `_build_bubb_funs` (local_space.py L190-201); no trace is given, the default is 0 -/
def bubbFun (x : Ctx) (k : ℕ) : Py Fn := do
  let p ← centeredMonomial x.centroid x.area k
  let v ← LocPoisson.init x.gmres (some x.nyst) p (.value (.num 0)) x.evalInt x.evalGrad
  .ok ⟨.ofBubb (k : ℤ), v⟩

/-- `_build_bubb_funs` (local_space.py L176-201) -/
def bubbFuns (x : Ctx) (deg : ℕ) : Py (List Fn) :=
  if deg < 2 then .ok [] else ContourG.mapPy (bubbFun x) (List.range ((deg * (deg - 1)) / 2))

/-- the zero trace that the vertex and edge functions start from (local_space.py L239-241, L276-279) -/
def zeroTrace (x : Ctx) : Py Trace := Trace.init x.K.getEdges (funcs := some (.one (.call 2 fun _ _ => 0)))

/-- the loop over the vertex functions of one edge space (local_space.py L243-247); `j` is the place of the edge space, `k` the loop variable -/
def vertOn (st : EdgeStore ℝ) (v : ℤ) (b : EdgeSpace ℝ) (j : ℕ) : ℕ → Trace → List (Poly ℝ) → Py Trace
  | _, t, [] => .ok t
  | k, t, p :: ps =>
    match (b.vertKeys st)[k]? with
    | none => .error .indexError
    | some key =>
      if key.vertIdx = v then do
        let t ← Trace.after (t.setPolyOnEdge (j : ℤ) (.poly p.eval))
        vertOn st v b j (k + 1) t ps
      else vertOn st v b j (k + 1) t ps

/-- the loop over the edge spaces (local_space.py L242-247) -/
def vertTrace (st : EdgeStore ℝ) (v : ℤ) : ℕ → Trace → List (EdgeSpace ℝ) → Py Trace
  | _, t, [] => .ok t
  | j, t, b :: bs => do
    let t ← vertOn st v b j 0 t b.vertTraces
    vertTrace st v (j + 1) t bs

/-- the body of the loop over the vertex keys (local_space.py L238-255) -/
def vertFun (x : Ctx) (st : EdgeStore ℝ) (bs : List (EdgeSpace ℝ)) (v : ℤ) : Py Fn := do
  let t ← zeroTrace x
  let t ← vertTrace st v 0 t bs
  let f ← LocPoisson.init x.gmres (some x.nyst) [] (.trace t) x.evalInt x.evalGrad
  .ok ⟨.ofVert v, f⟩

/-- `_build_vert_funs` (local_space.py L211-255) -/
def vertFuns (x : Ctx) (ord : List ℤ → List ℤ) (st : EdgeStore ℝ) (edges : List ℕ) (bs : List (EdgeSpace ℝ)) : Py (List Fn) :=
  ContourG.mapPy (vertFun x st bs) (ord (LocSpace.vertIdxs st edges))

/-- the body of the loop over the edge functions of one edge (local_space.py L275-292); `pos` is `edge_idx` -/
def edgeFun (x : Ctx) (pos : ℕ) (key : GlobalKey) (p : Poly ℝ) : Py Fn := do
  let t ← zeroTrace x
  let t ← Trace.after (t.setPolyOnEdge (pos : ℤ) (.poly p.eval))
  let f ← LocPoisson.init x.gmres (some x.nyst) [] (.trace t) x.evalInt x.evalGrad
  .ok ⟨key, f⟩

/-- the loop over the edge functions of one edge (local_space.py L274-292); keys and traces are lists of the same length -/
def edgeOn (x : Ctx) (pos : ℕ) : List (GlobalKey × Poly ℝ) → Py (List Fn)
  | [] => .ok []
  | (key, p) :: l => do
    let f ← edgeFun x pos key p
    let fs ← edgeOn x pos l
    .ok (f :: fs)

/-- `_build_edge_funs` (local_space.py L257-292) -/
def edgeFuns (x : Ctx) (st : EdgeStore ℝ) (edges : List ℕ) : List (EdgeSpace ℝ) → Py (List Fn)
  | [] => .ok []
  | b :: bs => do
    let pos ← pyIndexOf (edges.map fun e => (st e).idx) (st b.edge).idx
    let fs ← edgeOn x pos ((b.edgeKeys st).zip b.edgeTraces)
    let rest ← edgeFuns x st edges bs
    .ok (fs ++ rest)

/-- `__init__` (local_space.py L75-116) with `_build_basis` (L166-174), and `get_basis` (L136-145) -/
def basis (gmres : Gmres) (K : CellG) (ord : List ℤ → List ℤ) (st : EdgeStore ℝ) (edges : List ℕ) (bs : List (EdgeSpace ℝ)) (deg : ℤ)
    (evalInt evalGrad : Bool) : Py (List Fn) :=
  if deg < 1 then .error .valueError
  else do
    let c ← centroid K
    let a ← area K
    let s ← Nystrom.init gmres K "fft" "jacobi"
    let x : Ctx := ⟨gmres, s, c, a, evalInt, evalGrad⟩
    let bubb ← bubbFuns x deg.toNat
    let vert ← vertFuns x ord st edges bs
    let edge ← edgeFuns x st edges bs
    .ok (vert ++ edge ++ bubb)

end

end LocSpaceG

/-! ### the bilinear form -/

/-- `BilinearForm` (bilinear_form.py L36-66) -/
structure BilinForm where
  diffusion : ℝ
  reaction : ℝ
  rhsPoly : Poly ℝ

namespace BilinForm

/-- `eval_with_h1_and_l2` (bilinear_form.py L135-147) -/
def evalWith (F : BilinForm) (h1 l2 : ℝ) : ℝ := F.diffusion * h1 + F.reaction * l2

/-- `eval` (bilinear_form.py L149-162) -/
noncomputable def eval (F : BilinForm) (u v : LocPoisson) : Py ℝ := do
  let h1 ← u.getH1 (.poisson v)
  let l2 ← u.getL2 (.poisson v)
  .ok (F.evalWith h1 l2)

/-- `eval_rhs` (bilinear_form.py L164-176) -/
noncomputable def evalRhs (F : BilinForm) (v : LocPoisson) : Py ℝ := do
  let K ← Trace.attr v.cell
  let f ← LocPoly.init F.rhsPoly (some K)
  v.getL2 (.poly f)

end BilinForm
end PFEM
