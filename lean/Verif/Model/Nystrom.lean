import Mathlib.Analysis.SpecialFunctions.Log.Basic
import Verif.Model.CellGeom
import Verif.Model.Fft
import Verif.Model.Trace

/-!
Model of `NystromSolver` (`/repo/puncturedfem/locfun/nystrom.py`).

* A two-dimensional array is its shape and its entries (`Mat`).
* `Edge` has no `__eq__`, so `e == f` (L602, L718) asks whether the two are one object.  The edges of a cell are different
  objects, so the model asks whether they stand at the same place.
* `np.log(0)` and divisions by zero make the blocks raise `ZeroDivisionError` (L619-620, L741-742); the model raises it at the
  entry.  NaN in the samples is not modelled.
* The functions compiled by numba read arrays without a test of the index; the model answers `IndexError` where they would read
  outside.
* GMRES of scipy is a parameter.  Messages, the condition number and `verbose`/`debug` are left out.
-/

namespace PFEM

/-- a two-dimensional array -/
structure Mat where
  rows : ℕ
  cols : ℕ
  at' : ℕ → ℕ → ℝ

namespace Mat

/-- `np.zeros((r, c))` -/
def zeros (r c : ℕ) : Mat := ⟨r, c, fun _ _ => 0⟩

/-- `M[i, j] = v` -/
def set (M : Mat) (i j : ℕ) (v : ℝ) : Py Mat :=
  if i < M.rows ∧ j < M.cols then .ok { M with at' := fun a b => if a = i ∧ b = j then v else M.at' a b }
  else .error .indexError

/-- `M[i, j]` -/
def get (M : Mat) (i j : ℕ) : Py ℝ := if i < M.rows ∧ j < M.cols then .ok (M.at' i j) else .error .indexError

/-- `M[r1:r2, c1:c2] = B`, `ValueError` if the shapes differ (broadcasting of a block with a single row or column is left
out) -/
def setBlock (M : Mat) (r1 r2 c1 c2 : ℕ) (B : Mat) : Py Mat :=
  if B.rows = min r2 M.rows - r1 ∧ B.cols = min c2 M.cols - c1 then
    .ok { M with at' := fun a b => if r1 ≤ a ∧ a < r2 ∧ c1 ≤ b ∧ b < c2 then B.at' (a - r1) (b - c1) else M.at' a b }
  else .error .valueError

/-- `M @ u` -/
def mulVec (M : Mat) (u : List ℝ) : Py (List ℝ) :=
  if u.length ≠ M.cols then .error .valueError
  else .ok ((List.range M.rows).map fun i => (List.zipWith (fun j x => M.at' i j * x) (List.range M.cols) u).sum)

/-- `np.sum(M, 1)` -/
def rowSums (M : Mat) : List ℝ := (List.range M.rows).map fun i => ((List.range M.cols).map (M.at' i)).sum

end Mat

namespace Nystrom

/-- the loops `for i in range(n): for j in range(j0, m)` -/
def pairs (n j0 m : ℕ) : List (ℕ × ℕ) := (List.range n).flatMap fun i => (List.range' j0 (m - j0)).map fun j => (i, j)

/-- `np.dot(xy, xy)` with `xy = x[:, i] - y[:, j]` -/
def dist2 (s t : Sample) : ℝ := (s.x - t.x) * (s.x - t.x) + (s.y - t.y) * (s.y - t.y)

/-- `f.quad_type[0:5] == "kress"` (nystrom.py L597-600, L712-715) -/
def jStart (f : EdgeG) : ℕ := if f.quadType.toList.take 5 = "kress".toList then 1 else 0

/-! ### blocks of two edges -/

/-- body of the loops of `_single_layer_same_edge_block` (nystrom.py L773-784) -/
noncomputable def singleSameStep (l : List Sample) (h : ℝ) (wgt sn : List ℝ) (B : Mat) (p : ℕ × ℕ) : Py Mat := do
  let (i, j) := p
  let ij := i - j + (j - i)
  let m ← Np.get sn ij
  let si ← Np.get l i
  let sj ← Np.get l j
  let B ← (if m < 1 / 10 ^ 14 then
      if si.dxNorm < 1 / 10 ^ 14 then B.set i i 0
      else if sj.dxNorm = 0 then .error .zeroDivision
      else B.set i i (2 * Real.log sj.dxNorm)
    else
      let xy2 := dist2 si sj
      if xy2 / m = 0 then .error .zeroDivision else B.set i j (Real.log (xy2 / m)))
  let b ← B.get i j
  let B ← B.set i j (b * h)
  let b ← B.get i j
  let w ← Np.get wgt ij
  B.set i j (b + w)

/-- `_single_layer_same_edge_block` (nystrom.py L760-785) -/
noncomputable def singleSame (n j0 : ℕ) (h : ℝ) (l : List Sample) (wgt sn : List ℝ) : Py Mat :=
  (pairs (n - 1) j0 (n - 1)).foldlM (singleSameStep l h wgt sn) (Mat.zeros (n - 1) (n - 1))

/-- body of the loops of `_single_layer_distinct_edge_block` (nystrom.py L800-802) -/
noncomputable def singleDistinctStep (le lf : List Sample) (h : ℝ) (B : Mat) (p : ℕ × ℕ) : Py Mat := do
  let (i, j) := p
  let s ← Np.get le i
  let t ← Np.get lf j
  let xy2 := dist2 s t
  if xy2 = 0 then .error .zeroDivision else B.set i j (Real.log xy2 * h)

/-- `_single_layer_distinct_edge_block` (nystrom.py L788-803) -/
noncomputable def singleDistinct (ne nf : ℕ) (h : ℝ) (le lf : List Sample) (j0 : ℕ) : Py Mat :=
  (pairs (ne - 1) j0 (nf - 1)).foldlM (singleDistinctStep le lf h) (Mat.zeros (ne - 1) (nf - 1))

/-- body of the loops of `_double_layer_same_edge_block` (nystrom.py L819-826) -/
noncomputable def doubleSameStep (l : List Sample) (h : ℝ) (B : Mat) (p : ℕ × ℕ) : Py Mat := do
  let (i, j) := p
  let s ← Np.get l i
  let t ← Np.get l j
  let xy2 := dist2 s t
  let B ← (if xy2 < 1 / 10 ^ 12 then B.set i j (0.5 * t.curv)
    else B.set i j (((s.x - t.x) * t.nx + (s.y - t.y) * t.ny) / xy2))
  let b ← B.get i j
  B.set i j (b * (t.dxNorm * h))

/-- `_double_layer_same_edge_block` (nystrom.py L806-827) -/
noncomputable def doubleSame (n : ℕ) (h : ℝ) (l : List Sample) (j0 : ℕ) : Py Mat :=
  (pairs (n - 1) j0 (n - 1)).foldlM (doubleSameStep l h) (Mat.zeros (n - 1) (n - 1))

/-- body of the loops of `_double_layer_distinct_edge_block` (nystrom.py L844-847) -/
noncomputable def doubleDistinctStep (le lf : List Sample) (h : ℝ) (B : Mat) (p : ℕ × ℕ) : Py Mat := do
  let (i, j) := p
  let s ← Np.get le i
  let t ← Np.get lf j
  let xy2 := dist2 s t
  if xy2 = 0 then .error .zeroDivision
  else B.set i j (t.dxNorm * h * ((s.x - t.x) * t.nx + (s.y - t.y) * t.ny) / xy2)

/-- `_double_layer_distinct_edge_block` (nystrom.py L830-848) -/
noncomputable def doubleDistinct (ne nf : ℕ) (h : ℝ) (le lf : List Sample) (j0 : ℕ) : Py Mat :=
  (pairs (ne - 1) j0 (nf - 1)).foldlM (doubleDistinctStep le lf h) (Mat.zeros (ne - 1) (nf - 1))

open ContourG (npts)

/-- `single_layer_edge_block` (nystrom.py L574-622); `same`: the edges are one object -/
noncomputable def singleEdge (same : Bool) (e f : EdgeG) (qm : Quad) : Py Mat := do
  let le ← e.sampled
  let lf ← f.sampled
  if npts f = 1 then .error .zeroDivision
  else
    let h := -0.5 / ((npts f : ℝ) - 1)
    if same then singleSame (npts e) (jStart f) h le qm.wgt qm.t
    else singleDistinct (npts e) (npts f) h le lf (jStart f)

/-- `double_layer_edge_block` (nystrom.py L692-744) -/
noncomputable def doubleEdge (same : Bool) (e f : EdgeG) : Py Mat := do
  let le ← e.sampled
  let lf ← f.sampled
  if npts f = 1 then .error .zeroDivision
  else
    let h := 1 / ((npts f : ℝ) - 1)
    if same then doubleSame (npts e) h le (jStart f)
    else doubleDistinct (npts e) (npts f) h le lf (jStart f)

/-! ### blocks of two components -/

/-- the loop over the edges `f` of a component (nystrom.py L565-571, L684-689); `k`: place of `e` -/
noncomputable def edgeRow (cj : ContourG) (kk1 kk2 : ℕ) (block : ℕ → EdgeG → Py Mat) (B : Mat) : Py Mat :=
  (List.range cj.edges.length).foldlM (fun B ell => do
    let ll1 ← Np.get cj.vertIdx ell
    let ll2 ← Np.get cj.vertIdx (ell + 1)
    let f ← Np.get cj.edges ell
    let E ← block ell f
    B.setBlock kk1 kk2 ll1 ll2 E) B

/-- `single_layer_component_block` (nystrom.py L535-572); `sameComp`: the components are one object -/
noncomputable def singleComp (sameComp : Bool) (ci cj : ContourG) : Py Mat :=
  (List.range ci.edges.length).foldlM (fun B k => do
    let kk1 ← Np.get ci.vertIdx k
    let kk2 ← Np.get ci.vertIdx (k + 1)
    let e ← Np.get ci.edges k
    let qm ← Quad.init "mart" (((npts e - 1) / 2 : ℕ) : ℤ) 7
    edgeRow cj kk1 kk2 (fun ell f => singleEdge (sameComp && (k == ell)) e f qm) B)
    (Mat.zeros ci.numPts cj.numPts)

/-- `double_layer_component_block` (nystrom.py L661-690) -/
noncomputable def doubleComp (sameComp : Bool) (ci cj : ContourG) : Py Mat :=
  (List.range ci.edges.length).foldlM (fun B k => do
    let kk1 ← Np.get ci.vertIdx k
    let kk2 ← Np.get ci.vertIdx (k + 1)
    let e ← Np.get ci.edges k
    edgeRow cj kk1 kk2 (fun ell f => doubleEdge (sameComp && (k == ell)) e f) B)
    (Mat.zeros ci.numPts cj.numPts)

/-! ### the matrices -/

/-- the loops of `build_single_layer_mat` (nystrom.py L524-533) and `build_double_layer_mat` (L648-659) -/
noncomputable def buildMat (K : CellG) (block : Bool → ContourG → ContourG → Py Mat) : Py Mat :=
  (List.range K.components.length).foldlM (fun M i => do
    let ii1 ← Np.get K.startIdx i
    let ii2 ← Np.get K.startIdx (i + 1)
    (List.range K.components.length).foldlM (fun M j => do
      let jj1 ← Np.get K.startIdx j
      let jj2 ← Np.get K.startIdx (j + 1)
      let ci ← Np.get K.components i
      let cj ← Np.get K.components j
      let B ← block (i == j) ci cj
      M.setBlock ii1 ii2 jj1 jj2 B) M) (Mat.zeros K.numPts K.numPts)

/-- `build_single_layer_mat` (nystrom.py L522-533) -/
noncomputable def singleMat (K : CellG) : Py Mat := buildMat K singleComp
/-- `build_double_layer_mat` (nystrom.py L646-659) -/
noncomputable def doubleMat (K : CellG) : Py Mat := buildMat K doubleComp

/-! ### operators -/

/-- `LinearOperator.__call__` of scipy: the argument must have the right length -/
def call (n : ℕ) (f : List ℝ → Py (List ℝ)) (u : List ℝ) : Py (List ℝ) :=
  if u.length ≠ n then .error .valueError else f u

/-- `linop4doublelayer` (nystrom.py L626-644); `rowSum` is `double_layer_sum` -/
def doubleOp (closest : List ℕ) (D : Mat) (rowSum : List ℝ) (u : List ℝ) : Py (List ℝ) := do
  let corner ← ContourG.mapPy (Np.get u) closest
  let d ← Np.bin (· - ·) u corner
  let res := d.map (0.5 * ·)
  let y ← D.mulVec u
  let res ← Np.bin (· + ·) res y
  let z ← Np.bin (· * ·) corner rowSum
  Np.bin (· - ·) res z

/-- `NystromSolver` after `build_single_and_double_layer_ops` (nystrom.py L117-119, L285-297) -/
structure Ops where
  K : CellG
  S : Mat
  D : Mat
  rowSum : List ℝ

/-- the first part of `__init__` (nystrom.py L117-119) -/
noncomputable def build (K : CellG) : Py Ops := do
  let S ← singleMat K
  let D ← doubleMat K
  .ok ⟨K, S, D, D.rowSums⟩

/-- `single_layer_op` (nystrom.py L288-292, L506-520) -/
def Ops.single (o : Ops) (u : List ℝ) : Py (List ℝ) := call o.K.numPts o.S.mulVec u
/-- `double_layer_op` (nystrom.py L293-297) -/
def Ops.double (o : Ops) (u : List ℝ) : Py (List ℝ) := call o.K.numPts (doubleOp o.K.closest o.D o.rowSum) u

/-- `A_simple` (nystrom.py L299-311) -/
noncomputable def Ops.neumann (o : Ops) (u : List ℝ) : Py (List ℝ) :=
  call o.K.numPts (fun u => do
    let y ← o.double u
    let c ← o.K.integrate u
    .ok (y.map (· + c))) u

end Nystrom
end PFEM
