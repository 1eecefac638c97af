import Verif.Model.Nystrom

/-!
Second part of the model of `NystromSolver` (`/repo/puncturedfem/locfun/nystrom.py`): logarithmic terms, preconditioner, harmonic
normal indicators and the linear systems.

* `scipy.sparse.linalg.gmres` is a parameter: any function of the operator, the right-hand side and the preconditioner.  The code
  returns what GMRES returns whatever its flag (L270-281).
* Numpy divides by zero without raising and then computes with infinities; the model answers `ZeroDivisionError` there (a sample at
  the interior point of a hole, a component of length zero, a zero on the diagonal of the preconditioner).
-/

namespace PFEM

/-- `num_holes` (cell.py L276) -/
def CellG.numHoles (K : CellG) : ℕ := K.components.length - 1

/-- `get_edges` (cell.py L157-170) -/
def CellG.getEdges (K : CellG) : List EdgeG := K.components.flatMap ContourG.edges

/-- `a - x` for an array and a number -/
def Np.shift (a : List ℝ) (x : ℝ) : List ℝ := a.map (· - x)

/-- the array with the given columns, assigned column by column (`M[:, j] = v`); `ValueError` if a column has the wrong length -/
def Mat.ofCols (rows : ℕ) (cols : List (List ℝ)) : Py Mat :=
  if ∀ c ∈ cols, c.length = rows then .ok ⟨rows, cols.length, fun i j => (cols.getD j []).getD i 0⟩ else .error .valueError

namespace Nystrom
open ContourG (npts mapPy)

/-- `gmres(A=A, b=b, M=M, ...)[0]` of scipy -/
abbrev Gmres := (List ℝ → Py (List ℝ)) → List ℝ → (List ℝ → Py (List ℝ)) → Py (List ℝ)

/-! ### logarithmic terms -/

/-- body of the first loop of `compute_log_terms` (nystrom.py L396-420) -/
noncomputable def logTerm (K : CellG) (x1 x2 : List ℝ) (c : ContourG) : Py Trace := do
  let xi ← Trace.attr c.interior
  let y1 := Np.shift x1 xi.x
  let y2 := Np.shift x2 xi.y
  let n2 ← Np.bin (fun a b => a ^ 2 + b ^ 2) y1 y2
  if 0 ∈ n2 then .error .zeroDivision
  else do
    let lam ← Trace.init K.getEdges (values := some (.one (.arr (n2.map fun a => 0.5 * Real.log a))))
    let g1 ← Np.bin (· / ·) y1 n2
    let g2 ← Np.bin (· / ·) y2 n2
    let wnd ← K.dotWithNormal g1 g2
    let wnd ← K.multiplyByDxNorm wnd
    let lam ← Trace.after (lam.setWnd (.one (.arr wnd)))
    let wtd ← K.dotWithTangent g1 g2
    let wtd ← K.multiplyByDxNorm wtd
    Trace.after (lam.setWtd (.one (.arr wtd)))

/-- an optional array in an arithmetic expression: `TypeError` if it is `None` -/
def arr : Option (List ℝ) → Py (List ℝ)
  | some a => .ok a
  | none => .error .typeError

/-- `Sn` (nystrom.py L432-451) -/
noncomputable def sn (K : CellG) (lam : List Trace) (vals : List ℝ) : Py (List ℝ) :=
  mapPy (fun t : Trace => do
    let w ← arr t.wnd
    let p ← Np.bin (· * ·) vals w
    K.integratePreweighted p) lam

/-- `St` (nystrom.py L453-472) -/
noncomputable def st (K : CellG) (lam : List Trace) (vals : List ℝ) : Py (List ℝ) :=
  mapPy (fun t : Trace => do
    let w ← arr t.wtd
    let p ← Np.bin (· * ·) vals w
    K.integratePreweighted p) lam

/-- `lam_trace`, `T1_dlam_dt`, `Sn_lam` -/
structure LogTerms where
  lam : List Trace
  T1 : Mat
  Sn : Mat

/-- `compute_log_terms` (nystrom.py L386-430) -/
noncomputable def logTerms (o : Ops) : Py LogTerms := do
  let (x1, x2) ← o.K.getBoundaryPoints
  let lam ← mapPy (logTerm o.K x1 x2) o.K.components.tail
  let t1 ← mapPy (fun t : Trace => do
    let w ← arr t.wtd
    o.single w) lam
  let T1 ← Mat.ofCols o.K.numPts t1
  let s ← mapPy (fun t : Trace => do
    let v ← Trace.attr t.values
    sn o.K lam v) lam
  let S ← Mat.ofCols o.K.numHoles s
  .ok ⟨lam, T1, S⟩

/-! ### systems -/

/-- `linop4harmconj` (nystrom.py L319-327) -/
noncomputable def augmented (o : Ops) (g : LogTerms) (x : List ℝ) : Py (List ℝ) :=
  call (o.K.numPts + o.K.numHoles) (fun x => do
    let N := o.K.numPts
    let psi := x.take N
    let a := x.drop N
    let y ← o.double psi
    let c ← o.K.integrate psi
    let y := y.map (· + c)
    let t ← g.T1.mulVec a
    let y ← Np.bin (· - ·) y t
    let s ← st o.K g.lam psi
    let z ← g.Sn.mulVec a
    let z ← Np.bin (· + ·) (s.map (- ·)) z
    .ok (y ++ z)) x

/-- the inner loop of `_double_layer_diagonal` (nystrom.py L374-380) -/
noncomputable def diagEdges (D : List ℝ) (start : ℕ) : List EdgeG → Py (List ℝ)
  | [] => .ok D
  | e :: es => do
    let l ← e.sampled
    if l.length = 1 then .error .zeroDivision
    else do
      let stop := start + (l.length - 1)
      let h := 1 / ((l.length : ℝ) - 1)
      let D ← Np.setSlice D start stop (l.dropLast.map fun s => 0.5 + 0.5 * s.curv * s.dxNorm * h)
      diagEdges D stop es

/-- the outer loop of `_double_layer_diagonal` (nystrom.py L371-380); `j` is the loop variable -/
noncomputable def diagComps (K : CellG) (D : List ℝ) (j : ℕ) : List ContourG → Py (List ℝ)
  | [] => .ok D
  | c :: cs => do
    let s ← Np.get K.startIdx j
    let D ← diagEdges D s c.edges
    diagComps K D (j + 1) cs

/-- `_double_layer_diagonal` (nystrom.py L367-383).  `Sn_lam` exists only if there are holes. -/
noncomputable def diagonal (K : CellG) (g : Option LogTerms) : Py (List ℝ) := do
  let D ← diagComps K (List.replicate (K.numPts + K.numHoles) 0) 0 K.components
  (List.range K.numHoles).foldlM (fun D i => do
    let g ← Trace.attr g
    let v ← g.Sn.get i i
    if K.numPts + i < D.length then .ok (D.set (K.numPts + i) v) else .error .indexError) D

/-- `x / D` as a linear operator of size `n` (nystrom.py L350-363) -/
noncomputable def precond (n : ℕ) (D : List ℝ) (x : List ℝ) : Py (List ℝ) :=
  call n (fun x => if 0 ∈ D.take n then .error .zeroDivision else Np.bin (· / ·) x (D.take n)) x

/-- `NystromSolver` -/
structure Solver where
  ops : Ops
  log : Option LogTerms
  diag : List ℝ
  strategy : String
  eta : Option (List Trace)

/-- `solve_neumann_zero_average` (nystrom.py L194-212) -/
noncomputable def solveNeumann (gmres : Gmres) (o : Ops) (D : List ℝ) (w : List ℝ) : Py (List ℝ) := do
  let b ← o.single w
  gmres o.neumann b (precond o.K.numPts D)

/-- the loop `for k in range(n): chi.set_trace_values_on_edge(first + k, v)` (nystrom.py L488-496) -/
def setEdges (first n : ℕ) (v : ℝ) (t : Trace) : Py Trace :=
  (List.range n).foldlM (fun t k => Trace.after (t.setOnEdge ((first + k : ℕ) : ℤ) (.num v))) t

/-- the data `eta_wnd_j` of one hole (nystrom.py L484-498); `first` is `edge_idx` -/
noncomputable def indicatorData (K : CellG) (c0 c : ContourG) (outer : ℝ) (first : ℕ) : Py (List ℝ) := do
  let chi ← Trace.init K.getEdges (values := some (.one (.num 0)))
  let inner ← c.integrate (List.replicate c.numPts 1)
  if outer = 0 then .error .zeroDivision
  else do
    let chi ← setEdges 0 c0.edges.length (-inner / outer) chi
    let chi ← setEdges first c.edges.length 1 chi
    let v ← Trace.attr chi.values
    K.multiplyByDxNorm v

/-- the loop of `_compute_harmonic_normal_indicators` over the holes (nystrom.py L483-502) -/
noncomputable def indicatorLoop (K : CellG) (solve : List ℝ → Py (List ℝ)) (c0 : ContourG) (outer : ℝ) :
    ℕ → List ContourG → Py (List Trace)
  | _, [] => .ok []
  | first, c :: cs => do
    let w ← indicatorData K c0 c outer first
    let eta ← solve w
    let t ← Trace.init K.getEdges (values := some (.one (.arr eta)))
    let ts ← indicatorLoop K solve c0 outer (first + c.edges.length) cs
    .ok (t :: ts)

/-- `_compute_harmonic_normal_indicators` (nystrom.py L475-502) -/
noncomputable def indicators (K : CellG) (solve : List ℝ → Py (List ℝ)) : Py (List Trace) := do
  let c0 ← Np.get K.components 0
  let outer ← c0.integrate (List.replicate c0.numPts 1)
  indicatorLoop K solve c0 outer c0.edges.length K.components.tail

/-- `__init__` (nystrom.py L79-141) -/
noncomputable def init (gmres : Gmres) (K : CellG) (strategy precondType : String) : Py Solver := do
  let o ← build K
  let g ← (if 0 < K.numHoles then do
      let g ← logTerms o
      .ok (some g)
    else .ok none : Py (Option LogTerms))
  if precondType = "jacobi" then do
    let D ← diagonal K g
    if strategy = "direct" ∨ strategy = "fft" then
      if 0 < K.numHoles ∧ strategy = "fft" then do
        let eta ← indicators K (solveNeumann gmres o D)
        .ok ⟨o, g, D, strategy, some eta⟩
      else .ok ⟨o, g, D, strategy, none⟩
    else .error .valueError
  else .error .valueError

/-- `get_harmonic_conjugate` (nystrom.py L214-249) and `_get_harmonic_conjugate_multiply_connected` (L251-268) -/
noncomputable def conjugate (gmres : Gmres) (s : Solver) (phi : List ℝ) : Py (List ℝ × List ℝ) := do
  let K := s.ops.K
  let t ← wtdFromTrace K phi
  if K.numHoles = 0 then do
    let u ← solveNeumann gmres s.ops s.diag (t.map (-1 * ·))
    .ok (u, [])
  else do
    let g ← Trace.attr s.log
    let b1 ← s.ops.single (t.map (- ·))
    let b2 ← sn K g.lam phi
    let x ← gmres (augmented s.ops g) (b1 ++ b2) (precond (K.numPts + K.numHoles) s.diag)
    .ok (x.take K.numPts, x.drop K.numPts)

end Nystrom
end PFEM
