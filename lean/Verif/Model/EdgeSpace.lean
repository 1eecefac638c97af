import Verif.Model.Pivot
import Verif.Model.Legendre
import Verif.Model.Barycentric
import Verif.Model.ContourGeom
import Verif.Model.EdgeQuad

/-!
Model of `EdgeSpace` (`/repo/puncturedfem/locfun/edge_space.py` L47-319): the polynomial traces on one edge.  The
singular value decomposition of numpy is a parameter.  Numpy scalars divide by zero without raising; where that could
happen the model answers `.error .zeroDivision`.
-/

namespace PFEM

/-- `l[i] = a` for a Python list and a nonnegative index -/
def pySet {α : Type} (l : List α) (i : ℕ) (a : α) : Py (List α) :=
  if i < l.length then .ok (l.set i a) else .error .indexError

/-- `del l[i]` for a Python list and a nonnegative index -/
def pyDel {α : Type} (l : List α) (i : ℕ) : Py (List α) :=
  if i < l.length then .ok (l.eraseIdx i) else .error .indexError

/-- result of `numpy.linalg.svd`: the array `U`, the singular values and the array `Vh` -/
structure Svd where
  U : ℕ → ℕ → ℝ
  S : ℕ → ℝ
  Vh : ℕ → ℕ → ℝ

namespace EdgeSpaceG

/-- `set_deg` for an integer (edge_space.py L94-107) -/
def setDeg (deg : ℤ) : Py ℕ := if deg < 1 then .error .valueError else .ok deg.toNat

/-- replacement of the three functions at `linear_fun_idx` (edge_space.py L153-178) -/
noncomputable def redoLinear (deg : ℕ) (fs : List (Poly ℝ)) : Py (List (Poly ℝ)) := do
  let a ← Poly.set [((1 : ℝ), 0, 0), (1, 1, 0), (1, 0, 1)]
  let fs ← pySet fs 0 a
  let b ← Poly.set [((1 : ℝ), 0, 0), (-1, 1, 0), (-1, 0, 1)]
  let fs ← pySet fs 1 b
  let c ← Poly.set [((1 : ℝ), 1, 0), (-1, 0, 1)]
  pySet fs (deg + 1) c

/-- composition of the function at one position (edge_space.py L194-197) -/
noncomputable def composeAt (y1 y2 : Poly ℝ) (i : ℕ) (fs : List (Poly ℝ)) : Py (List (Poly ℝ)) := do
  let f ← pyGet fs i
  let g ← Poly.compose f y1 y2
  pySet fs i g

/-- arc length, centroid and centring of the linear functions (edge_space.py L180-197) -/
noncomputable def centerLinear (e : EdgeG) (deg : ℕ) (fs : List (Poly ℝ)) : Py (List (Poly ℝ)) := do
  let l ← e.sampled
  let len ← e.integrate (l.map fun _ => 1)
  let i1 ← e.integrate (l.map Sample.x)
  let i2 ← e.integrate (l.map Sample.y)
  if len = 0 then .error .zeroDivision
  else do
    let y1 ← Poly.set [((1 : ℝ), 1, 0), (-(i1 / len), 0, 0)]
    let y2 ← Poly.set [((1 : ℝ), 0, 1), (-(i2 / len), 0, 0)]
    let fs ← composeAt y1 y2 0 fs
    let fs ← composeAt y1 y2 1 fs
    composeAt y1 y2 (deg + 1) fs

/-- `_transform_coordinates_to_bounding_box` (edge_space.py L241-259) -/
noncomputable def toBox (e : EdgeG) (fs : List (Poly ℝ)) : Py (List (Poly ℝ)) := do
  let (xmin, xmax, ymin, ymax) ← e.boundingBox
  let sx := (xmax - xmin) / 2
  let sy := (ymax - ymin) / 2
  let tx := (xmax + xmin) / 2
  let ty := (ymax + ymin) / 2
  let px ← Poly.set [((1 : ℝ), 1, 0), (-tx, 0, 0)]
  let qx ← Poly.div px sx
  let py ← Poly.set [((1 : ℝ), 0, 1), (-ty, 0, 0)]
  let qy ← Poly.div py sy
  ContourG.mapPy (fun f => Poly.compose f qx qy) fs

/-- `for fun in self.edge_fun_traces: fun /= np.sqrt(edge_arc_length)` (edge_space.py L202-204).  `Polynomial` has no
`__itruediv__`, so each quotient is a new object bound to the loop variable only and the list is left as it is. -/
noncomputable def rescale (e : EdgeG) (fs : List (Poly ℝ)) : Py (List (Poly ℝ)) := do
  let l ← e.sampled
  let len ← e.integrate (l.map fun _ => 1)
  let _ ← ContourG.mapPy (fun f => Poly.div f (Real.sqrt len)) fs
  .ok fs

/-- the spanning set before the correction at the end points (edge_space.py L150-204) -/
noncomputable def spanning (e : EdgeG) (deg : ℕ) : Py (List (Poly ℝ)) := do
  let fs ← integratedLegendreTensorProducts deg
  let fs ← redoLinear deg fs
  let fs ← centerLinear e deg fs
  let fs ← toBox e fs
  rescale e fs

/-- values of a polynomial at all sampled points, integrated over the edge (edge_space.py L221-225, L279-286) -/
noncomputable def mean (e : EdgeG) (f : Poly ℝ) : Py ℝ := do
  let vals ← e.evaluateFunction (fun x y => Poly.eval f x y) false
  e.integrate vals

/-- body of the loop that corrects the functions at the end points `z0` and `z1` (edge_space.py L213-227) -/
noncomputable def correct (e : EdgeG) (z0 z1 : ℝ × ℝ) (l0 l1 f : Poly ℝ) : Py (Poly ℝ) := do
  let a0 := Poly.eval f z0.1 z0.2
  let a1 := Poly.eval f z1.1 z1.2
  let g := Poly.sub f (Poly.add (Poly.smul l0 a0) (Poly.smul l1 a1))
  let avg ← mean e g
  .ok (if avg < 0 then Poly.smul g (-1) else g)

/-- first and last sampled point: `self.e.x[:, 0]`, `self.e.x[:, -1]` -/
def endPoints (e : EdgeG) : Py ((ℝ × ℝ) × (ℝ × ℝ)) := do
  let l ← e.sampled
  match l.head?, l.getLast? with
  | some a, some b => .ok ((a.x, a.y), (b.x, b.y))
  | _, _ => .error .indexError

/-- `build_spanning_set` (edge_space.py L137-239): vertex functions and edge functions -/
noncomputable def buildSpanningSet (e : EdgeG) (deg : ℕ) : Py (List (Poly ℝ) × List (Poly ℝ)) := do
  let fs ← spanning e deg
  if e.isLoop then .ok ([], fs)
  else do
    let (z0, z1) ← endPoints e
    let (l0, l1, l2) ← barycentricEdge z0 z1
    let rest ← ContourG.mapPy (correct e z0 z1 l0 l1) (fs.drop 2)
    let fs := fs.take 2 ++ rest
    let fs ← pyDel fs (deg + 1)
    let fs ← pyDel fs 1
    let fs ← pyDel fs 0
    .ok ([l0, l1], fs ++ [l2])

/-- one entry of the Gram matrix (edge_space.py L282-286) -/
noncomputable def gramEntry (e : EdgeG) (fs : List (Poly ℝ)) (i j : ℕ) : Py ℝ := do
  let f ← pyGet fs i
  let g ← pyGet fs j
  let p ← Poly.mul f g
  mean e p

/-- `M[i, j] = v` -/
def matSet (M : ℕ → ℕ → ℝ) (i j : ℕ) (v : ℝ) : ℕ → ℕ → ℝ := fun a b => if a = i ∧ b = j then v else M a b

/-- loop over `j` (edge_space.py L281-287) -/
noncomputable def gramRow (e : EdgeG) (fs : List (Poly ℝ)) (i : ℕ) : List ℕ → (ℕ → ℕ → ℝ) → Py (ℕ → ℕ → ℝ)
  | [], M => .ok M
  | j :: js, M => do
    let v ← gramEntry e fs i j
    let M1 := matSet M i j v
    gramRow e fs i js (matSet M1 j i (M1 i j))

/-- loop over `i` (edge_space.py L280-287) -/
noncomputable def gramLoop (e : EdgeG) (fs : List (Poly ℝ)) : List ℕ → (ℕ → ℕ → ℝ) → Py (ℕ → ℕ → ℝ)
  | [], M => .ok M
  | i :: is, M => do
    let M ← gramRow e fs i (List.range' i (fs.length - i)) M
    gramLoop e fs is M

/-- `_get_gram_matrix` (edge_space.py L276-288) -/
noncomputable def gram (e : EdgeG) (fs : List (Poly ℝ)) : Py (ℕ → ℕ → ℝ) :=
  gramLoop e fs (List.range fs.length) (fun _ _ => 0)

/-- `_get_low_rank_approx` (edge_space.py L290-298) -/
noncomputable def lowRank (svd : (m : ℕ) → (ℕ → ℕ → ℝ) → Svd) (m : ℕ) (M : ℕ → ℕ → ℝ) (tol : ℝ) : Py (ℕ → ℕ → ℝ) :=
  if m = 0 then .ok M
  else do
    let d := svd m M
    let smax ← Np.max ((List.range m).map d.S)
    let s := fun k => if d.S k > tol * smax then d.S k else 0
    .ok fun i j => ((List.range m).map fun k => d.U i k * s k * d.Vh k j).sum

/-- `_reduce_to_basis` (edge_space.py L261-274) -/
noncomputable def reduceToBasis (svd : (m : ℕ) → (ℕ → ℕ → ℝ) → Svd) (e : EdgeG) (fs : List (Poly ℝ)) (fuel : ℕ) :
    Option (Py (List (Poly ℝ))) :=
  match (do
    let M ← gram e fs
    lowRank svd fs.length M (1 / 10 ^ 6) : Py (ℕ → ℕ → ℝ)) with
  | .error r => some (.error r)
  | .ok M =>
    match basisIndexSet fs.length M (1 / 10 ^ 6) fuel with
    | none => none
    | some (.error r) => some (.error r)
    | some (.ok idx) => some (ContourG.mapPy (pyGet fs) idx)

/-- `__init__` (edge_space.py L58-79): vertex functions and edge functions -/
noncomputable def init (svd : (m : ℕ) → (ℕ → ℕ → ℝ) → Svd) (e : EdgeG) (deg : ℤ) (fuel : ℕ) :
    Option (Py (List (Poly ℝ) × List (Poly ℝ))) :=
  match (do
    let d ← setDeg deg
    buildSpanningSet e d : Py (List (Poly ℝ) × List (Poly ℝ))) with
  | .error r => some (.error r)
  | .ok (vs, fs) =>
    match reduceToBasis svd e fs fuel with
    | none => none
    | some (.error r) => some (.error r)
    | some (.ok basis) => some (.ok (vs, basis))

end EdgeSpaceG
end PFEM
