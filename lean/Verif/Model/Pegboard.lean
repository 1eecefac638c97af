import Verif.Model.CellTopo
import Verif.Model.Np

/-!
Model of `/repo/puncturedfem/mesh/meshlib/pegboard.py` and of `mesh_builder` (`__builder__.py`).

Sizes are natural numbers (negative sizes are not modelled).  Of an `Edge` the two vertices, the two cells and, for the
circles, the radius are kept; all other edges are straight lines (`curve_type` defaults to `"line"`).
-/

namespace PFEM

variable {K : Type} [Field K] [LinearOrder K]

/-- an edge made by `_get_edges`: its topology and the radius if it is a circle -/
structure PegEdge (K : Type) where
  topo : EdgeRec K
  circle : Option K
  deriving DecidableEq

namespace Pegboard

/-- `Edge(a, b, pos_cell_idx=pos, neg_cell_idx=neg)` -/
def line (a b : PVert K) (pos neg : ℤ) : PegEdge K := ⟨⟨a, b, pos, neg, none⟩, none⟩

/-- `h = 1 / max(m - 1, n - 1)` (pegboard.py L49, L76), `m = a + 1`, `n = b + 1` -/
def side (a b : ℕ) : Py K := if max a b = 0 then .error .zeroDivision else .ok (1 / ((max a b : ℕ) : K))

/-- `_get_verts` (pegboard.py L42-64), coordinates only -/
def getPoints (a b : ℕ) (radius : K) : Py (List (K × K)) := do
  let h ← side a b
  let corners := (List.range (a + 1)).flatMap fun (i : ℕ) => (List.range (b + 1)).map fun (j : ℕ) => (h * (j : K), h * (i : K))
  if radius ≤ 0 then .ok corners
  else .ok (corners ++ (List.range a).flatMap fun (i : ℕ) => (List.range b).map fun (j : ℕ) =>
    (h * ((j : K) + 1 / 2), h * ((i : K) + 1 / 2)))

/-- `mesh_builder` numbers the vertices in the order of the list (__builder__.py L56-60) -/
def number (k : ℕ) : List (K × K) → List (PVert K)
  | [] => []
  | p :: l => ⟨p.1, p.2, k⟩ :: number (k + 1) l

/-- the inner loop of `_get_edges` (pegboard.py L79-107) and the value that `cell_idx` has after it -/
def cellLoop (verts : List (PVert K)) (b i : ℕ) (cell : Option ℤ) : List ℕ → Py (List (PegEdge K) × Option ℤ)
  | [] => .ok ([], cell)
  | j :: js => do
    let c : ℤ := i * b + j
    let left : ℤ := if j = 0 then -1 else c - 1
    let bottom : ℤ := if i = 0 then -1 else c - b
    let v ← Np.get verts (i * (b + 1) + j)
    let v1 ← Np.get verts (i * (b + 1) + j + 1)
    let v2 ← Np.get verts ((i + 1) * (b + 1) + j)
    let r ← cellLoop verts b i (some c) js
    .ok (line v v1 c bottom :: line v v2 left c :: r.1, r.2)

/-- the outer loop (pegboard.py L78-115); `cell_idx` is read after the inner loop -/
def rowLoop (verts : List (PVert K)) (b : ℕ) (cell : Option ℤ) : List ℕ → Py (List (PegEdge K))
  | [] => .ok []
  | i :: is => do
    let r ← cellLoop verts b i cell (List.range b)
    let v ← Np.get verts (i * (b + 1) + b)
    let w ← Np.get verts ((i + 1) * (b + 1) + b)
    match r.2 with
    | none => .error .unboundLocal
    | some c => do
      let rest ← rowLoop verts b (some c) is
      .ok (r.1 ++ line v w c (-1) :: rest)

/-- the last horizontal edges (pegboard.py L117-125) -/
def topLoop (verts : List (PVert K)) (a b : ℕ) : List ℕ → Py (List (PegEdge K))
  | [] => .ok []
  | j :: js => do
    let v ← Np.get verts (a * (b + 1) + j)
    let w ← Np.get verts (a * (b + 1) + j + 1)
    let rest ← topLoop verts a b js
    .ok (line v w (-1) (((a : ℤ) - 1) * b + j) :: rest)

/-- the circles (pegboard.py L131-147); the list holds the pairs `(i, j)` in the order of the two loops -/
def circleLoop (verts : List (PVert K)) (a b : ℕ) (r : K) : List (ℕ × ℕ) → Py (List (PegEdge K))
  | [] => .ok []
  | (i, j) :: l => do
    let neg : ℤ := i * b + j
    let pos : ℤ := a * b + neg
    let v ← Np.get verts ((a + 1) * (b + 1) + i * b + j)
    let rest ← circleLoop verts a b r l
    .ok (⟨⟨v, v, pos, neg, none⟩, some r⟩ :: rest)

/-- `_get_edges` (pegboard.py L70-149) -/
def getEdges (verts : List (PVert K)) (a b : ℕ) (radius : K) : Py (List (PegEdge K)) := do
  let h ← side a b
  let rows ← rowLoop verts b none (List.range a)
  let top ← topLoop verts a b (List.range b)
  if radius ≤ 0 then .ok (rows ++ top)
  else do
    let circles ← circleLoop verts a b (radius * h)
      ((List.range a).flatMap fun i => (List.range b).map fun j => (i, j))
    .ok (rows ++ top ++ circles)

/-- the store in which edge number `k` of the list is object `k`; what lies beyond does not matter -/
def toStore (l : List (PegEdge K)) : EdgeStore K := fun k =>
  match l[k]? with
  | some e => e.topo
  | none => ⟨⟨0, 0, -1⟩, ⟨0, 0, -1⟩, -1, -1, none⟩

/-- `pegboard(size=(a, b), radius)` (pegboard.py L12-39, __builder__.py L20-66): the edges and the mesh made of them -/
def pegboard (a b : ℕ) (radius : K) : Py (List (PegEdge K) × PlanarMesh K) := do
  let pts ← getPoints a b radius
  let verts := number 0 pts
  let es ← getEdges verts a b radius
  let m ← PlanarMesh.init (toStore es) (List.range es.length)
  .ok (es, m)

end Pegboard
end PFEM
