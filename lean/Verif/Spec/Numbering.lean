import Verif.Model.GlobFunSp

/-!
The functions of the global space, described without reference to the numbering: bubble functions (a cell position
and a number below p(p-1)/2), vertices of the mesh, and edge functions (an edge position and a number below the
dimension of its edge space).
-/

namespace PFEM

/-- A function of the global space. -/
inductive GFun
  | bubb (cell k : ℕ)
  | vert (v : ℤ)
  | edge (e k : ℕ)
  deriving DecidableEq

variable {K : Type}

/-- Which of them exist on mesh `m` for degree `p` with `dim e` functions on edge number `e`. -/
def GFun.Exists (m : PlanarMesh K) (p : ℕ) (dim : ℕ → ℕ) : GFun → Prop
  | .bubb c k => c < m.cellIdxList.length ∧ k < p * (p - 1) / 2
  | .vert v => v ∈ m.vertIdxList
  | .edge e k => e < m.edges.length ∧ k < dim e

/-- the key by which a cell refers to the function -/
def GFun.key : GFun → GlobalKey
  | .bubb _ k => ⟨.bubb, -1, -1, -1, k, none, none⟩
  | .vert v => ⟨.vert, v, -1, -1, -1, none, none⟩
  | .edge e k => ⟨.edge, -1, e, k, -1, none, none⟩

/-- the cell positions from which the function can be referred to -/
def GFun.from : GFun → ℕ → Prop
  | .bubb c _, c' => c' = c
  | _, _ => True

/-- the functions living on the cell at position `a` whose edges are `edges`: its bubbles, the end points of its
non-closed edges, the edge functions of its edges -/
def GFun.OnCell [Field K] [LinearOrder K] (st : EdgeStore K) (p : ℕ) (space : ℕ → EdgeSpace K) (edges : List ℕ) (a : ℕ) :
    GFun → Prop
  | .bubb c k => c = a ∧ k < p * (p - 1) / 2
  | .vert v => ∃ e ∈ edges, ¬ (st e).isLoop = true ∧ (v = (st e).anchor.idx ∨ v = (st e).endpnt.idx)
  | .edge n k => ∃ e ∈ edges, (st e).idx = some n ∧ k < (space e).edgeTraces.length

/-- the polynomial that gives the function on edge `e`; this depends on the function and the edge only. -/
def GFun.traceOn [Field K] [LinearOrder K] (st : EdgeStore K) (space : ℕ → EdgeSpace K) (e : ℕ) : GFun → Option (Poly K)
  | .bubb _ _ => none
  | .vert v =>
    if (st e).isLoop then none
    else if v = (st e).endpnt.idx then (space e).vertTraces[1]?
    else if v = (st e).anchor.idx then (space e).vertTraces[0]?
    else none
  | .edge n k => if (st e).idx = some n then (space e).edgeTraces[k]? else none

end PFEM
