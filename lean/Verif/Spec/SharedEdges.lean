import Verif.Lemmas.EdgeDiary
import Verif.Model.SharedEdges

/-!
Specification for C121 to C123: what it means that edges shared between cells are the same up to their samples, and the calls that a program may make
on edges and cells.
-/

namespace PFEM

/-- the diary of a new edge (edge.py L171-188), possibly with further transformations of a closed edge: no `join_points`, or exactly the one between
the two ends of the edge.  (C25: other diaries are changed by `parameterize`.) -/
def EdgeG.Settled (e : EdgeG) : Prop :=
  (∀ o ∈ e.diary, o.isJoin = false) ∨ (e.diary = [.joinPoints e.anchor e.endpnt] ∧ e.isLoop = false)

/-- the same edge, apart from the samples -/
def EdgeG.SameEdge (e e' : EdgeG) : Prop := e.deparameterize = e'.deparameterize

/-- calls on edges and cells; each call of `parameterize` may use its own quadrature rules and inside test -/
inductive EdgeCall
  | paramEdge (d : Quad × Quad) (e : ℕ)
  | deparamEdge (e : ℕ)
  | reverseEdge (e : ℕ)
  | paramCell (inside : InsideTest) (fuel : ℕ) (d : Quad × Quad) (points : Bool) (K : CellRef)
  | deparamCell (K : CellRef)

/-- the quadrature rules come from `get_quad_dict` -/
def EdgeCall.Valid : EdgeCall → Prop
  | .paramEdge d _ => ∃ n p, getQuadDict n p = .ok d
  | .paramCell _ _ d _ _ => ∃ n p, getQuadDict n p = .ok d
  | _ => True

/-- the call returns and leaves the edges as in the second heap -/
def EdgeCall.Leads (h h' : EdgeHeap) : EdgeCall → Prop
  | .paramEdge d e => h.parameterize d e = .ok h'
  | .deparamEdge e => h.deparameterize e = h'
  | .reverseEdge e => h.reverse e = h'
  | .paramCell inside fuel d points K => ∃ K', K.parameterize inside fuel d points h = some (.ok (h', K'))
  | .deparamCell K => (K.deparameterize h).1 = h'

/-- a list of calls, all of which return -/
inductive EdgeCalls : EdgeHeap → List EdgeCall → EdgeHeap → Prop
  | nil (h) : EdgeCalls h [] h
  | cons {h h' h'' c cs} : c.Valid → c.Leads h h' → EdgeCalls h' cs h'' → EdgeCalls h (c :: cs) h''

/-- `parameterize` of a cell that holds its edges by value, with or without interior points (cell.py L299-322) -/
noncomputable def CellG.parameterizeWith (inside : InsideTest) (fuel : ℕ) (d : Quad × Quad) (points : Bool) (K : CellG) : Option (Py CellG) :=
  match K.parameterize inside fuel d with
  | some (.ok G) => some (if points then G.generateInteriorPoints inside else .ok G)
  | r => r

/-- the assembly of `SolverG.lean`, in which every cell holds copies of its edges: the copies are those of the heap `h` -/
noncomputable def SharedSolver.Env.byValue (E : SharedSolver.Env) (h : EdgeHeap) : SolverG.Env where
  gmres := E.gmres
  geo k points :=
    match ((CellRef.ofTopo k).read h).parameterizeWith E.inside E.fuel E.quad points with
    | some r => r
    | none => .error .runtimeError
  ord := E.ord
  perm k :=
    match SharedSolver.newCell E h k (E.evalInt || E.evalGrad) with
    | .ok r => r.2.getEdges
    | .error _ => []
  evalInt := E.evalInt
  evalGrad := E.evalGrad

/-- what `assemble` computes: the space with its degrees of freedom, the triplets, the right-hand side, the local functions, the size, the matrices -/
structure Assembled where
  space : GlobFunSp ℝ
  triplets : List (Triplet ℝ)
  rhs : List (ℕ × ℝ)
  funs : List (Option (List LocSpaceG.Fn))
  numFuns : ℕ
  globMat : ℕ → ℕ → ℝ
  globRhs : ℕ → ℝ
  stiffMat : ℕ → ℕ → ℝ
  massMat : ℕ → ℕ → ℝ

def SharedSolver.State.result (S : SharedSolver.State) : Assembled :=
  ⟨S.space, S.triplets, S.rhs, S.locSpaces.map (Option.map Prod.snd), S.numFuns, S.globMat, S.globRhs, S.stiffMat, S.massMat⟩

def SolverG.State.result (S : SolverG.State) : Assembled :=
  ⟨S.space, S.triplets, S.rhs, S.locSpaces.map (Option.map Prod.snd), S.numFuns, S.globMat, S.globRhs, S.stiffMat, S.massMat⟩

end PFEM
