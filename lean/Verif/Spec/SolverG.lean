import Verif.Model.SolverG
import Verif.Spec.LocSpace
import Verif.Lemmas.LocalSpace

/-!
Specification vocabulary for the assembly with numerical objects.
-/

namespace PFEM
namespace SolverG

/-- What belongs to one cell: the parameterized cell, the basis functions, for each of their numbers an object, and the local values of the two
inner products and of the right-hand side, by number. -/
structure CellData where
  K : CellG
  funs : List (LocFun ℝ)
  obj : ℕ → LocPoisson
  H : ℕ → ℕ → ℝ
  L : ℕ → ℕ → ℝ
  r : ℕ → ℝ

/-- The data `D` are right for the cell with index `c`: `K` is what parameterization gives, `funs` is the basis that a fresh space builds, the
objects stand for these functions, and the local values are the values of the inner products of the objects (taken in one of the two orders) for
functions of the cell and 0 for other numbers. -/
structure CellData.Valid (S : Setup ℝ) (E : Env) (B : BilinForm) (c : ℤ) (D : CellData) : Prop where
  geo : ∃ k, S.m.getCell c = .ok k ∧ E.geo k (E.evalInt || E.evalGrad) = .ok D.K
  funs : ∃ s', S.s0.buildLocal S.ord S.perm c = .ok (s', D.funs)
  stands : ∃ z A, LocSpaceG.centroid D.K = .ok z ∧ LocSpaceG.area D.K = .ok A ∧
    ∀ l ∈ D.funs, LocSpaceG.Fn.Stands D.K z A l ⟨l.key, D.obj l.glob⟩
  h1 : ∀ v ∈ D.funs, ∀ w ∈ D.funs, (D.obj v.glob).getH1 (.poisson (D.obj w.glob)) = .ok (D.H v.glob w.glob) ∨
    (D.obj w.glob).getH1 (.poisson (D.obj v.glob)) = .ok (D.H v.glob w.glob)
  l2 : ∀ v ∈ D.funs, ∀ w ∈ D.funs, (D.obj v.glob).getL2 (.poisson (D.obj w.glob)) = .ok (D.L v.glob w.glob) ∨
    (D.obj w.glob).getL2 (.poisson (D.obj v.glob)) = .ok (D.L v.glob w.glob)
  rhs : ∀ v ∈ D.funs, B.evalRhs (D.obj v.glob) = .ok (D.r v.glob)
  away : ∀ i j, ¬ ((∃ v ∈ D.funs, v.glob = i) ∧ ∃ w ∈ D.funs, w.glob = j) → D.H i j = 0 ∧ D.L i j = 0
  awayRhs : ∀ i, ¬ (∃ v ∈ D.funs, v.glob = i) → D.r i = 0

/-- what the parameter `geo` has to do: what it gives for a cell of the mesh is in order and has as many edges as `perm` lists -/
def Env.Fits (E : Env) (S : Setup ℝ) : Prop := E.ord = S.ord ∧ E.perm = S.perm ∧
  ∀ c k b K, S.m.getCell c = .ok k → E.geo k b = .ok K → K.Ready ∧ (S.perm k).length = K.getEdges.length

end SolverG
end PFEM
