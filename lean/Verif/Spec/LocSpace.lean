import Verif.Model.LocSpace
import Verif.Spec.LocFun
import Verif.Spec.HarmInit

/-!
Specification vocabulary for the basis of a local Poisson space.
-/

namespace PFEM

/-- the value of a polynomial that may be missing: then it is 0 -/
noncomputable def polyOr0 : Option (Poly ℝ) → ℝ → ℝ → ℝ
  | none => fun _ _ => 0
  | some p => p.eval

/-- the boundary values that are given edge by edge by polynomials -/
noncomputable def CellG.edgewise (K : CellG) (ts : List (Option (Poly ℝ))) : List ℝ :=
  (List.zipWith (fun e t => e.cols.map fun s => polyOr0 t s.x s.y) K.getEdges ts).flatten

namespace LocSpaceG

/-- The object `f` stands for the basis function `l`: it has its key, its boundary values are the samples of the trace polynomials of `l`, and
its polynomial part is zero or the anti-Laplacian of the centred monomial whose number `l` states. -/
structure Fn.Stands (K : CellG) (c : ℝ × ℝ) (a : ℝ) (l : LocFun ℝ) (f : Fn) : Prop where
  key : f.key = l.key
  cell : f.val.cell = some K
  trace : f.val.traceValues = .ok (K.edgewise l.traces)
  edges : l.traces.length = K.getEdges.length
  harmonic : l.lap = none → ∃ p, f.val.poly = some p ∧ p.exact = []
  bubble : ∀ k, l.lap = some k → ∃ p m, f.val.poly = some p ∧ centeredMonomial c a k = .ok m ∧ m.antiLaplacian = .ok p.exact

end LocSpaceG
end PFEM
