import Verif.Lemmas.EdgeSampled
import Verif.Model.LocFun
import Verif.Spec.SharedEdges

/-!
Specification for C123: local functions refer to their cell, and the cell to its edges, so later changes of the edges are seen by the functions.
-/

namespace PFEM

/-- the local function `f` on the cell `K` while the edges are as in the heap `h` -/
noncomputable def LocPoisson.seen (f : LocPoisson) (K : CellRef) (h : EdgeHeap) : LocPoisson := { f with cell := some (K.read h) }

/-- the samples of a straight edge: points of a curve with constant velocity at the nodes of a rule that is symmetric about the middle -/
def EdgeG.Straight (e : EdgeG) : Prop :=
  ∃ (C : PCurve) (l : List (ℝ × ℝ)) (u v : ℝ), e.pts = some (C.samples l) ∧ SymRule l ∧ ∀ s, C.dx s = u ∧ C.dy s = v

end PFEM
