import Verif.Model.Trace
import Verif.Spec.Boundary

/-!
Specification vocabulary for traces.
-/

namespace PFEM

/-- the entries that an argument stands for on a block of `w` samples: a number stands for `w` equal entries, an array
for itself if it has `w` entries; nothing else is accepted -/
def FloatLike.block (w : ℕ) : FloatLike → Option (List ℝ)
  | num x => some (List.replicate w x)
  | arr l => if l.length = w then some l else none
  | other => none

namespace Trace

/-- the number of samples of each edge that belong to its block -/
def sizes (t : Trace) : List ℕ := t.edges.map fun e => e.cols.length

/-- the place of every edge's block, first index and one past the last -/
def blocksOf (ws : List ℕ) : List (ℕ × ℕ) :=
  (List.range ws.length).map fun k => (blockStart ws k, blockStart ws (k + 1))

/-- A trace on sampled edges whose stored sizes are those of the edges. -/
structure Sized (t : Trace) : Prop where
  sampled : ∀ e ∈ t.edges, ∃ L, e.pts = some L ∧ 2 ≤ L.length
  numEdges : t.numEdges = t.edges.length
  numPts : t.numPts = some t.sizes.sum
  idx : t.idx = some (blocksOf t.sizes)

/-- … and whose data have one entry for every sample. -/
structure Good (t : Trace) : Prop extends Sized t where
  values : ∀ a, t.values = some a → a.length = t.sizes.sum
  wnd : ∀ a, t.wnd = some a → a.length = t.sizes.sum
  wtd : ∀ a, t.wtd = some a → a.length = t.sizes.sum

end Trace
end PFEM
