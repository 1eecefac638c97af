import Verif.Model.PlanarMesh

/-!
Reading aids for the statements about meshes and cells: an edge has cell `pos` on its left, so the boundary of cell
`c` runs along the edge if `c = pos` and against it otherwise.
-/

namespace PFEM

variable {K : Type} [Field K] [LinearOrder K]

/-- where the boundary of cell `c` enters edge `e` -/
def entryPt (c : ℤ) (e : EdgeRec K) : PVert K := if c = e.pos then e.anchor else e.endpnt

/-- where the boundary of cell `c` leaves edge `e` -/
def exitPt (c : ℤ) (e : EdgeRec K) : PVert K := if c = e.pos then e.endpnt else e.anchor

/-- two points closer than `1e-6` -/
def Meets (a b : PVert K) : Prop := (a.x - b.x) ^ 2 + (a.y - b.y) ^ 2 < (1 / 10 ^ 6) ^ 2

/-- direction in which the boundary of cell `c` runs along `e` -/
def side (c : ℤ) (e : EdgeRec K) : ℤ := if c = e.pos then 1 else -1

/-- exactly one position of a list of length `n` has the property -/
def ExactlyOne (n : ℕ) (P : ℕ → Prop) : Prop := ∃ i < n, P i ∧ ∀ j < n, P j → j = i

end PFEM
