import Mathlib.Analysis.SpecialFunctions.Sqrt
import Verif.Model.Masks
import Verif.Spec.Boundary

/-!
Specification vocabulary for the triangulation of a cell and its masks.
-/

namespace PFEM

/-- the polygon through the sampled points of a contour -/
def ContourG.path (c : ContourG) : List (ℝ × ℝ) := c.cols.map fun s => (s.x, s.y)

/-- the points that are triangulated: first the interior points, then the sampled points of the boundary -/
def CellG.cloud (K : CellG) : List (ℝ × ℝ) := K.interior ++ K.cols.map fun s => (s.x, s.y)

/-- `p`, `q` are consecutive vertices of the closed polygon `P` (the last one is followed by the first one) -/
def Segment (P : List (ℝ × ℝ)) (p q : ℝ × ℝ) : Prop :=
  ∃ i, P[i]? = some p ∧ P[(i + 1) % P.length]? = some q

/-- the side from `p` to `q` is a side of one of the boundary polygons -/
def CellG.BoundarySide (K : CellG) (p q : ℝ × ℝ) : Prop :=
  ∃ c ∈ K.components, Segment c.path p q ∨ Segment c.path q p

/-- the vector from `a` to `b` differs from the vector from `p` to `q` by less than `r` -/
def SameVector (r : ℝ) (a b p q : ℝ × ℝ) : Prop :=
  ((b.1 - a.1) - (q.1 - p.1)) ^ 2 + ((b.2 - a.2) - (q.2 - p.2)) ^ 2 < r ^ 2

/-- the side from `p` to `q` is, up to `10⁻⁶`, parallel to and as long as a side of one of the boundary polygons -/
def CellG.ParallelSide (K : CellG) (p q : ℝ × ℝ) : Prop :=
  ∃ c ∈ K.components, ∃ a b, Segment c.path a b ∧
    (SameVector (1 / 10 ^ 6) a b p q ∨ SameVector (1 / 10 ^ 6) a b q p)

/-- matplotlib puts the point inside the outer polygon and outside all hole polygons (tolerance `10⁻⁶`) -/
def CellG.Within (test : PathTest) (K : CellG) (p : ℝ × ℝ) : Prop :=
  ∃ c cs, K.components = c :: cs ∧ test c.path p (1 / 10 ^ 6) = true ∧ ∀ h ∈ cs, test h.path p (1 / 10 ^ 6) = false

/-- the midpoint of a side -/
noncomputable def midPoint (p q : ℝ × ℝ) : ℝ × ℝ := ((p.1 + q.1) / 2, (p.2 + q.2) / 2)

/-- `p` is a corner of triangle `t` -/
def CellG.Corner (K : CellG) (t : ℕ × ℕ × ℕ) (p : ℝ × ℝ) : Prop :=
  ∃ a ∈ [t.1, t.2.1, t.2.2], K.cloud[a]? = some p

/-- `p`, `q` are the ends of a side of triangle `t` -/
def CellG.Side (K : CellG) (t : ℕ × ℕ × ℕ) (p q : ℝ × ℝ) : Prop :=
  ∃ a b, (a, b) ∈ [(t.1, t.2.1), (t.2.1, t.2.2), (t.2.2, t.1)] ∧ K.cloud[a]? = some p ∧ K.cloud[b]? = some q

/-- the triangulation succeeds on the points of the cell and its triangles have corners among them -/
def CellG.Triangulable (delaunay : List ℝ → List ℝ → Py (List (ℕ × ℕ × ℕ))) (K : CellG) (ts : List (ℕ × ℕ × ℕ)) : Prop :=
  delaunay (K.cloud.map Prod.fst) (K.cloud.map Prod.snd) = .ok ts ∧
    ∀ t ∈ ts, t.1 < K.cloud.length ∧ t.2.1 < K.cloud.length ∧ t.2.2 < K.cloud.length

end PFEM
