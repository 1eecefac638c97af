import Verif.Model.CellGeom
import Verif.Spec.Quadrature

/-!
Specification vocabulary for the sampled boundary of a cell.
-/

namespace PFEM

/-- the columns of an edge that belong to its block: all but the last -/
def EdgeG.cols (e : EdgeG) : List Sample := (e.pts.getD []).dropLast

/-- the columns of a contour: those of its edges, one edge after the other -/
def ContourG.cols (c : ContourG) : List Sample := c.edges.flatMap EdgeG.cols

/-- the columns of a cell: those of its contours, one contour after the other -/
def CellG.cols (K : CellG) : List Sample := K.components.flatMap ContourG.cols

/-- the index at which block `i` starts if block `k` has `w k` entries -/
def blockStart (w : List ℕ) (i : ℕ) : ℕ := (w.take i).sum

/-- The sampled state of a contour: every edge has at least two samples, and the stored sizes and block starts are those
of the edges. -/
structure ContourG.Ready (c : ContourG) : Prop where
  sampled : ∀ e ∈ c.edges, ∃ L, e.pts = some L ∧ 2 ≤ L.length
  numPts : c.numPts = c.cols.length
  vertIdx : c.vertIdx = (List.range (c.edges.length + 1)).map (blockStart (c.edges.map fun e => e.cols.length))

/-- The sampled state of a cell. -/
structure CellG.Ready (K : CellG) : Prop where
  ready : ∀ c ∈ K.components, c.Ready
  numPts : K.numPts = K.cols.length
  startIdx : K.startIdx = (List.range (K.components.length + 1)).map (blockStart (K.components.map ContourG.numPts))

/-- the sum of products of two data vectors -/
def dot (u v : List ℝ) : ℝ := (entrywise u v).sum

/-- the quadrature weights of the block of an edge: step times weighted speed -/
noncomputable def EdgeG.weights (e : EdgeG) : List ℝ :=
  e.cols.map fun s => 2 * Real.pi / (e.cols.length : ℝ) * s.dxNorm

end PFEM
