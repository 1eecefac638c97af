import Verif.Model.Meshlib
import Verif.Spec.LineIntegral

/-!
Specification of what the meshes of the library should be.
-/

namespace PFEM
namespace Meshlib

variable {K : Type} [Field K] [LinearOrder K]

/-- any two of the points have distance `1e-6` at least -/
def Spread (pts : List (K × K)) : Prop :=
  pts.Pairwise fun p q => (1 / 10 ^ 6 : K) ^ 2 ≤ (p.1 - q.1) ^ 2 + (p.2 - q.2) ^ 2

instance (pts : List (K × K)) : Decidable (Spread pts) := inferInstanceAs (Decidable (List.Pairwise _ _))

/-- two meshes, possibly with their vertices in different places, are the same for everything that depends on numbers only -/
def SameTopology {K K' : Type} [Field K] [LinearOrder K] [Field K'] [LinearOrder K'] (m : PlanarMesh K) (m' : PlanarMesh K') : Prop :=
  m.edges = m'.edges ∧ m.numEdges = m'.numEdges ∧ m.vertIdxList = m'.vertIdxList ∧ m.numVerts = m'.numVerts ∧
    m.cellIdxList = m'.cellIdxList ∧ m.numCells = m'.numCells ∧ (∀ v, m.vertIsOnBoundary v = m'.vertIsOnBoundary v) ∧
    (∀ k, m.edgeIsOnBoundary k = m'.edgeIsOnBoundary k) ∧ (∀ c, m.getCellEdges c = m'.getCellEdges c) ∧
    ∀ c, m.getCell c = m'.getCell c

/-- the two cells of the square with a hole: the square with the circle (edge 4) as hole, and the disk -/
def squareHoleCells : List CellTopo :=
  [⟨0, [1, 1, 1, 1, -1], [⟨[0, 1, 2, 3], [1, 1, 1, 1], 4⟩, ⟨[4], [-1], 1⟩], 1, 5⟩, ⟨1, [1], [⟨[4], [1], 1⟩], 0, 1⟩]

/-- The eleven cells of the Pac-Man mesh: number, orientations of the edges, components of the boundary (edges in order,
orientations, number of edges), number of holes, number of edges.  Cell 0 is the square around Pac-Man, 1 Pac-Man with one hole,
2 the eye, 3 the rectangle with the three dots as holes, 4 to 6 the dots, 7 the square around the ghost, 8 the ghost with two
holes, 9 and 10 the eyes of the ghost. -/
def pacmanCells : List CellTopo :=
  [⟨0, [1, 1, 1, 1, -1, -1, -1], [⟨[0, 8, 6, 7], [1, 1, 1, 1], 4⟩, ⟨[10, 12, 11], [-1, -1, -1], 3⟩], 1, 7⟩,
   ⟨1, [1, 1, 1, -1], [⟨[10, 11, 12], [1, 1, 1], 3⟩, ⟨[13], [-1], 1⟩], 1, 4⟩,
   ⟨2, [1], [⟨[13], [1], 1⟩], 0, 1⟩,
   ⟨3, [1, 1, -1, 1, -1, -1, -1], [⟨[1, 9, 5, 8], [1, 1, 1, -1], 4⟩, ⟨[14], [-1], 1⟩, ⟨[15], [-1], 1⟩, ⟨[16], [-1], 1⟩], 3, 7⟩,
   ⟨4, [1], [⟨[14], [1], 1⟩], 0, 1⟩,
   ⟨5, [1], [⟨[15], [1], 1⟩], 0, 1⟩,
   ⟨6, [1], [⟨[16], [1], 1⟩], 0, 1⟩,
   ⟨7, [1, 1, 1, -1, -1, -1, -1, -1], [⟨[2, 3, 4, 9], [1, 1, 1, -1], 4⟩, ⟨[17, 20, 19, 18], [-1, -1, -1, -1], 4⟩], 1, 8⟩,
   ⟨8, [1, 1, 1, 1, -1, -1], [⟨[17, 18, 19, 20], [1, 1, 1, 1], 4⟩, ⟨[21], [-1], 1⟩, ⟨[22], [-1], 1⟩], 2, 6⟩,
   ⟨9, [1], [⟨[21], [1], 1⟩], 0, 1⟩,
   ⟨10, [1], [⟨[22], [1], 1⟩], 0, 1⟩]

/-- the same cells for the mesh in which the two vertical lines inside are cut in two -/
def pacmanSubdivCells : List CellTopo :=
  [⟨0, [1, 1, 1, 1, 1, -1, -1, -1], [⟨[0, 8, 9, 6, 7], [1, 1, 1, 1, 1], 5⟩, ⟨[12, 14, 13], [-1, -1, -1], 3⟩], 1, 8⟩,
   ⟨1, [1, 1, 1, -1], [⟨[12, 13, 14], [1, 1, 1], 3⟩, ⟨[15], [-1], 1⟩], 1, 4⟩,
   ⟨2, [1], [⟨[15], [1], 1⟩], 0, 1⟩,
   ⟨3, [1, 1, -1, -1, 1, 1, -1, -1, -1], [⟨[1, 10, 11, 5, 9, 8], [1, 1, 1, 1, -1, -1], 6⟩, ⟨[16], [-1], 1⟩, ⟨[17], [-1], 1⟩, ⟨[18], [-1], 1⟩], 3, 9⟩,
   ⟨4, [1], [⟨[16], [1], 1⟩], 0, 1⟩,
   ⟨5, [1], [⟨[17], [1], 1⟩], 0, 1⟩,
   ⟨6, [1], [⟨[18], [1], 1⟩], 0, 1⟩,
   ⟨7, [1, 1, 1, -1, -1, -1, -1, -1, -1], [⟨[2, 3, 4, 11, 10], [1, 1, 1, -1, -1], 5⟩, ⟨[19, 22, 21, 20], [-1, -1, -1, -1], 4⟩], 1, 9⟩,
   ⟨8, [1, 1, 1, 1, -1, -1], [⟨[19, 20, 21, 22], [1, 1, 1, 1], 4⟩, ⟨[23], [-1], 1⟩, ⟨[24], [-1], 1⟩], 2, 6⟩,
   ⟨9, [1], [⟨[23], [1], 1⟩], 0, 1⟩,
   ⟨10, [1], [⟨[24], [1], 1⟩], 0, 1⟩]

/-- the mesh has exactly these cells, edges `0, ..., n - 1` and these vertices (centres of loops are not counted) -/
def HasCells {K : Type} [Field K] [LinearOrder K] (m : PlanarMesh K) (cells : List CellTopo) (n : ℕ) (verts : List ℤ) : Prop :=
  m.edges = List.range n ∧ m.numEdges = n ∧ m.cellIdxList = cells.map CellTopo.idx ∧ m.numCells = cells.length ∧
    m.vertIdxList = verts ∧ m.numVerts = verts.length ∧ ∀ k ∈ cells, m.getCell k.idx = .ok k

/-! ### the curves of the Pac-Man mesh -/

/-- the straight line from `p` to `q`, run through for `s` from 0 to 2π -/
noncomputable def seg (p q : ℝ × ℝ) (s : ℝ) : ℝ × ℝ :=
  (p.1 + s / (2 * Real.pi) * (q.1 - p.1), p.2 + s / (2 * Real.pi) * (q.2 - p.2))

/-- the ellipse around `c` with semi-axes `a`, `b`, counterclockwise -/
noncomputable def oval (c : ℝ × ℝ) (a b : ℝ) (s : ℝ) : ℝ × ℝ := (c.1 + a * Real.cos s, c.2 + b * Real.sin s)

/-- the arc of the circle of radius `r` around `c` from the angle `u` to the angle `u + v`, for `s` from 0 to 2π -/
noncomputable def arc (c : ℝ × ℝ) (r u v : ℝ) (s : ℝ) : ℝ × ℝ :=
  (c.1 + r * Real.cos (u + v * s / (2 * Real.pi)), c.2 + r * Real.sin (u + v * s / (2 * Real.pi)))

/-- The curves of the figures: Pac-Man's mouth at (1/2, 1/2) opening to the right by 60 degrees, the arc of radius 2/5 around it from
30 to 330 degrees, the eye, the three dots, and the ghost: a wave at the bottom, two sides, a half circle on top, two oval eyes. -/
noncomputable def figureCurves : List (ℝ → ℝ × ℝ) :=
  [seg (1 / 2, 1 / 2) (1 / 2 + Real.sqrt 3 / 5, 7 / 10),
   arc (1 / 2, 1 / 2) (2 / 5) (Real.pi / 6) (5 * Real.pi / 3),
   seg (1 / 2 + Real.sqrt 3 / 5, 3 / 10) (1 / 2, 1 / 2),
   oval (23 / 50, 7 / 10) (1 / 10) (1 / 10),
   oval (3 / 2, 1 / 2) (1 / 10) (1 / 10), oval (2, 1 / 2) (1 / 10) (1 / 10), oval (5 / 2, 1 / 2) (1 / 10) (1 / 10),
   fun s => (16 / 5 + 3 / 5 * (s / (2 * Real.pi)), 7 / 50 + 3 / 50 * Real.sin (3 * s)),
   seg (19 / 5, 7 / 50) (19 / 5, 31 / 50),
   arc (7 / 2, 31 / 50) (3 / 10) 0 Real.pi,
   seg (16 / 5, 31 / 50) (16 / 5, 7 / 50),
   oval (67 / 20, 14 / 25) (9 / 100) (3 / 25), oval (73 / 20, 14 / 25) (9 / 100) (3 / 25)]

/-- the outer sides of the three rectangles `[0, 1] × [0, 1]`, `[1, 3] × [0, 1]`, `[3, 4] × [0, 1]`, around them counterclockwise -/
noncomputable def rectCurves : List (ℝ → ℝ × ℝ) :=
  [seg (0, 0) (1, 0), seg (1, 0) (3, 0), seg (3, 0) (4, 0), seg (4, 0) (4, 1), seg (4, 1) (3, 1), seg (3, 1) (1, 1),
   seg (1, 1) (0, 1), seg (0, 1) (0, 0)]

noncomputable def pacmanCurves : List (ℝ → ℝ × ℝ) := rectCurves ++ [seg (1, 0) (1, 1), seg (3, 0) (3, 1)] ++ figureCurves

noncomputable def pacmanSubdivCurves : List (ℝ → ℝ × ℝ) :=
  rectCurves ++ [seg (1, 0) (1, 1 / 2), seg (1, 1 / 2) (1, 1), seg (3, 0) (3, 1 / 2), seg (3, 1 / 2) (3, 1)] ++ figureCurves

/-- the curves of the square with a circular hole -/
noncomputable def squareHoleCurves : List (ℝ → ℝ × ℝ) :=
  [seg (0, 0) (1, 0), seg (1, 0) (1, 1), seg (1, 1) (0, 1), seg (0, 1) (0, 0), oval (1 / 2, 1 / 2) (1 / 4) (1 / 4)]

/-- the edge can be made and follows the curve `c` -/
def Draws (e : LibEdge ℝ) (c : ℝ → ℝ × ℝ) : Prop :=
  ∃ g C, e.geom = .ok g ∧ g.Follows C ∧ ∀ s, (C.x s, C.y s) = c s

/-! ### where the figures lie -/

/-- the open rectangle `(x0, x1) × (0, 1)` -/
def inRect (x0 x1 : ℝ) (p : ℝ × ℝ) : Prop := x0 < p.1 ∧ p.1 < x1 ∧ 0 < p.2 ∧ p.2 < 1

/-- inside Pac-Man: in the disk of radius 2/5 around (1/2, 1/2), outside of the mouth, which is the sector between the angles -30 and 30
degrees -/
def inPacman (p : ℝ × ℝ) : Prop :=
  (p.1 - 1 / 2) ^ 2 + (p.2 - 1 / 2) ^ 2 < (2 / 5) ^ 2 ∧ p.1 - 1 / 2 < Real.sqrt 3 * |p.2 - 1 / 2|

/-- on the outline of Pac-Man: on the circle outside of the mouth, or on the two sides of the mouth up to the circle -/
def onPacman (p : ℝ × ℝ) : Prop :=
  (p.1 - 1 / 2) ^ 2 + (p.2 - 1 / 2) ^ 2 = (2 / 5) ^ 2 ∧ p.1 - 1 / 2 ≤ Real.sqrt 3 * |p.2 - 1 / 2| ∨
    (p.1 - 1 / 2) ^ 2 + (p.2 - 1 / 2) ^ 2 ≤ (2 / 5) ^ 2 ∧ p.1 - 1 / 2 = Real.sqrt 3 * |p.2 - 1 / 2|

/-- inside the ghost: between its sides, above its wave, below its half circle; the wave is `y = 7/50 + 3/50 sin(...)` with five more
zeros inside -/
def inGhost (p : ℝ × ℝ) : Prop :=
  16 / 5 < p.1 ∧ p.1 < 19 / 5 ∧ 7 / 50 + 3 / 50 * Real.sin (10 * Real.pi * (p.1 - 16 / 5)) < p.2 ∧
    (p.2 ≤ 31 / 50 ∨ (p.1 - 7 / 2) ^ 2 + (p.2 - 31 / 50) ^ 2 < (3 / 10) ^ 2)

/-- on the outline of the ghost -/
def onGhost (p : ℝ × ℝ) : Prop :=
  16 / 5 ≤ p.1 ∧ p.1 ≤ 19 / 5 ∧
    (p.2 = 7 / 50 + 3 / 50 * Real.sin (10 * Real.pi * (p.1 - 16 / 5)) ∨
      ((p.1 = 16 / 5 ∨ p.1 = 19 / 5) ∧ 7 / 50 ≤ p.2 ∧ p.2 ≤ 31 / 50) ∨
      (31 / 50 ≤ p.2 ∧ (p.1 - 7 / 2) ^ 2 + (p.2 - 31 / 50) ^ 2 = (3 / 10) ^ 2))

/-- the figures that the curves outline are inside the cells that they are holes of, and holes of the same cell are apart: a table of the
conditions that the points of the thirteen curves of the figures meet -/
noncomputable def figureRegions : List (ℝ × ℝ → Prop) :=
  [fun p => onPacman p ∧ inRect 0 1 p, fun p => onPacman p ∧ inRect 0 1 p, fun p => onPacman p ∧ inRect 0 1 p,
   inPacman,
   fun p => inRect 1 3 p ∧ p.1 < 7 / 4, fun p => inRect 1 3 p ∧ 7 / 4 < p.1 ∧ p.1 < 9 / 4, fun p => inRect 1 3 p ∧ 9 / 4 < p.1,
   fun p => onGhost p ∧ inRect 3 4 p, fun p => onGhost p ∧ inRect 3 4 p, fun p => onGhost p ∧ inRect 3 4 p,
   fun p => onGhost p ∧ inRect 3 4 p,
   fun p => inGhost p ∧ p.1 < 7 / 2, fun p => inGhost p ∧ 7 / 2 < p.1]

end Meshlib
end PFEM
