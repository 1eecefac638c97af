import Mathlib.Analysis.SpecialFunctions.Log.Basic
import Mathlib.Analysis.SpecialFunctions.Trigonometric.Basic
import Verif.Spec.Boundary

/-!
Specification vocabulary for the matrices of the Nyström solver.
-/

namespace PFEM

/-- A sample of a cell: sample `a` of edge `k` of component `i`. -/
structure Node (K : CellG) where
  i : ℕ
  k : ℕ
  a : ℕ
  c : ContourG
  e : EdgeG
  s : Sample
  hc : K.components[i]? = some c
  he : c.edges[k]? = some e
  hs : e.cols[a]? = some s

/-- the place of a sample in the vectors of a cell: after the samples of the components before, of the edges before in its own
component, and of the samples before on its edge -/
def Node.pos {K : CellG} (P : Node K) : ℕ :=
  blockStart (K.components.map ContourG.numPts) P.i + blockStart (P.c.edges.map fun e => e.cols.length) P.k + P.a

/-- two samples on one edge -/
def Node.SameEdge {K : CellG} (P Q : Node K) : Prop := P.i = Q.i ∧ P.k = Q.k

instance {K : CellG} (P Q : Node K) : Decidable (P.SameEdge Q) := by unfold Node.SameEdge; infer_instance

/-- the edge is sampled with Kress' rule -/
def EdgeG.IsKress (e : EdgeG) : Prop := "kress".toList <+: e.quadType.toList

instance (e : EdgeG) : Decidable e.IsKress := by unfold EdgeG.IsKress; infer_instance

/-- the first sample of an edge under Kress' rule, where the weight vanishes -/
def Node.Skipped {K : CellG} (Q : Node K) : Prop := Q.e.IsKress ∧ Q.a = 0

instance {K : CellG} (Q : Node K) : Decidable Q.Skipped := by unfold Node.Skipped; infer_instance

/-- squared distance of two samples -/
def sqDist (s t : Sample) : ℝ := (s.x - t.x) ^ 2 + (s.y - t.y) ^ 2

/-- Martensen's weight for `N` intervals and distance `d` on the parameter circle:
`(1/N) ∑ m, cos (2π m d / N) / m`, `1 ≤ m ≤ N/2` -/
noncomputable def martensenWeight (N d : ℕ) : ℝ :=
  (∑ m ∈ Finset.range (N / 2), Real.cos (2 * Real.pi * (m + 1) * d / N) / (m + 1)) / N

/-- the entry of the single layer matrix for the samples `P` (row) and `Q` (column): `-log|x - y| / N` with `N` the number of
intervals of the edge of `Q`; on one edge the singularity is split off and integrated with Martensen's weights -/
noncomputable def singleEntry {K : CellG} (P Q : Node K) : ℝ :=
  let N := Q.e.cols.length
  if Q.Skipped then 0
  else if P.SameEdge Q then
    (if P.a = Q.a then (if Q.s.dxNorm < 1 / 10 ^ 14 then 0 else -(1 / N) * Real.log Q.s.dxNorm)
     else -(1 / (2 * N)) * Real.log (sqDist P.s Q.s / (2 * Real.sin (Real.pi * (P.a - Q.a) / N)) ^ 2)) +
      martensenWeight N (max P.a Q.a - min P.a Q.a)
  else -(1 / (2 * N)) * Real.log (sqDist P.s Q.s)

/-- the entry of the double layer matrix: `(x - y)·n(y) / |x - y|²` times the weighted speed at `y` over `N`; on one edge the
quotient is replaced by half the curvature if the points are closer than `10⁻⁶` -/
noncomputable def doubleEntry {K : CellG} (P Q : Node K) : ℝ :=
  let N := Q.e.cols.length
  if Q.Skipped then 0
  else (if P.SameEdge Q ∧ sqDist P.s Q.s < 1 / 10 ^ 12 then Q.s.curv / 2
    else ((P.s.x - Q.s.x) * Q.s.nx + (P.s.y - Q.s.y) * Q.s.ny) / sqDist P.s Q.s) * Q.s.dxNorm / N

/-- every edge has an even number `2n` of intervals, `4 ≤ n ≤ 2·10⁷` -/
def CellG.Even (K : CellG) : Prop :=
  ∀ c ∈ K.components, ∀ e ∈ c.edges, ∃ n : ℕ, 4 ≤ n ∧ n ≤ 2 * 10 ^ 7 ∧ e.cols.length = 2 * n

/-- samples of different edges are different points; the first sample of an edge under Kress' rule may also be a sample of the
edge before it -/
def CellG.Apart (K : CellG) : Prop := ∀ P Q : Node K, ¬ Q.Skipped → ¬ P.SameEdge Q → sqDist P.s Q.s ≠ 0

/-- different samples are different points, with the same exception -/
def CellG.Simple (K : CellG) : Prop := ∀ P Q : Node K, ¬ Q.Skipped → ¬ (P.SameEdge Q ∧ P.a = Q.a) → sqDist P.s Q.s ≠ 0

end PFEM
