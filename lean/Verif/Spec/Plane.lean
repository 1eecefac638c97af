import Mathlib.Data.Real.Basic
import Mathlib.Data.Fin.VecNotation

/-!
Specification vocabulary for points in the plane.
-/

namespace PFEM

/-- Twice the signed area of the triangle `a b c`; positive iff it is counterclockwise. -/
def orient (a b c : ℝ × ℝ) : ℝ := (b.1 - a.1) * (c.2 - a.2) - (b.2 - a.2) * (c.1 - a.1)

/-- The barycentric coordinate of `p` for vertex `j` of the triangle `z 0, z 1, z 2`: ratio of signed areas. -/
noncomputable def baryCoord (z : Fin 3 → ℝ × ℝ) (j : Fin 3) (p : ℝ × ℝ) : ℝ :=
  orient p (z (j + 1)) (z (j + 2)) / orient (z 0) (z 1) (z 2)

/-- Both coordinates are integer multiples of `δ` -/
def OnGrid (δ : ℝ) (z : ℝ × ℝ) : Prop := (∃ n : ℤ, z.1 = n * δ) ∧ ∃ n : ℤ, z.2 = n * δ

end PFEM
