import Mathlib.Analysis.SpecialFunctions.Pow.Real

/-!
Vocabulary for the values of edge functions at the ends of an edge.
-/

namespace PFEM
namespace EdgeSpaceG

/-- distance of two points -/
noncomputable def pdist (a b : ℝ × ℝ) : ℝ := Real.sqrt ((b.1 - a.1) ^ 2 + (b.2 - a.2) ^ 2)

/-- deviation allowed per unit of `1e-12 B` for the barycentric coordinates of an edge whose ends are `d` apart -/
noncomputable def edgeErr (d : ℝ) : ℝ := (8 + 4 * d) / (Real.sqrt 3 / 2 * d ^ 2) + 9

end EdgeSpaceG
end PFEM
