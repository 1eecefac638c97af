import Verif.Spec.RingEnergy

/-!
Specification vocabulary: Poisson problems on rings.
-/

namespace PFEM

/-- the ring with its two circles -/
def closedRing (x0 y0 a b : ℝ) : Set (ℝ × ℝ) := {p | a ^ 2 ≤ (p.1 - x0) ^ 2 + (p.2 - y0) ^ 2 ∧ (p.1 - x0) ^ 2 + (p.2 - y0) ^ 2 ≤ b ^ 2}

/-- `w` solves the Poisson problem on the ring: its Laplacian is `f`, and it is continuous up to the boundary with the values of `u` on the outer and of `v` on the
inner circle -/
structure RingSolution (x0 y0 a b : ℝ) (f u v w : ℝ → ℝ → ℝ) : Prop where
  laplacian : HasLaplacian (ring x0 y0 a b) w f
  continuous : ContinuousOn (fun q : ℝ × ℝ => w q.1 q.2) (closedRing x0 y0 a b)
  outer : ∀ x y, (x - x0) ^ 2 + (y - y0) ^ 2 = b ^ 2 → w x y = u x y
  inner : ∀ x y, (x - x0) ^ 2 + (y - y0) ^ 2 = a ^ 2 → w x y = v x y

end PFEM
