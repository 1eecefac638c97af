import Mathlib.Data.Real.Basic
import Mathlib.Algebra.BigOperators.Group.List.Basic

/-!
Specification of the composite trapezoid rule.
-/

namespace PFEM

/-- the composite trapezoid rule with step `h`: the sum of `h (w_i + w_{i+1}) / 2` over neighbouring values -/
noncomputable def trapezoid (h : ℝ) : List ℝ → ℝ
  | a :: b :: l => h * (a + b) / 2 + trapezoid h (b :: l)
  | _ => 0

/-- the combination `a u + b v` of two data vectors -/
def lincomb (a b : ℝ) (u v : List ℝ) : List ℝ := List.zipWith (fun x y => a * x + b * y) u v

/-- the entrywise product of two data vectors -/
def entrywise (u v : List ℝ) : List ℝ := List.zipWith (· * ·) u v

/-- the left Riemann sum with step `h`: every value but the last counts -/
noncomputable def leftSum (h : ℝ) (w : List ℝ) : ℝ := h * w.dropLast.sum

end PFEM
