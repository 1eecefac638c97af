import Mathlib.Algebra.Order.Field.Basic
import Mathlib.Analysis.SpecialFunctions.Pow.Real

/-!
Specification of Legendre polynomials as functions, by Bonnet's recurrence.
-/

namespace PFEM

/-- `P_0 = 1`, `P_1 = x`, `(n + 2) P_{n+2} = (2 n + 3) x P_{n+1} - (n + 1) P_n`. -/
def legendreFun {K : Type} [Field K] : ℕ → K → K
  | 0, _ => 1
  | 1, x => x
  | n + 2, x => ((2 * (n : K) + 3) * x * legendreFun (n + 1) x - ((n : K) + 1) * legendreFun n x) / ((n : K) + 2)

/-- the integrated Legendre functions `q_0 = 1`, `q_1 = x`, `q_n = (P_n - P_{n-2}) / sqrt (4 n - 2)` -/
noncomputable def intLegendreFun : ℕ → ℝ → ℝ
  | 0, _ => 1
  | 1, x => x
  | n + 2, x => (legendreFun (n + 2) x - legendreFun n x) / Real.sqrt (4 * ((n + 2 : ℕ) : ℝ) - 2)

end PFEM
