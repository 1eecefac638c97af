import Verif.Spec.Combo
import Verif.Spec.EllipseSolve
import Verif.Spec.EllipseInside

/-!
Specification vocabulary: arrays of values at the interior points that are close to the values of a function.
-/

namespace PFEM
open Nystrom

/-- the array `i` has one entry for each interior point of `K`, which at the points of `A` differs from the value of `g` by at most `ε` -/
def LocPoisson.Near (F : LocPoisson) (i : Item) (K : CellG) (A : Set (ℝ × ℝ)) (g : ℝ → ℝ → ℝ) (ε : ℝ) : Prop :=
  ∃ U : ℝ × ℝ → ℝ, F.item i = some (K.interior.map U) ∧ ∀ y ∈ K.interior, y ∈ A → |U y - g y.1 y.2| ≤ ε

namespace SolverG

/-- `spsolve` returns a solution of the right length whenever there is one -/
def SolvesSystems (spsolve : (ℕ → ℕ → ℝ) → (ℕ → ℝ) → ℕ → List ℝ) : Prop :=
  ∀ A b N, (∃ x : ℕ → ℝ, ∀ i < N, ∑ j ∈ Finset.range N, A i j * x j = b i) →
    (spsolve A b N).length = N ∧ ∀ i < N, ∑ j ∈ Finset.range N, A i j * (spsolve A b N).getD j 0 = b i

end SolverG
end PFEM
