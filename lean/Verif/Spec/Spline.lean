import Verif.Model.Spline
import Mathlib.Analysis.Calculus.Deriv.Basic

/-!
What scipy promises: `splev` with `der = k + 1` is the derivative of `splev` with `der = k` (twice), and an interpolating spline (`s = 0`) starts at
the first point at parameter 0 and ends at the last point at parameter 1.
-/

namespace PFEM

structure SplineLib.Good {σ : Type} (lib : SplineLib σ) : Prop where
  deriv : ∀ p s, lib.splprep p = .ok s → ∀ k < 2, ∀ u,
    HasDerivAt (fun v => (lib.splev v s k).1) (lib.splev u s (k + 1)).1 u ∧
    HasDerivAt (fun v => (lib.splev v s k).2) (lib.splev u s (k + 1)).2 u
  first : ∀ p s, lib.splprep p = .ok s → p.1.head? = some (lib.splev 0 s 0).1 ∧ p.2.head? = some (lib.splev 0 s 0).2
  last : ∀ p s, lib.splprep p = .ok s → p.1.getLast? = some (lib.splev 1 s 0).1 ∧ p.2.getLast? = some (lib.splev 1 s 0).2

end PFEM
