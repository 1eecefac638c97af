import Verif.Spec.Region
import Verif.Spec.LineIntegral
import Verif.Spec.LocRep
import Verif.Spec.InnerProd

/-!
Specification vocabulary: functions on a region that local functions approximate.
-/

namespace PFEM

/-- the closure of a region, with the curves round it -/
def closedRegion (Cs : List PCurve) (S : Set (ℝ × ℝ)) : Set (ℝ × ℝ) :=
  closure S ∪ {q | ∃ C ∈ Cs, ∃ s ∈ Set.Icc 0 (2 * Real.pi), q = (C.x s, C.y s)}

/-- In `A` the function `f` has the gradient `(f1, f2)` and the Laplacian `l`; near `A` the function and its gradient have `k`
continuous derivatives. -/
structure SmoothLap (A : Set (ℝ × ℝ)) (k : ℕ) (f f1 f2 l : ℝ → ℝ → ℝ) : Prop where
  fn : ∀ q ∈ A, ContDiffAt ℝ k (fun q : ℝ × ℝ => f q.1 q.2) q
  fn1 : ∀ q ∈ A, ContDiffAt ℝ k (fun q : ℝ × ℝ => f1 q.1 q.2) q
  fn2 : ∀ q ∈ A, ContDiffAt ℝ k (fun q : ℝ × ℝ => f2 q.1 q.2) q
  grad : HasGradOn A f f1 f2
  lap : HasDivergence A f1 f2 l

/-- the parts of a function: a harmonic function `φ` and a function `Φ`, both with their gradients, and polynomials `p`, `P` -/
structure Parts where
  φ : ℝ → ℝ → ℝ
  φ1 : ℝ → ℝ → ℝ
  φ2 : ℝ → ℝ → ℝ
  Φ : ℝ → ℝ → ℝ
  Φ1 : ℝ → ℝ → ℝ
  Φ2 : ℝ → ℝ → ℝ
  p : Poly ℝ
  P : Poly ℝ

namespace Parts

/-- the function: the sum of the harmonic part and the polynomial -/
noncomputable def value (w : Parts) (x y : ℝ) : ℝ := w.φ x y + w.p.eval x y

/-- In `A` the harmonic part is harmonic, the Laplacian of `Φ` is the harmonic part, and both are smooth.  `P` is the anti-Laplacian that
the library computes for `p`, and it is right (see C09). -/
structure Good (A : Set (ℝ × ℝ)) (k : ℕ) (w : Parts) : Prop where
  harm : SmoothLap A k w.φ w.φ1 w.φ2 fun _ _ => 0
  anti : SmoothLap A k w.Φ w.Φ1 w.Φ2 w.φ
  canonical : w.p.Canonical
  antiPoly : w.p.antiLaplacian = .ok w.P
  antiExact : HasLaplacian Set.univ w.P.eval w.p.eval

end Parts

/-- two arrays of one length with entries that differ by at most `ε` -/
def Within (ε : ℝ) (u v : List ℝ) : Prop := List.Forall₂ (fun a b => |a - b| ≤ ε) u v

/-- The local function holds the data of the parts on the cell, up to errors of size `ε` in the arrays of its harmonic part: its values,
its weighted normal derivatives, and the same of its anti-Laplacian.  Its polynomial part is what `LocalPolynomial` makes of `p`. -/
structure LocPoisson.Approximates (K : CellG) (ε : ℝ) (F : LocPoisson) (w : Parts) : Prop where
  cell : F.cell = some K
  poly : ∃ o, F.poly = some o ∧ LocPoly.init w.p (some K) = .ok o
  harm : ∃ h v n V N, F.harm = some h ∧ HarmArrays K h v n V N ∧ Within ε v (K.samplesOf w.φ) ∧ Within ε n (K.normalOf w.φ1 w.φ2) ∧
    Within ε V (K.samplesOf w.Φ) ∧ Within ε N (K.normalOf w.Φ1 w.Φ2)

end PFEM
