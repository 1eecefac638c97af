import Verif.Spec.LocFun
import Verif.Spec.Calculus
import Mathlib.Algebra.BigOperators.Group.Finset.Basic

/-!
Specification vocabulary: which function a local function object stands for.  All data of the object must be those of the function.
-/

namespace PFEM

/-- `p` holds the data of the polynomial function `P` -/
structure LocPoly.Holds (K : CellG) (p : LocPoly) (P : ℝ → ℝ → ℝ) : Prop where
  exact : ∀ x y, p.exact.eval x y = P x y
  grads : ∃ g1 g2, p.grad1 = some g1 ∧ p.grad2 = some g2 ∧ HasGradOn Set.univ P g1.eval g2.eval
  trace : ∃ t, p.trace = some t ∧ TraceOf K Set.univ P true t
  antilap : ∃ q, p.antilap = some q ∧ HasLaplacian Set.univ q.eval P ∧
    ∃ t, p.antilapTrace = some t ∧ TraceOf K Set.univ q.eval false t

/-- the function `ψ + Σ a_j log|· - ξ_j|`, `ξ_j` the interior points of the holes of `K` -/
noncomputable def withLogs (K : CellG) (a : List ℝ) (ψ : ℝ → ℝ → ℝ) (x y : ℝ) : ℝ :=
  ψ x y + (List.zipWith (fun c (k : ContourG) => c * logDist (k.interior.getD (Vert.mk' 0 0)) x y) a K.components.tail).sum

/-- `h` holds the data of the function `φ`, harmonic in `S`: there are a conjugate pair `ψ`, `ψ'` in `S` and logarithmic coefficients with
`φ = ψ + Σ a_j log|· - ξ_j|`; the stored traces are those of `φ`, `ψ`, `ψ'` and of a function with Laplacian `φ` -/
structure LocHarm.Holds (K : CellG) (S : Set (ℝ × ℝ)) (h : LocHarm) (φ : ℝ → ℝ → ℝ) : Prop where
  parts : ∃ ψ ψ' a, ConjugateOn S ψ ψ' ∧ h.logCoef = some a ∧ a.length = K.numHoles ∧
    (∀ x y, (x, y) ∈ S → φ x y = withLogs K a ψ x y) ∧
    (∃ t, h.psi = some t ∧ t.values = some (K.samplesOf ψ)) ∧ ∃ t, h.conj = some t ∧ t.values = some (K.samplesOf ψ')
  trace : TraceOf K S φ true h.trace
  biharm : ∃ b v w, h.biharm = some (some b) ∧ b.values = some v ∧ b.wnd = some w ∧ AntilaplacianData K S φ v w

/-- `f` holds the data of the function `u`: a harmonic part and a polynomial part with sum `u` -/
def LocPoisson.Holds (K : CellG) (S : Set (ℝ × ℝ)) (f : LocPoisson) (u : ℝ → ℝ → ℝ) : Prop :=
  ∃ h p φ P, f.harm = some h ∧ f.poly = some p ∧ h.Holds K S φ ∧ p.Holds K P ∧ ∀ x y, (x, y) ∈ S → u x y = φ x y + P x y

end PFEM
