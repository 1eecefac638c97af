import Mathlib.Algebra.BigOperators.Group.List.Basic
import Mathlib.Algebra.MvPolynomial.Eval
import Verif.Model.Poly

/-!
Specification vocabulary for polynomials: what it means for a list of monomials to be in canonical form, which
mathematical polynomial it denotes, and when its coefficients lie on a lattice.  Nothing here is used by the model.
-/

namespace PFEM

variable {K : Type} [Field K] [LinearOrder K]

/-- A coefficient with the near-zero test applied: 0 if its magnitude is below `1e-12`. -/
def chop (c : K) : K := if |c| < tol K then 0 else c

/-- The exponent vector of a multi-index. -/
noncomputable def MultiIndex.fs (a : MultiIndex) : Fin 2 →₀ ℕ :=
  Finsupp.single 0 a.x + Finsupp.single 1 a.y

namespace Poly

/-- Total coefficient of the monomial `x^a.x y^a.y` in a list of monomials. -/
def coeffOf (p : Poly K) (a : MultiIndex) : K :=
  ((p.filter (fun m => m.alpha = a)).map Mono.coef).sum

/-- Canonical form: strictly increasing ids, no coefficient smaller than `1e-12` in magnitude. -/
def Canonical (p : Poly K) : Prop :=
  p.Pairwise (fun m n => m.alpha.idx < n.alpha.idx) ∧ ∀ m ∈ p, tol K ≤ |m.coef|

/-- The polynomial in the sense of Mathlib that a list of monomials denotes. -/
noncomputable def toMv (p : Poly K) : MvPolynomial (Fin 2) K :=
  (p.map (fun m => MvPolynomial.monomial m.alpha.fs m.coef)).sum

/-- All coefficients are integer multiples of `δ`. -/
def OnLattice (δ : K) (p : Poly K) : Prop := ∀ m ∈ p, ∃ n : ℤ, m.coef = n * δ

/-- `B` bounds the magnitude at `(x, y)` of every monomial occurring in `p` (without its coefficient). -/
def MonoBound (p : Poly K) (x y B : K) : Prop := ∀ m ∈ p, |x| ^ m.alpha.x * |y| ^ m.alpha.y ≤ B

end Poly
end PFEM
