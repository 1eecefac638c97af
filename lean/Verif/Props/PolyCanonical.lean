import Verif.Lemmas.Py
import Verif.Lemmas.PolyPure

/-!
Property theorem C03: every polynomial built through the public operators is in canonical form.
-/

namespace PFEM

variable {K : Type} [Field K] [LinearOrder K] [IsStrictOrderedRing K]

/-- Expressions over the public operations of `Polynomial`. -/
inductive PExpr (K : Type)
  | new (terms : List (K × ℤ × ℤ))                    -- `Polynomial([(c, a, b), ...])`
  | withIdxs (p : PExpr K) (coefs : List K) (idxs : List ℤ) -- `p.add_monomials_with_idxs(coefs, idxs)`
  | copy (p : PExpr K)                                -- `p.copy()`
  | add (p q : PExpr K)                               -- `p + q`
  | iadd (p q : PExpr K)                              -- `p += q`, distinct objects
  | addScalar (p : PExpr K) (c : K)                   -- `p + c`, `c + p`
  | iaddScalar (p : PExpr K) (c : K)                  -- `p += c`
  | sub (p q : PExpr K)                               -- `p - q`
  | subScalar (p : PExpr K) (c : K)                   -- `p - c`
  | rsubScalar (p : PExpr K) (c : K)                  -- `c - p`
  | neg (p : PExpr K)                                 -- `-p`
  | mul (p q : PExpr K)                               -- `p * q`
  | smul (p : PExpr K) (c : K)                        -- `p * c`, `c * p`
  | div (p : PExpr K) (c : K)                         -- `p / c`
  | pow (p : PExpr K) (n : ℤ)                         -- `p ** n`
  | compose (p q1 q2 : PExpr K)                       -- `p.compose(q1, q2)`
  | partialDeriv (p : PExpr K) (v : Var)              -- `p.partial_deriv(v)`
  | gradX (p : PExpr K)                               -- `p.grad()[0]`
  | gradY (p : PExpr K)                               -- `p.grad()[1]`
  | laplacian (p : PExpr K)                           -- `p.laplacian()`
  | antiLaplacian (p : PExpr K)                       -- `p.anti_laplacian()`

/-- Run an expression through the model of the Python operators. -/
def PExpr.run : PExpr K → Py (Poly K)
  | .new ts => Poly.set ts
  | .withIdxs p cs is => do let p ← p.run; Poly.addMonomialsWithIdxs p cs is
  | .copy p => do let p ← p.run; .ok (Poly.copy p)
  | .add p q => do let p ← p.run; let q ← q.run; .ok (Poly.add p q)
  | .iadd p q => do let p ← p.run; let q ← q.run; .ok (Poly.iadd p q)
  | .addScalar p c => do let p ← p.run; Poly.addScalar p c
  | .iaddScalar p c => do let p ← p.run; Poly.iaddScalar p c
  | .sub p q => do let p ← p.run; let q ← q.run; .ok (Poly.sub p q)
  | .subScalar p c => do let p ← p.run; Poly.subScalar p c
  | .rsubScalar p c => do let p ← p.run; Poly.rsubScalar p c
  | .neg p => do let p ← p.run; .ok (Poly.neg p)
  | .mul p q => do let p ← p.run; let q ← q.run; Poly.mul p q
  | .smul p c => do let p ← p.run; .ok (Poly.smul p c)
  | .div p c => do let p ← p.run; Poly.div p c
  | .pow p n => do let p ← p.run; Poly.pow p n
  | .compose p q1 q2 => do
      let p ← p.run; let q1 ← q1.run; let q2 ← q2.run; Poly.compose p q1 q2
  | .partialDeriv p v => do let p ← p.run; Poly.partialDeriv p v
  | .gradX p => do let p ← p.run; let g ← Poly.grad p; .ok g.1
  | .gradY p => do let p ← p.run; let g ← Poly.grad p; .ok g.2
  | .laplacian p => do let p ← p.run; Poly.laplacian p
  | .antiLaplacian p => do let p ← p.run; Poly.antiLaplacian p

open Poly in
/-- C03: whatever expression is evaluated, if no exception is raised then the result lists its monomials in strictly
increasing id order (so no monomial is repeated) and has no coefficient below `1e-12` in magnitude. -/
theorem C03_canonical (e : PExpr K) (p : Poly K) (h : e.run = .ok p) :
    p.Pairwise (fun m n => m.alpha.idx < n.alpha.idx) ∧ ∀ m ∈ p, (1 / 10 ^ 12 : K) ≤ |m.coef| := by
  change Canonical p
  induction e generalizing p with
  | new ts =>
    obtain ⟨a, -, ha⟩ := bind_ok h
    injection ha with ha; subst ha; exact consolidate_canonical _
  | withIdxs q cs is ih =>
    obtain ⟨a, h1, h2⟩ := bind_ok h
    unfold addMonomialsWithIdxs at h2
    split at h2
    · cases h2
    · obtain ⟨b, h3, h4⟩ := bind_ok h2
      injection h4 with h4; subst h4; exact consolidate_canonical _
  | copy q ih =>
    obtain ⟨a, h1, h2⟩ := bind_ok h
    injection h2 with h2; subst h2; rw [copy_eq]; exact consolidate_canonical _
  | add q r ih1 ih2 =>
    obtain ⟨a, h1, h2⟩ := bind_ok h
    obtain ⟨b, h3, h4⟩ := bind_ok h2
    injection h4 with h4; subst h4; exact consolidate_canonical _
  | iadd q r ih1 ih2 =>
    obtain ⟨a, h1, h2⟩ := bind_ok h
    obtain ⟨b, h3, h4⟩ := bind_ok h2
    injection h4 with h4; subst h4; exact consolidate_canonical _
  | addScalar q c ih =>
    obtain ⟨a, h1, h2⟩ := bind_ok h
    rw [addScalar_ok] at h2
    injection h2 with h2; subst h2; exact consolidate_canonical _
  | iaddScalar q c ih =>
    obtain ⟨a, h1, h2⟩ := bind_ok h
    rw [iaddScalar_ok] at h2
    injection h2 with h2; subst h2; exact consolidate_canonical _
  | sub q r ih1 ih2 =>
    obtain ⟨a, h1, h2⟩ := bind_ok h
    obtain ⟨b, h3, h4⟩ := bind_ok h2
    injection h4 with h4; subst h4; exact consolidate_canonical _
  | subScalar q c ih =>
    obtain ⟨a, h1, h2⟩ := bind_ok h
    unfold subScalar at h2
    rw [addScalar_ok] at h2
    injection h2 with h2; subst h2; exact consolidate_canonical _
  | rsubScalar q c ih =>
    obtain ⟨a, h1, h2⟩ := bind_ok h
    unfold rsubScalar at h2
    rw [addScalar_ok] at h2
    injection h2 with h2; subst h2; exact consolidate_canonical _
  | neg q ih =>
    obtain ⟨a, h1, h2⟩ := bind_ok h
    injection h2 with h2; subst h2; exact smul_canonical (ih a h1) _
  | mul q r ih1 ih2 =>
    obtain ⟨a, h1, h2⟩ := bind_ok h
    obtain ⟨b, h3, h4⟩ := bind_ok h2
    rw [mul_eq] at h4
    injection h4 with h4; subst h4; exact mulP_canonical _ _
  | smul q c ih =>
    obtain ⟨a, h1, h2⟩ := bind_ok h
    injection h2 with h2; subst h2; exact smul_canonical (ih a h1) _
  | div q c ih =>
    obtain ⟨a, h1, h2⟩ := bind_ok h
    unfold div at h2
    split at h2
    · cases h2
    · injection h2 with h2; subst h2; exact smul_canonical (ih a h1) _
  | pow q n ih =>
    obtain ⟨a, h1, h2⟩ := bind_ok h
    by_cases hn : n < 0
    · simp [pow, hn] at h2
    · obtain ⟨k, rfl⟩ := Int.eq_ofNat_of_zero_le (not_lt.1 hn)
      rw [pow_ok] at h2
      injection h2 with h2; subst h2; exact powP_canonical _ _ _ oneP_canonical
  | compose q r s ih1 ih2 ih3 =>
    obtain ⟨a, h1, h2⟩ := bind_ok h
    obtain ⟨b, h3, h4⟩ := bind_ok h2
    obtain ⟨c, h5, h6⟩ := bind_ok h4
    rw [compose_ok] at h6
    injection h6 with h6; subst h6; exact compose_canonical _ _ _
  | partialDeriv q v ih =>
    obtain ⟨a, h1, h2⟩ := bind_ok h
    cases v with
    | x =>
      rw [partialDeriv_x] at h2
      injection h2 with h2; subst h2; exact dx_canonical (ih a h1)
    | y =>
      rw [partialDeriv_y] at h2
      injection h2 with h2; subst h2; exact dy_canonical (ih a h1)
    | other =>
      cases a with
      | nil => simp [Poly.partialDeriv, derivLoop] at h2; subst h2; exact Canonical.nil
      | cons m a => simp [Poly.partialDeriv, derivLoop, Mono.partialDeriv, bind, Except.bind] at h2
  | gradX q ih =>
    obtain ⟨a, h1, h2⟩ := bind_ok h
    obtain ⟨b, h3, h4⟩ := bind_ok h2
    unfold grad at h3
    rw [partialDeriv_x, partialDeriv_y] at h3
    injection h3 with h3; subst h3
    injection h4 with h4; subst h4; exact dx_canonical (ih a h1)
  | gradY q ih =>
    obtain ⟨a, h1, h2⟩ := bind_ok h
    obtain ⟨b, h3, h4⟩ := bind_ok h2
    unfold grad at h3
    rw [partialDeriv_x, partialDeriv_y] at h3
    injection h3 with h3; subst h3
    injection h4 with h4; subst h4; exact dy_canonical (ih a h1)
  | laplacian q ih =>
    obtain ⟨a, h1, h2⟩ := bind_ok h
    rw [laplacian_ok] at h2
    injection h2 with h2; subst h2; exact lap_canonical _
  | antiLaplacian q ih =>
    obtain ⟨a, h1, h2⟩ := bind_ok h
    rw [antiLaplacian_ok] at h2
    injection h2 with h2; subst h2; exact alP_canonical _

/-- A non-trivial expression that runs without exception: `(x + y)*(x - y) + 3`, via unsorted, repeated input. -/
example : (PExpr.add (.mul (.new [((1 : ℚ), 0, 1), (1, 1, 0)]) (.new [(1, 1, 0), (-1, 0, 1)]))
      (.new [(1, 0, 0), (2, 0, 0)])).run = .ok [⟨⟨0, 0⟩, 3⟩, ⟨⟨2, 0⟩, 1⟩, ⟨⟨0, 2⟩, -1⟩] := by
  decide +kernel

open Poly in
/-- C03: whatever monomials a polynomial holds, repeated or not, `is_zero` answers True exactly if the total coefficient of every power is below `1e-12`
in magnitude; afterwards the polynomial is in canonical form and has the same coefficients, apart from those below `1e-12`. -/
theorem C03_is_zero (p : Poly K) :
    (p.isZero.1 = true ↔ ∀ a, |coeffOf p a| < 1 / 10 ^ 12) ∧
    p.isZero.2.Pairwise (fun m n => m.alpha.idx < n.alpha.idx) ∧ (∀ m ∈ p.isZero.2, (1 / 10 ^ 12 : K) ≤ |m.coef|) ∧
    ∀ a, coeffOf p.isZero.2 a = if |coeffOf p a| < 1 / 10 ^ 12 then 0 else coeffOf p a := by
  have hc := consolidate_canonical p
  have hco : ∀ a, coeffOf (consolidate p) a = if |coeffOf p a| < 1 / 10 ^ 12 then 0 else coeffOf p a := coeffOf_consolidate p
  refine ⟨?_, hc.1, hc.2, hco⟩
  simp only [Poly.isZero, beq_iff_eq, List.length_eq_zero_iff]
  constructor
  · intro h a
    by_contra hlt
    have := hco a
    rw [h, coeffOf_nil, if_neg hlt] at this
    rw [← this, abs_zero] at hlt
    exact hlt (by positivity)
  · intro h
    refine List.eq_nil_iff_forall_not_mem.2 fun m hm => ?_
    have h1 := hc.coeffOf_mem hm
    rw [hco, if_pos (h _)] at h1
    have h2 := hc.2 m hm
    rw [← h1, abs_zero] at h2
    exact absurd h2 (not_le.2 (by unfold tol; positivity))

/-- monomials that cancel, added one by one: the sum is zero although the list is not empty; and one that is not -/
example : (Poly.isZero ([⟨⟨1, 0⟩, 2⟩, ⟨⟨0, 1⟩, 1⟩, ⟨⟨1, 0⟩, -2⟩, ⟨⟨0, 1⟩, -1⟩] : Poly ℚ)) = (true, []) ∧
    (Poly.isZero ([⟨⟨1, 0⟩, 2⟩, ⟨⟨0, 1⟩, 1⟩, ⟨⟨1, 0⟩, -2⟩] : Poly ℚ)) = (false, [⟨⟨0, 1⟩, 1⟩]) := by
  decide +kernel

end PFEM
