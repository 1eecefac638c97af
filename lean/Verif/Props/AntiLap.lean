import Verif.Lemmas.AntiLap
import Mathlib.Algebra.MvPolynomial.Funext

/-!
Property theorems C09 (`anti_laplacian` is a right inverse of `laplacian`) and C10 (polynomial equality).

C09 in full generality ("for all polynomials") is false: the absolute tolerance `1e-12` deletes terms of the result
when the coefficients of the input are too small (`C09_tiny_coefficient`).  `C09_right_inverse_partial` proves it
for every degree whenever the coefficients are multiples of a spacing `δ` that is large enough for the degree.
What is missing is an error bound for coefficients not on such a lattice.
-/

set_option linter.unusedSectionVars false

namespace PFEM
open Poly

section
variable {K : Type} [Field K] [LinearOrder K] [IsStrictOrderedRing K]

/-- C09 (a): `p.anti_laplacian().laplacian()` is `p` itself, monomial by monomial, for canonical `p` whose
coefficients are multiples of `δ`, where for each monomial of degree `n` occurring in `p`
`4^(n/2+1) (n/2+1)! (n+1) n ... (n+1-n/2) * 1e-12 ≤ δ`. -/
theorem C09_laplacian_antiLaplacian_partial (p : Poly K) (hp : Canonical p) (δ : K) (hl : OnLattice δ p)
    (hδ : ∀ m ∈ p, ∀ n, n = m.alpha.x + m.alpha.y →
      ((4 ^ (n / 2 + 1) * (n / 2 + 1).factorial * (n + 1).descFactorial (n / 2 + 1) : ℕ) : K) * (1 / 10 ^ 12) ≤ δ) :
    ∃ q, antiLaplacian p = .ok q ∧ laplacian q = .ok p := by
  have h := alP_spec p δ hp.2 (fun m hm => hδ m hm _ rfl) hl [] (fun m hm => by simp at hm)
  rw [toMv_nil, Lap_zero, zero_add] at h
  refine ⟨_, antiLaplacian_ok p, ?_⟩
  rw [laplacian_ok]
  congr 1
  refine (lap_canonical _).ext hp fun a => ?_
  exact coeffOf_of_toMv ((lap_grad' h.2).trans h.1) a

end

/-- C09 (b): under the same conditions the Laplacian, in the sense of calculus, of the function computed by
`p.anti_laplacian()` is the function computed by `p`, at every point. -/
theorem C09_right_inverse_partial (p : Poly ℝ) (hp : Canonical p) (δ : ℝ) (hl : OnLattice δ p)
    (hδ : ∀ m ∈ p, ∀ n, n = m.alpha.x + m.alpha.y →
      ((4 ^ (n / 2 + 1) * (n / 2 + 1).factorial * (n + 1).descFactorial (n / 2 + 1) : ℕ) : ℝ) * (1 / 10 ^ 12) ≤ δ) :
    ∃ q, antiLaplacian p = .ok q ∧ ∀ x y,
      deriv (deriv (fun t => eval q t y)) x + deriv (deriv (fun t => eval q x t)) y = eval p x y := by
  have h := alP_spec p δ hp.2 (fun m hm => hδ m hm _ rfl) hl [] (fun m hm => by simp at hm)
  rw [toMv_nil, Lap_zero, zero_add] at h
  refine ⟨_, antiLaplacian_ok p, fun x y => ?_⟩
  have hc := (alP_canonical p).2
  rw [deriv2_x hc, deriv2_y hc]
  have h2 := dx_grad' (dx_grad' h.2).2
  have h4 := dy_grad' (dy_grad' h.2).2
  have h1 := dx_grad' h.2
  have h3 := dy_grad' h.2
  have e := h.1
  rw [Lap] at e
  unfold alP
  rw [eval_toMv, h2.1, h1.1, eval_toMv, h4.1, h3.1, ← map_add, e, ← eval_toMv]

/-- C09 (c): the restriction on the coefficients is needed: for the canonical polynomial `1e-12` the code returns
the zero polynomial, so the Laplacian of the result is not the input. -/
theorem C09_tiny_coefficient :
    Canonical ([⟨⟨0, 0⟩, 1 / 10 ^ 12⟩] : Poly ℚ) ∧
      antiLaplacian ([⟨⟨0, 0⟩, 1 / 10 ^ 12⟩] : Poly ℚ) = .ok [] ∧
      laplacian ([] : Poly ℚ) = .ok [] := by
  refine ⟨⟨by simp, by simp [tol]⟩, by decide +kernel, by decide +kernel⟩

/-- `3 + 6 x^2 y - y^4` with integer coefficients meets the hypotheses (`δ = 1`, largest degree 4). -/
example : Canonical ([⟨⟨0, 0⟩, 3⟩, ⟨⟨2, 1⟩, 6⟩, ⟨⟨0, 4⟩, -1⟩] : Poly ℚ) ∧
    OnLattice (1 : ℚ) [⟨⟨0, 0⟩, 3⟩, ⟨⟨2, 1⟩, 6⟩, ⟨⟨0, 4⟩, -1⟩] ∧
    (∀ m ∈ ([⟨⟨0, 0⟩, 3⟩, ⟨⟨2, 1⟩, 6⟩, ⟨⟨0, 4⟩, -1⟩] : Poly ℚ), ∀ n, n = m.alpha.x + m.alpha.y →
      ((4 ^ (n / 2 + 1) * (n / 2 + 1).factorial * (n + 1).descFactorial (n / 2 + 1) : ℕ) : ℚ) * (1 / 10 ^ 12)
        ≤ 1) ∧
    antiLaplacian ([⟨⟨2, 1⟩, 6⟩] : Poly ℚ) =
      .ok [⟨⟨4, 1⟩, 11 / 32⟩, ⟨⟨2, 3⟩, 5 / 16⟩, ⟨⟨0, 5⟩, -1 / 32⟩] := by
  refine ⟨⟨by decide, ?_⟩, ?_, ?_, by decide +kernel⟩
  · intro m hm
    simp only [List.mem_cons, List.not_mem_nil, or_false] at hm
    rcases hm with rfl | rfl | rfl <;> norm_num [tol]
  · intro m hm
    simp only [List.mem_cons, List.not_mem_nil, or_false] at hm
    rcases hm with rfl | rfl | rfl
    · exact ⟨3, by norm_num⟩
    · exact ⟨6, by norm_num⟩
    · exact ⟨-1, by norm_num⟩
  · intro m hm n hn
    simp only [List.mem_cons, List.not_mem_nil, or_false] at hm
    rcases hm with rfl | rfl | rfl <;> subst hn <;> norm_num [Nat.factorial, Nat.descFactorial]

/-! ### C10 -/

section
variable {K : Type} [Field K] [LinearOrder K] [IsStrictOrderedRing K]

theorem eqLoop_refl (p : Poly K) : eqLoop p p = true := by
  induction p with
  | nil => rfl
  | cons m p ih => simp [eqLoop, Mono.beq, tol_pos, ih]

theorem beq_symm' (m n : Mono K) : m.beq n = n.beq m := by
  unfold Mono.beq
  rw [abs_sub_comm]
  by_cases h : m.alpha.idx = n.alpha.idx
  · simp [h]
  · have h' : ¬ n.alpha.idx = m.alpha.idx := fun e => h e.symm
    simp [h, h']

theorem eqLoop_symm (p q : Poly K) (h : p.length = q.length) : eqLoop p q = eqLoop q p := by
  induction p generalizing q with
  | nil => cases q with
    | nil => rfl
    | cons n q => simp at h
  | cons m p ih => cases q with
    | nil => simp at h
    | cons n q => simp only [eqLoop, beq_symm' m n, ih q (by simpa using h)]

theorem sort_length (p : Poly K) : (sort p).length = p.length := (sort_perm p).length_eq

/-- C10 (a): `==` is reflexive (for all polynomials). -/
theorem C10_refl (p : Poly K) : beq p p = true := by simp [beq, eqLoop_refl]

/-- C10 (b): `==` is symmetric (for all polynomials). -/
theorem C10_symm (p q : Poly K) : beq p q = beq q p := by
  unfold beq
  by_cases h : p.length = q.length
  · simp [h, eqLoop_symm _ _ (by rw [sort_length, sort_length, h] : (sort p).length = (sort q).length)]
  · have h' : ¬ q.length = p.length := fun e => h e.symm
    simp [h, h']

/-- C10 (c): two polynomials in canonical form that agree at all points have the same list of monomials, and `==`
returns `True`. -/
theorem C10_complete (p q : Poly K) (hp : Canonical p) (hq : Canonical q)
    (h : ∀ x y, eval p x y = eval q x y) : p = q ∧ beq p q = true := by
  have : p = q := by
    have : Infinite K := Infinite.of_injective (Nat.cast : ℕ → K) Nat.cast_injective
    refine hp.ext hq fun a => coeffOf_of_toMv (MvPolynomial.funext fun v => ?_) a
    have := h (v 0) (v 1)
    rw [eval_toMv, eval_toMv] at this
    have e : (fun i : Fin 2 => if i = 0 then v 0 else v 1) = v := by
      funext i; fin_cases i <;> rfl
    rwa [e] at this
  subst this
  exact ⟨rfl, C10_refl p⟩

theorem eqLoop_error (p q : Poly K) (hl : p.length = q.length) (h : eqLoop p q = true) {x y B : K}
    (hB : MonoBound p x y B) : |eval p x y - eval q x y| ≤ p.length * (tol K) * B := by
  induction p generalizing q with
  | nil => cases q with
    | nil => simp [eval_nil]
    | cons n q => simp at hl
  | cons m p ih => cases q with
    | nil => simp at hl
    | cons n q =>
      simp only [eqLoop] at h
      by_cases hb : m.beq n = true
      · simp only [hb, Bool.not_true, Bool.false_eq_true, if_false] at h
        have ih' := ih q (by simpa using hl) h (fun k hk => hB k (by simp [hk]))
        have hidx : m.alpha = n.alpha := by
          unfold Mono.beq at hb
          by_contra hne
          have : m.alpha.idx ≠ n.alpha.idx := fun e => hne (MultiIndex.idx_inj e)
          simp [this] at hb
        have hc : |m.coef - n.coef| < tol K := by
          unfold Mono.beq at hb
          simpa [hidx] using hb
        rw [eval_cons, eval_cons]
        have e : m.eval x y + eval p x y - (n.eval x y + eval q x y) =
            (m.coef - n.coef) * (x ^ m.alpha.x * y ^ m.alpha.y) + (eval p x y - eval q x y) := by
          rw [Mono.eval_eq, Mono.eval_eq, ← hidx]; ring
        rw [e]
        refine (abs_add_le _ _).trans ?_
        have hm := hB m (by simp)
        have : |(m.coef - n.coef) * (x ^ m.alpha.x * y ^ m.alpha.y)| ≤ tol K * B := by
          rw [abs_mul, abs_mul, abs_pow, abs_pow]
          exact mul_le_mul hc.le hm (by positivity) tol_pos.le
        push_cast [List.length_cons]
        linarith
      · simp [hb] at h

/-- C10 (d): if `p == q` returns `True` the values differ by at most 1e-12 per monomial. -/
theorem C10_sound (p q : Poly K) (h : beq p q = true) (x y B : K) (hB : MonoBound p x y B) :
    |eval p x y - eval q x y| ≤ p.length * (1 / 10 ^ 12) * B := by
  unfold beq at h
  by_cases hl : p.length = q.length
  · simp only [hl, ne_eq, not_true_eq_false, if_false] at h
    have := eqLoop_error (sort p) (sort q) (by rw [sort_length, sort_length, hl]) h
      (fun m hm => hB m ((sort_perm p).mem_iff.1 hm))
    rw [eval_perm (sort_perm p), eval_perm (sort_perm q), sort_length] at this
    exact this
  · simp [hl] at h

/-- C10 (e): on canonical polynomials `==` compares the lists of exponents exactly and the coefficients to within
1e-12: `p == q` is `True` iff both have the same monomials, with coefficients closer than 1e-12. -/
theorem C10_iff (p q : Poly K) (hp : Canonical p) (hq : Canonical q) :
    beq p q = true ↔ List.Forall₂ (fun m n => m.alpha = n.alpha ∧ |m.coef - n.coef| < 1 / 10 ^ 12) p q := by
  unfold beq
  rw [sort_eq_self hp.1, sort_eq_self hq.1]
  have key : ∀ p q : Poly K, p.length = q.length → (eqLoop p q = true ↔
      List.Forall₂ (fun m n => m.alpha = n.alpha ∧ |m.coef - n.coef| < tol K) p q) := by
    intro p
    induction p with
    | nil =>
      intro q hl
      cases q with
      | nil => simp [eqLoop]
      | cons n q => simp at hl
    | cons m p ih =>
      intro q hl
      cases q with
      | nil => simp at hl
      | cons n q =>
        rw [List.forall₂_cons, ← ih q (by simpa using hl)]
        simp only [eqLoop, Mono.beq]
        by_cases h1 : m.alpha = n.alpha
        · simp [h1]
        · have : m.alpha.idx ≠ n.alpha.idx := fun e => h1 (MultiIndex.idx_inj e)
          simp [this, h1]
  by_cases hl : p.length = q.length
  · simp only [hl, ne_eq, not_true_eq_false, if_false]
    exact key p q hl
  · simp only [hl, ne_eq, not_false_eq_true, if_true]
    constructor
    · intro h; simp at h
    · intro h; exact absurd h.length_eq hl

end

/-- `==` is not transitive: a chain of three close polynomials. -/
theorem C10_not_transitive :
    beq ([⟨⟨0, 0⟩, 1⟩] : Poly ℚ) [⟨⟨0, 0⟩, 1 + 6 / 10 ^ 13⟩] = true ∧
    beq ([⟨⟨0, 0⟩, 1 + 6 / 10 ^ 13⟩] : Poly ℚ) [⟨⟨0, 0⟩, 1 + 12 / 10 ^ 13⟩] = true ∧
    beq ([⟨⟨0, 0⟩, 1⟩] : Poly ℚ) [⟨⟨0, 0⟩, 1 + 12 / 10 ^ 13⟩] = false := by
  decide +kernel

/-- two distinct canonical polynomials that compare equal, and two that do not -/
example : beq ([⟨⟨0, 0⟩, 1⟩, ⟨⟨1, 0⟩, 2⟩] : Poly ℚ) [⟨⟨0, 0⟩, 1⟩, ⟨⟨1, 0⟩, 2 + 1 / 10 ^ 13⟩] = true ∧
    beq ([⟨⟨0, 0⟩, 1⟩, ⟨⟨1, 0⟩, 2⟩] : Poly ℚ) [⟨⟨0, 0⟩, 1⟩, ⟨⟨0, 1⟩, 2⟩] = false ∧
    MonoBound ([⟨⟨0, 0⟩, 1⟩, ⟨⟨1, 0⟩, 2⟩] : Poly ℚ) 1 1 1 := by
  refine ⟨by decide +kernel, by decide +kernel, ?_⟩
  intro m hm
  simp only [List.mem_cons, List.not_mem_nil, or_false] at hm
  rcases hm with rfl | rfl <;> norm_num

end PFEM
