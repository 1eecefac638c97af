import Verif.Lemmas.PolyCalc

/-!
Property theorem C08: derivatives computed on monomial lists are the derivatives of calculus.
-/

namespace PFEM
open Poly

/-- C08 (a): `partial_deriv('x')` of a polynomial without near-zero terms evaluates to the partial derivative. -/
theorem C08_partial_x (p : Poly ℝ) (hp : ∀ m ∈ p, (1 / 10 ^ 12 : ℝ) ≤ |m.coef|) :
    ∃ r, partialDeriv p .x = .ok r ∧ ∀ x y, HasDerivAt (fun t => eval p t y) (eval r x y) x :=
  ⟨_, partialDeriv_x p, fun x y => hasDerivAt_dx hp x y⟩

/-- C08 (b): `partial_deriv('y')`. -/
theorem C08_partial_y (p : Poly ℝ) (hp : ∀ m ∈ p, (1 / 10 ^ 12 : ℝ) ≤ |m.coef|) :
    ∃ r, partialDeriv p .y = .ok r ∧ ∀ x y, HasDerivAt (fun t => eval p x t) (eval r x y) y :=
  ⟨_, partialDeriv_y p, fun x y => hasDerivAt_dy hp x y⟩

/-- C08 (c): `grad` returns the two partial derivatives. -/
theorem C08_grad (p : Poly ℝ) (hp : ∀ m ∈ p, (1 / 10 ^ 12 : ℝ) ≤ |m.coef|) :
    ∃ gx gy, grad p = .ok (gx, gy) ∧ ∀ x y,
      HasDerivAt (fun t => eval p t y) (eval gx x y) x ∧ HasDerivAt (fun t => eval p x t) (eval gy x y) y := by
  refine ⟨_, _, ?_, fun x y => ⟨hasDerivAt_dx hp x y, hasDerivAt_dy hp x y⟩⟩
  unfold grad
  rw [partialDeriv_x, partialDeriv_y]
  rfl

/-- C08 (d): another variable name raises `InvalidVariableError` for every polynomial with at least one term. -/
theorem C08_invalid_variable (p : Poly ℝ) : p ≠ [] → partialDeriv p .other = .error .invalidVariable := by
  intro h
  cases p with
  | nil => exact absurd rfl h
  | cons m p => simp [Poly.partialDeriv, derivLoop, Mono.partialDeriv, bind, Except.bind]

/-- C08 (e): `laplacian` is the Laplacian, exactly, for coefficients on a lattice of spacing at least 1e-12. -/
theorem C08_laplacian_exact (p : Poly ℝ) (hp : ∀ m ∈ p, (1 / 10 ^ 12 : ℝ) ≤ |m.coef|) (δ : ℝ)
    (hδ : 1 / 10 ^ 12 ≤ δ) (hl : OnLattice δ p) :
    ∃ r, laplacian p = .ok r ∧ ∀ x y, eval r x y =
      deriv (deriv (fun t => eval p t y)) x + deriv (deriv (fun t => eval p x t)) y := by
  refine ⟨_, laplacian_ok p, fun x y => ?_⟩
  have h := onLattice_iff.1 hl
  have h1 := dx_lat hδ (dx_lat hδ h).2
  have h2 := dy_lat hδ (dy_lat hδ h).2
  rw [deriv2_x hp, deriv2_y hp, lap, eval_toMv, (add_A (sep_lat hδ) h1.2 h2.2).1, map_add, ← eval_toMv,
    ← eval_toMv]

/-- C08 (f): in general `laplacian` agrees with the Laplacian up to 1e-12 per term of the two second derivatives.
`B` bounds the monomials `x^i y^j` that occur in the second derivatives. -/
theorem C08_laplacian_error (p : Poly ℝ) (hp : ∀ m ∈ p, (1 / 10 ^ 12 : ℝ) ≤ |m.coef|) :
    ∃ r, laplacian p = .ok r ∧ ∀ x y B,
      (∀ i j, (∃ m ∈ p, (m.alpha.x = i + 2 ∧ m.alpha.y = j) ∨ (m.alpha.x = i ∧ m.alpha.y = j + 2)) →
        |x| ^ i * |y| ^ j ≤ B) → 0 ≤ B →
      |eval r x y - (deriv (deriv (fun t => eval p t y)) x + deriv (deriv (fun t => eval p x t)) y)| ≤
        (2 * p.length : ℝ) * (1 / 10 ^ 12) * B := by
  refine ⟨_, laplacian_ok p, fun x y B hB h0 => ?_⟩
  rw [deriv2_x hp, deriv2_y hp, lap, add_eq]
  generalize hg : nz ((nz (p.map Mono.dx)).map Mono.dx) = gxx
  generalize hh : nz ((nz (p.map Mono.dy)).map Mono.dy) = gyy
  have hpos : ∀ m : Mono ℝ, (!m.isZero) = true → m.coef ≠ 0 := by
    intro m hm h
    rw [not_isZero_iff, h, abs_zero] at hm
    exact absurd tol_pos (not_lt.2 hm)
  have b1 : MonoBound gxx x y B := by
    intro m hm
    rw [← hg] at hm
    obtain ⟨hm, hz⟩ := List.mem_filter.1 hm
    have hz := hpos _ hz
    simp only [List.mem_map] at hm
    obtain ⟨m1, hm1, rfl⟩ := hm
    obtain ⟨hm1, hz1⟩ := List.mem_filter.1 hm1
    have hz1 := hpos _ hz1
    simp only [List.mem_map] at hm1
    obtain ⟨m2, hm2, rfl⟩ := hm1
    obtain ⟨⟨a, b⟩, c⟩ := m2
    rcases a with _ | _ | a
    · simp [Mono.dx] at hz1
    · simp [Mono.dx] at hz
    · exact hB a b ⟨_, hm2, Or.inl ⟨rfl, rfl⟩⟩
  have b2 : MonoBound gyy x y B := by
    intro m hm
    rw [← hh] at hm
    obtain ⟨hm, hz⟩ := List.mem_filter.1 hm
    have hz := hpos _ hz
    simp only [List.mem_map] at hm
    obtain ⟨m1, hm1, rfl⟩ := hm
    obtain ⟨hm1, hz1⟩ := List.mem_filter.1 hm1
    have hz1 := hpos _ hz1
    simp only [List.mem_map] at hm1
    obtain ⟨m2, hm2, rfl⟩ := hm1
    obtain ⟨⟨a, b⟩, c⟩ := m2
    rcases b with _ | _ | b
    · simp [Mono.dy] at hz1
    · simp [Mono.dy] at hz
    · exact hB a b ⟨_, hm2, Or.inr ⟨rfl, rfl⟩⟩
  have h := eval_consolidate_nz_error (monoBound_append b1 b2)
  rw [eval_append, List.length_append] at h
  refine h.trans ?_
  have l1 : gxx.length ≤ p.length := by
    rw [← hg]
    refine (List.length_filter_le _ _).trans ?_
    rw [List.length_map]
    exact (List.length_filter_le _ _).trans (by rw [List.length_map])
  have l2 : gyy.length ≤ p.length := by
    rw [← hh]
    refine (List.length_filter_le _ _).trans ?_
    rw [List.length_map]
    exact (List.length_filter_le _ _).trans (by rw [List.length_map])
  have l3 : ((gxx.length + gyy.length : ℕ) : ℝ) ≤ 2 * p.length := by
    push_cast
    have : (gxx.length : ℝ) ≤ p.length := by exact_mod_cast l1
    have : (gyy.length : ℝ) ≤ p.length := by exact_mod_cast l2
    linarith
  exact mul_le_mul_of_nonneg_right (mul_le_mul_of_nonneg_right l3 tol_pos.le) h0

/-- A polynomial meeting the hypotheses: `2 + 3 x^2 y`. -/
example : (∀ m ∈ ([⟨⟨0, 0⟩, 2⟩, ⟨⟨2, 1⟩, 3⟩] : Poly ℝ), (1 / 10 ^ 12 : ℝ) ≤ |m.coef|) ∧
    OnLattice (1 : ℝ) [⟨⟨0, 0⟩, 2⟩, ⟨⟨2, 1⟩, 3⟩] := by
  constructor
  · intro m hm
    simp only [List.mem_cons, List.not_mem_nil, or_false] at hm
    rcases hm with rfl | rfl <;> norm_num
  · intro m hm
    simp only [List.mem_cons, List.not_mem_nil, or_false] at hm
    rcases hm with rfl | rfl
    · exact ⟨2, by norm_num⟩
    · exact ⟨3, by norm_num⟩

example : laplacian ([⟨⟨0, 0⟩, 2⟩, ⟨⟨2, 1⟩, 3⟩] : Poly ℚ) = .ok [⟨⟨0, 1⟩, 6⟩] := by decide +kernel

end PFEM
