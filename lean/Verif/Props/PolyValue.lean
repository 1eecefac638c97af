import Verif.Lemmas.PolyValue

/-!
Property theorems C04 (consolidation preserves the polynomial function), C05 (linear operations act pointwise),
C06 (products and powers), C07 (composition).

`MonoBound p x y B`: every monomial of `p`, without its coefficient, has magnitude at most `B` at `(x, y)`.
`OnLattice δ p`: every coefficient of `p` is an integer multiple of `δ` (`Verif/Spec/Poly.lean`).
The number `1e-12` is written `1 / 10 ^ 12`.
-/

namespace PFEM
open Poly

variable {K : Type} [Field K] [LinearOrder K] [IsStrictOrderedRing K]

/-! ### C04 -/

/-- C04 (a): consolidation changes the value by at most (number of terms) * 1e-12 * (largest monomial). -/
theorem C04_error (l : Poly K) (x y B : K) (hB : MonoBound l x y B) :
    |eval (consolidate l) x y - eval l x y| ≤ (l.length : K) * (1 / 10 ^ 12) * B :=
  eval_consolidate_error hB

/-- C04 (b): if no total coefficient is strictly between 0 and 1e-12 in magnitude, the value is unchanged. -/
theorem C04_exact (l : Poly K) (h : ∀ a, coeffOf l a = 0 ∨ (1 / 10 ^ 12 : K) ≤ |coeffOf l a|) (x y : K) :
    eval (consolidate l) x y = eval l x y :=
  eval_of_toMv (toMv_consolidate h) x y

/-- C04 (c): consolidating twice is the same as consolidating once. -/
theorem C04_idempotent (l : Poly K) : consolidate (consolidate l) = consolidate l :=
  consolidate_eq_self (consolidate_canonical l)

/-- C04 (d): the result does not depend on the order of the terms. -/
theorem C04_order_independent (l l' : Poly K) (h : l.Perm l') : consolidate l = consolidate l' :=
  (consolidate_canonical l).ext (consolidate_canonical l') fun a => by
    rw [coeffOf_consolidate, coeffOf_consolidate, coeffOf_perm h]

/-- C04 (e): the coefficient of each monomial in the result is the sum of its coefficients in the input, replaced by
0 when smaller than 1e-12. -/
theorem C04_coefficients (l : Poly K) (a : MultiIndex) :
    coeffOf (consolidate l) a = if |coeffOf l a| < 1 / 10 ^ 12 then 0 else coeffOf l a :=
  coeffOf_consolidate l a

/-- three like terms, out of order, with a zero total -/
def sampleTerms : Poly ℚ := [⟨⟨0, 1⟩, 2⟩, ⟨⟨0, 0⟩, 5⟩, ⟨⟨0, 1⟩, -3⟩, ⟨⟨1, 0⟩, 4⟩, ⟨⟨0, 1⟩, 1⟩]

example : MonoBound sampleTerms 2 3 3 ∧ consolidate sampleTerms = [⟨⟨0, 0⟩, 5⟩, ⟨⟨1, 0⟩, 4⟩] := by
  constructor
  · intro m hm
    simp only [sampleTerms, List.mem_cons, List.not_mem_nil, or_false] at hm
    rcases hm with rfl | rfl | rfl | rfl | rfl <;> norm_num
  · decide +kernel

/-! ### C05 -/

/-- C05 (a): `p + q` up to 1e-12 per monomial. -/
theorem C05_add_error (p q : Poly K) (x y B : K) (hp : MonoBound p x y B) (hq : MonoBound q x y B) :
    |eval (add p q) x y - (eval p x y + eval q x y)| ≤
      ((p.length + q.length : ℕ) : K) * (1 / 10 ^ 12) * B := by
  have := eval_consolidate_nz_error (monoBound_append hp hq)
  rwa [eval_append, List.length_append, ← add_eq] at this

/-- C05 (b): `p += q` (distinct objects) up to 1e-12 per monomial. -/
theorem C05_iadd_error (p q : Poly K) (x y B : K) (hp : MonoBound p x y B) (hq : MonoBound q x y B) :
    |eval (iadd p q) x y - (eval p x y + eval q x y)| ≤
      ((p.length + q.length : ℕ) : K) * (1 / 10 ^ 12) * B := by
  have h1 := eval_nz_error hq
  have h2 := eval_consolidate_error (monoBound_append hp (monoBound_nz hq))
  have hle : (nz q).length ≤ q.length := List.length_filter_le _ _
  rw [eval_append, List.length_append, ← iadd_eq] at h2
  rw [Nat.cast_sub hle] at h1
  push_cast at h2 ⊢
  calc |eval (iadd p q) x y - (eval p x y + eval q x y)|
      = |(eval (iadd p q) x y - (eval p x y + eval (nz q) x y)) + (eval (nz q) x y - eval q x y)| := by
        congr 1; ring
    _ ≤ _ := abs_add_le _ _
    _ ≤ _ := by unfold tol at h1 h2; linarith

/-- C05 (c): `p - q` up to 1e-12 per monomial. -/
theorem C05_sub_error (p q : Poly K) (x y B : K) (hp : MonoBound p x y B) (hq : MonoBound q x y B) :
    |eval (sub p q) x y - (eval p x y - eval q x y)| ≤
      ((p.length + q.length : ℕ) : K) * (1 / 10 ^ 12) * B := by
  have := eval_consolidate_nz_error (monoBound_append hp (monoBound_map_smul (-1) hq))
  rw [eval_append, List.length_append, ← sub_eq, eval_map_smul, List.length_map] at this
  rw [sub_eq_add_neg (eval p x y), ← neg_one_mul]
  exact this

/-- C05 (d): `c * p` and `p * c` up to 1e-12 per monomial. -/
theorem C05_smul_error (p : Poly K) (c x y B : K) (hp : MonoBound p x y B) :
    |eval (smul p c) x y - c * eval p x y| ≤ (p.length : K) * (1 / 10 ^ 12) * B := by
  have h := eval_nz_error (monoBound_map_smul c hp)
  rw [← smul_eq, eval_map_smul, List.length_map] at h
  refine h.trans ?_
  by_cases hl : p = []
  · subst hl; simp [smul, addAll]
  · have h0 := monoBound_nonneg hp hl
    have : ((p.length - (smul p c).length : ℕ) : K) ≤ (p.length : K) := by
      exact_mod_cast Nat.sub_le _ _
    exact mul_le_mul_of_nonneg_right (mul_le_mul_of_nonneg_right this tol_pos.le) h0

/-- C05 (e): `p / c` up to 1e-12 per monomial for `c ≠ 0`; division by zero raises `ZeroDivisionError`. -/
theorem C05_div_error (p : Poly K) (c : K) :
    (c = 0 → div p c = .error .zeroDivision) ∧
    (c ≠ 0 → ∃ r, div p c = .ok r ∧ ∀ x y B, MonoBound p x y B →
      |eval r x y - eval p x y / c| ≤ (p.length : K) * (1 / 10 ^ 12) * B) := by
  constructor
  · intro h; simp [div, h]
  · intro h
    refine ⟨smul p (1 / c), by simp only [div, h, if_false], fun x y B hB => ?_⟩
    have := C05_smul_error p (1 / c) x y B hB
    rwa [one_div_mul_eq_div] at this

/-- C05 (f): adding a scalar on either side, up to 1e-12 per monomial. -/
theorem C05_addScalar_error (p : Poly K) (c : K) :
    ∃ r, addScalar p c = .ok r ∧ ∀ x y B, 1 ≤ B → MonoBound p x y B →
      |eval r x y - (eval p x y + c)| ≤ ((p.length + 1 : ℕ) : K) * (1 / 10 ^ 12) * B := by
  refine ⟨_, addScalar_ok p c, fun x y B h1 hB => ?_⟩
  have := C05_add_error p [⟨⟨0, 0⟩, c⟩] x y B hB (by intro m hm; simp at hm; subst hm; simpa using h1)
  simpa [eval, Mono.eval] using this

/-- C05 (g): subtracting a scalar, up to 1e-12 per monomial. -/
theorem C05_subScalar_error (p : Poly K) (c : K) :
    ∃ r, subScalar p c = .ok r ∧ ∀ x y B, 1 ≤ B → MonoBound p x y B →
      |eval r x y - (eval p x y - c)| ≤ ((p.length + 1 : ℕ) : K) * (1 / 10 ^ 12) * B := by
  obtain ⟨r, h1, h2⟩ := C05_addScalar_error p (-1 * c)
  refine ⟨r, h1, fun x y B h h' => ?_⟩
  have := h2 x y B h h'
  rwa [neg_one_mul, ← sub_eq_add_neg] at this

/-- C05 (h): `p - q`, `p + q`, `-p`, `c * p`, `p / c`, `p + c`, `c - p` are exact when all coefficients lie on a lattice
of spacing at least 1e-12 (for `c * p` and `p / c`: when the scaled lattice does). -/
theorem C05_exact (p q : Poly K) (δ : K) (hδ : 1 / 10 ^ 12 ≤ δ) (hp : OnLattice δ p) (hq : OnLattice δ q)
    (x y : K) :
    eval (add p q) x y = eval p x y + eval q x y ∧
    eval (iadd p q) x y = eval p x y + eval q x y ∧
    eval (sub p q) x y = eval p x y - eval q x y ∧
    eval (neg p) x y = - eval p x y ∧
    (∀ c, 1 / 10 ^ 12 ≤ δ * |c| → eval (smul p c) x y = c * eval p x y) ∧
    (∀ c, c ≠ 0 → 1 / 10 ^ 12 ≤ δ / |c| → ∃ r, div p c = .ok r ∧ eval r x y = eval p x y / c) ∧
    (∀ c, (∃ n : ℤ, c = n * δ) → ∃ r s t, addScalar p c = .ok r ∧ subScalar p c = .ok s ∧
      rsubScalar p c = .ok t ∧ eval r x y = eval p x y + c ∧ eval s x y = eval p x y - c ∧
      eval t x y = c - eval p x y) := by
  have hp' := onLattice_iff.1 hp
  have hq' := onLattice_iff.1 hq
  have hS : Sep (lat δ) := sep_lat hδ
  have h0 : 0 < δ := lt_of_lt_of_le tol_pos hδ
  have scal : ∀ (r : Poly K), InA (lat δ) r → ∀ c, 1 / 10 ^ 12 ≤ δ * |c| →
      toMv (smul r c) = MvPolynomial.C c * toMv r ∧ InA (lat (δ * |c|)) (smul r c) := by
    intro r hr c hc
    refine smul_A (sep_lat hc) hr c fun a d hd => ?_
    rw [mem_lat] at *
    obtain ⟨n, rfl⟩ := hd
    rcases abs_choice c with h | h
    · exact ⟨n, by rw [h]; ring⟩
    · exact ⟨-n, by rw [h]; push_cast; ring⟩
  have negl : ∀ r : Poly K, InA (lat δ) r →
      toMv (smul r (-1)) = MvPolynomial.C (-1) * toMv r ∧ InA (lat δ) (smul r (-1)) := by
    intro r hr
    have := scal r hr (-1) (by simpa using hδ)
    simpa using this
  have sc : ∀ (r : Poly K), InA (lat δ) r → ∀ c, 1 / 10 ^ 12 ≤ δ * |c| →
      eval (smul r c) x y = c * eval r x y := by
    intro r hr c hc
    rw [eval_toMv, (scal r hr c hc).1, map_mul, MvPolynomial.eval_C, ← eval_toMv]
  have ad : ∀ r s : Poly K, InA (lat δ) r → InA (lat δ) s →
      eval (add r s) x y = eval r x y + eval s x y := by
    intro r s hr hs
    rw [eval_toMv, (add_A hS hr hs).1, map_add, ← eval_toMv, ← eval_toMv]
  have ne : ∀ r : Poly K, InA (lat δ) r → eval (smul r (-1)) x y = - eval r x y := by
    intro r hr
    rw [sc r hr (-1) (by simpa using hδ), neg_one_mul]
  have ac : ∀ r : Poly K, InA (lat δ) r → ∀ c, (∃ n : ℤ, c = n * δ) →
      eval (add r [⟨⟨0, 0⟩, c⟩]) x y = eval r x y + c := by
    intro r hr c hc
    rw [ad r _ hr (by intro m hm; simp at hm; subst hm; exact mem_lat.2 hc)]
    simp [eval, Mono.eval]
  refine ⟨ad p q hp' hq', ?_, ?_, ne p hp', sc p hp', ?_, ?_⟩
  · rw [eval_toMv, (iadd_A hS hp' hq').1, map_add, ← eval_toMv, ← eval_toMv]
  · unfold sub
    rw [ad p _ hp' (negl q hq').2, ne q hq', sub_eq_add_neg]
  · intro c hc h
    refine ⟨smul p (1 / c), by simp only [div, hc, if_false], ?_⟩
    rw [sc p hp' (1 / c) (by rw [abs_div, abs_one]; rwa [mul_one_div])]
    rw [one_div_mul_eq_div]
  · intro c hc
    refine ⟨_, _, _, addScalar_ok p c, addScalar_ok p _, addScalar_ok _ c, ac p hp' c hc, ?_, ?_⟩
    · rw [ac p hp' (-1 * c) (by obtain ⟨n, rfl⟩ := hc; exact ⟨-n, by push_cast; ring⟩)]; ring
    · rw [ac _ (negl p hp').2 c hc, ne p hp']; ring

/-- C05 (i): negation is exact for every canonical polynomial. -/
theorem C05_neg_exact (p : Poly K) (hp : ∀ m ∈ p, (1 / 10 ^ 12 : K) ≤ |m.coef|) (x y : K) :
    eval (neg p) x y = - eval p x y := by
  have : nz (p.map fun m => m.smul (-1)) = p.map fun m => m.smul (-1) := by
    unfold nz
    rw [List.filter_eq_self]
    intro m hm
    simp only [List.mem_map] at hm
    obtain ⟨n, hn, rfl⟩ := hm
    rw [not_isZero_iff]
    simpa [Mono.smul, tol] using hp n hn
  unfold neg
  rw [smul_eq, this, eval_map_smul, neg_one_mul]

/-- The exactness hypotheses hold for integer polynomials; the error bound is not vacuous and really needed: adding
two terms of size 6e-13 built by scaling loses them. -/
example : OnLattice (1 : ℚ) [⟨⟨0, 0⟩, 3⟩, ⟨⟨2, 1⟩, -5⟩] := by
  intro m hm
  simp at hm
  rcases hm with rfl | rfl
  · exact ⟨3, by norm_num⟩
  · exact ⟨-5, by norm_num⟩

example : smul ([⟨⟨0, 0⟩, 1⟩] : Poly ℚ) (6 / 10 ^ 13) = [] := by decide +kernel

/-! ### C06 -/

/-- C06 (a): `p * q` never raises and evaluates to the product up to 1e-12 per pair of monomials. -/
theorem C06_mul_error (p q : Poly K) :
    ∃ r, mul p q = .ok r ∧ ∀ x y B C, MonoBound p x y B → MonoBound q x y C →
      |eval r x y - eval p x y * eval q x y| ≤
        ((p.length * q.length : ℕ) : K) * (1 / 10 ^ 12) * (B * C) := by
  refine ⟨_, mul_eq p q, fun x y B C hB hC => ?_⟩
  have h : MonoBound (prods p q) x y (B * C) := by
    intro m hm
    simp only [prods, List.mem_flatMap, List.mem_map] at hm
    obtain ⟨m1, h1, m2, h2, rfl⟩ := hm
    have e1 := hB m1 h1
    have e2 := hC m2 h2
    have p1 : 0 ≤ |x| ^ m2.alpha.x * |y| ^ m2.alpha.y := by positivity
    have p0 : 0 ≤ |x| ^ m1.alpha.x * |y| ^ m1.alpha.y := by positivity
    have := mul_le_mul e1 e2 p1 (p0.trans e1)
    simp only [Mono.times, MultiIndex.plus, pow_add]
    refine le_trans (le_of_eq ?_) this
    ring
  have := eval_consolidate_nz_error h
  rwa [eval_prods, prods_length] at this

/-- C06 (b): the product is exact for lattice coefficients. -/
theorem C06_mul_exact (p q : Poly K) (δ ε : K) (h : 1 / 10 ^ 12 ≤ δ * ε) (hp : OnLattice δ p)
    (hq : OnLattice ε q) :
    ∃ r, mul p q = .ok r ∧ ∀ x y, eval r x y = eval p x y * eval q x y := by
  refine ⟨_, mul_eq p q, fun x y => ?_⟩
  rw [eval_toMv, (mul_A (sep_lat h) (onLattice_iff.1 hp) (onLattice_iff.1 hq)
    (fun _ _ _ hc _ hd => lat_mul hc hd)).1, map_mul, ← eval_toMv, ← eval_toMv]

/-- C06 (c): powers are exact for lattice coefficients whose powers stay above 1e-12 (integers for all exponents). -/
theorem C06_pow_exact (p : Poly K) (n : ℕ) (δ : K) (hp : OnLattice δ p) (h : ∀ k ≤ n, 1 / 10 ^ 12 ≤ δ ^ k) :
    ∃ r, pow p n = .ok r ∧ ∀ x y, eval r x y = eval p x y ^ n := by
  refine ⟨_, pow_ok p n, fun x y => ?_⟩
  rw [eval_toMv, (pow_lat n (onLattice_iff.1 hp) h).1, map_pow, ← eval_toMv]

/-- C06 (d): a negative exponent is rejected with `ValueError`, and only a negative one. -/
theorem C06_pow_negative (p : Poly K) (n : ℤ) : pow p n = .error .valueError ↔ n < 0 := by
  constructor
  · intro h
    by_contra hn
    obtain ⟨k, rfl⟩ := Int.eq_ofNat_of_zero_le (not_lt.1 hn)
    rw [pow_ok] at h; cases h
  · intro h; simp [pow, h]

/-- C06 (e): in general (no lattice) the product has coefficients obtained by adding all near-zero-filtered pairwise
products. In particular the product is commutative up to equality of lists. -/
theorem C06_mul_comm (p q : Poly K) : mul p q = mul q p := by
  rw [mul_eq, mul_eq]
  congr 1
  unfold mulP
  refine (consolidate_canonical _).ext (consolidate_canonical _) fun a => ?_
  rw [coeffOf_consolidate, coeffOf_consolidate]
  congr 1
  apply coeffOf_perm
  apply List.Perm.filter
  unfold prods
  have hc : ∀ m n : Mono K, m.times n = n.times m := by
    intro m n
    simp [Mono.times, MultiIndex.plus, mul_comm, add_comm]
  induction p with
  | nil => simp
  | cons m p ih =>
    have e2 : ∀ q : Poly K, (q.flatMap fun n => (m :: p).map fun k => n.times k).Perm
        ((q.map fun n => n.times m) ++ q.flatMap fun n => p.map fun k => n.times k) := by
      intro q
      induction q with
      | nil => simp
      | cons n q ihq =>
        simp only [List.flatMap_cons, List.map_cons, List.cons_append]
        refine List.Perm.cons _ ?_
        refine (List.Perm.append_left _ ihq).trans ?_
        rw [← List.append_assoc, ← List.append_assoc]
        exact List.Perm.append_right _ List.perm_append_comm
    refine List.Perm.trans ?_ (e2 q).symm
    rw [List.flatMap_cons]
    simp only [hc m]
    exact List.Perm.append_left _ ih

example : ∃ r, pow ([⟨⟨1, 0⟩, 1⟩, ⟨⟨0, 1⟩, 1⟩] : Poly ℚ) 3 = .ok r ∧ r.length = 4 := by
  refine ⟨[⟨⟨3, 0⟩, 1⟩, ⟨⟨2, 1⟩, 3⟩, ⟨⟨1, 2⟩, 3⟩, ⟨⟨0, 3⟩, 1⟩], ?_, rfl⟩
  decide +kernel

/-! ### C07 -/

/-- C07: composition substitutes, for `q1`, `q2` with integer coefficients and `p` with lattice coefficients.
(For arbitrary real coefficients the tolerance can remove terms, so only the lattice case is exact.) -/
theorem C07_compose (p q1 q2 : Poly K) (δ : K) (hδ : 1 / 10 ^ 12 ≤ δ) (hp : OnLattice δ p)
    (h1 : OnLattice 1 q1) (h2 : OnLattice 1 q2) :
    ∃ r, compose p q1 q2 = .ok r ∧ ∀ x y, eval r x y = eval p (eval q1 x y) (eval q2 x y) := by
  refine ⟨_, compose_ok p q1 q2, fun x y => ?_⟩
  rw [comp_lat hδ hp h1 h2 [] (by intro m hm; simp at hm) x y, eval_nil, zero_add]

/-- x*y composed with (x+y, x-y) is x^2 - y^2 -/
example : compose ([⟨⟨1, 1⟩, 1⟩] : Poly ℚ) [⟨⟨1, 0⟩, 1⟩, ⟨⟨0, 1⟩, 1⟩] [⟨⟨1, 0⟩, 1⟩, ⟨⟨0, 1⟩, -1⟩] =
    .ok [⟨⟨2, 0⟩, 1⟩, ⟨⟨0, 2⟩, -1⟩] := by decide +kernel

end PFEM
