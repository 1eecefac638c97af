import Verif.Lemmas.AntiLap
import Mathlib.Algebra.MvPolynomial.Funext
import Mathlib.Analysis.Calculus.Deriv.Mul
import Mathlib.Analysis.Calculus.MeanValue
import Mathlib.Analysis.Complex.Basic

/-!
Harmonic polynomials in two variables are real parts of complex polynomials.
-/

namespace PFEM
open MvPolynomial

/-- chain rule for polynomials in two variables -/
theorem mv_chain (p : MvPolynomial (Fin 2) ℂ) {a b : ℂ → ℂ} {a' b' t : ℂ} (ha : HasDerivAt a a' t) (hb : HasDerivAt b b' t) :
    HasDerivAt (fun s => eval ![a s, b s] p) (eval ![a t, b t] (pderiv 0 p) * a' + eval ![a t, b t] (pderiv 1 p) * b') t := by
  induction p using MvPolynomial.induction_on with
  | C c => simpa using hasDerivAt_const t c
  | add p q hp hq =>
    simp only [map_add]
    exact (hp.fun_add hq).congr_deriv (by ring)
  | mul_X p i hp =>
    fin_cases i
    · simp only [Derivation.leibniz, map_mul, eval_X, Fin.zero_eta, Matrix.cons_val_zero, smul_eq_mul, map_add]
      refine (hp.fun_mul ha).congr_deriv ?_
      have h0 : pderiv (0 : Fin 2) (X 0 : MvPolynomial (Fin 2) ℂ) = 1 := pderiv_X_self 0
      have h1 : pderiv (1 : Fin 2) (X 0 : MvPolynomial (Fin 2) ℂ) = 0 := pderiv_X_of_ne (by decide)
      rw [h0, h1]
      simp
      ring
    · simp only [Derivation.leibniz, map_mul, eval_X, Fin.mk_one, Matrix.cons_val_one, smul_eq_mul, map_add]
      refine (hp.fun_mul hb).congr_deriv ?_
      have h0 : pderiv (1 : Fin 2) (X 1 : MvPolynomial (Fin 2) ℂ) = 1 := pderiv_X_self 1
      have h1 : pderiv (0 : Fin 2) (X 1 : MvPolynomial (Fin 2) ℂ) = 0 := pderiv_X_of_ne (by decide)
      rw [h0, h1]
      simp
      ring

theorem const_of_deriv {f : ℂ → ℂ} (h : ∀ t, HasDerivAt f 0 t) (a b : ℂ) : f a = f b :=
  is_const_of_deriv_eq_zero (fun t => (h t).differentiableAt) (fun t => (h t).deriv) a b

theorem pderiv_swap (p : MvPolynomial (Fin 2) ℂ) : pderiv 0 (pderiv 1 p) = pderiv 1 (pderiv 0 p) := by
  ext m
  simp only [coeff_pderiv]
  rw [add_right_comm]
  simp
  ring

/-- the values of `p` at `x = (z + w) / 2`, `y = (z - w) / 2i` -/
noncomputable def mixed (p : MvPolynomial (Fin 2) ℂ) (z w : ℂ) : ℂ := eval ![(z + w) / 2, (z - w) / (2 * Complex.I)] p

theorem mixed_split {p : MvPolynomial (Fin 2) ℂ} (hp : Poly.Lap p = 0) (z w : ℂ) : mixed p z w = mixed p z 0 + mixed p 0 w - mixed p 0 0 := by
  have hI : Complex.I ≠ 0 := Complex.I_ne_zero
  set W : MvPolynomial (Fin 2) ℂ := C (1 / 2) * pderiv 0 p - C (1 / (2 * Complex.I)) * pderiv 1 p with hW
  have h1 : ∀ z w, HasDerivAt (fun s => mixed p z s) (mixed W z w) w := by
    intro z w
    have ha : HasDerivAt (fun s : ℂ => (z + s) / 2) (1 / 2) w := ((hasDerivAt_id w).const_add z).div_const 2
    have hb : HasDerivAt (fun s : ℂ => (z - s) / (2 * Complex.I)) (-1 / (2 * Complex.I)) w := ((hasDerivAt_id w).const_sub z).div_const _
    refine (mv_chain p ha hb).congr_deriv ?_
    simp only [mixed, hW, map_sub, map_mul, eval_C]
    ring
  have h2 : ∀ z w, HasDerivAt (fun s => mixed W s w) 0 z := by
    intro z w
    have ha : HasDerivAt (fun s : ℂ => (s + w) / 2) (1 / 2) z := ((hasDerivAt_id z).add_const w).div_const 2
    have hb : HasDerivAt (fun s : ℂ => (s - w) / (2 * Complex.I)) (1 / (2 * Complex.I)) z := ((hasDerivAt_id z).sub_const w).div_const _
    refine (mv_chain W ha hb).congr_deriv ?_
    have hc : pderiv 0 (pderiv 1 p) = pderiv 1 (pderiv 0 p) := pderiv_swap p
    have hL : ∀ v, eval v (pderiv 0 (pderiv 0 p)) + eval v (pderiv 1 (pderiv 1 p)) = 0 := by
      intro v
      have := congrArg (eval v) hp
      simpa [Poly.Lap] using this
    simp only [hW, map_sub, pderiv_C_mul, map_mul, eval_C, hc]
    have h3 := hL ![(z + w) / 2, (z - w) / (2 * Complex.I)]
    have hII : Complex.I * Complex.I = -1 := Complex.I_mul_I
    field_simp
    linear_combination (Complex.I ^ 2) * h3 - eval ![(z + w) / 2, (z - w) / (2 * Complex.I)] (pderiv 1 (pderiv 1 p)) * hII
  have h3 : ∀ z w, mixed W z w = mixed W 0 w := fun z w => const_of_deriv (fun t => h2 t w) z 0
  have h4 := const_of_deriv (f := fun s => mixed p z s - mixed p 0 s)
    (fun t => ((h1 z t).sub (h1 0 t)).congr_deriv (by rw [h3, sub_self])) w 0
  linear_combination h4

/-- a polynomial in two variables is harmonic only if it is the real part of a complex polynomial, of the same degree or less -/
theorem harmonic_re {H : MvPolynomial (Fin 2) ℝ} (hH : Poly.Lap H = 0) : ∃ Q : Polynomial ℂ, Q.natDegree ≤ H.totalDegree ∧
    ∀ x y : ℝ, eval ![x, y] H = (Q.eval ⟨x, y⟩).re := by
  have hI : Complex.I ≠ 0 := Complex.I_ne_zero
  set p : MvPolynomial (Fin 2) ℂ := MvPolynomial.map Complex.ofRealHom H with hp
  have hL : Poly.Lap p = 0 := by
    have : Poly.Lap p = MvPolynomial.map Complex.ofRealHom (Poly.Lap H) := by
      simp only [Poly.Lap, hp, pderiv_map, map_add]
    rw [this, hH, map_zero]
  set R : Polynomial ℂ := aeval ![Polynomial.C (1 / 2) * Polynomial.X, Polynomial.C (1 / (2 * Complex.I)) * Polynomial.X] p with hR
  have hRe : ∀ z, R.eval z = mixed p z 0 := by
    intro z
    rw [hR]
    clear_value p
    clear hL hp hR R
    induction p using MvPolynomial.induction_on with
    | C c => simp [mixed]
    | add p q h1 h2 => simpa [mixed] using congrArg₂ (· + ·) h1 h2
    | mul_X p i h1 =>
      simp only [mixed, map_mul, aeval_X, eval_X, Polynomial.eval_mul] at h1 ⊢
      rw [h1]
      congr 1
      fin_cases i
      · simp; ring
      · simp; rw [div_eq_mul_inv, mul_inv, Complex.inv_I]; ring
  have hreal : ∀ x y : ℝ, eval ![(x : ℂ), (y : ℂ)] p = (eval ![x, y] H : ℝ) := by
    intro x y
    rw [hp]
    clear_value p
    clear hL hRe hR R hH hp
    induction H using MvPolynomial.induction_on with
    | C c => simp
    | add p q h1 h2 => simp [h1, h2]
    | mul_X p i h1 => simp only [map_mul, map_X, eval_X, h1, Complex.ofReal_mul]; congr 1; fin_cases i <;> simp
  have hconj : ∀ a b : ℂ, eval ![star a, star b] p = star (eval ![a, b] p) := by
    intro a b
    rw [hp]
    clear_value p
    clear hL hRe hR R hH hp hreal
    induction H using MvPolynomial.induction_on with
    | C c => simp
    | add p q h1 h2 => simp only [map_add, star_add, h1, h2]
    | mul_X p i h1 => simp only [map_mul, map_X, eval_X, h1, star_mul']; congr 1; fin_cases i <;> simp
  refine ⟨Polynomial.C 2 * R - Polynomial.C ((eval ![0, 0] H : ℝ) : ℂ), ?_, fun x y => ?_⟩
  · refine Polynomial.natDegree_sub_C.le.trans ((Polynomial.natDegree_C_mul_le _ _).trans ?_)
    rw [hR, aeval_def, eval₂_eq']
    refine Polynomial.natDegree_sum_le_of_forall_le _ _ fun m hm => ?_
    have hm' : m ∈ H.support := by
      rw [mem_support_iff] at hm ⊢
      intro e
      exact hm (by rw [hp, coeff_map, e, map_zero])
    refine le_trans ?_ (le_totalDegree hm')
    rw [Finsupp.sum_fintype _ _ (fun _ => rfl), Fin.sum_univ_two, Fin.prod_univ_two]
    refine (Polynomial.natDegree_C_mul_le _ _).trans (Polynomial.natDegree_mul_le.trans (add_le_add ?_ ?_))
    · refine Polynomial.natDegree_pow_le.trans (le_trans (Nat.mul_le_mul_left _ ?_) (mul_one _).le)
      exact (Polynomial.natDegree_C_mul_le _ _).trans Polynomial.natDegree_X_le
    · refine Polynomial.natDegree_pow_le.trans (le_trans (Nat.mul_le_mul_left _ ?_) (mul_one _).le)
      exact (Polynomial.natDegree_C_mul_le _ _).trans Polynomial.natDegree_X_le
  · set z : ℂ := ⟨x, y⟩ with hz
    have e1 : mixed p z (star z) = (eval ![x, y] H : ℝ) := by
      rw [← hreal, mixed]
      have h1 : (z + star z) / 2 = x := by rw [Complex.ext_iff]; simp [hz]
      have h2 : (z - star z) / (2 * Complex.I) = y := by
        rw [div_eq_iff (by simp)]
        rw [Complex.ext_iff]; simp [hz]; ring
      rw [h1, h2]
    have e2 : mixed p 0 (star z) = star (mixed p z 0) := by
      simp only [mixed]
      rw [← hconj]
      have h1 : (0 + star z) / 2 = star ((z + 0) / 2) := by simp
      have h2 : (0 - star z) / (2 * Complex.I) = star ((z - 0) / (2 * Complex.I)) := by simp; ring
      rw [h1, h2]
    have e3 : mixed p 0 0 = (eval ![0, 0] H : ℝ) := by
      have := hreal 0 0
      simpa [mixed] using this
    have := mixed_split hL z (star z)
    rw [e1, e2, e3] at this
    have := congrArg Complex.re this
    simp at this
    rw [Polynomial.eval_sub, Polynomial.eval_mul, Polynomial.eval_C, Polynomial.eval_C, hRe]
    simp
    linarith

end PFEM
