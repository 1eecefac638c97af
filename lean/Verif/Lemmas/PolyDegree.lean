import Verif.Lemmas.HarmPoly

/-!
Degrees: the anti-Laplacian raises the degree by at most two; from Laplacians of functions to those of polynomials.
-/

set_option linter.unusedSectionVars false

namespace PFEM
namespace Poly

section
variable {K : Type} [Field K] [LinearOrder K] [IsStrictOrderedRing K]

/-- all monomials have degree at most `d` -/
def DegLe (d : ℤ) (p : Poly K) : Prop := ∀ m ∈ p, (m.alpha.order : ℤ) ≤ d

theorem deg_nz {d : ℤ} {p : Poly K} (h : DegLe d p) : DegLe d (nz p) := fun m hm => h m (List.mem_filter.1 hm).1

theorem deg_append {d : ℤ} {p q : Poly K} (hp : DegLe d p) (hq : DegLe d q) : DegLe d (p ++ q) := fun m hm =>
  (List.mem_append.1 hm).elim (hp m) (hq m)

theorem deg_consolidate {d : ℤ} {p : Poly K} (h : DegLe d p) : DegLe d (consolidate p) := by
  intro m hm
  have := (consolidate_perm p).mem_iff.1 hm
  obtain ⟨n, hn, e⟩ := collect_alpha_mem p m (List.mem_filter.1 this).1
  rw [← e]
  exact h n hn

theorem deg_mulP {d e : ℤ} {p q : Poly K} (hp : DegLe d p) (hq : DegLe e q) : DegLe (d + e) (mulP p q) := by
  refine deg_consolidate (deg_nz fun m hm => ?_)
  simp only [prods, List.mem_flatMap, List.mem_map] at hm
  obtain ⟨a, ha, b, hb, rfl⟩ := hm
  have h1 := hp a ha
  have h2 := hq b hb
  simp only [Mono.times, MultiIndex.plus, MultiIndex.order] at *
  push_cast at *
  omega

theorem deg_smul {d : ℤ} {p : Poly K} (h : DegLe d p) (c : K) : DegLe d (smul p c) := by
  rw [smul_eq]
  refine deg_nz fun m hm => ?_
  obtain ⟨n, hn, rfl⟩ := List.mem_map.1 hm
  exact h n hn

theorem deg_iadd {d : ℤ} {p q : Poly K} (hp : DegLe d p) (hq : DegLe d q) : DegLe d (iadd p q) := by
  rw [iadd_eq]
  exact deg_consolidate (deg_append hp (deg_nz hq))

theorem deg_dx {d : ℤ} {p : Poly K} (h : DegLe d p) : DegLe (d - 1) (nz (p.map Mono.dx)) := by
  intro m hm
  obtain ⟨h1, h2⟩ := List.mem_filter.1 hm
  obtain ⟨n, hn, rfl⟩ := List.mem_map.1 h1
  have := h n hn
  unfold Mono.dx at h2 ⊢
  split_ifs at h2 ⊢ with h0
  · simp [Mono.isZero, tol_pos] at h2
  · simp only [MultiIndex.order] at *
    omega

theorem deg_dy {d : ℤ} {p : Poly K} (h : DegLe d p) : DegLe (d - 1) (nz (p.map Mono.dy)) := by
  intro m hm
  obtain ⟨h1, h2⟩ := List.mem_filter.1 hm
  obtain ⟨n, hn, rfl⟩ := List.mem_map.1 h1
  have := h n hn
  unfold Mono.dy at h2 ⊢
  split_ifs at h2 ⊢ with h0
  · simp [Mono.isZero, tol_pos] at h2
  · simp only [MultiIndex.order] at *
    omega

theorem deg_lap {d : ℤ} {p : Poly K} (h : DegLe d p) : DegLe (d - 2) (lap p) := by
  unfold lap
  rw [add_eq]
  have e : d - 2 = d - 1 - 1 := by ring
  rw [e]
  exact deg_consolidate (deg_nz (deg_append (deg_dx (deg_dx h)) (deg_dy (deg_dy h))))

theorem deg_rsq : DegLe 2 (rsq K) := by
  intro m hm
  simp only [rsq, List.mem_cons, List.not_mem_nil, or_false] at hm
  rcases hm with rfl | rfl <;> simp [MultiIndex.order]

theorem deg_alLoop (ord n k : ℕ) {d : ℤ} {pk Lk P : Poly K} (s : K) (h1 : DegLe (2 * k) pk) (h2 : DegLe (d - 2 * k) Lk) (h3 : DegLe d P) :
    DegLe d (alLoop ord n k pk Lk s P) := by
  induction n generalizing k pk Lk s P with
  | zero => exact h3
  | succ n ih =>
    unfold alLoop
    have e1 := deg_mulP h1 deg_rsq
    have e2 := deg_lap h2
    refine ih (k + 1) _ ?_ ?_ (deg_iadd h3 (deg_smul ?_ _))
    · push_cast
      have : (2 * ((k : ℤ) + 1)) = 2 * k + 2 := by ring
      rw [this]; exact e1
    · push_cast
      have : d - (2 * ((k : ℤ) + 1)) = d - 2 * k - 2 := by ring
      rw [this]; exact e2
    · have := deg_mulP e1 e2
      have e : 2 * (k : ℤ) + 2 + (d - 2 * k - 2) = d := by ring
      rwa [e] at this

theorem deg_alMono (m : Mono K) : DegLe (m.alpha.order + 2) (alMono m) := by
  have h : DegLe m.alpha.order (addMonomial [] m) := by
    unfold addMonomial
    split_ifs
    · intro n hn; simp at hn
    · intro n hn; simp at hn; rw [hn]
  refine deg_alLoop _ _ 1 _ ?_ ?_ (deg_smul ?_ _)
  · exact deg_rsq
  · have : (m.alpha.order : ℤ) + 2 - 2 * (1 : ℕ) = m.alpha.order := by push_cast; ring
    rw [this]; exact h
  · rw [add_comm]
    exact deg_mulP deg_rsq h

theorem deg_mono {d e : ℤ} (h : d ≤ e) {p : Poly K} (hp : DegLe d p) : DegLe e p := fun m hm => (hp m hm).trans h

theorem deg_alP {d : ℤ} {p : Poly K} (h : DegLe d p) : DegLe (d + 2) (alP p) := by
  have key : ∀ (l r : Poly K), DegLe d l → DegLe (d + 2) r → DegLe (d + 2) (l.foldl (fun r m => iadd r (alMono m)) r) := by
    intro l
    induction l with
    | nil => intro r _ hr; exact hr
    | cons m l ih =>
      intro r hl hr
      refine ih _ (fun n hn => hl n (by simp [hn])) (deg_iadd hr (deg_mono ?_ (deg_alMono m)))
      have := hl m (by simp)
      omega
  exact key p [] h (fun m hm => by simp at hm)

theorem totalDegree_toMv {d : ℕ} {p : Poly K} (h : DegLe d p) : (toMv p).totalDegree ≤ d := by
  induction p with
  | nil => simp [toMv_nil]
  | cons m p ih =>
    rw [toMv_cons]
    refine (MvPolynomial.totalDegree_add _ _).trans (max_le ?_ (ih fun n hn => h n (by simp [hn])))
    refine (MvPolynomial.totalDegree_monomial_le _ _).trans ?_
    have := h m (by simp)
    rw [Finsupp.sum_fintype _ _ (fun _ => rfl), Fin.sum_univ_two, MultiIndex.fs_zero, MultiIndex.fs_one]
    simp only [MultiIndex.order, id] at this ⊢
    omega

/-- the degree of a Laplacian -/
theorem deg_of_lap {d : ℕ} {f : Poly K} (hf : Canonical f) {U : MvPolynomial (Fin 2) K} (hU : U.totalDegree ≤ d) (h : toMv f = Lap U) :
    DegLe ((d : ℤ) - 2) f := by
  intro m hm
  have hc : coeffOf f m.alpha ≠ 0 := by
    rw [hf.coeffOf_mem hm]
    intro e
    have := hf.2 m hm
    rw [e, abs_zero] at this
    exact absurd this (not_le.2 tol_pos)
  rw [← coeff_toMv, h, Lap, MvPolynomial.coeff_add, MvPolynomial.coeff_pderiv, MvPolynomial.coeff_pderiv, MvPolynomial.coeff_pderiv,
    MvPolynomial.coeff_pderiv] at hc
  have key : ∀ s : Fin 2 →₀ ℕ, MvPolynomial.coeff s U ≠ 0 → s 0 + s 1 ≤ d := by
    intro s hs
    have := (MvPolynomial.le_totalDegree (MvPolynomial.mem_support_iff.2 hs)).trans hU
    rwa [Finsupp.sum_fintype _ _ (fun _ => rfl), Fin.sum_univ_two] at this
  simp only [MultiIndex.order]
  by_cases h1 : MvPolynomial.coeff (m.alpha.fs + Finsupp.single 0 1 + Finsupp.single 0 1) U = 0
  · by_cases h2 : MvPolynomial.coeff (m.alpha.fs + Finsupp.single 1 1 + Finsupp.single 1 1) U = 0
    · rw [h1, h2] at hc
      simp at hc
    · have := key _ h2
      simp [MultiIndex.fs_zero, MultiIndex.fs_one] at this
      push_cast
      omega
  · have := key _ h1
    simp [MultiIndex.fs_zero, MultiIndex.fs_one] at this
    push_cast
    omega

end

/-! ### functions and polynomials -/

theorem eval_mv (p : Poly ℝ) (x y : ℝ) : p.eval x y = MvPolynomial.eval ![x, y] (toMv p) := by
  rw [eval_toMv]
  congr 2
  funext i
  fin_cases i <;> simp

open MvPolynomial in
theorem mv_x (p : MvPolynomial (Fin 2) ℝ) (x y : ℝ) : HasDerivAt (fun s => MvPolynomial.eval ![s, y] p) (MvPolynomial.eval ![x, y] (pderiv 0 p)) x := by
  induction p using MvPolynomial.induction_on with
  | C c => simpa using hasDerivAt_const x c
  | add p q hp hq =>
    simp only [map_add]
    exact hp.fun_add hq
  | mul_X p i hp =>
    fin_cases i
    · have h0 : pderiv (0 : Fin 2) (X 0 : MvPolynomial (Fin 2) ℝ) = 1 := pderiv_X_self 0
      simp only [Derivation.leibniz, map_mul, eval_X, Fin.zero_eta, Matrix.cons_val_zero, smul_eq_mul, map_add, h0, map_one]
      exact (hp.fun_mul (hasDerivAt_id x)).congr_deriv (by simp; ring)
    · have h1 : pderiv (0 : Fin 2) (X 1 : MvPolynomial (Fin 2) ℝ) = 0 := pderiv_X_of_ne (by decide)
      simp only [Derivation.leibniz, map_mul, eval_X, Fin.mk_one, Matrix.cons_val_one, smul_eq_mul, map_add, h1, map_zero]
      exact (hp.fun_mul (hasDerivAt_const x y)).congr_deriv (by simp; ring)

open MvPolynomial in
theorem mv_y (p : MvPolynomial (Fin 2) ℝ) (x y : ℝ) : HasDerivAt (fun s => MvPolynomial.eval ![x, s] p) (MvPolynomial.eval ![x, y] (pderiv 1 p)) y := by
  induction p using MvPolynomial.induction_on with
  | C c => simpa using hasDerivAt_const y c
  | add p q hp hq =>
    simp only [map_add]
    exact hp.fun_add hq
  | mul_X p i hp =>
    fin_cases i
    · have h0 : pderiv (1 : Fin 2) (X 0 : MvPolynomial (Fin 2) ℝ) = 0 := pderiv_X_of_ne (by decide)
      simp only [Derivation.leibniz, map_mul, eval_X, Fin.zero_eta, Matrix.cons_val_zero, smul_eq_mul, map_add, h0, map_zero]
      exact (hp.fun_mul (hasDerivAt_const y x)).congr_deriv (by simp; ring)
    · have h1 : pderiv (1 : Fin 2) (X 1 : MvPolynomial (Fin 2) ℝ) = 1 := pderiv_X_self 1
      simp only [Derivation.leibniz, map_mul, eval_X, Fin.mk_one, Matrix.cons_val_one, smul_eq_mul, map_add, h1, map_one]
      exact (hp.fun_mul (hasDerivAt_id y)).congr_deriv (by simp; ring)

end Poly
end PFEM
