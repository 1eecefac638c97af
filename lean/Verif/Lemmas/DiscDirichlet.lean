import Mathlib.Algebra.MvPolynomial.Funext
import Mathlib.MeasureTheory.Function.LocallyIntegrable
import Mathlib.RingTheory.MvPolynomial.Basic
import Mathlib.MeasureTheory.Measure.OpenPos
import Verif.Spec.DiscSpace
import Verif.Props.DiscInner

/-!
The Dirichlet problem for polynomials on a disc: energy identity, uniqueness, and existence of polynomial solutions.
-/

namespace PFEM
open MvPolynomial MeasureTheory

namespace Poly2

theorem fn (p : Poly2) : PolyFn p.totalDegree (ev p) := ⟨p, le_rfl, fun _ _ => rfl⟩

theorem ev_injective {p q : Poly2} (h : ∀ x y, ev p x y = ev q x y) : p = q := by
  refine MvPolynomial.funext fun v => ?_
  have : v = ![v 0, v 1] := by funext i; fin_cases i <;> rfl
  rw [this]
  exact h _ _

/-- the weak form -/
theorem green (x0 y0 : ℝ) {r : ℝ} (hr : 0 < r) (u : Poly2) {v : Poly2} (hv : VanishOn x0 y0 r v) :
    ∫ z in disc x0 y0 r, (ev (pderiv 0 u) z.1 z.2 * ev (pderiv 0 v) z.1 z.2 + ev (pderiv 1 u) z.1 z.2 * ev (pderiv 1 v) z.1 z.2) =
      -∫ z in disc x0 y0 r, ev (lap u) z.1 z.2 * ev v z.1 z.2 := by
  have h := disc_divergence x0 y0 hr (fn (pderiv 0 u * v)).contDiff (fn (pderiv 1 u * v)).contDiff
  have e0 : ∀ θ : ℝ, r * (ev (pderiv 0 u * v) (x0 + r * Real.cos θ) (y0 + r * Real.sin θ) * Real.cos θ +
      ev (pderiv 1 u * v) (x0 + r * Real.cos θ) (y0 + r * Real.sin θ) * Real.sin θ) = 0 := by
    intro θ
    have := hv θ
    simp only [ev, map_mul] at this ⊢
    rw [this]
    ring
  have e1 : ∀ w : Poly2, ∀ p : ℝ × ℝ, fderiv ℝ (fun p : ℝ × ℝ => ev w p.1 p.2) p (1, 0) = ev (pderiv 0 w) p.1 p.2 := fun w p =>
    (fderiv_x ((fn w).contDiff.differentiable (by norm_num)) p.1 p.2).unique (Poly.mv_x w p.1 p.2)
  have e2 : ∀ w : Poly2, ∀ p : ℝ × ℝ, fderiv ℝ (fun p : ℝ × ℝ => ev w p.1 p.2) p (0, 1) = ev (pderiv 1 w) p.1 p.2 := fun w p =>
    (fderiv_y ((fn w).contDiff.differentiable (by norm_num)) p.1 p.2).unique (Poly.mv_y w p.1 p.2)
  simp only [e0, e1, e2, intervalIntegral.integral_zero] at h
  have i1 := disc_integrable x0 y0 hr (fn (lap u * v))
  have i2 := disc_integrable x0 y0 hr (fn (pderiv 0 u * pderiv 0 v + pderiv 1 u * pderiv 1 v))
  have h2 := integral_add i1 i2
  have e3 : ∀ z : ℝ × ℝ, ev (lap u * v) z.1 z.2 + ev (pderiv 0 u * pderiv 0 v + pderiv 1 u * pderiv 1 v) z.1 z.2 =
      ev (pderiv 0 (pderiv 0 u * v)) z.1 z.2 + ev (pderiv 1 (pderiv 1 u * v)) z.1 z.2 := by
    intro z
    simp only [ev, lap, Derivation.leibniz, smul_eq_mul, map_add, map_mul]
    ring
  simp only [e3, h] at h2
  simp only [ev, map_mul, map_add] at h2 ⊢
  linarith

/-- a polynomial whose square has integral zero is zero -/
theorem eq_zero_of_integral (x0 y0 : ℝ) {r : ℝ} (hr : 0 < r) {p : Poly2} (h : ∫ z in disc x0 y0 r, ev p z.1 z.2 * ev p z.1 z.2 = 0) : p = 0 := by
  have ho : IsOpen (disc x0 y0 r) := isOpen_lt (by fun_prop) (by fun_prop)
  have hc : Continuous fun z : ℝ × ℝ => ev p z.1 z.2 * ev p z.1 z.2 := by
    have := (fn p).contDiff.continuous
    exact this.mul this
  have hi : IntegrableOn (fun z : ℝ × ℝ => ev p z.1 z.2 * ev p z.1 z.2) (disc x0 y0 r) := by
    have := disc_integrable x0 y0 hr (fn (p * p))
    simpa only [ev, map_mul] using this
  have h0 := (setIntegral_eq_zero_iff_of_nonneg_ae (Filter.Eventually.of_forall fun z => mul_self_nonneg _) hi).1 h
  have h1 : Set.EqOn (fun z : ℝ × ℝ => ev p z.1 z.2 * ev p z.1 z.2) (fun _ => 0) (disc x0 y0 r) :=
    MeasureTheory.Measure.eqOn_open_of_ae_eq (μ := volume) h0 ho hc.continuousOn continuousOn_const
  set s : Fin 2 → Set ℝ := ![Set.Ioo (x0 - r / 2) (x0 + r / 2), Set.Ioo (y0 - r / 2) (y0 + r / 2)] with hs
  have : ∀ i, (s i).Infinite := by
    intro i
    fin_cases i
    · exact Set.Ioo_infinite (by linarith)
    · exact Set.Ioo_infinite (by linarith)
  refine MvPolynomial.funext_set (p := p) (q := 0) s this fun v hv => ?_
  have e : v = ![v 0, v 1] := by funext i; fin_cases i <;> rfl
  have v0 : v 0 ∈ Set.Ioo (x0 - r / 2) (x0 + r / 2) := hv 0 trivial
  have v1 : v 1 ∈ Set.Ioo (y0 - r / 2) (y0 + r / 2) := hv 1 trivial
  have hm : (v 0, v 1) ∈ disc x0 y0 r := by
    show (v 0 - x0) ^ 2 + (v 1 - y0) ^ 2 < r ^ 2
    have a := abs_lt.2 (⟨by linarith [v0.1], by linarith [v0.2]⟩ : -(r / 2) < v 0 - x0 ∧ v 0 - x0 < r / 2)
    have b := abs_lt.2 (⟨by linarith [v1.1], by linarith [v1.2]⟩ : -(r / 2) < v 1 - y0 ∧ v 1 - y0 < r / 2)
    have a2 := sq_lt_sq' (neg_lt_of_abs_lt a) (lt_of_abs_lt a)
    have b2 := sq_lt_sq' (neg_lt_of_abs_lt b) (lt_of_abs_lt b)
    nlinarith
  have := h1 hm
  rw [e, map_zero]
  exact mul_self_eq_zero.1 this

theorem const_of_pderiv {p : Poly2} (h0 : pderiv 0 p = 0) (h1 : pderiv 1 p = 0) : ∃ c, p = C c := by
  refine ⟨coeff 0 p, ?_⟩
  refine MvPolynomial.ext _ _ fun m => ?_
  rw [coeff_C]
  split_ifs with hm
  · rw [hm]
  · have : ∃ i, m i ≠ 0 := by
      by_contra hc
      push Not at hc
      exact hm (Finsupp.ext fun i => (hc i).symm)
    obtain ⟨i, hi⟩ := this
    have hp : pderiv i p = 0 := by fin_cases i <;> assumption
    have hc := coeff_pderiv (i := i) p (m - Finsupp.single i 1)
    rw [hp, coeff_zero, tsub_add_cancel_of_le (by rw [Finsupp.single_le_iff]; omega)] at hc
    rcases mul_eq_zero.1 hc.symm with h | h
    · exact h
    · exfalso
      have : (0 : ℝ) < ((m - Finsupp.single i 1 : Fin 2 →₀ ℕ) i : ℝ) + 1 := by positivity
      linarith

/-- the energy is definite on polynomials that vanish on the circle -/
theorem eq_zero_of_energy (x0 y0 : ℝ) {r : ℝ} (hr : 0 < r) {p : Poly2} (hp : VanishOn x0 y0 r p)
    (h : ∫ z in disc x0 y0 r, (ev (pderiv 0 p) z.1 z.2 * ev (pderiv 0 p) z.1 z.2 + ev (pderiv 1 p) z.1 z.2 * ev (pderiv 1 p) z.1 z.2) = 0) :
    p = 0 := by
  have i0 : IntegrableOn (fun z : ℝ × ℝ => ev (pderiv 0 p) z.1 z.2 * ev (pderiv 0 p) z.1 z.2) (disc x0 y0 r) := by
    have := disc_integrable x0 y0 hr (fn (pderiv 0 p * pderiv 0 p))
    simpa only [ev, map_mul] using this
  have i1 : IntegrableOn (fun z : ℝ × ℝ => ev (pderiv 1 p) z.1 z.2 * ev (pderiv 1 p) z.1 z.2) (disc x0 y0 r) := by
    have := disc_integrable x0 y0 hr (fn (pderiv 1 p * pderiv 1 p))
    simpa only [ev, map_mul] using this
  rw [integral_add i0 i1] at h
  have n0 : 0 ≤ ∫ z in disc x0 y0 r, ev (pderiv 0 p) z.1 z.2 * ev (pderiv 0 p) z.1 z.2 := integral_nonneg fun z => mul_self_nonneg _
  have n1 : 0 ≤ ∫ z in disc x0 y0 r, ev (pderiv 1 p) z.1 z.2 * ev (pderiv 1 p) z.1 z.2 := integral_nonneg fun z => mul_self_nonneg _
  obtain ⟨c, rfl⟩ := const_of_pderiv (eq_zero_of_integral x0 y0 hr (by linarith)) (eq_zero_of_integral x0 y0 hr (by linarith : _ = (0 : ℝ)))
  have := hp 0
  simp only [ev, eval_C] at this
  rw [this, map_zero]

/-- `r² - (x - x0)² - (y - y0)²` -/
noncomputable def cap (x0 y0 r : ℝ) : Poly2 := C (r ^ 2) - (X 0 - C x0) ^ 2 - (X 1 - C y0) ^ 2

theorem cap_ev (x0 y0 r x y : ℝ) : ev (cap x0 y0 r) x y = r ^ 2 - (x - x0) ^ 2 - (y - y0) ^ 2 := by simp [cap, ev]

theorem cap_vanish (x0 y0 r : ℝ) (q : Poly2) : VanishOn x0 y0 r (cap x0 y0 r * q) := by
  intro θ
  have h := cap_ev x0 y0 r (x0 + r * Real.cos θ) (y0 + r * Real.sin θ)
  simp only [ev, map_mul] at h ⊢
  rw [h]
  have := Real.sin_sq_add_cos_sq θ
  linear_combination (-r ^ 2 * eval ![x0 + r * Real.cos θ, y0 + r * Real.sin θ] q) * this

theorem cap_ne (x0 y0 : ℝ) {r : ℝ} (hr : 0 < r) : cap x0 y0 r ≠ 0 := by
  intro h
  have := cap_ev x0 y0 r x0 y0
  rw [h] at this
  simp only [ev, map_zero, sub_self] at this
  nlinarith

theorem cap_degree (x0 y0 r : ℝ) : (cap x0 y0 r).totalDegree ≤ 2 := by
  have h : ∀ (i : Fin 2) (a : ℝ), ((X i - C a : Poly2) ^ 2).totalDegree ≤ 2 := fun i a => by
    refine (totalDegree_pow _ _).trans ?_
    have : (X i - C a : Poly2).totalDegree ≤ 1 := (totalDegree_sub _ _).trans (by simp)
    omega
  unfold cap
  refine (totalDegree_sub _ _).trans (max_le ((totalDegree_sub _ _).trans (max_le (by rw [totalDegree_C]; omega) (h 0 x0))) (h 1 y0))

theorem degree_pderiv (i : Fin 2) {d : ℕ} {p : Poly2} (h : p.totalDegree ≤ d + 1) : (pderiv i p).totalDegree ≤ d := by
  refine Finset.sup_le fun m hm => ?_
  rw [mem_support_iff, coeff_pderiv] at hm
  have h1 := le_totalDegree (mem_support_iff.2 (left_ne_zero_of_mul hm))
  rw [Finsupp.sum_fintype _ _ (fun _ => rfl), Fin.sum_univ_two] at h1 ⊢
  simp only [Finsupp.add_apply] at h1
  have : (Finsupp.single i 1 : Fin 2 →₀ ℕ) 0 + (Finsupp.single i 1 : Fin 2 →₀ ℕ) 1 = 1 := by fin_cases i <;> simp
  omega

theorem degree_lap {d : ℕ} {p : Poly2} (h : p.totalDegree ≤ d + 2) : (lap p).totalDegree ≤ d :=
  (totalDegree_add _ _).trans (max_le (degree_pderiv 0 (degree_pderiv 0 h)) (degree_pderiv 1 (degree_pderiv 1 h)))

/-- the Laplacian of polynomials that vanish on the circle -/
noncomputable def lapCap (x0 y0 r : ℝ) (d : ℕ) : restrictTotalDegree (Fin 2) ℝ d →ₗ[ℝ] restrictTotalDegree (Fin 2) ℝ d where
  toFun q := ⟨lap (cap x0 y0 r * q), by
    rw [mem_restrictTotalDegree]
    refine degree_lap ((totalDegree_mul _ _).trans ?_)
    have h1 := cap_degree x0 y0 r
    have h2 := (mem_restrictTotalDegree (Fin 2) d (q : Poly2)).1 q.2
    omega⟩
  map_add' p q := by
    apply Subtype.ext
    simp only [lap, Submodule.coe_add, mul_add, map_add]
    ring
  map_smul' c q := by
    apply Subtype.ext
    simp only [lap, Submodule.coe_smul, mul_smul_comm, RingHom.id_apply, smul_add, Derivation.map_smul]

/-- existence of polynomial solutions of `Δw = F` that vanish on the circle -/
theorem exists_dirichlet (x0 y0 : ℝ) {r : ℝ} (hr : 0 < r) {d : ℕ} {F : Poly2} (hF : F.totalDegree ≤ d) :
    ∃ q : Poly2, q.totalDegree ≤ d ∧ lap (cap x0 y0 r * q) = F := by
  have hinj : Function.Injective (lapCap x0 y0 r d) := by
    rw [← LinearMap.ker_eq_bot, LinearMap.ker_eq_bot']
    intro q hq
    have hL : lap (cap x0 y0 r * (q : Poly2)) = 0 := congrArg Subtype.val hq
    have h := green x0 y0 hr (cap x0 y0 r * (q : Poly2)) (cap_vanish x0 y0 r q)
    rw [hL] at h
    simp only [ev, map_zero, zero_mul, integral_zero, neg_zero] at h
    have h0 := eq_zero_of_energy x0 y0 hr (cap_vanish x0 y0 r q) h
    exact Subtype.ext ((mul_eq_zero.1 h0).resolve_left (cap_ne x0 y0 hr))
  obtain ⟨q, hq⟩ := LinearMap.injective_iff_surjective.1 hinj ⟨F, (mem_restrictTotalDegree _ _ _).2 hF⟩
  exact ⟨q, (mem_restrictTotalDegree _ _ _).1 q.2, congrArg Subtype.val hq⟩

/-- uniqueness -/
theorem dirichlet_unique (x0 y0 : ℝ) {r : ℝ} (hr : 0 < r) {u v : Poly2} (hu : VanishOn x0 y0 r u) (hv : VanishOn x0 y0 r v)
    (h : lap u = lap v) : u = v := by
  have hd : VanishOn x0 y0 r (u - v) := fun θ => by
    have h1 := hu θ
    have h2 := hv θ
    simp only [ev, map_sub] at h1 h2 ⊢
    rw [h1, h2, sub_zero]
  have hL : lap (u - v) = 0 := by
    have e : lap (u - v) = lap u - lap v := by simp only [lap, map_sub]; ring
    rw [e, h, sub_self]
  have hg := green x0 y0 hr (u - v) hd
  rw [hL] at hg
  simp only [ev, map_zero, zero_mul, integral_zero, neg_zero] at hg
  exact sub_eq_zero.1 (eq_zero_of_energy x0 y0 hr hd hg)

end Poly2
end PFEM
