import Verif.Lemmas.DiscGalerkin
import Verif.Lemmas.EllipseIntegral
import Verif.Spec.EllipseSpace

/-!
The Dirichlet problem for polynomials on an ellipse, and lemmas on the weak form.
-/

namespace PFEM
open MvPolynomial MeasureTheory

namespace Poly2.Ell

/-- the weak form -/
theorem green (x0 y0 : ℝ) {a b : ℝ} (ha : 0 < a) (hb : 0 < b) (u : Poly2) {v : Poly2} (hv : VanishOn x0 y0 a b v) :
    ∫ z in ellipseRegion x0 y0 a b, (ev (pderiv 0 u) z.1 z.2 * ev (pderiv 0 v) z.1 z.2 + ev (pderiv 1 u) z.1 z.2 * ev (pderiv 1 v) z.1 z.2) =
      -∫ z in ellipseRegion x0 y0 a b, ev (lap u) z.1 z.2 * ev v z.1 z.2 := by
  have h := ellipse_divergence x0 y0 ha hb (m := (pderiv 0 u * v).totalDegree + (pderiv 1 u * v).totalDegree) (Nat.lt_succ_self _)
    ((fn (pderiv 0 u * v)).mono (by omega)) ((fn (pderiv 1 u * v)).mono (by omega)) (Poly.mv_x (pderiv 0 u * v)) (Poly.mv_y (pderiv 1 u * v))
  rw [Finset.sum_eq_zero (fun j _ => by
    have := hv (2 * Real.pi * j / (((pderiv 0 u * v).totalDegree + (pderiv 1 u * v).totalDegree + 1).succ : ℕ))
    simp only [ev, map_mul] at this ⊢
    rw [this]
    ring)] at h
  have i1 := ellipse_integrable x0 y0 ha hb (fn (lap u * v))
  have i2 := ellipse_integrable x0 y0 ha hb (fn (pderiv 0 u * pderiv 0 v + pderiv 1 u * pderiv 1 v))
  have h2 := integral_add i1 i2
  have e3 : ∀ z : ℝ × ℝ, ev (lap u * v) z.1 z.2 + ev (pderiv 0 u * pderiv 0 v + pderiv 1 u * pderiv 1 v) z.1 z.2 =
      ev (pderiv 0 (pderiv 0 u * v)) z.1 z.2 + ev (pderiv 1 (pderiv 1 u * v)) z.1 z.2 := by
    intro z
    simp only [ev, lap, Derivation.leibniz, smul_eq_mul, map_add, map_mul]
    ring
  simp only [e3] at h2
  rw [h] at h2
  simp only [ev, map_mul, map_add] at h2 ⊢
  linarith

/-- a polynomial whose square has integral zero is zero -/
theorem eq_zero_of_integral (x0 y0 : ℝ) {a b : ℝ} (ha : 0 < a) (hb : 0 < b) {p : Poly2} (h : ∫ z in ellipseRegion x0 y0 a b, ev p z.1 z.2 * ev p z.1 z.2 = 0) : p = 0 := by
  have ho : IsOpen (ellipseRegion x0 y0 a b) := isOpen_lt (by fun_prop) (by fun_prop)
  have hc : Continuous fun z : ℝ × ℝ => ev p z.1 z.2 * ev p z.1 z.2 := by
    have := (fn p).contDiff.continuous
    exact this.mul this
  have hi : IntegrableOn (fun z : ℝ × ℝ => ev p z.1 z.2 * ev p z.1 z.2) (ellipseRegion x0 y0 a b) := by
    have := ellipse_integrable x0 y0 ha hb (fn (p * p))
    simpa only [ev, map_mul] using this
  have h0 := (setIntegral_eq_zero_iff_of_nonneg_ae (Filter.Eventually.of_forall fun z => mul_self_nonneg _) hi).1 h
  have h1 : Set.EqOn (fun z : ℝ × ℝ => ev p z.1 z.2 * ev p z.1 z.2) (fun _ => 0) (ellipseRegion x0 y0 a b) :=
    MeasureTheory.Measure.eqOn_open_of_ae_eq (μ := volume) h0 ho hc.continuousOn continuousOn_const
  set s : Fin 2 → Set ℝ := ![Set.Ioo (x0 - a / 2) (x0 + a / 2), Set.Ioo (y0 - b / 2) (y0 + b / 2)] with hs
  have : ∀ i, (s i).Infinite := by
    intro i
    fin_cases i
    · exact Set.Ioo_infinite (by linarith)
    · exact Set.Ioo_infinite (by linarith)
  refine MvPolynomial.funext_set (p := p) (q := 0) s this fun v hv => ?_
  have e : v = ![v 0, v 1] := by funext i; fin_cases i <;> rfl
  have v0 : v 0 ∈ Set.Ioo (x0 - a / 2) (x0 + a / 2) := hv 0 trivial
  have v1 : v 1 ∈ Set.Ioo (y0 - b / 2) (y0 + b / 2) := hv 1 trivial
  have hm : (v 0, v 1) ∈ ellipseRegion x0 y0 a b := by
    show ((v 0 - x0) / a) ^ 2 + ((v 1 - y0) / b) ^ 2 < 1
    have k1 : -(1 / 2) < (v 0 - x0) / a ∧ (v 0 - x0) / a < 1 / 2 := by
      rw [lt_div_iff₀ ha, div_lt_iff₀ ha]
      exact ⟨by linarith [v0.1], by linarith [v0.2]⟩
    have k2 : -(1 / 2) < (v 1 - y0) / b ∧ (v 1 - y0) / b < 1 / 2 := by
      rw [lt_div_iff₀ hb, div_lt_iff₀ hb]
      exact ⟨by linarith [v1.1], by linarith [v1.2]⟩
    have := sq_lt_sq' k1.1 k1.2
    have := sq_lt_sq' k2.1 k2.2
    linarith
  have := h1 hm
  rw [e, map_zero]
  exact mul_self_eq_zero.1 this

/-- the energy is definite on polynomials that vanish on the ellipse -/
theorem eq_zero_of_energy (x0 y0 : ℝ) {a b : ℝ} (ha : 0 < a) (hb : 0 < b) {p : Poly2} (hp : VanishOn x0 y0 a b p)
    (h : ∫ z in ellipseRegion x0 y0 a b, (ev (pderiv 0 p) z.1 z.2 * ev (pderiv 0 p) z.1 z.2 + ev (pderiv 1 p) z.1 z.2 * ev (pderiv 1 p) z.1 z.2) = 0) :
    p = 0 := by
  have i0 : IntegrableOn (fun z : ℝ × ℝ => ev (pderiv 0 p) z.1 z.2 * ev (pderiv 0 p) z.1 z.2) (ellipseRegion x0 y0 a b) := by
    have := ellipse_integrable x0 y0 ha hb (fn (pderiv 0 p * pderiv 0 p))
    simpa only [ev, map_mul] using this
  have i1 : IntegrableOn (fun z : ℝ × ℝ => ev (pderiv 1 p) z.1 z.2 * ev (pderiv 1 p) z.1 z.2) (ellipseRegion x0 y0 a b) := by
    have := ellipse_integrable x0 y0 ha hb (fn (pderiv 1 p * pderiv 1 p))
    simpa only [ev, map_mul] using this
  rw [integral_add i0 i1] at h
  have n0 : 0 ≤ ∫ z in ellipseRegion x0 y0 a b, ev (pderiv 0 p) z.1 z.2 * ev (pderiv 0 p) z.1 z.2 := integral_nonneg fun z => mul_self_nonneg _
  have n1 : 0 ≤ ∫ z in ellipseRegion x0 y0 a b, ev (pderiv 1 p) z.1 z.2 * ev (pderiv 1 p) z.1 z.2 := integral_nonneg fun z => mul_self_nonneg _
  obtain ⟨c, rfl⟩ := const_of_pderiv (eq_zero_of_integral x0 y0 ha hb (by linarith)) (eq_zero_of_integral x0 y0 ha hb (by linarith : _ = (0 : ℝ)))
  have := hp 0
  simp only [ev, eval_C] at this
  rw [this, map_zero]

/-- `a² b² - b² (x - x0)² - a² (y - y0)²` -/
noncomputable def cap (x0 y0 a b : ℝ) : Poly2 := C (a ^ 2 * b ^ 2) - C (b ^ 2) * (X 0 - C x0) ^ 2 - C (a ^ 2) * (X 1 - C y0) ^ 2

theorem cap_ev (x0 y0 a b x y : ℝ) : ev (cap x0 y0 a b) x y = a ^ 2 * b ^ 2 - b ^ 2 * (x - x0) ^ 2 - a ^ 2 * (y - y0) ^ 2 := by simp [cap, ev]

theorem cap_vanish (x0 y0 a b : ℝ) (q : Poly2) : VanishOn x0 y0 a b (cap x0 y0 a b * q) := by
  intro θ
  have h := cap_ev x0 y0 a b (x0 + a * Real.cos θ) (y0 + b * Real.sin θ)
  simp only [ev, map_mul] at h ⊢
  rw [h]
  have := Real.sin_sq_add_cos_sq θ
  linear_combination (-a ^ 2 * b ^ 2 * eval ![x0 + a * Real.cos θ, y0 + b * Real.sin θ] q) * this

theorem cap_ne (x0 y0 : ℝ) {a b : ℝ} (ha : 0 < a) (hb : 0 < b) : cap x0 y0 a b ≠ 0 := by
  intro h
  have := cap_ev x0 y0 a b x0 y0
  rw [h] at this
  simp only [ev, map_zero, sub_self] at this
  have h1 : 0 < a ^ 2 * b ^ 2 := by positivity
  nlinarith

theorem cap_degree (x0 y0 a b : ℝ) : (cap x0 y0 a b).totalDegree ≤ 2 := by
  have h : ∀ (i : Fin 2) (c e : ℝ), (C e * (X i - C c : Poly2) ^ 2).totalDegree ≤ 2 := fun i c e => by
    refine (totalDegree_mul _ _).trans ?_
    rw [totalDegree_C, zero_add]
    refine (totalDegree_pow _ _).trans ?_
    have : (X i - C c : Poly2).totalDegree ≤ 1 := (totalDegree_sub _ _).trans (by simp)
    omega
  unfold cap
  refine (totalDegree_sub _ _).trans (max_le ((totalDegree_sub _ _).trans (max_le (by rw [totalDegree_C]; omega) (h 0 x0 _))) (h 1 y0 _))

/-- the Laplacian of polynomials that vanish on the ellipse -/
noncomputable def lapCap (x0 y0 a b : ℝ) (d : ℕ) : restrictTotalDegree (Fin 2) ℝ d →ₗ[ℝ] restrictTotalDegree (Fin 2) ℝ d where
  toFun q := ⟨lap (cap x0 y0 a b * q), by
    rw [mem_restrictTotalDegree]
    refine degree_lap ((totalDegree_mul _ _).trans ?_)
    have h1 := cap_degree x0 y0 a b
    have h2 := (mem_restrictTotalDegree (Fin 2) d (q : Poly2)).1 q.2
    omega⟩
  map_add' p q := by
    apply Subtype.ext
    simp only [lap, Submodule.coe_add, mul_add, map_add]
    ring
  map_smul' c q := by
    apply Subtype.ext
    simp only [lap, Submodule.coe_smul, mul_smul_comm, RingHom.id_apply, smul_add, Derivation.map_smul]

/-- existence of polynomial solutions of `Δw = F` that vanish on the ellipse -/
theorem exists_dirichlet (x0 y0 : ℝ) {a b : ℝ} (ha : 0 < a) (hb : 0 < b) {d : ℕ} {F : Poly2} (hF : F.totalDegree ≤ d) :
    ∃ q : Poly2, q.totalDegree ≤ d ∧ lap (cap x0 y0 a b * q) = F := by
  have hinj : Function.Injective (lapCap x0 y0 a b d) := by
    rw [← LinearMap.ker_eq_bot, LinearMap.ker_eq_bot']
    intro q hq
    have hL : lap (cap x0 y0 a b * (q : Poly2)) = 0 := congrArg Subtype.val hq
    have h := green x0 y0 ha hb (cap x0 y0 a b * (q : Poly2)) (cap_vanish x0 y0 a b q)
    rw [hL] at h
    simp only [ev, map_zero, zero_mul, integral_zero, neg_zero] at h
    have h0 := eq_zero_of_energy x0 y0 ha hb (cap_vanish x0 y0 a b q) h
    exact Subtype.ext ((mul_eq_zero.1 h0).resolve_left (cap_ne x0 y0 ha hb))
  obtain ⟨q, hq⟩ := LinearMap.injective_iff_surjective.1 hinj ⟨F, (mem_restrictTotalDegree _ _ _).2 hF⟩
  exact ⟨q, (mem_restrictTotalDegree _ _ _).1 q.2, congrArg Subtype.val hq⟩

/-- uniqueness -/
theorem dirichlet_unique (x0 y0 : ℝ) {a b : ℝ} (ha : 0 < a) (hb : 0 < b) {u v : Poly2} (hu : VanishOn x0 y0 a b u) (hv : VanishOn x0 y0 a b v)
    (h : lap u = lap v) : u = v := by
  have hd : VanishOn x0 y0 a b (u - v) := fun θ => by
    have h1 := hu θ
    have h2 := hv θ
    simp only [ev, map_sub] at h1 h2 ⊢
    rw [h1, h2, sub_zero]
  have hL : lap (u - v) = 0 := by
    have e : lap (u - v) = lap u - lap v := by simp only [lap, map_sub]; ring
    rw [e, h, sub_self]
  have hg := green x0 y0 ha hb (u - v) hd
  rw [hL] at hg
  simp only [ev, map_zero, zero_mul, integral_zero, neg_zero] at hg
  exact sub_eq_zero.1 (eq_zero_of_energy x0 y0 ha hb hd hg)

theorem integrable (x0 y0 : ℝ) {a b : ℝ} (ha : 0 < a) (hb : 0 < b) (p : Poly2) : IntegrableOn (fun z : ℝ × ℝ => ev p z.1 z.2) (ellipseRegion x0 y0 a b) :=
  ellipse_integrable x0 y0 ha hb (fn p)

/-- integral over the ellipse, as a linear map -/
noncomputable def integral (x0 y0 : ℝ) {a b : ℝ} (ha : 0 < a) (hb : 0 < b) : Poly2 →ₗ[ℝ] ℝ where
  toFun p := ∫ z in ellipseRegion x0 y0 a b, ev p z.1 z.2
  map_add' p q := by
    simp only [ev, map_add]
    exact integral_add (integrable x0 y0 ha hb p) (integrable x0 y0 ha hb q)
  map_smul' a p := by
    simp only [ev, smul_eval, RingHom.id_apply, smul_eq_mul]
    exact integral_const_mul a _

theorem mass_eq (x0 y0 : ℝ) {a b : ℝ} (ha : 0 < a) (hb : 0 < b) (u v : Poly2) : mass x0 y0 a b u v = integral x0 y0 ha hb (u * v) := by
  change _ = ∫ z in ellipseRegion x0 y0 a b, ev (u * v) z.1 z.2
  simp only [mass, ev, map_mul]

theorem energy_eq (x0 y0 : ℝ) {a b : ℝ} (ha : 0 < a) (hb : 0 < b) (u v : Poly2) :
    energy x0 y0 a b u v = integral x0 y0 ha hb (pderiv 0 u * pderiv 0 v + pderiv 1 u * pderiv 1 v) := by
  change _ = ∫ z in ellipseRegion x0 y0 a b, ev (pderiv 0 u * pderiv 0 v + pderiv 1 u * pderiv 1 v) z.1 z.2
  simp only [energy, ev, map_mul, map_add]

/-- the weak form as a bilinear map -/
noncomputable def form (x0 y0 : ℝ) {a b : ℝ} (ha : 0 < a) (hb : 0 < b) (D R : ℝ) : Poly2 →ₗ[ℝ] Poly2 →ₗ[ℝ] ℝ :=
  LinearMap.mk₂ ℝ (fun u v => D * energy x0 y0 a b u v + R * mass x0 y0 a b u v)
    (fun u u' v => by
      simp only [mass_eq x0 y0 ha hb, energy_eq x0 y0 ha hb, map_add, add_mul]
      ring)
    (fun c u v => by
      simp only [mass_eq x0 y0 ha hb, energy_eq x0 y0 ha hb, map_add, Derivation.map_smul, smul_mul_assoc, map_smul, smul_eq_mul]
      ring)
    (fun u v v' => by
      simp only [mass_eq x0 y0 ha hb, energy_eq x0 y0 ha hb, map_add, mul_add]
      ring)
    (fun c u v => by
      simp only [mass_eq x0 y0 ha hb, energy_eq x0 y0 ha hb, map_add, Derivation.map_smul, mul_smul_comm, map_smul, smul_eq_mul]
      ring)

theorem form_apply (x0 y0 : ℝ) {a b : ℝ} (ha : 0 < a) (hb : 0 < b) (D R : ℝ) (u v : Poly2) :
    form x0 y0 ha hb D R u v = D * energy x0 y0 a b u v + R * mass x0 y0 a b u v := rfl

theorem mass_comm (x0 y0 a b : ℝ) (u v : Poly2) : mass x0 y0 a b u v = mass x0 y0 a b v u := by
  simp only [mass, mul_comm]

theorem energy_comm (x0 y0 a b : ℝ) (u v : Poly2) : energy x0 y0 a b u v = energy x0 y0 a b v u := by
  simp only [energy, mul_comm]

theorem form_comm (x0 y0 : ℝ) {a b : ℝ} (ha : 0 < a) (hb : 0 < b) (D R : ℝ) (u v : Poly2) : form x0 y0 ha hb D R u v = form x0 y0 ha hb D R v u := by
  rw [form_apply, form_apply, mass_comm, energy_comm]

theorem mass_nonneg (x0 y0 a b : ℝ) (u : Poly2) : 0 ≤ mass x0 y0 a b u u := integral_nonneg fun _ => mul_self_nonneg _

theorem energy_nonneg (x0 y0 a b : ℝ) (u : Poly2) : 0 ≤ energy x0 y0 a b u u :=
  integral_nonneg fun _ => add_nonneg (mul_self_nonneg _) (mul_self_nonneg _)

theorem form_nonneg (x0 y0 : ℝ) {a b : ℝ} (ha : 0 < a) (hb : 0 < b) {D R : ℝ} (hD : 0 < D) (hR : 0 ≤ R) (u : Poly2) : 0 ≤ form x0 y0 ha hb D R u u := by
  rw [form_apply]
  have := energy_nonneg x0 y0 a b u
  have := mass_nonneg x0 y0 a b u
  positivity

theorem form_definite (x0 y0 : ℝ) {a b : ℝ} (ha : 0 < a) (hb : 0 < b) {D R : ℝ} (hD : 0 < D) (hR : 0 ≤ R) {u : Poly2} (hu : VanishOn x0 y0 a b u)
    (h : form x0 y0 ha hb D R u u = 0) : u = 0 := by
  rw [form_apply] at h
  have h1 := energy_nonneg x0 y0 a b u
  have h2 := mul_nonneg hR (mass_nonneg x0 y0 a b u)
  have h3 : energy x0 y0 a b u u = 0 := by
    have : D * energy x0 y0 a b u u ≤ 0 := by linarith
    nlinarith
  exact eq_zero_of_energy x0 y0 ha hb hu h3

/-- the weak form of the differential equation -/
theorem form_pde (x0 y0 : ℝ) {a b : ℝ} (ha : 0 < a) (hb : 0 < b) (D R : ℝ) (u : Poly2) {v : Poly2} (hv : VanishOn x0 y0 a b v) :
    form x0 y0 ha hb D R u v = mass x0 y0 a b (C R * u - C D * lap u) v := by
  have h : energy x0 y0 a b u v = -mass x0 y0 a b (lap u) v := green x0 y0 ha hb u hv
  rw [form_apply, h, mass_eq x0 y0 ha hb, mass_eq x0 y0 ha hb, mass_eq x0 y0 ha hb, sub_mul, map_sub, mul_assoc, mul_assoc, ← smul_eq_C_mul,
    ← smul_eq_C_mul, map_smul, map_smul]
  simp only [smul_eq_mul]
  ring

/-- polynomials that vanish on the ellipse -/
def vanishing (x0 y0 a b : ℝ) : Submodule ℝ Poly2 where
  carrier := {p | VanishOn x0 y0 a b p}
  zero_mem' := fun θ => by simp [ev]
  add_mem' := fun {p q} hp hq θ => by
    have h1 := hp θ
    have h2 := hq θ
    simp only [ev, map_add] at h1 h2 ⊢
    rw [h1, h2, add_zero]
  smul_mem' := fun a p hp θ => by
    have h1 := hp θ
    simp only [ev, smul_eval] at h1 ⊢
    rw [h1, mul_zero]

/-- polynomials that vanish on the ellipse whose Laplacians are the shifted monomials span all that vanish -/
theorem mem_span_bubbles (x0 y0 : ℝ) {a b : ℝ} (ha : 0 < a) (hb : 0 < b) (c : ℝ × ℝ) {κ : ℝ} (hκ : κ ≠ 0) {d : ℕ} {V : Set Poly2}
    (hV : ∀ v ∈ V, VanishOn x0 y0 a b v) (hL : ∀ i j, i + j ≤ d → ∃ v ∈ V, lap v = shifted c κ i j) {u : Poly2} (hu : VanishOn x0 y0 a b u)
    (hd : u.totalDegree ≤ d + 2) : u ∈ Submodule.span ℝ V := by
  have h1 : lap u ∈ Submodule.map lapL (Submodule.span ℝ V) := by
    rw [Submodule.map_span]
    refine Submodule.span_mono ?_ (mem_spanShifted c hκ (degree_lap hd))
    rintro _ ⟨i, j, hij, rfl⟩
    obtain ⟨v, hv, e⟩ := hL i j hij
    exact ⟨v, hv, e⟩
  obtain ⟨w, hw, e⟩ := h1
  have hw' : VanishOn x0 y0 a b w := (Submodule.span_le (p := vanishing x0 y0 a b)).2 hV hw
  rw [dirichlet_unique x0 y0 ha hb hu hw' (e : lap w = lap u).symm]
  exact hw

/-- the Galerkin equations have one solution in the span -/
theorem galerkin_unique (x0 y0 : ℝ) {a b : ℝ} (ha : 0 < a) (hb : 0 < b) {D R : ℝ} (hD : 0 < D) (hR : 0 ≤ R) {V : Set Poly2} (hV : ∀ v ∈ V, VanishOn x0 y0 a b v)
    {w : Poly2} (hw : w ∈ Submodule.span ℝ V) (h : ∀ v ∈ V, form x0 y0 ha hb D R w v = 0) : w = 0 := by
  have hw' : VanishOn x0 y0 a b w := (Submodule.span_le (p := vanishing x0 y0 a b)).2 hV hw
  refine form_definite x0 y0 ha hb hD hR hw' ?_
  have : Submodule.span ℝ V ≤ LinearMap.ker (form x0 y0 ha hb D R w) := Submodule.span_le.2 h
  exact this hw

end Poly2.Ell
end PFEM
