import Mathlib.LinearAlgebra.BilinearMap
import Verif.Lemmas.DiscDirichlet

/-!
Lemmas on the weak form for polynomials on a disc: bilinearity, definiteness, the span of the bubbles.
-/

namespace PFEM
namespace Poly2
open MvPolynomial MeasureTheory

theorem integrable (x0 y0 : ℝ) {r : ℝ} (hr : 0 < r) (p : Poly2) : IntegrableOn (fun z : ℝ × ℝ => ev p z.1 z.2) (disc x0 y0 r) :=
  disc_integrable x0 y0 hr (fn p)

/-- integral over the disc, as a linear map -/
noncomputable def integral (x0 y0 : ℝ) {r : ℝ} (hr : 0 < r) : Poly2 →ₗ[ℝ] ℝ where
  toFun p := ∫ z in disc x0 y0 r, ev p z.1 z.2
  map_add' p q := by
    simp only [ev, map_add]
    exact integral_add (integrable x0 y0 hr p) (integrable x0 y0 hr q)
  map_smul' a p := by
    simp only [ev, smul_eval, RingHom.id_apply, smul_eq_mul]
    exact integral_const_mul a _

theorem mass_eq (x0 y0 : ℝ) {r : ℝ} (hr : 0 < r) (u v : Poly2) : mass x0 y0 r u v = integral x0 y0 hr (u * v) := by
  change _ = ∫ z in disc x0 y0 r, ev (u * v) z.1 z.2
  simp only [mass, ev, map_mul]

theorem energy_eq (x0 y0 : ℝ) {r : ℝ} (hr : 0 < r) (u v : Poly2) :
    energy x0 y0 r u v = integral x0 y0 hr (pderiv 0 u * pderiv 0 v + pderiv 1 u * pderiv 1 v) := by
  change _ = ∫ z in disc x0 y0 r, ev (pderiv 0 u * pderiv 0 v + pderiv 1 u * pderiv 1 v) z.1 z.2
  simp only [energy, ev, map_mul, map_add]

/-- the weak form as a bilinear map -/
noncomputable def form (x0 y0 : ℝ) {r : ℝ} (hr : 0 < r) (D R : ℝ) : Poly2 →ₗ[ℝ] Poly2 →ₗ[ℝ] ℝ :=
  LinearMap.mk₂ ℝ (fun u v => D * energy x0 y0 r u v + R * mass x0 y0 r u v)
    (fun u u' v => by
      simp only [mass_eq x0 y0 hr, energy_eq x0 y0 hr, map_add, add_mul]
      ring)
    (fun c u v => by
      simp only [mass_eq x0 y0 hr, energy_eq x0 y0 hr, map_add, Derivation.map_smul, smul_mul_assoc, map_smul, smul_eq_mul]
      ring)
    (fun u v v' => by
      simp only [mass_eq x0 y0 hr, energy_eq x0 y0 hr, map_add, mul_add]
      ring)
    (fun c u v => by
      simp only [mass_eq x0 y0 hr, energy_eq x0 y0 hr, map_add, Derivation.map_smul, mul_smul_comm, map_smul, smul_eq_mul]
      ring)

theorem form_apply (x0 y0 : ℝ) {r : ℝ} (hr : 0 < r) (D R : ℝ) (u v : Poly2) :
    form x0 y0 hr D R u v = D * energy x0 y0 r u v + R * mass x0 y0 r u v := rfl

theorem mass_comm (x0 y0 r : ℝ) (u v : Poly2) : mass x0 y0 r u v = mass x0 y0 r v u := by
  simp only [mass, mul_comm]

theorem energy_comm (x0 y0 r : ℝ) (u v : Poly2) : energy x0 y0 r u v = energy x0 y0 r v u := by
  simp only [energy, mul_comm]

theorem form_comm (x0 y0 : ℝ) {r : ℝ} (hr : 0 < r) (D R : ℝ) (u v : Poly2) : form x0 y0 hr D R u v = form x0 y0 hr D R v u := by
  rw [form_apply, form_apply, mass_comm, energy_comm]

theorem mass_nonneg (x0 y0 r : ℝ) (u : Poly2) : 0 ≤ mass x0 y0 r u u := integral_nonneg fun _ => mul_self_nonneg _

theorem energy_nonneg (x0 y0 r : ℝ) (u : Poly2) : 0 ≤ energy x0 y0 r u u :=
  integral_nonneg fun _ => add_nonneg (mul_self_nonneg _) (mul_self_nonneg _)

theorem form_nonneg (x0 y0 : ℝ) {r : ℝ} (hr : 0 < r) {D R : ℝ} (hD : 0 < D) (hR : 0 ≤ R) (u : Poly2) : 0 ≤ form x0 y0 hr D R u u := by
  rw [form_apply]
  have := energy_nonneg x0 y0 r u
  have := mass_nonneg x0 y0 r u
  positivity

theorem form_definite (x0 y0 : ℝ) {r : ℝ} (hr : 0 < r) {D R : ℝ} (hD : 0 < D) (hR : 0 ≤ R) {u : Poly2} (hu : VanishOn x0 y0 r u)
    (h : form x0 y0 hr D R u u = 0) : u = 0 := by
  rw [form_apply] at h
  have h1 := energy_nonneg x0 y0 r u
  have h2 := mul_nonneg hR (mass_nonneg x0 y0 r u)
  have h3 : energy x0 y0 r u u = 0 := by
    have : D * energy x0 y0 r u u ≤ 0 := by linarith
    nlinarith
  exact eq_zero_of_energy x0 y0 hr hu h3

/-- the weak form of the differential equation -/
theorem form_pde (x0 y0 : ℝ) {r : ℝ} (hr : 0 < r) (D R : ℝ) (u : Poly2) {v : Poly2} (hv : VanishOn x0 y0 r v) :
    form x0 y0 hr D R u v = mass x0 y0 r (C R * u - C D * lap u) v := by
  have h : energy x0 y0 r u v = -mass x0 y0 r (lap u) v := green x0 y0 hr u hv
  rw [form_apply, h, mass_eq x0 y0 hr, mass_eq x0 y0 hr, mass_eq x0 y0 hr, sub_mul, map_sub, mul_assoc, mul_assoc, ← smul_eq_C_mul,
    ← smul_eq_C_mul, map_smul, map_smul]
  simp only [smul_eq_mul]
  ring

/-- polynomials that vanish on the circle -/
def vanishing (x0 y0 r : ℝ) : Submodule ℝ Poly2 where
  carrier := {p | VanishOn x0 y0 r p}
  zero_mem' := fun θ => by simp [ev]
  add_mem' := fun {p q} hp hq θ => by
    have h1 := hp θ
    have h2 := hq θ
    simp only [ev, map_add] at h1 h2 ⊢
    rw [h1, h2, add_zero]
  smul_mem' := fun a p hp θ => by
    have h1 := hp θ
    simp only [ev, smul_eval] at h1 ⊢
    rw [h1, mul_zero]

/-- the Laplacian as a linear map -/
noncomputable def lapL : Poly2 →ₗ[ℝ] Poly2 where
  toFun := lap
  map_add' p q := by simp only [lap, map_add]; ring
  map_smul' a p := by simp only [lap, Derivation.map_smul, smul_add, RingHom.id_apply]

theorem shifted_mul_X0 (c : ℝ × ℝ) (κ : ℝ) (i j : ℕ) : X 0 * shifted c κ i j = shifted c κ (i + 1) j + c.1 • shifted c κ i j := by
  rw [smul_eq_C_mul]
  simp only [shifted, pow_succ]
  ring

theorem shifted_mul_X1 (c : ℝ × ℝ) (κ : ℝ) (i j : ℕ) : X 1 * shifted c κ i j = shifted c κ i (j + 1) + c.2 • shifted c κ i j := by
  rw [smul_eq_C_mul]
  simp only [shifted, pow_succ]
  ring

/-- span of the shifted monomials of degree at most `d` -/
noncomputable def spanShifted (c : ℝ × ℝ) (κ : ℝ) (d : ℕ) : Submodule ℝ Poly2 := Submodule.span ℝ {p | ∃ i j, i + j ≤ d ∧ p = shifted c κ i j}

theorem spanShifted_mono {c : ℝ × ℝ} {κ : ℝ} {d d' : ℕ} (h : d ≤ d') : spanShifted c κ d ≤ spanShifted c κ d' :=
  Submodule.span_mono fun _ ⟨i, j, hij, hp⟩ => ⟨i, j, hij.trans h, hp⟩

theorem spanShifted_X (c : ℝ × ℝ) (κ : ℝ) {d : ℕ} {p : Poly2} (hp : p ∈ spanShifted c κ d) (l : Fin 2) : X l * p ∈ spanShifted c κ (d + 1) := by
  refine Submodule.span_induction (p := fun q _ => X l * q ∈ spanShifted c κ (d + 1)) ?_ ?_ ?_ ?_ hp
  · rintro _ ⟨i, j, hij, rfl⟩
    fin_cases l
    · change X 0 * shifted c κ i j ∈ _
      rw [shifted_mul_X0]
      exact add_mem (Submodule.subset_span ⟨i + 1, j, by omega, rfl⟩) (Submodule.smul_mem _ _ (Submodule.subset_span ⟨i, j, by omega, rfl⟩))
    · change X 1 * shifted c κ i j ∈ _
      rw [shifted_mul_X1]
      exact add_mem (Submodule.subset_span ⟨i, j + 1, by omega, rfl⟩) (Submodule.smul_mem _ _ (Submodule.subset_span ⟨i, j, by omega, rfl⟩))
  · simp
  · intro x y _ _ hx hy
    rw [mul_add]
    exact add_mem hx hy
  · intro a x _ hx
    rw [mul_smul_comm]
    exact Submodule.smul_mem _ _ hx

theorem mem_spanShifted (c : ℝ × ℝ) {κ : ℝ} (hκ : κ ≠ 0) {d : ℕ} {p : Poly2} (hp : p.totalDegree ≤ d) : p ∈ spanShifted c κ d := by
  have h1 : (1 : Poly2) ∈ spanShifted c κ 0 := by
    have : (1 : Poly2) = κ⁻¹ • shifted c κ 0 0 := by
      rw [smul_eq_C_mul]
      simp only [shifted, pow_zero, mul_one, ← C_mul, inv_mul_cancel₀ hκ, C_1]
    rw [this]
    exact Submodule.smul_mem _ _ (Submodule.subset_span ⟨0, 0, le_rfl, rfl⟩)
  have h2 : ∀ i, (X 0 : Poly2) ^ i ∈ spanShifted c κ i := by
    intro i
    induction i with
    | zero => simpa using h1
    | succ i ih => rw [pow_succ']; exact spanShifted_X c κ ih 0
  have h3 : ∀ i j, (X 1 : Poly2) ^ j * X 0 ^ i ∈ spanShifted c κ (i + j) := by
    intro i j
    induction j with
    | zero => simpa using h2 i
    | succ j ih => rw [pow_succ', mul_assoc, ← Nat.add_assoc]; exact spanShifted_X c κ ih 1
  rw [p.as_sum]
  refine Submodule.sum_mem _ fun m hm => ?_
  have hd : m 0 + m 1 ≤ d := by
    have := le_totalDegree hm
    rw [Finsupp.sum_fintype _ _ (fun _ => rfl), Fin.sum_univ_two] at this
    omega
  have e : monomial m (coeff m p) = coeff m p • ((X 1 : Poly2) ^ m 1 * X 0 ^ m 0) := by
    rw [smul_eq_C_mul, monomial_eq, Finsupp.prod_fintype _ _ (fun i => by simp), Fin.prod_univ_two]
    ring
  rw [e]
  exact Submodule.smul_mem _ _ (spanShifted_mono hd (h3 _ _))

/-- polynomials that vanish on the circle whose Laplacians are the shifted monomials span all that vanish -/
theorem mem_span_bubbles (x0 y0 : ℝ) {r : ℝ} (hr : 0 < r) (c : ℝ × ℝ) {κ : ℝ} (hκ : κ ≠ 0) {d : ℕ} {V : Set Poly2}
    (hV : ∀ v ∈ V, VanishOn x0 y0 r v) (hL : ∀ i j, i + j ≤ d → ∃ v ∈ V, lap v = shifted c κ i j) {u : Poly2} (hu : VanishOn x0 y0 r u)
    (hd : u.totalDegree ≤ d + 2) : u ∈ Submodule.span ℝ V := by
  have h1 : lap u ∈ Submodule.map lapL (Submodule.span ℝ V) := by
    rw [Submodule.map_span]
    refine Submodule.span_mono ?_ (mem_spanShifted c hκ (degree_lap hd))
    rintro _ ⟨i, j, hij, rfl⟩
    obtain ⟨v, hv, e⟩ := hL i j hij
    exact ⟨v, hv, e⟩
  obtain ⟨w, hw, e⟩ := h1
  have hw' : VanishOn x0 y0 r w := (Submodule.span_le (p := vanishing x0 y0 r)).2 hV hw
  rw [dirichlet_unique x0 y0 hr hu hw' (e : lap w = lap u).symm]
  exact hw

/-- the Galerkin equations have one solution in the span -/
theorem galerkin_unique (x0 y0 : ℝ) {r : ℝ} (hr : 0 < r) {D R : ℝ} (hD : 0 < D) (hR : 0 ≤ R) {V : Set Poly2} (hV : ∀ v ∈ V, VanishOn x0 y0 r v)
    {w : Poly2} (hw : w ∈ Submodule.span ℝ V) (h : ∀ v ∈ V, form x0 y0 hr D R w v = 0) : w = 0 := by
  have hw' : VanishOn x0 y0 r w := (Submodule.span_le (p := vanishing x0 y0 r)).2 hV hw
  refine form_definite x0 y0 hr hD hR hw' ?_
  have : Submodule.span ℝ V ≤ LinearMap.ker (form x0 y0 hr D R w) := Submodule.span_le.2 h
  exact this hw

/-- shifted monomials are independent -/
theorem shifted_independent (c : ℝ × ℝ) {κ : ℝ} (hκ : κ ≠ 0) {ι : Type} (s : Finset ι) (a b : ι → ℕ)
    (hinj : ∀ l ∈ s, ∀ l' ∈ s, a l = a l' → b l = b l' → l = l') (y : ι → ℝ) (h : ∑ l ∈ s, y l • shifted c κ (a l) (b l) = 0) :
    ∀ l ∈ s, y l = 0 := by
  have h1 := congrArg (aeval ![(X 0 + C c.1 : Poly2), X 1 + C c.2]) h
  rw [map_sum, map_zero] at h1
  have e : ∀ l, aeval ![(X 0 + C c.1 : Poly2), X 1 + C c.2] (y l • shifted c κ (a l) (b l)) =
      monomial (Finsupp.single 0 (a l) + Finsupp.single 1 (b l)) (y l * κ) := by
    intro l
    have : aeval ![(X 0 + C c.1 : Poly2), X 1 + C c.2] (shifted c κ (a l) (b l)) = C κ * (X 0 ^ a l * X 1 ^ b l) := by
      simp [shifted, algebraMap_eq]
    rw [map_smul, this, smul_eq_C_mul, ← mul_assoc, ← C_mul, monomial_eq, Finsupp.prod_fintype _ _ (fun i => by simp), Fin.prod_univ_two]
    simp
  simp only [e] at h1
  intro l hl
  have h2 := congrArg (coeff (Finsupp.single 0 (a l) + Finsupp.single 1 (b l))) h1
  rw [coeff_sum, coeff_zero, Finset.sum_eq_single l] at h2
  · rw [coeff_monomial, if_pos rfl] at h2
    exact (mul_eq_zero.1 h2).resolve_right hκ
  · intro l' hl' hne
    rw [coeff_monomial, if_neg]
    intro e
    refine hne (hinj l' hl' l hl ?_ ?_)
    · have := DFunLike.congr_fun e 0
      simpa using this
    · have := DFunLike.congr_fun e 1
      simpa using this
  · exact fun h => absurd hl h

end Poly2
end PFEM
