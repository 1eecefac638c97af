import Verif.Lemmas.PolyFn
import Verif.Spec.Bounded
import Mathlib.MeasureTheory.Function.Jacobian

/-!
The divergence theorem inside an ellipse, by a linear change of variables.
-/

namespace PFEM
open MeasureTheory Set

/-- the unit disc is mapped onto the ellipse -/
theorem ellipse_image (x0 y0 : ℝ) {a b : ℝ} (ha : 0 < a) (hb : 0 < b) :
    (fun p : ℝ × ℝ => (x0 + a * p.1, y0 + b * p.2)) '' disc 0 0 1 = ellipseRegion x0 y0 a b := by
  ext p
  constructor
  · rintro ⟨q, hq, rfl⟩
    have hq : (q.1 - 0) ^ 2 + (q.2 - 0) ^ 2 < 1 ^ 2 := hq
    change ((x0 + a * q.1 - x0) / a) ^ 2 + ((y0 + b * q.2 - y0) / b) ^ 2 < 1
    rw [add_sub_cancel_left, add_sub_cancel_left, mul_div_cancel_left₀ _ ha.ne', mul_div_cancel_left₀ _ hb.ne']
    simpa using hq
  · intro hp
    have hp : ((p.1 - x0) / a) ^ 2 + ((p.2 - y0) / b) ^ 2 < 1 := hp
    refine ⟨((p.1 - x0) / a, (p.2 - y0) / b), ?_, ?_⟩
    · change ((p.1 - x0) / a - 0) ^ 2 + ((p.2 - y0) / b - 0) ^ 2 < 1 ^ 2
      simpa using hp
    · refine Prod.ext ?_ ?_
      · simp only
        field_simp
        ring
      · simp only
        field_simp
        ring

theorem ellipse_change (x0 y0 : ℝ) {a b : ℝ} (ha : 0 < a) (hb : 0 < b) (g : ℝ × ℝ → ℝ) :
    ∫ p in ellipseRegion x0 y0 a b, g p = ∫ p in disc 0 0 1, a * b * g (x0 + a * p.1, y0 + b * p.2) := by
  have hm : MeasurableSet (disc 0 0 1) := by
    unfold disc
    exact (isOpen_lt (by fun_prop) (by fun_prop)).measurableSet
  set L : ℝ × ℝ →L[ℝ] ℝ × ℝ := (a • ContinuousLinearMap.id ℝ ℝ).prodMap (b • ContinuousLinearMap.id ℝ ℝ) with hL
  have hd : ∀ x ∈ disc 0 0 1, HasFDerivWithinAt (fun p : ℝ × ℝ => (x0 + a * p.1, y0 + b * p.2)) L (disc 0 0 1) x := by
    intro x _
    have h1 : HasFDerivAt (fun p : ℝ × ℝ => L p + (x0, y0)) L x := L.hasFDerivAt.add_const _
    refine (h1.congr_of_eventuallyEq (Filter.Eventually.of_forall fun p => ?_)).hasFDerivWithinAt
    refine Prod.ext ?_ ?_ <;> simp [hL, add_comm]
  have hi : InjOn (fun p : ℝ × ℝ => (x0 + a * p.1, y0 + b * p.2)) (disc 0 0 1) := by
    intro p _ q _ h
    simp only [Prod.mk.injEq, add_right_inj] at h
    exact Prod.ext (mul_left_cancel₀ ha.ne' h.1) (mul_left_cancel₀ hb.ne' h.2)
  have hdet : L.det = a * b := by
    have : (L : ℝ × ℝ →ₗ[ℝ] ℝ × ℝ) = (a • LinearMap.id).prodMap (b • LinearMap.id) := rfl
    rw [ContinuousLinearMap.det, this, LinearMap.det_prodMap]
    simp
  rw [← ellipse_image x0 y0 ha hb, integral_image_eq_integral_abs_det_fderiv_smul volume hm hd hi]
  simp only [hdet, abs_of_pos (mul_pos ha hb), smul_eq_mul]

theorem ellipse_measurable (x0 y0 a b : ℝ) : MeasurableSet (ellipseRegion x0 y0 a b) := by
  unfold ellipseRegion
  exact (isOpen_lt (by fun_prop) (by fun_prop)).measurableSet

/-- a polynomial in stretched coordinates -/
theorem PolyFn.stretch {d : ℕ} {f : ℝ → ℝ → ℝ} (h : PolyFn d f) (x0 y0 a b : ℝ) : PolyFn d fun x y => f (x0 + a * x) (y0 + b * y) := by
  obtain ⟨p, h1, h2⟩ := h
  have hx : PolyFn 1 fun x _ => x0 + a * x := ((const x0).add (PolyFn.x.smul a)).mono (by simp)
  have hy : PolyFn 1 fun _ y => y0 + b * y := ((const y0).add (PolyFn.y.smul b)).mono (by simp)
  have hp : ∀ {g : ℝ → ℝ → ℝ} (_ : PolyFn 1 g) (n : ℕ), PolyFn n fun x y => g x y ^ n := by
    intro g hg n
    induction n with
    | zero => simpa using const 1
    | succ n ih => simpa only [pow_succ] using ih.mul hg
  have e : (fun x y => f (x0 + a * x) (y0 + b * y)) = fun x y => ∑ m ∈ p.support, p.coeff m * ((x0 + a * x) ^ m 0 * (y0 + b * y) ^ m 1) := by
    funext x y
    rw [h2, MvPolynomial.eval_eq']
    refine Finset.sum_congr rfl fun m _ => ?_
    simp [Fin.prod_univ_two]
  rw [e]
  have hs : ∀ s : Finset (Fin 2 →₀ ℕ), s ⊆ p.support → PolyFn d fun x y => ∑ m ∈ s, p.coeff m * ((x0 + a * x) ^ m 0 * (y0 + b * y) ^ m 1) := by
    intro s
    induction s using Finset.induction_on with
    | empty => intro _; simpa using (const 0).mono (Nat.zero_le d)
    | insert m s hm ih =>
      intro hs
      simp only [Finset.sum_insert hm]
      refine (((hp hx (m 0)).mul (hp hy (m 1))).smul (p.coeff m) |>.mono ?_).add' (ih fun i hi => hs (Finset.mem_insert_of_mem hi))
      have := (MvPolynomial.le_totalDegree (hs (Finset.mem_insert_self m s))).trans h1
      rwa [Finsupp.sum_fintype _ _ (fun _ => rfl), Fin.sum_univ_two] at this
  exact hs _ subset_rfl

theorem disc_unit_integrable {d : ℕ} {f : ℝ → ℝ → ℝ} (hf : PolyFn d f) : IntegrableOn (fun z : ℝ × ℝ => f z.1 z.2) (disc 0 0 1) := by
  refine (hf.contDiff.continuous.continuousOn.integrableOn_compact (isCompact_Icc.prod isCompact_Icc)).mono_set
    (t := Icc (-1) 1 ×ˢ Icc (-1) 1) fun z hz => ?_
  have hz : (z.1 - 0) ^ 2 + (z.2 - 0) ^ 2 < 1 ^ 2 := hz
  exact ⟨⟨by nlinarith [sq_nonneg z.2], by nlinarith [sq_nonneg z.2]⟩, by nlinarith [sq_nonneg z.1], by nlinarith [sq_nonneg z.1]⟩

theorem ellipse_integrable (x0 y0 : ℝ) {a b : ℝ} (ha : 0 < a) (hb : 0 < b) {d : ℕ} {f : ℝ → ℝ → ℝ} (hf : PolyFn d f) :
    IntegrableOn (fun z : ℝ × ℝ => f z.1 z.2) (ellipseRegion x0 y0 a b) := by
  refine (hf.contDiff.continuous.continuousOn.integrableOn_compact (isCompact_Icc.prod isCompact_Icc)).mono_set
    (t := Icc (x0 - a) (x0 + a) ×ˢ Icc (y0 - b) (y0 + b)) fun z hz => ?_
  have hz : ((z.1 - x0) / a) ^ 2 + ((z.2 - y0) / b) ^ 2 < 1 := hz
  have h1 := abs_lt.1 (abs_lt_of_sq_lt_sq (by nlinarith [sq_nonneg ((z.2 - y0) / b)]) zero_le_one : |(z.1 - x0) / a| < 1)
  have h2 := abs_lt.1 (abs_lt_of_sq_lt_sq (by nlinarith [sq_nonneg ((z.1 - x0) / a)]) zero_le_one : |(z.2 - y0) / b| < 1)
  rw [lt_div_iff₀ ha, div_lt_iff₀ ha] at h1
  rw [lt_div_iff₀ hb, div_lt_iff₀ hb] at h2
  exact ⟨⟨by linarith, by linarith⟩, ⟨by linarith, by linarith⟩⟩

/-- the divergence theorem inside an ellipse, with the trapezoidal sum of the flux of polynomial fields -/
theorem ellipse_divergence (x0 y0 : ℝ) {a b : ℝ} (ha : 0 < a) (hb : 0 < b) {m N : ℕ} (hm : m + 1 < N) {F G f g : ℝ → ℝ → ℝ}
    (hF : PolyFn m F) (hG : PolyFn m G) (hf : ∀ x y, HasDerivAt (fun s => F s y) (f x y) x) (hg : ∀ x y, HasDerivAt (fun s => G x s) (g x y) y) :
    ∫ p in ellipseRegion x0 y0 a b, (f p.1 p.2 + g p.1 p.2) = ∑ j ∈ Finset.range N, 2 * Real.pi / N *
      (F (x0 + a * Real.cos (2 * Real.pi * j / N)) (y0 + b * Real.sin (2 * Real.pi * j / N)) * (b * Real.cos (2 * Real.pi * j / N)) +
        G (x0 + a * Real.cos (2 * Real.pi * j / N)) (y0 + b * Real.sin (2 * Real.pi * j / N)) * (a * Real.sin (2 * Real.pi * j / N))) := by
  have pF := (hF.stretch x0 y0 a b).smul b
  have pG := (hG.stretch x0 y0 a b).smul a
  have dF : Differentiable ℝ fun p : ℝ × ℝ => b * F (x0 + a * p.1) (y0 + b * p.2) := pF.contDiff.differentiable (by norm_num)
  have dG : Differentiable ℝ fun p : ℝ × ℝ => a * G (x0 + a * p.1) (y0 + b * p.2) := pG.contDiff.differentiable (by norm_num)
  have e : (fun p : ℝ × ℝ => a * b * (f (x0 + a * p.1) (y0 + b * p.2) + g (x0 + a * p.1) (y0 + b * p.2))) = fun p =>
      fderiv ℝ (fun p : ℝ × ℝ => b * F (x0 + a * p.1) (y0 + b * p.2)) p (1, 0) +
      fderiv ℝ (fun p : ℝ × ℝ => a * G (x0 + a * p.1) (y0 + b * p.2)) p (0, 1) := by
    funext p
    have h1 : HasDerivAt (fun s => b * F (x0 + a * s) (y0 + b * p.2)) (b * (f (x0 + a * p.1) (y0 + b * p.2) * (a * 1))) p.1 :=
      (HasDerivAt.comp (h₂ := fun t => F t (y0 + b * p.2)) (h := fun s => x0 + a * s) p.1 (hf (x0 + a * p.1) (y0 + b * p.2))
        (((hasDerivAt_id p.1).const_mul a).const_add x0)).const_mul b
    have h2 : HasDerivAt (fun s => a * G (x0 + a * p.1) (y0 + b * s)) (a * (g (x0 + a * p.1) (y0 + b * p.2) * (b * 1))) p.2 :=
      (HasDerivAt.comp (h₂ := fun t => G (x0 + a * p.1) t) (h := fun s => y0 + b * s) p.2 (hg (x0 + a * p.1) (y0 + b * p.2))
        (((hasDerivAt_id p.2).const_mul b).const_add y0)).const_mul a
    rw [← h1.unique (fderiv_x dF p.1 p.2), ← h2.unique (fderiv_y dG p.1 p.2)]
    ring
  rw [ellipse_change x0 y0 ha hb, e, disc_divergence 0 0 one_pos pF.contDiff pG.contDiff, ← trapezoid_real hm]
  · refine Finset.sum_congr rfl fun j _ => ?_
    simp only [zero_add, one_mul]
    ring
  · have h1 := trigSpan_mul (pF.trig 0 0 1) trigSpan_cos
    have h2 := trigSpan_mul (pG.trig 0 0 1) trigSpan_sin
    convert (trigSpan (m + 1)).add_mem h1 h2 using 1
    funext θ
    simp

end PFEM
