import Mathlib.Analysis.SpecialFunctions.PolarCoord
import Mathlib.MeasureTheory.Integral.DivergenceTheorem
import Mathlib.Analysis.Calculus.ContDiff.Basic
import Mathlib.Analysis.SpecialFunctions.Trigonometric.Deriv
import Mathlib.MeasureTheory.Group.Integral
import Mathlib.Analysis.Calculus.Deriv.Prod
import Verif.Spec.Disc

/-!
The divergence theorem on a disc, by polar coordinates.
-/

namespace PFEM
open MeasureTheory Set

theorem disc_polar {r : ℝ} {g : ℝ × ℝ → ℝ} (hg : Continuous g) (hr : 0 < r) :
    ∫ p in disc 0 0 r, g p = ∫ ρ in (0 : ℝ)..r, ∫ θ in -Real.pi..Real.pi, ρ * g (ρ * Real.cos θ, ρ * Real.sin θ) := by
  have hmeas : MeasurableSet (disc 0 0 r) := by
    unfold disc
    exact (isOpen_lt (by fun_prop) (by fun_prop)).measurableSet
  rw [← integral_indicator hmeas, ← integral_comp_polarCoord_symm]
  have h1 : ∀ p ∈ polarCoord.target, p.1 • (disc 0 0 r).indicator g (polarCoord.symm p) =
      (Ioo 0 r ×ˢ Ioo (-Real.pi) Real.pi).indicator (fun p => p.1 * g (p.1 * Real.cos p.2, p.1 * Real.sin p.2)) p := by
    intro p hp
    obtain ⟨hp1, hp2⟩ := hp
    have hp1 : 0 < p.1 := hp1
    have hd : polarCoord.symm p ∈ disc 0 0 r ↔ p.1 ^ 2 < r ^ 2 := by
      have h0 : ((p.1 * Real.cos p.2) - 0) ^ 2 + ((p.1 * Real.sin p.2) - 0) ^ 2 = p.1 ^ 2 := by
        have := Real.sin_sq_add_cos_sq p.2
        linear_combination p.1 ^ 2 * this
      rw [← h0]
      rfl
    by_cases hlt : p.1 < r
    · rw [indicator_of_mem (show p ∈ Ioo 0 r ×ˢ Ioo (-Real.pi) Real.pi from ⟨⟨hp1, hlt⟩, hp2⟩), indicator_of_mem]
      · rfl
      · rw [hd]
        nlinarith
    · rw [indicator_of_notMem (s := disc 0 0 r), indicator_of_notMem, smul_zero]
      · exact fun h => hlt h.1.2
      · rw [hd]
        push Not at hlt ⊢
        nlinarith
  rw [setIntegral_congr_fun polarCoord.open_target.measurableSet h1,
    setIntegral_indicator (measurableSet_Ioo.prod measurableSet_Ioo)]
  have h2 : polarCoord.target ∩ Ioo 0 r ×ˢ Ioo (-Real.pi) Real.pi = Ioo 0 r ×ˢ Ioo (-Real.pi) Real.pi := by
    refine inter_eq_right.2 fun p hp => ⟨hp.1.1, hp.2⟩
  have hc : Continuous fun p : ℝ × ℝ => p.1 * g (p.1 * Real.cos p.2, p.1 * Real.sin p.2) := by fun_prop
  have hint : IntegrableOn (fun p : ℝ × ℝ => p.1 * g (p.1 * Real.cos p.2, p.1 * Real.sin p.2)) (Ioo 0 r ×ˢ Ioo (-Real.pi) Real.pi)
      (volume.prod volume) :=
    (hc.continuousOn.integrableOn_compact (μ := volume.prod volume) (isCompact_Icc.prod isCompact_Icc)).mono_set
      (prod_mono Ioo_subset_Icc_self Ioo_subset_Icc_self)
  rw [h2, Measure.volume_eq_prod, setIntegral_prod _ hint, intervalIntegral.integral_of_le hr.le, integral_Ioc_eq_integral_Ioo]
  refine setIntegral_congr_fun measurableSet_Ioo fun ρ _ => ?_
  dsimp only
  rw [intervalIntegral.integral_of_le (by linarith [Real.pi_pos]), integral_Ioc_eq_integral_Ioo]

theorem disc_shift (x0 y0 r : ℝ) (g : ℝ × ℝ → ℝ) : ∫ p in disc x0 y0 r, g p = ∫ p in disc 0 0 r, g (p.1 + x0, p.2 + y0) := by
  have hm : ∀ a b, MeasurableSet (disc a b r) := fun a b => by
    unfold disc
    exact (isOpen_lt (by fun_prop) (by fun_prop)).measurableSet
  rw [← integral_indicator (hm _ _), ← integral_indicator (hm _ _), ← integral_add_right_eq_self _ (x0, y0)]
  congr 1
  funext p
  by_cases hp : p ∈ disc 0 0 r
  · rw [indicator_of_mem hp, indicator_of_mem (by simpa [disc] using hp)]
    rfl
  · rw [indicator_of_notMem hp, indicator_of_notMem (by simpa [disc] using hp)]

/-- partial derivatives in terms of the total one -/
theorem fderiv_x {f : ℝ × ℝ → ℝ} (hf : Differentiable ℝ f) (a b : ℝ) : HasDerivAt (fun s => f (s, b)) (fderiv ℝ f (a, b) (1, 0)) a := by
  have h1 : HasDerivAt (fun s : ℝ => (s, b)) ((1 : ℝ), (0 : ℝ)) a := (hasDerivAt_id a).prodMk (hasDerivAt_const a b)
  exact (hf (a, b)).hasFDerivAt.comp_hasDerivAt a h1

theorem fderiv_y {f : ℝ × ℝ → ℝ} (hf : Differentiable ℝ f) (a b : ℝ) : HasDerivAt (fun s => f (a, s)) (fderiv ℝ f (a, b) (0, 1)) b := by
  have h1 : HasDerivAt (fun s : ℝ => (a, s)) ((0 : ℝ), (1 : ℝ)) b := (hasDerivAt_const b a).prodMk (hasDerivAt_id b)
  exact (hf (a, b)).hasFDerivAt.comp_hasDerivAt b h1

theorem fderiv_split (f : ℝ × ℝ → ℝ) (p : ℝ × ℝ) (u v : ℝ) : fderiv ℝ f p (u, v) = u * fderiv ℝ f p (1, 0) + v * fderiv ℝ f p (0, 1) := by
  have : ((u, v) : ℝ × ℝ) = u • (1, 0) + v • (0, 1) := by ext <;> simp
  rw [this, map_add, map_smul, map_smul, smul_eq_mul, smul_eq_mul]

/-- the divergence theorem on a disc -/
theorem disc_divergence (x0 y0 : ℝ) {r : ℝ} (hr : 0 < r) {F G : ℝ × ℝ → ℝ} (hF : ContDiff ℝ 2 F) (hG : ContDiff ℝ 2 G) :
    ∫ p in disc x0 y0 r, (fderiv ℝ F p (1, 0) + fderiv ℝ G p (0, 1)) = ∫ θ in -Real.pi..Real.pi,
      r * (F (x0 + r * Real.cos θ, y0 + r * Real.sin θ) * Real.cos θ + G (x0 + r * Real.cos θ, y0 + r * Real.sin θ) * Real.sin θ) := by
  have hF1 : Differentiable ℝ F := hF.differentiable (by norm_num)
  have hG1 : Differentiable ℝ G := hG.differentiable (by norm_num)
  have cF : Continuous fun p => fderiv ℝ F p := hF.continuous_fderiv (by norm_num)
  have cG : Continuous fun p => fderiv ℝ G p := hG.continuous_fderiv (by norm_num)
  rw [disc_shift, disc_polar (by fun_prop) hr]
  set P : ℝ × ℝ → ℝ × ℝ := fun q => (x0 + q.1 * Real.cos q.2, y0 + q.1 * Real.sin q.2) with hP
  set f : ℝ × ℝ → ℝ := fun q => q.1 * (F (P q) * Real.cos q.2 + G (P q) * Real.sin q.2) with hf
  set g : ℝ × ℝ → ℝ := fun q => -(F (P q) * Real.sin q.2) + G (P q) * Real.cos q.2 with hg
  have cP : ContDiff ℝ 2 P := by
    rw [hP]
    exact (contDiff_const.add (contDiff_fst.mul (Real.contDiff_cos.comp contDiff_snd))).prodMk
      (contDiff_const.add (contDiff_fst.mul (Real.contDiff_sin.comp contDiff_snd)))
  have cc : ContDiff ℝ 2 fun q : ℝ × ℝ => Real.cos q.2 := Real.contDiff_cos.comp contDiff_snd
  have cs : ContDiff ℝ 2 fun q : ℝ × ℝ => Real.sin q.2 := Real.contDiff_sin.comp contDiff_snd
  have cf : ContDiff ℝ 2 f := contDiff_fst.mul (((hF.comp cP).mul cc).add ((hG.comp cP).mul cs))
  have cg : ContDiff ℝ 2 g := ((hF.comp cP).mul cs).neg.add ((hG.comp cP).mul cc)
  have df : Differentiable ℝ f := cf.differentiable (by norm_num)
  have dg : Differentiable ℝ g := cg.differentiable (by norm_num)
  have c1 : Continuous fun p => fderiv ℝ f p := cf.continuous_fderiv (by norm_num)
  have c2 : Continuous fun p => fderiv ℝ g p := cg.continuous_fderiv (by norm_num)
  have hpt : ∀ ρ θ : ℝ, ρ * (fderiv ℝ F (ρ * Real.cos θ + x0, ρ * Real.sin θ + y0) (1, 0) +
      fderiv ℝ G (ρ * Real.cos θ + x0, ρ * Real.sin θ + y0) (0, 1)) = fderiv ℝ f (ρ, θ) (1, 0) + fderiv ℝ g (ρ, θ) (0, 1) := by
    intro ρ θ
    have hx : HasDerivAt (fun s : ℝ => (x0 + s * Real.cos θ, y0 + s * Real.sin θ)) (Real.cos θ, Real.sin θ) ρ := by
      refine HasDerivAt.prodMk ?_ ?_
      · simpa using ((hasDerivAt_id ρ).mul_const (Real.cos θ)).const_add x0
      · simpa using ((hasDerivAt_id ρ).mul_const (Real.sin θ)).const_add y0
    have hy : HasDerivAt (fun s : ℝ => (x0 + ρ * Real.cos s, y0 + ρ * Real.sin s)) (ρ * -Real.sin θ, ρ * Real.cos θ) θ :=
      (((Real.hasDerivAt_cos θ).const_mul ρ).const_add x0).prodMk (((Real.hasDerivAt_sin θ).const_mul ρ).const_add y0)
    have f1 := (hF1 (P (ρ, θ))).hasFDerivAt.comp_hasDerivAt ρ hx
    have g1 := (hG1 (P (ρ, θ))).hasFDerivAt.comp_hasDerivAt ρ hx
    have f2 := (hF1 (P (ρ, θ))).hasFDerivAt.comp_hasDerivAt θ hy
    have g2 := (hG1 (P (ρ, θ))).hasFDerivAt.comp_hasDerivAt θ hy
    have e1 := (fderiv_x df ρ θ).unique ((hasDerivAt_id ρ).fun_mul ((f1.mul_const (Real.cos θ)).fun_add (g1.mul_const (Real.sin θ))))
    have e2 := (fderiv_y dg ρ θ).unique (((f2.fun_mul (Real.hasDerivAt_sin θ)).fun_neg).fun_add (g2.fun_mul (Real.hasDerivAt_cos θ)))
    rw [e1, e2]
    simp only [Function.comp_apply, id, hP]
    rw [fderiv_split F _ (Real.cos θ), fderiv_split G _ (Real.cos θ), fderiv_split F _ (ρ * _), fderiv_split G _ (ρ * _),
      add_comm (ρ * Real.cos θ) x0, add_comm (ρ * Real.sin θ) y0]
    have := Real.sin_sq_add_cos_sq θ
    generalize fderiv ℝ F (x0 + ρ * Real.cos θ, y0 + ρ * Real.sin θ) (1, 0) = a
    generalize fderiv ℝ F (x0 + ρ * Real.cos θ, y0 + ρ * Real.sin θ) (0, 1) = b
    generalize fderiv ℝ G (x0 + ρ * Real.cos θ, y0 + ρ * Real.sin θ) (1, 0) = c
    generalize fderiv ℝ G (x0 + ρ * Real.cos θ, y0 + ρ * Real.sin θ) (0, 1) = d
    linear_combination (-ρ * (a + d)) * this
  simp only [hpt]
  have hdiv := integral2_divergence_prod_of_hasFDerivAt_off_countable f g (fderiv ℝ f) (fderiv ℝ g) 0 (-Real.pi) r Real.pi ∅ countable_empty
    cf.continuous.continuousOn cg.continuous.continuousOn (fun x _ => (df x).hasFDerivAt) (fun x _ => (dg x).hasFDerivAt)
    ((by fun_prop : Continuous fun x => fderiv ℝ f x (1, 0) + fderiv ℝ g x (0, 1)).continuousOn.integrableOn_compact
      (isCompact_uIcc.prod isCompact_uIcc))
  rw [hdiv]
  simp [hf, hg, hP]

end PFEM
