import Mathlib.Analysis.Calculus.ContDiff.RCLike
import Verif.Lemmas.DiscIntegral
import Verif.Spec.RingEnergy

/-!
The divergence theorem on a ring, by polar coordinates.
-/

namespace PFEM
open MeasureTheory Set

theorem ring_measurable (x0 y0 a b : ℝ) : MeasurableSet (ring x0 y0 a b) := by
  have h1 : IsOpen {p : ℝ × ℝ | a ^ 2 < (p.1 - x0) ^ 2 + (p.2 - y0) ^ 2} := isOpen_lt (by fun_prop) (by fun_prop)
  have h2 : IsOpen {p : ℝ × ℝ | (p.1 - x0) ^ 2 + (p.2 - y0) ^ 2 < b ^ 2} := isOpen_lt (by fun_prop) (by fun_prop)
  exact (h1.inter h2).measurableSet

theorem ring_polar {a b : ℝ} (ha : 0 < a) (hab : a < b) {g : ℝ × ℝ → ℝ}
    (hg : ContinuousOn (fun p : ℝ × ℝ => p.1 * g (p.1 * Real.cos p.2, p.1 * Real.sin p.2)) (Icc a b ×ˢ Icc (-Real.pi) Real.pi)) :
    ∫ p in ring 0 0 a b, g p = ∫ ρ in a..b, ∫ θ in -Real.pi..Real.pi, ρ * g (ρ * Real.cos θ, ρ * Real.sin θ) := by
  have hmeas := ring_measurable 0 0 a b
  rw [← integral_indicator hmeas, ← integral_comp_polarCoord_symm]
  have h1 : ∀ p ∈ polarCoord.target, p.1 • (ring 0 0 a b).indicator g (polarCoord.symm p) =
      (Ioo a b ×ˢ Ioo (-Real.pi) Real.pi).indicator (fun p => p.1 * g (p.1 * Real.cos p.2, p.1 * Real.sin p.2)) p := by
    intro p hp
    obtain ⟨hp1, hp2⟩ := hp
    have hp1 : 0 < p.1 := hp1
    have hd : polarCoord.symm p ∈ ring 0 0 a b ↔ a ^ 2 < p.1 ^ 2 ∧ p.1 ^ 2 < b ^ 2 := by
      have h0 : ((p.1 * Real.cos p.2) - 0) ^ 2 + ((p.1 * Real.sin p.2) - 0) ^ 2 = p.1 ^ 2 := by
        have := Real.sin_sq_add_cos_sq p.2
        linear_combination p.1 ^ 2 * this
      rw [← h0]
      rfl
    by_cases hlt : a < p.1 ∧ p.1 < b
    · rw [indicator_of_mem (show p ∈ Ioo a b ×ˢ Ioo (-Real.pi) Real.pi from ⟨hlt, hp2⟩), indicator_of_mem]
      · rfl
      · rw [hd]
        constructor <;> nlinarith
    · rw [indicator_of_notMem (s := ring 0 0 a b), indicator_of_notMem, smul_zero]
      · exact fun h => hlt h.1
      · rw [hd]
        rintro ⟨q1, q2⟩
        exact hlt ⟨lt_of_pow_lt_pow_left₀ 2 hp1.le q1, lt_of_pow_lt_pow_left₀ 2 (ha.trans hab).le q2⟩
  rw [setIntegral_congr_fun polarCoord.open_target.measurableSet h1,
    setIntegral_indicator (measurableSet_Ioo.prod measurableSet_Ioo)]
  have h2 : polarCoord.target ∩ Ioo a b ×ˢ Ioo (-Real.pi) Real.pi = Ioo a b ×ˢ Ioo (-Real.pi) Real.pi := by
    refine inter_eq_right.2 fun p hp => ⟨ha.trans hp.1.1, hp.2⟩
  have hint : IntegrableOn (fun p : ℝ × ℝ => p.1 * g (p.1 * Real.cos p.2, p.1 * Real.sin p.2)) (Ioo a b ×ˢ Ioo (-Real.pi) Real.pi)
      (volume.prod volume) :=
    (hg.integrableOn_compact (μ := volume.prod volume) (isCompact_Icc.prod isCompact_Icc)).mono_set
      (prod_mono Ioo_subset_Icc_self Ioo_subset_Icc_self)
  rw [h2, Measure.volume_eq_prod, setIntegral_prod _ hint, intervalIntegral.integral_of_le hab.le, integral_Ioc_eq_integral_Ioo]
  refine setIntegral_congr_fun measurableSet_Ioo fun ρ _ => ?_
  dsimp only
  rw [intervalIntegral.integral_of_le (by linarith [Real.pi_pos]), integral_Ioc_eq_integral_Ioo]

theorem ring_shift (x0 y0 a b : ℝ) (g : ℝ × ℝ → ℝ) : ∫ p in ring x0 y0 a b, g p = ∫ p in ring 0 0 a b, g (p.1 + x0, p.2 + y0) := by
  have hm : ∀ x y, MeasurableSet (ring x y a b) := fun x y => ring_measurable x y a b
  rw [← integral_indicator (hm _ _), ← integral_indicator (hm _ _), ← integral_add_right_eq_self _ (x0, y0)]
  congr 1
  funext p
  by_cases hp : p ∈ ring 0 0 a b
  · rw [indicator_of_mem hp, indicator_of_mem (by simpa [ring] using hp)]
    rfl
  · rw [indicator_of_notMem hp, indicator_of_notMem (by simpa [ring] using hp)]

/-- the divergence theorem on a ring; the field need not be defined at the centre -/
theorem ring_divergence (x0 y0 : ℝ) {a b : ℝ} (ha : 0 < a) (hab : a < b) {F G : ℝ × ℝ → ℝ} (hF : ∀ p, p ≠ (x0, y0) → ContDiffAt ℝ 2 F p)
    (hG : ∀ p, p ≠ (x0, y0) → ContDiffAt ℝ 2 G p) {D : ℝ × ℝ → ℝ}
    (hD : ∀ p, p ≠ (x0, y0) → D p = fderiv ℝ F p (1, 0) + fderiv ℝ G p (0, 1)) :
    ∫ p in ring x0 y0 a b, D p =
      (∫ θ in -Real.pi..Real.pi, b * (F (x0 + b * Real.cos θ, y0 + b * Real.sin θ) * Real.cos θ + G (x0 + b * Real.cos θ, y0 + b * Real.sin θ) * Real.sin θ)) -
      ∫ θ in -Real.pi..Real.pi, a * (F (x0 + a * Real.cos θ, y0 + a * Real.sin θ) * Real.cos θ + G (x0 + a * Real.cos θ, y0 + a * Real.sin θ) * Real.sin θ) := by
  set P : ℝ × ℝ → ℝ × ℝ := fun q => (x0 + q.1 * Real.cos q.2, y0 + q.1 * Real.sin q.2) with hP
  set f : ℝ × ℝ → ℝ := fun q => q.1 * (F (P q) * Real.cos q.2 + G (P q) * Real.sin q.2) with hf
  set g : ℝ × ℝ → ℝ := fun q => -(F (P q) * Real.sin q.2) + G (P q) * Real.cos q.2 with hg
  set U : Set (ℝ × ℝ) := {q | 0 < q.1} with hU
  have oU : IsOpen U := isOpen_lt (by fun_prop) (by fun_prop)
  have off : ∀ q ∈ U, P q ≠ (x0, y0) := by
    intro q hq e
    have hq : 0 < q.1 := hq
    have e1 : q.1 * Real.cos q.2 = 0 := by have := congrArg Prod.fst e; simp only [hP] at this; linarith
    have e2 : q.1 * Real.sin q.2 = 0 := by have := congrArg Prod.snd e; simp only [hP] at this; linarith
    have := Real.sin_sq_add_cos_sq q.2
    have : q.1 ^ 2 = 0 := by nlinarith
    exact hq.ne' (by simpa using this)
  have cP : ContDiff ℝ 2 P := by
    rw [hP]
    exact (contDiff_const.add (contDiff_fst.mul (Real.contDiff_cos.comp contDiff_snd))).prodMk
      (contDiff_const.add (contDiff_fst.mul (Real.contDiff_sin.comp contDiff_snd)))
  have cc : ContDiff ℝ 2 fun q : ℝ × ℝ => Real.cos q.2 := Real.contDiff_cos.comp contDiff_snd
  have cs : ContDiff ℝ 2 fun q : ℝ × ℝ => Real.sin q.2 := Real.contDiff_sin.comp contDiff_snd
  have cFP : ∀ q ∈ U, ContDiffAt ℝ 2 (fun q => F (P q)) q := fun q hq => (hF _ (off q hq)).comp q cP.contDiffAt
  have cGP : ∀ q ∈ U, ContDiffAt ℝ 2 (fun q => G (P q)) q := fun q hq => (hG _ (off q hq)).comp q cP.contDiffAt
  have cf : ∀ q ∈ U, ContDiffAt ℝ 2 f q := fun q hq =>
    contDiff_fst.contDiffAt.mul (((cFP q hq).mul cc.contDiffAt).add ((cGP q hq).mul cs.contDiffAt))
  have cg : ∀ q ∈ U, ContDiffAt ℝ 2 g q := fun q hq => ((cFP q hq).mul cs.contDiffAt).neg.add ((cGP q hq).mul cc.contDiffAt)
  have df : ∀ q ∈ U, DifferentiableAt ℝ f q := fun q hq => (cf q hq).differentiableAt (by norm_num)
  have dg : ∀ q ∈ U, DifferentiableAt ℝ g q := fun q hq => (cg q hq).differentiableAt (by norm_num)
  have c1 : ContinuousOn (fun p => fderiv ℝ f p) U :=
    ContDiffOn.continuousOn_fderiv_of_isOpen (fun q hq => (cf q hq).contDiffWithinAt) oU (by norm_num)
  have c2 : ContinuousOn (fun p => fderiv ℝ g p) U :=
    ContDiffOn.continuousOn_fderiv_of_isOpen (fun q hq => (cg q hq).contDiffWithinAt) oU (by norm_num)
  have hpt : ∀ ρ θ : ℝ, 0 < ρ → ρ * D (ρ * Real.cos θ + x0, ρ * Real.sin θ + y0) = fderiv ℝ f (ρ, θ) (1, 0) + fderiv ℝ g (ρ, θ) (0, 1) := by
    intro ρ θ hρ
    have hne := off (ρ, θ) hρ
    have hF1 := (hF _ hne).differentiableAt (by norm_num)
    have hG1 := (hG _ hne).differentiableAt (by norm_num)
    have hx : HasDerivAt (fun s : ℝ => (x0 + s * Real.cos θ, y0 + s * Real.sin θ)) (Real.cos θ, Real.sin θ) ρ := by
      refine HasDerivAt.prodMk ?_ ?_
      · simpa using ((hasDerivAt_id ρ).mul_const (Real.cos θ)).const_add x0
      · simpa using ((hasDerivAt_id ρ).mul_const (Real.sin θ)).const_add y0
    have hy : HasDerivAt (fun s : ℝ => (x0 + ρ * Real.cos s, y0 + ρ * Real.sin s)) (ρ * -Real.sin θ, ρ * Real.cos θ) θ :=
      (((Real.hasDerivAt_cos θ).const_mul ρ).const_add x0).prodMk (((Real.hasDerivAt_sin θ).const_mul ρ).const_add y0)
    have f1 := hF1.hasFDerivAt.comp_hasDerivAt ρ hx
    have g1 := hG1.hasFDerivAt.comp_hasDerivAt ρ hx
    have f2 := hF1.hasFDerivAt.comp_hasDerivAt θ hy
    have g2 := hG1.hasFDerivAt.comp_hasDerivAt θ hy
    have px : HasDerivAt (fun s => f (s, θ)) (fderiv ℝ f (ρ, θ) (1, 0)) ρ :=
      (df _ hρ).hasFDerivAt.comp_hasDerivAt ρ ((hasDerivAt_id ρ).prodMk (hasDerivAt_const ρ θ))
    have py : HasDerivAt (fun s => g (ρ, s)) (fderiv ℝ g (ρ, θ) (0, 1)) θ :=
      (dg _ hρ).hasFDerivAt.comp_hasDerivAt θ ((hasDerivAt_const θ ρ).prodMk (hasDerivAt_id θ))
    have e1 := px.unique ((hasDerivAt_id ρ).fun_mul ((f1.mul_const (Real.cos θ)).fun_add (g1.mul_const (Real.sin θ))))
    have e2 := py.unique (((f2.fun_mul (Real.hasDerivAt_sin θ)).fun_neg).fun_add (g2.fun_mul (Real.hasDerivAt_cos θ)))
    rw [e1, e2, add_comm (ρ * Real.cos θ) x0, add_comm (ρ * Real.sin θ) y0, hD _ hne]
    simp only [Function.comp_apply, id, hP]
    rw [fderiv_split F _ (Real.cos θ), fderiv_split G _ (Real.cos θ), fderiv_split F _ (ρ * _), fderiv_split G _ (ρ * _)]
    have := Real.sin_sq_add_cos_sq θ
    generalize fderiv ℝ F (x0 + ρ * Real.cos θ, y0 + ρ * Real.sin θ) (1, 0) = a
    generalize fderiv ℝ F (x0 + ρ * Real.cos θ, y0 + ρ * Real.sin θ) (0, 1) = b
    generalize fderiv ℝ G (x0 + ρ * Real.cos θ, y0 + ρ * Real.sin θ) (1, 0) = c
    generalize fderiv ℝ G (x0 + ρ * Real.cos θ, y0 + ρ * Real.sin θ) (0, 1) = d
    linear_combination (-ρ * (a + d)) * this
  have cD : ContinuousOn (fun p => fderiv ℝ f p (1, 0) + fderiv ℝ g p (0, 1)) U :=
    (c1.clm_apply continuousOn_const).add (c2.clm_apply continuousOn_const)
  have hsub : Icc a b ×ˢ Icc (-Real.pi) Real.pi ⊆ U := fun q hq => lt_of_lt_of_le ha hq.1.1
  rw [ring_shift, ring_polar ha hab ((cD.mono hsub).congr fun q hq => hpt q.1 q.2 (hsub hq))]
  have e3 : (∫ ρ in a..b, ∫ θ in -Real.pi..Real.pi, ρ * D (ρ * Real.cos θ + x0, ρ * Real.sin θ + y0)) =
      ∫ ρ in a..b, ∫ θ in -Real.pi..Real.pi, (fderiv ℝ f (ρ, θ) (1, 0) + fderiv ℝ g (ρ, θ) (0, 1)) := by
    refine intervalIntegral.integral_congr fun ρ hρ => ?_
    rw [uIcc_of_le hab.le] at hρ
    exact intervalIntegral.integral_congr fun θ _ => hpt ρ θ (lt_of_lt_of_le ha hρ.1)
  have hs2 : uIcc a b ×ˢ uIcc (-Real.pi) Real.pi ⊆ U := by
    rw [uIcc_of_le hab.le, uIcc_of_le (by linarith [Real.pi_pos])]
    exact hsub
  have hs3 : ∀ x ∈ Ioo (min a b) (max a b) ×ˢ Ioo (min (-Real.pi) Real.pi) (max (-Real.pi) Real.pi), x ∈ U := fun x hx => by
    have := hx.1.1
    rw [min_eq_left hab.le] at this
    exact ha.trans this
  have hdiv := integral2_divergence_prod_of_hasFDerivAt f g (fderiv ℝ f) (fderiv ℝ g) a (-Real.pi) b Real.pi
    (fun q hq => (cf q (hs2 hq)).continuousAt.continuousWithinAt) (fun q hq => (cg q (hs2 hq)).continuousAt.continuousWithinAt)
    (fun x hx => (df x (hs3 x hx)).hasFDerivAt) (fun x hx => (dg x (hs3 x hx)).hasFDerivAt)
    ((cD.mono hs2).integrableOn_compact (isCompact_uIcc.prod isCompact_uIcc))
  rw [e3, hdiv]
  simp [hf, hg, hP]

end PFEM
