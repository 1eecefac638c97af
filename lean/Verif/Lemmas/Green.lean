import Mathlib.MeasureTheory.Integral.DivergenceTheorem
import Mathlib.MeasureTheory.Function.Jacobian
import Mathlib.MeasureTheory.Measure.Lebesgue.EqHaar
import Mathlib.Analysis.SpecialFunctions.PolarCoord
import Verif.Spec.Region

/-!
Green's theorem for star-shaped contours.
-/

namespace PFEM
open Set MeasureTheory

section patch
variable {C : PCurve} (hC : C.Smooth) (a : ℝ × ℝ)

/-- the map of a patch -/
def patch (C : PCurve) (a : ℝ × ℝ) (p : ℝ × ℝ) : ℝ × ℝ := C.ray a p.1 p.2

/-- its derivative -/
noncomputable def patchD (C : PCurve) (a : ℝ × ℝ) (p : ℝ × ℝ) : ℝ × ℝ →L[ℝ] ℝ × ℝ :=
  LinearMap.toContinuousLinearMap (Matrix.toLin (Module.Basis.finTwoProd ℝ) (Module.Basis.finTwoProd ℝ)
    !![C.x p.2 - a.1, p.1 * C.dx p.2; C.y p.2 - a.2, p.1 * C.dy p.2])

theorem patchD_apply (p v : ℝ × ℝ) : patchD C a p v =
    ((C.x p.2 - a.1) * v.1 + p.1 * C.dx p.2 * v.2, (C.y p.2 - a.2) * v.1 + p.1 * C.dy p.2 * v.2) := by
  simp [patchD, Matrix.toLin_finTwoProd_apply]

theorem patchD_det (p : ℝ × ℝ) : (patchD C a p).det = p.1 * C.sweep a p.2 := by
  rw [patchD, LinearMap.det_toContinuousLinearMap, LinearMap.det_toLin, Matrix.det_fin_two_of, PCurve.sweep]
  ring

include hC in
theorem patch_deriv (p : ℝ × ℝ) : HasFDerivAt (patch C a) (patchD C a p) p := by
  have hx : HasFDerivAt (fun p : ℝ × ℝ => C.x p.2) (C.dx p.2 • ContinuousLinearMap.snd ℝ ℝ ℝ) p :=
    (hC p.2).1.comp_hasFDerivAt p hasFDerivAt_snd
  have hy : HasFDerivAt (fun p : ℝ × ℝ => C.y p.2) (C.dy p.2 • ContinuousLinearMap.snd ℝ ℝ ℝ) p :=
    (hC p.2).2.1.comp_hasFDerivAt p hasFDerivAt_snd
  have h1 := (hasFDerivAt_fst (𝕜 := ℝ) (p := p)).mul (hx.sub_const a.1)
  have h2 := (hasFDerivAt_fst (𝕜 := ℝ) (p := p)).mul (hy.sub_const a.2)
  have h := (h1.const_add a.1).prodMk (h2.const_add a.2)
  refine h.congr_fderiv ?_
  ext <;> simp [patchD_apply, smul_eq_mul]

include hC in
theorem curve_continuous : Continuous C.x ∧ Continuous C.y ∧ Continuous C.dx ∧ Continuous C.dy :=
  ⟨continuous_iff_continuousAt.2 fun s => (hC s).1.continuousAt, continuous_iff_continuousAt.2 fun s => (hC s).2.1.continuousAt,
    continuous_iff_continuousAt.2 fun s => (hC s).2.2.1.continuousAt, continuous_iff_continuousAt.2 fun s => (hC s).2.2.2.continuousAt⟩

include hC in
theorem patch_continuous : Continuous (patch C a) := continuous_iff_continuousAt.2 fun p => (patch_deriv hC a p).continuousAt

/-- the divergence -/
noncomputable def dive (f g : ℝ × ℝ → ℝ) (q : ℝ × ℝ) : ℝ := fderiv ℝ f q (1, 0) + fderiv ℝ g q (0, 1)

theorem dive_continuous {f g : ℝ × ℝ → ℝ} (hf : ContDiff ℝ 1 f) (hg : ContDiff ℝ 1 g) : Continuous (dive f g) :=
  ((hf.continuous_fderiv one_ne_zero).clm_apply continuous_const).add ((hg.continuous_fderiv one_ne_zero).clm_apply continuous_const)

/-- the flux through the segment from `a` to the point of the curve -/
noncomputable def spoke (C : PCurve) (a : ℝ × ℝ) (f g : ℝ × ℝ → ℝ) (s : ℝ) : ℝ :=
  ∫ r in (0 : ℝ)..1, (f (C.ray a r s) * (C.y s - a.2) - g (C.ray a r s) * (C.x s - a.1))

include hC in
/-- Green's theorem on a patch -/
theorem patch_green {f g : ℝ × ℝ → ℝ} (hf : ContDiff ℝ 1 f) (hg : ContDiff ℝ 1 g) :
    ∫ p in Icc (0 : ℝ) 1 ×ˢ Icc 0 (2 * Real.pi), dive f g (patch C a p) * (p.1 * C.sweep a p.2) =
      C.flux (fun x y => f (x, y)) (fun x y => g (x, y)) - (spoke C a f g (2 * Real.pi) - spoke C a f g 0) := by
  have hpi := Real.pi_pos
  obtain ⟨c1, c2, c3, c4⟩ := curve_continuous hC
  have cP := patch_continuous hC a
  set P : ℝ × ℝ → ℝ := fun p => p.1 * (f (patch C a p) * C.dy p.2 - g (patch C a p) * C.dx p.2) with hP
  set Q : ℝ × ℝ → ℝ := fun p => -(f (patch C a p) * (C.y p.2 - a.2) - g (patch C a p) * (C.x p.2 - a.1)) with hQ
  have hdx : ∀ p : ℝ × ℝ, HasFDerivAt (fun p : ℝ × ℝ => C.x p.2) (C.dx p.2 • ContinuousLinearMap.snd ℝ ℝ ℝ) p := fun p =>
    (hC p.2).1.comp_hasFDerivAt p hasFDerivAt_snd
  have hdy : ∀ p : ℝ × ℝ, HasFDerivAt (fun p : ℝ × ℝ => C.y p.2) (C.dy p.2 • ContinuousLinearMap.snd ℝ ℝ ℝ) p := fun p =>
    (hC p.2).2.1.comp_hasFDerivAt p hasFDerivAt_snd
  have hddx : ∀ p : ℝ × ℝ, HasFDerivAt (fun p : ℝ × ℝ => C.dx p.2) (C.ddx p.2 • ContinuousLinearMap.snd ℝ ℝ ℝ) p := fun p =>
    (hC p.2).2.2.1.comp_hasFDerivAt p hasFDerivAt_snd
  have hddy : ∀ p : ℝ × ℝ, HasFDerivAt (fun p : ℝ × ℝ => C.dy p.2) (C.ddy p.2 • ContinuousLinearMap.snd ℝ ℝ ℝ) p := fun p =>
    (hC p.2).2.2.2.comp_hasFDerivAt p hasFDerivAt_snd
  have hff : ∀ p, HasFDerivAt (fun p => f (patch C a p)) ((fderiv ℝ f (patch C a p)).comp (patchD C a p)) p := fun p =>
    (hf.differentiable one_ne_zero _).hasFDerivAt.comp p (patch_deriv hC a p)
  have hgg : ∀ p, HasFDerivAt (fun p => g (patch C a p)) ((fderiv ℝ g (patch C a p)).comp (patchD C a p)) p := fun p =>
    (hg.differentiable one_ne_zero _).hasFDerivAt.comp p (patch_deriv hC a p)
  have dP : ∀ p, HasFDerivAt P _ p := fun p => (hasFDerivAt_fst (𝕜 := ℝ)).mul (((hff p).mul (hddy p)).sub ((hgg p).mul (hddx p)))
  have dQ : ∀ p, HasFDerivAt Q _ p := fun p => (((hff p).mul ((hdy p).sub_const a.2)).sub ((hgg p).mul ((hdx p).sub_const a.1))).neg
  have hlin : ∀ (L : ℝ × ℝ →L[ℝ] ℝ) (u v : ℝ), L (u, v) = u * L (1, 0) + v * L (0, 1) := fun L u v => by
    have : (u, v) = u • ((1, 0) : ℝ × ℝ) + v • ((0, 1) : ℝ × ℝ) := by simp
    rw [this, map_add, map_smul, map_smul, smul_eq_mul, smul_eq_mul]
  have key : ∀ p, fderiv ℝ P p (1, 0) + fderiv ℝ Q p (0, 1) = dive f g (patch C a p) * (p.1 * C.sweep a p.2) := by
    intro p
    rw [(dP p).fderiv, (dQ p).fderiv]
    simp only [add_apply, sub_apply, neg_apply, smul_apply,
      ContinuousLinearMap.comp_apply, patchD_apply, ContinuousLinearMap.coe_snd', ContinuousLinearMap.coe_fst', smul_eq_mul]
    rw [hlin (fderiv ℝ f _), hlin (fderiv ℝ g _), hlin (fderiv ℝ f _) ((C.x p.2 - a.1) * 0 + _), hlin (fderiv ℝ g _) ((C.x p.2 - a.1) * 0 + _)]
    simp only [dive, PCurve.sweep]
    ring
  have hcont : Continuous fun p : ℝ × ℝ => dive f g (patch C a p) * (p.1 * C.sweep a p.2) := by
    have := (dive_continuous hf hg).comp cP
    simp only [PCurve.sweep]
    fun_prop
  have := integral_divergence_prod_Icc_of_hasFDerivAt_off_countable_of_le P Q (fderiv ℝ P) (fderiv ℝ Q) (0, 0) (1, 2 * Real.pi)
    ⟨zero_le_one, by positivity⟩ ∅ countable_empty (fun p _ => (dP p).continuousAt.continuousWithinAt)
    (fun p _ => (dQ p).continuousAt.continuousWithinAt) (fun p _ => (dP p).differentiableAt.hasFDerivAt)
    (fun p _ => (dQ p).differentiableAt.hasFDerivAt) (by
      simp only [key]
      exact (hcont.continuousOn).integrableOn_compact isCompact_Icc)
  simp only [key] at this
  rw [Icc_prod_Icc, this]
  have e0 : ∀ s, C.ray a 1 s = (C.x s, C.y s) := fun s => by simp [PCurve.ray]
  simp only [hP, hQ, patch, spoke, PCurve.flux, e0, zero_mul, one_mul, intervalIntegral.integral_neg, intervalIntegral.integral_zero]
  ring

/-- the image of a patch -/
def patchImage (C : PCurve) (a : ℝ × ℝ) : Set (ℝ × ℝ) := patch C a '' (Ioo (0 : ℝ) 1 ×ˢ Ioo 0 (2 * Real.pi))

theorem patch_inj {σ : ℝ} (ht : ∀ s ∈ Icc 0 (2 * Real.pi), 0 < σ * C.sweep a s)
    (ho : ∀ s ∈ Ico 0 (2 * Real.pi), ∀ t ∈ Ico 0 (2 * Real.pi), ∀ l, 0 < l → (C.x s, C.y s) = C.ray a l t → s = t) :
    InjOn (patch C a) (Ioo (0 : ℝ) 1 ×ˢ Ioo 0 (2 * Real.pi)) := by
  rintro ⟨r, s⟩ ⟨hr, hs⟩ ⟨r', t⟩ ⟨hr', ht'⟩ h
  simp only [patch, PCurve.ray, Prod.mk.injEq] at h hr hs hr' ht' ⊢
  have hst : s = t := by
    refine ho s ⟨hs.1.le, hs.2⟩ t ⟨ht'.1.le, ht'.2⟩ (r' / r) (div_pos hr'.1 hr.1) ?_
    have h0 : r ≠ 0 := hr.1.ne'
    simp only [PCurve.ray, Prod.mk.injEq]
    constructor
    · field_simp
      linarith [h.1]
    · field_simp
      linarith [h.2]
  subst hst
  refine ⟨?_, rfl⟩
  by_contra hne
  have h1 : (r - r') * (C.x s - a.1) = 0 := by linarith [h.1]
  have h2 : (r - r') * (C.y s - a.2) = 0 := by linarith [h.2]
  have h3 := ht s ⟨hs.1.le, hs.2.le⟩
  rw [PCurve.sweep, (mul_eq_zero.1 h1).resolve_left (sub_ne_zero.2 hne), (mul_eq_zero.1 h2).resolve_left (sub_ne_zero.2 hne)] at h3
  simp at h3

include hC in
theorem patchImage_measurable {σ : ℝ} (ht : ∀ s ∈ Icc 0 (2 * Real.pi), 0 < σ * C.sweep a s)
    (ho : ∀ s ∈ Ico 0 (2 * Real.pi), ∀ t ∈ Ico 0 (2 * Real.pi), ∀ l, 0 < l → (C.x s, C.y s) = C.ray a l t → s = t) :
    MeasurableSet (patchImage C a) :=
  measurable_image_of_fderivWithin (measurableSet_Ioo.prod measurableSet_Ioo)
    (fun p _ => (patch_deriv hC a p).hasFDerivWithinAt) (patch_inj a ht ho)

include hC in
/-- the integral over the image of a patch -/
theorem patch_integral {σ : ℝ} (hσ : |σ| = 1) (ht : ∀ s ∈ Icc 0 (2 * Real.pi), 0 < σ * C.sweep a s)
    (ho : ∀ s ∈ Ico 0 (2 * Real.pi), ∀ t ∈ Ico 0 (2 * Real.pi), ∀ l, 0 < l → (C.x s, C.y s) = C.ray a l t → s = t) (h : ℝ × ℝ → ℝ) :
    ∫ q in patchImage C a, h q = σ * ∫ p in Icc (0 : ℝ) 1 ×ˢ Icc 0 (2 * Real.pi), h (patch C a p) * (p.1 * C.sweep a p.2) := by
  have hmeas : MeasurableSet (Ioo (0 : ℝ) 1 ×ˢ Ioo 0 (2 * Real.pi)) := measurableSet_Ioo.prod measurableSet_Ioo
  rw [patchImage, integral_image_eq_integral_abs_det_fderiv_smul volume hmeas (fun p _ => (patch_deriv hC a p).hasFDerivWithinAt)
    (patch_inj a ht ho)]
  have e1 : ∫ p in Ioo (0 : ℝ) 1 ×ˢ Ioo 0 (2 * Real.pi), |(patchD C a p).det| • h (patch C a p) =
      ∫ p in Ioo (0 : ℝ) 1 ×ˢ Ioo 0 (2 * Real.pi), σ * (h (patch C a p) * (p.1 * C.sweep a p.2)) := by
    refine setIntegral_congr_fun hmeas fun p hp => ?_
    have h1 := ht p.2 ⟨hp.2.1.le, hp.2.2.le⟩
    have h2 : |p.1 * C.sweep a p.2| = p.1 * (σ * C.sweep a p.2) := by
      rw [abs_mul, abs_of_pos hp.1.1, ← abs_of_pos h1, abs_mul, hσ, one_mul]
    simp only [patchD_det, smul_eq_mul, h2]
    ring
  rw [e1, integral_const_mul]
  congr 1
  refine setIntegral_congr_set ?_
  rw [Measure.volume_eq_prod]
  exact Measure.set_prod_ae_eq Ioo_ae_eq_Icc Ioo_ae_eq_Icc

end patch

/-! ### contours -/

theorem patch_disjoint {C C' : PCurve} {a : ℝ × ℝ}
    (h : ∀ s ∈ Ico 0 (2 * Real.pi), ∀ t ∈ Ico 0 (2 * Real.pi), ∀ l, 0 < l → (C.x s, C.y s) ≠ C'.ray a l t) :
    Disjoint (patchImage C a) (patchImage C' a) := by
  rw [Set.disjoint_left]
  rintro q ⟨⟨r, s⟩, ⟨hr, hs⟩, rfl⟩ ⟨⟨r', t⟩, ⟨hr', ht⟩, he⟩
  simp only at hr hs hr' ht
  have h0 : r ≠ 0 := hr.1.ne'
  refine h s ⟨hs.1.le, hs.2⟩ t ⟨ht.1.le, ht.2⟩ (r' / r) (div_pos hr'.1 hr.1) ?_
  simp only [patch, PCurve.ray, Prod.mk.injEq] at he ⊢
  constructor
  · field_simp
    linarith [he.1]
  · field_simp
    linarith [he.2]

/-- the union of the images -/
def patches (a : ℝ × ℝ) (Cs : List PCurve) : Set (ℝ × ℝ) := {q | ∃ C ∈ Cs, q ∈ patchImage C a}

theorem patches_cons (a : ℝ × ℝ) (C : PCurve) (Cs : List PCurve) : patches a (C :: Cs) = patchImage C a ∪ patches a Cs := by
  ext q
  simp [patches, Set.mem_ofPred_eq]

theorem patch_box_compact {C : PCurve} (hC : C.Smooth) (a : ℝ × ℝ) : IsCompact (patch C a '' (Icc (0 : ℝ) 1 ×ˢ Icc 0 (2 * Real.pi))) :=
  (isCompact_Icc.prod isCompact_Icc).image (patch_continuous hC a)

theorem starRegion_compact {Cs : List PCurve} (hS : ∀ C ∈ Cs, C.Smooth) (a : ℝ × ℝ) : IsCompact (starRegion a Cs) := by
  induction Cs with
  | nil =>
    have : starRegion a [] = ∅ := by ext q; simp [starRegion]
    rw [this]; exact isCompact_empty
  | cons C Cs ih =>
    have : starRegion a (C :: Cs) = patch C a '' (Icc (0 : ℝ) 1 ×ˢ Icc 0 (2 * Real.pi)) ∪ starRegion a Cs := by
      ext q
      constructor
      · rintro ⟨C', hC', r, hr, s, hs, rfl⟩
        rcases List.mem_cons.1 hC' with rfl | hC'
        · exact .inl ⟨(r, s), ⟨hr, hs⟩, rfl⟩
        · exact .inr ⟨C', hC', r, hr, s, hs, rfl⟩
      · rintro (⟨⟨r, s⟩, ⟨hr, hs⟩, rfl⟩ | ⟨C', hC', r, hr, s, hs, rfl⟩)
        · exact ⟨C, by simp, r, hr, s, hs, rfl⟩
        · exact ⟨C', by simp [hC'], r, hr, s, hs, rfl⟩
    rw [this]
    exact (patch_box_compact (hS C (by simp)) a).union (ih fun C h => hS C (by simp [h]))

theorem patches_measurable {a : ℝ × ℝ} {σ : ℝ} : ∀ {Cs : List PCurve}, (∀ C ∈ Cs, C.Smooth) →
    (∀ C ∈ Cs, ∀ s ∈ Icc 0 (2 * Real.pi), 0 < σ * C.sweep a s) →
    (∀ C ∈ Cs, ∀ s ∈ Ico 0 (2 * Real.pi), ∀ t ∈ Ico 0 (2 * Real.pi), ∀ l, 0 < l → (C.x s, C.y s) = C.ray a l t → s = t) →
    MeasurableSet (patches a Cs)
  | [], _, _, _ => by
    have : patches a [] = ∅ := by ext q; simp [patches]
    rw [this]; exact MeasurableSet.empty
  | C :: Cs, hS, ht, ho => by
    rw [patches_cons]
    exact (patchImage_measurable (hS C (by simp)) a (ht C (by simp)) (ho C (by simp))).union
      (patches_measurable (fun C h => hS C (by simp [h])) (fun C h => ht C (by simp [h])) fun C h => ho C (by simp [h]))

theorem patches_integral {a : ℝ × ℝ} {σ : ℝ} (hσ : |σ| = 1) {h : ℝ × ℝ → ℝ} (hc : Continuous h) : ∀ {Cs : List PCurve}, (∀ C ∈ Cs, C.Smooth) →
    (∀ C ∈ Cs, ∀ s ∈ Icc 0 (2 * Real.pi), 0 < σ * C.sweep a s) →
    (∀ C ∈ Cs, ∀ s ∈ Ico 0 (2 * Real.pi), ∀ t ∈ Ico 0 (2 * Real.pi), ∀ l, 0 < l → (C.x s, C.y s) = C.ray a l t → s = t) →
    (Cs.Pairwise fun C C' => ∀ s ∈ Ico 0 (2 * Real.pi), ∀ t ∈ Ico 0 (2 * Real.pi), ∀ l, 0 < l → (C.x s, C.y s) ≠ C'.ray a l t) →
    IntegrableOn h (patches a Cs) ∧ ∫ q in patches a Cs, h q =
      σ * (Cs.map fun C => ∫ p in Icc (0 : ℝ) 1 ×ˢ Icc 0 (2 * Real.pi), h (patch C a p) * (p.1 * C.sweep a p.2)).sum
  | [], _, _, _, _ => by
    have : patches a [] = ∅ := by ext q; simp [patches]
    simp [this]
  | C :: Cs, hS, ht, ho, hp => by
    obtain ⟨hp1, hp2⟩ := List.pairwise_cons.1 hp
    obtain ⟨i1, i2⟩ := patches_integral hσ hc (Cs := Cs) (fun C h => hS C (by simp [h])) (fun C h => ht C (by simp [h]))
      (fun C h => ho C (by simp [h])) hp2
    have j1 : IntegrableOn h (patchImage C a) :=
      (hc.continuousOn.integrableOn_compact (patch_box_compact (hS C (by simp)) a)).mono_set
        (image_mono (prod_mono Ioo_subset_Icc_self Ioo_subset_Icc_self))
    have hd : Disjoint (patchImage C a) (patches a Cs) := by
      rw [Set.disjoint_right]
      rintro q ⟨C', hC', hq⟩ hq'
      exact Set.disjoint_left.1 (patch_disjoint (hp1 C' hC')) hq' hq
    rw [patches_cons]
    refine ⟨j1.union i1, ?_⟩
    rw [setIntegral_union hd (patches_measurable (fun C h => hS C (by simp [h])) (fun C h => ht C (by simp [h]))
      fun C h => ho C (by simp [h])) j1 i1, i2, patch_integral (hS C (by simp)) a hσ (ht C (by simp)) (ho C (by simp)),
      List.map_cons, List.sum_cons, mul_add]

theorem patches_subset (a : ℝ × ℝ) (Cs : List PCurve) : patches a Cs ⊆ starRegion a Cs := by
  rintro q ⟨C, hC, ⟨r, s⟩, ⟨hr, hs⟩, rfl⟩
  exact ⟨C, hC, r, ⟨hr.1.le, hr.2.le⟩, s, ⟨hs.1.le, hs.2.le⟩, rfl⟩

/-- what is left out is a null set -/
theorem region_null {Cs : List PCurve} (hS : ∀ C ∈ Cs, C.Smooth) (a : ℝ × ℝ) : volume (starRegion a Cs \ patches a Cs) = 0 := by
  have hbox : volume ((Icc (0 : ℝ) 1 ×ˢ Icc 0 (2 * Real.pi)) \ (Ioo (0 : ℝ) 1 ×ˢ Ioo 0 (2 * Real.pi))) = 0 := by
    have : (Ioo (0 : ℝ) 1 ×ˢ Ioo 0 (2 * Real.pi)) =ᵐ[volume] (Icc (0 : ℝ) 1 ×ˢ Icc 0 (2 * Real.pi)) := by
      rw [Measure.volume_eq_prod]
      exact Measure.set_prod_ae_eq Ioo_ae_eq_Icc Ioo_ae_eq_Icc
    exact (ae_eq_set.1 this).2
  induction Cs with
  | nil => simp [starRegion]
  | cons C Cs ih =>
    have h1 : volume (patch C a '' ((Icc (0 : ℝ) 1 ×ˢ Icc 0 (2 * Real.pi)) \ (Ioo (0 : ℝ) 1 ×ˢ Ioo 0 (2 * Real.pi)))) = 0 :=
      addHaar_image_eq_zero_of_differentiableOn_of_addHaar_eq_zero _
        (fun p _ => (patch_deriv (hS C (by simp)) a p).differentiableAt.differentiableWithinAt) hbox
    refine measure_mono_null ?_ (measure_union_null h1 (ih fun C h => hS C (by simp [h])))
    rintro q ⟨⟨C', hC', r, hr, s, hs, rfl⟩, hq⟩
    rcases List.mem_cons.1 hC' with rfl | hC'
    · left
      refine ⟨(r, s), ⟨⟨hr, hs⟩, fun h => hq ⟨C', by simp, (r, s), h, rfl⟩⟩, rfl⟩
    · right
      refine ⟨⟨C', hC', r, hr, s, hs, rfl⟩, fun ⟨D, hD, h⟩ => hq ⟨D, by simp [hD], h⟩⟩

theorem region_ae {Cs : List PCurve} (hS : ∀ C ∈ Cs, C.Smooth) (a : ℝ × ℝ) : starRegion a Cs =ᵐ[volume] patches a Cs := by
  refine ae_eq_set.2 ⟨region_null hS a, ?_⟩
  rw [Set.sdiff_eq_empty.2 (patches_subset a Cs), measure_empty]

theorem sum_map_minus {α : Type} (l : List α) (u v : α → ℝ) : (l.map fun x => u x - v x).sum = (l.map u).sum - (l.map v).sum := by
  induction l with
  | nil => simp
  | cons x l ih => simp only [List.map_cons, List.sum_cons, ih]; ring

/-- along a closed chain what is gained on the curves is lost -/
theorem chain_sum {Cs : List PCurve} (h : Chained Cs) (G : ℝ × ℝ → ℝ) :
    (Cs.map fun C => G (C.x (2 * Real.pi), C.y (2 * Real.pi))).sum = (Cs.map fun C => G (C.x 0, C.y 0)).sum := by
  have : (Cs.map fun C => G (C.x (2 * Real.pi), C.y (2 * Real.pi))) = (Cs.map fun C => G (C.x 0, C.y 0)).rotate 1 := by
    refine List.ext_getElem (by simp) fun i h1 h2 => ?_
    have hi : i < Cs.length := by simpa using h1
    have hj : (i + 1) % Cs.length < Cs.length := Nat.mod_lt _ (by omega)
    obtain ⟨k1, k2⟩ := h i _ _ (List.getElem?_eq_getElem hi) (List.getElem?_eq_getElem hj)
    rw [List.getElem_rotate]
    simp only [List.getElem_map, List.length_map, k1, k2]
  rw [this]
  exact (List.rotate_perm _ 1).sum_eq

/-- Green's theorem for a star-shaped contour -/
theorem star_green {a : ℝ × ℝ} {σ : ℝ} (hσ : |σ| = 1) {Cs : List PCurve} (hS : ∀ C ∈ Cs, C.Smooth) (h : StarAbout a σ Cs)
    {f g : ℝ × ℝ → ℝ} (hf : ContDiff ℝ 1 f) (hg : ContDiff ℝ 1 g) :
    ∫ q in starRegion a Cs, dive f g q = σ * (Cs.map fun C => C.flux (fun x y => f (x, y)) fun x y => g (x, y)).sum := by
  rw [setIntegral_congr_set (region_ae hS a), (patches_integral hσ (dive_continuous hf hg) hS h.turns h.once h.apart).2]
  congr 1
  rw [List.map_congr_left fun C hC => patch_green (hS C hC) a hf hg, sum_map_minus, sum_map_minus]
  set G : ℝ × ℝ → ℝ := fun q => ∫ r in (0 : ℝ)..1, (f (a.1 + r * (q.1 - a.1), a.2 + r * (q.2 - a.2)) * (q.2 - a.2) -
    g (a.1 + r * (q.1 - a.1), a.2 + r * (q.2 - a.2)) * (q.1 - a.1)) with hG
  have := chain_sum h.chained G
  simp only [spoke, PCurve.ray]
  simp only [hG] at this
  rw [this]
  ring

end PFEM
