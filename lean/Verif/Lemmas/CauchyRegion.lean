import Mathlib.Analysis.Complex.Conformal
import Mathlib.Analysis.Complex.LocallyUniformLimit
import Verif.Spec.Parts
import Verif.Lemmas.GreenRegion
import Verif.Lemmas.Shapes
import Verif.Props.Cauchy

/-!
Cauchy's integral formula for the regions that curves enclose.
-/

namespace PFEM
open Set MeasureTheory Topology

section
variable {E : Type} [NormedAddCommGroup E] [NormedSpace ℝ E]

theorem mkC_eq (u v : ℝ) : (⟨u, v⟩ : ℂ) = (u : ℂ) + (v : ℂ) * Complex.I := Complex.mk_eq_add_mul_I u v

theorem mkC_contDiffAt {k : ℕ} {u v : E → ℝ} {x : E} (hu : ContDiffAt ℝ k u x) (hv : ContDiffAt ℝ k v x) :
    ContDiffAt ℝ k (fun x => (⟨u x, v x⟩ : ℂ)) x := by
  simp only [mkC_eq]
  exact (Complex.ofRealCLM.contDiff.contDiffAt.comp x hu).add ((Complex.ofRealCLM.contDiff.contDiffAt.comp x hv).mul contDiffAt_const)

theorem re_contDiffAt {k : ℕ} {g : E → ℂ} {x : E} (h : ContDiffAt ℝ k g x) : ContDiffAt ℝ k (fun x => (g x).re) x :=
  Complex.reCLM.contDiff.contDiffAt.comp x h

theorem im_contDiffAt {k : ℕ} {g : E → ℂ} {x : E} (h : ContDiffAt ℝ k g x) : ContDiffAt ℝ k (fun x => (g x).im) x :=
  Complex.imCLM.contDiff.contDiffAt.comp x h

end

/-- the function `u + i v` of a complex variable -/
def cfun (u v : ℝ → ℝ → ℝ) (z : ℂ) : ℂ := ⟨u z.re z.im, v z.re z.im⟩

/-- a smooth pair that satisfies the Cauchy-Riemann equations is complex differentiable -/
theorem conj_hasDerivAt {u v : ℝ → ℝ → ℝ} {x y p q : ℝ} (hu : ContDiffAt ℝ 1 (fun q : ℝ × ℝ => u q.1 q.2) (x, y))
    (hv : ContDiffAt ℝ 1 (fun q : ℝ × ℝ => v q.1 q.2) (x, y)) (gu : HasGrad u x y p q) (gv : HasGrad v x y (-q) p) :
    HasDerivAt (cfun u v) ⟨p, -q⟩ ⟨x, y⟩ := by
  have hp : ContDiffAt ℝ 1 (fun z : ℂ => (z.re, z.im)) ⟨x, y⟩ :=
    Complex.reCLM.contDiff.contDiffAt.prodMk Complex.imCLM.contDiff.contDiffAt
  have hc : ContDiffAt ℝ (1 : ℕ) (cfun u v) ⟨x, y⟩ := by
    refine mkC_contDiffAt ?_ ?_
    · exact ContDiffAt.comp (g := fun q : ℝ × ℝ => u q.1 q.2) (⟨x, y⟩ : ℂ) hu hp
    · exact ContDiffAt.comp (g := fun q : ℝ × ℝ => v q.1 q.2) (⟨x, y⟩ : ℂ) hv hp
  have hd := hc.differentiableAt (by simp)
  have h1 : fderiv ℝ (cfun u v) ⟨x, y⟩ 1 = ⟨p, -q⟩ := by
    have hl : HasDerivAt (fun s : ℝ => (⟨s, y⟩ : ℂ)) 1 x := by
      simp only [mkC_eq]
      simpa using (Complex.ofRealCLM.hasDerivAt (x := x)).add_const ((y : ℂ) * Complex.I)
    have := hd.hasFDerivAt.comp_hasDerivAt_of_eq x hl rfl
    have e : HasDerivAt (fun s : ℝ => cfun u v ⟨s, y⟩) (⟨p, -q⟩ : ℂ) x := by
      simp only [cfun, mkC_eq]
      exact (gu.1.ofReal_comp).fun_add ((gv.1.ofReal_comp).mul_const Complex.I)
    exact this.unique e
  have h2 : fderiv ℝ (cfun u v) ⟨x, y⟩ Complex.I = ⟨q, p⟩ := by
    have hl : HasDerivAt (fun s : ℝ => (⟨x, s⟩ : ℂ)) Complex.I y := by
      simp only [mkC_eq]
      simpa using ((Complex.ofRealCLM.hasDerivAt (x := y)).mul_const Complex.I).const_add (x : ℂ)
    have := hd.hasFDerivAt.comp_hasDerivAt_of_eq y hl rfl
    have e : HasDerivAt (fun s : ℝ => cfun u v ⟨x, s⟩) (⟨q, p⟩ : ℂ) y := by
      simp only [cfun, mkC_eq]
      exact (gu.2.ofReal_comp).fun_add ((gv.2.ofReal_comp).mul_const Complex.I)
    exact this.unique e
  have hC : DifferentiableAt ℂ (cfun u v) ⟨x, y⟩ := by
    rw [differentiableAt_complex_iff_differentiableAt_real]
    refine ⟨hd, ?_⟩
    rw [h1, h2]
    apply Complex.ext <;> simp
  have := hC.hasDerivAt
  have e : deriv (cfun u v) ⟨x, y⟩ = ⟨p, -q⟩ := by
    have e1 : fderiv ℝ (cfun u v) ⟨x, y⟩ = (fderiv ℂ (cfun u v) ⟨x, y⟩).restrictScalars ℝ := hC.fderiv_restrictScalars ℝ
    rw [← h1, e1]
    simp
  rwa [e] at this

theorem im_grad {F : ℂ → ℂ} {d : ℂ} {x y : ℝ} (h : HasDerivAt F d ⟨x, y⟩) : HasGrad (fun x y => (F ⟨x, y⟩).im) x y d.im d.re := by
  have := re_grad (h.const_mul (-Complex.I))
  simpa using this

/-- the field whose circulation is the imaginary part of a complex line integral, and that of the negative real part -/
theorem fields_divergence {g : ℂ → ℂ} {S : Set (ℝ × ℝ)} (h : ∀ x y, (x, y) ∈ S → DifferentiableAt ℂ g ⟨x, y⟩) :
    HasDivergence S (fun x y => (g ⟨x, y⟩).re) (fun x y => -(g ⟨x, y⟩).im) (fun _ _ => 0) ∧
      HasDivergence S (fun x y => (g ⟨x, y⟩).im) (fun x y => (g ⟨x, y⟩).re) (fun _ _ => 0) := by
  constructor
  · intro x y hq
    have hd := (h x y hq).hasDerivAt
    exact ⟨_, _, (re_grad hd).1, (im_grad hd).2.neg, by ring⟩
  · intro x y hq
    have hd := (h x y hq).hasDerivAt
    exact ⟨_, _, (im_grad hd).1, (re_grad hd).2, by ring⟩

/-- real and imaginary part of the integral of `g dz / i` along a curve -/
noncomputable def PCurve.overI (C : PCurve) (g : ℂ → ℂ) : ℂ :=
  ⟨C.flux (fun x y => (g ⟨x, y⟩).re) fun x y => -(g ⟨x, y⟩).im, C.flux (fun x y => (g ⟨x, y⟩).im) fun x y => (g ⟨x, y⟩).re⟩

theorem sum_mk {α : Type} (l : List α) (f h : α → ℝ) : (l.map fun a => (⟨f a, h a⟩ : ℂ)).sum = ⟨(l.map f).sum, (l.map h).sum⟩ := by
  induction l with
  | nil => rfl
  | cons a l ih => rw [List.map_cons, List.sum_cons, ih]; rfl

/-- Cauchy's theorem: the integral of a holomorphic function round a region vanishes -/
theorem cauchy_zero {Cs : List PCurve} {S : Set (ℝ × ℝ)} (hE : Encloses Cs S) {g : ℂ → ℂ}
    (hg : ∀ q ∈ closedRegion Cs S, ContDiffAt ℝ 1 (fun q : ℝ × ℝ => g ⟨q.1, q.2⟩) q)
    (hd : ∀ x y, (x, y) ∈ S → DifferentiableAt ℂ g ⟨x, y⟩) : (Cs.map fun C => C.overI g).sum = 0 := by
  have h1 : ∀ q ∈ closedRegion Cs S, ContDiffAt ℝ 1 (fun q : ℝ × ℝ => (g ⟨q.1, q.2⟩).re) q := fun q hq => re_contDiffAt (k := 1) (hg q hq)
  have h2 : ∀ q ∈ closedRegion Cs S, ContDiffAt ℝ 1 (fun q : ℝ × ℝ => (g ⟨q.1, q.2⟩).im) q := fun q hq => im_contDiffAt (k := 1) (hg q hq)
  have m1 : ∀ q ∈ closure S, q ∈ closedRegion Cs S := fun q hq => Or.inl hq
  have m2 : ∀ C ∈ Cs, ∀ s ∈ Icc 0 (2 * Real.pi), (C.x s, C.y s) ∈ closedRegion Cs S := fun C hC s hs => Or.inr ⟨C, hC, s, hs, rfl⟩
  obtain ⟨d1, d2⟩ := fields_divergence hd
  have r1 := (region_green hE (f := fun x y => (g ⟨x, y⟩).re) (g := fun x y => -(g ⟨x, y⟩).im) (fun q hq => h1 q (m1 q hq)) (fun q hq => (h2 q (m1 q hq)).neg) (fun C hC s hs => h1 _ (m2 C hC s hs))
    (fun C hC s hs => (h2 _ (m2 C hC s hs)).neg) d1).2
  have r2 := (region_green hE (f := fun x y => (g ⟨x, y⟩).im) (g := fun x y => (g ⟨x, y⟩).re) (fun q hq => h2 q (m1 q hq)) (fun q hq => h1 q (m1 q hq)) (fun C hC s hs => h2 _ (m2 C hC s hs))
    (fun C hC s hs => h1 _ (m2 C hC s hs)) d2).2
  simp only [integral_zero] at r1 r2
  simp only [PCurve.overI]
  rw [sum_mk, ← r1, ← r2]
  rfl

theorem flux_reverse (C : PCurve) (f g : ℝ → ℝ → ℝ) : C.reverse.flux f g = -C.flux f g := by
  unfold PCurve.flux
  have := intervalIntegral.integral_comp_sub_left (a := 0) (b := 2 * Real.pi)
    (fun s => f (C.x s) (C.y s) * C.dy s - g (C.x s) (C.y s) * C.dx s) (2 * Real.pi)
  simp only [sub_self, sub_zero] at this
  rw [← this, ← intervalIntegral.integral_neg]
  refine intervalIntegral.integral_congr fun s _ => ?_
  simp only [PCurve.reverse]
  ring

theorem overI_reverse (C : PCurve) (g : ℂ → ℂ) : C.reverse.overI g = -C.overI g := by
  simp only [PCurve.overI, flux_reverse]
  rfl

/-- the integral along a circle is that of Mathlib -/
theorem overI_round (u v : ℝ) {r : ℝ} {g : ℂ → ℂ} (hg : ContinuousOn (fun s => g ((circleMap ⟨u, v⟩ r) s)) (Icc 0 (2 * Real.pi))) :
    Complex.I * (roundCurve u v r).overI g = ∮ z in C(⟨u, v⟩, r), g z := by
  have hc : IntervalIntegrable (fun s => deriv (circleMap (⟨u, v⟩ : ℂ) r) s • g (circleMap (⟨u, v⟩ : ℂ) r s)) volume 0 (2 * Real.pi) := by
    apply ContinuousOn.intervalIntegrable
    rw [uIcc_of_le (by positivity)]
    simp only [deriv_circleMap]
    exact ((continuous_circleMap 0 r).mul continuous_const).continuousOn.smul hg
  have hm : ∀ s, circleMap (⟨u, v⟩ : ℂ) r s = ⟨u + r * Real.cos s, v + r * Real.sin s⟩ := fun s => by
    rw [circleMap, Complex.exp_mul_I, ← Complex.ofReal_cos, ← Complex.ofReal_sin]
    apply Complex.ext <;> simp [Complex.cos_ofReal_re, Complex.sin_ofReal_re]
  have hd : ∀ s, deriv (circleMap (⟨u, v⟩ : ℂ) r) s = ⟨-(r * Real.sin s), r * Real.cos s⟩ := fun s => by
    rw [deriv_circleMap, circleMap, Complex.exp_mul_I, ← Complex.ofReal_cos, ← Complex.ofReal_sin]
    apply Complex.ext <;> simp [Complex.cos_ofReal_re, Complex.sin_ofReal_re]
  have h1 := Complex.reCLM.intervalIntegral_comp_comm hc
  have h2 := Complex.imCLM.intervalIntegral_comp_comm hc
  unfold circleIntegral
  apply Complex.ext
  · simp only [Complex.reCLM_apply] at h1
    rw [← h1]
    simp only [PCurve.overI, Complex.mul_re, Complex.I_re, Complex.I_im, zero_mul, one_mul, zero_sub, PCurve.flux, roundCurve,
      ← intervalIntegral.integral_neg]
    refine intervalIntegral.integral_congr fun s _ => ?_
    simp only [hm, hd, smul_eq_mul, Complex.mul_re]
    ring
  · simp only [Complex.imCLM_apply] at h2
    rw [← h2]
    simp only [PCurve.overI, Complex.mul_im, Complex.I_re, Complex.I_im, zero_mul, one_mul, zero_add, PCurve.flux, roundCurve]
    refine intervalIntegral.integral_congr fun s _ => ?_
    simp only [hm, hd, smul_eq_mul, Complex.mul_im]
    ring

/-- If a function is holomorphic in the region except at one point, then its integral round the region is the one round a small circle
about the point. -/
theorem cauchy_deform {Cs : List PCurve} {S : Set (ℝ × ℝ)} (hE : Encloses Cs S) {g : ℂ → ℂ} {u v r : ℝ} (hr : 0 < r)
    (hb : solidDisc u v r ⊆ S)
    (hg : ∀ q ∈ closedRegion Cs S, q ≠ (u, v) → ContDiffAt ℝ 1 (fun q : ℝ × ℝ => g ⟨q.1, q.2⟩) q)
    (hd : ∀ x y, (x, y) ∈ S → (x, y) ≠ (u, v) → DifferentiableAt ℂ g ⟨x, y⟩)
    (ho : ∀ C ∈ Cs, ∀ s ∈ Icc 0 (2 * Real.pi), (C.x s, C.y s) ≠ (u, v)) :
    (Cs.map fun C => C.overI g).sum = (roundCurve u v r).overI g := by
  have hE' : Encloses (Cs ++ [roundCurve u v r].map PCurve.reverse) (S \ solidDisc u v r) := hE.cut (disc_encloses u v hr) hb
  have hn : (u, v) ∉ closure (S \ solidDisc u v r) := by
    have hopen : IsOpen {q : ℝ × ℝ | (q.1 - u) ^ 2 + (q.2 - v) ^ 2 < r ^ 2} := isOpen_lt (by fun_prop) (by fun_prop)
    rw [mem_closure_iff]
    push Not
    refine ⟨_, hopen, by simp; positivity, ?_⟩
    ext q
    simp only [Set.mem_inter_iff, Set.mem_ofPred_eq, Set.mem_sdiff, solidDisc, mem_empty_iff_false, iff_false]
    rintro ⟨h1, h2, h3⟩
    exact h3 h1.le
  have hcirc : ∀ s, ((roundCurve u v r).x s, (roundCurve u v r).y s) ≠ (u, v) := by
    intro s h
    simp only [roundCurve, Prod.mk.injEq, add_eq_left, mul_eq_zero, hr.ne', false_or] at h
    have := Real.sin_sq_add_cos_sq s
    rw [h.1, h.2] at this
    norm_num at this
  have hin : ∀ s, ((roundCurve u v r).x s, (roundCurve u v r).y s) ∈ S := fun s => hb (by
    simp only [roundCurve, solidDisc, Set.mem_ofPred_eq, add_sub_cancel_left]
    nlinarith [Real.sin_sq_add_cos_sq s])
  have h0 := cauchy_zero hE' (g := g) (fun q hq => by
    rcases hq with h | ⟨C, hC, s, hs, rfl⟩
    · exact hg q (Or.inl (closure_mono sdiff_subset h)) fun e => hn (e ▸ h)
    · rcases List.mem_append.1 hC with h | h
      · exact hg _ (Or.inr ⟨C, h, s, hs, rfl⟩) (ho C h s hs)
      · obtain rfl : C = (roundCurve u v r).reverse := by simpa using h
        exact hg _ (Or.inl (subset_closure (hin _))) (hcirc _)) fun x y hq => hd x y hq.1 fun e => hq.2 (by
          rw [e]; simp [solidDisc]; positivity)
  simp only [List.map_append, List.map_cons, List.map_nil, List.sum_append, List.sum_cons, List.sum_nil, add_zero, overI_reverse] at h0
  linear_combination h0

theorem kernel_contDiffAt {k m : ℕ} {u v : ℝ → ℝ → ℝ} {w : ℂ} {q : ℝ × ℝ} (hu : ContDiffAt ℝ k (fun q : ℝ × ℝ => u q.1 q.2) q)
    (hv : ContDiffAt ℝ k (fun q : ℝ × ℝ => v q.1 q.2) q) (hq : (⟨q.1, q.2⟩ : ℂ) ≠ w) :
    ContDiffAt ℝ k (fun q : ℝ × ℝ => cfun u v ⟨q.1, q.2⟩ / ((⟨q.1, q.2⟩ : ℂ) - w) ^ m) q := by
  simp only [div_eq_mul_inv]
  refine (mkC_contDiffAt hu hv).mul (ContDiffAt.inv ?_ (pow_ne_zero _ (sub_ne_zero.2 hq)))
  exact ((mkC_contDiffAt contDiffAt_fst contDiffAt_snd).sub contDiffAt_const).pow m

/-- Cauchy's formula for the values and the derivative of a holomorphic function in a region -/
theorem cauchy_formula {Cs : List PCurve} {S : Set (ℝ × ℝ)} (hE : Encloses Cs S) {u v p q : ℝ → ℝ → ℝ}
    (hu : ∀ z ∈ closedRegion Cs S, ContDiffAt ℝ 1 (fun q : ℝ × ℝ => u q.1 q.2) z)
    (hv : ∀ z ∈ closedRegion Cs S, ContDiffAt ℝ 1 (fun q : ℝ × ℝ => v q.1 q.2) z)
    (gu : HasGradOn S u p q) (gv : HasGradOn S v (fun x y => -q x y) p) {a b : ℝ} (hi : (a, b) ∈ interior S)
    (ho : ∀ C ∈ Cs, ∀ s ∈ Icc 0 (2 * Real.pi), (C.x s, C.y s) ≠ (a, b)) :
    (Cs.map fun C => C.overI fun z => cfun u v z / (z - ⟨a, b⟩) ^ 1).sum = 2 * Real.pi * ⟨u a b, v a b⟩ ∧
      (Cs.map fun C => C.overI fun z => cfun u v z / (z - ⟨a, b⟩) ^ 2).sum = 2 * Real.pi * ⟨p a b, -q a b⟩ := by
  -- a disc about the point
  obtain ⟨R, hR, hRS⟩ : ∃ R > 0, solidDisc a b R ⊆ S := by
    obtain ⟨ε, hε, h⟩ := Metric.isOpen_iff.1 isOpen_interior _ hi
    refine ⟨ε / 2, by positivity, fun z hz => interior_subset (h ?_)⟩
    simp only [solidDisc, Set.mem_ofPred_eq] at hz
    rw [Metric.mem_ball, Prod.dist_eq, max_lt_iff, Real.dist_eq, Real.dist_eq]
    constructor <;> apply abs_lt_of_sq_lt_sq <;> nlinarith [sq_nonneg (z.1 - a), sq_nonneg (z.2 - b)]
  have hS : ∀ z : ℂ, z ∈ Metric.closedBall (⟨a, b⟩ : ℂ) R → (z.re, z.im) ∈ S := by
    intro z hz
    apply hRS
    rw [Metric.mem_closedBall, Complex.dist_eq, Complex.norm_eq_sqrt_sq_add_sq, Real.sqrt_le_left hR.le] at hz
    simpa [solidDisc] using hz
  have hsub : ∀ z ∈ S, z ∈ closedRegion Cs S := fun z hz => Or.inl (subset_closure hz)
  have hder : ∀ x y, (x, y) ∈ S → HasDerivAt (cfun u v) ⟨p x y, -q x y⟩ ⟨x, y⟩ := fun x y h =>
    conj_hasDerivAt (hu _ (hsub _ h)) (hv _ (hsub _ h)) (gu x y h) (gv x y h)
  have hne : ∀ x y : ℝ, (x, y) ≠ (a, b) → (⟨x, y⟩ : ℂ) ≠ ⟨a, b⟩ := fun x y h e => h (by
    rw [Complex.mk.injEq] at e
    exact Prod.ext e.1 e.2)
  have hdef : ∀ m : ℕ, (Cs.map fun C => C.overI fun z => cfun u v z / (z - ⟨a, b⟩) ^ m).sum =
      (roundCurve a b (R / 2)).overI fun z => cfun u v z / (z - ⟨a, b⟩) ^ m := fun m =>
    cauchy_deform hE (r := R / 2) (by positivity) (fun z hz => hRS (by
        simp only [solidDisc, Set.mem_ofPred_eq] at hz ⊢
        nlinarith))
      (fun z hz hzn => kernel_contDiffAt (k := 1) (hu z hz) (hv z hz) (hne _ _ hzn))
      (fun x y hz hzn => (hder x y hz).differentiableAt.div ((differentiableAt_id.sub_const _).pow m)
        (pow_ne_zero _ (sub_ne_zero.2 (hne x y hzn)))) ho
  have hR2 : 0 < R / 2 := by positivity
  have hcl : ∀ z ∈ Metric.closedBall (⟨a, b⟩ : ℂ) R, DifferentiableAt ℂ (cfun u v) z := fun z hz =>
    (hder z.re z.im (hS z hz)).differentiableAt
  have hcont : ∀ m : ℕ, ContinuousOn (fun s => cfun u v (circleMap ⟨a, b⟩ (R / 2) s) / (circleMap ⟨a, b⟩ (R / 2) s - ⟨a, b⟩) ^ m)
      (Icc 0 (2 * Real.pi)) := by
    intro m s hs
    have hz : circleMap (⟨a, b⟩ : ℂ) (R / 2) s ∈ Metric.closedBall (⟨a, b⟩ : ℂ) R :=
      Metric.closedBall_subset_closedBall (by linarith) (circleMap_mem_closedBall _ hR2.le s)
    have h1 := ContinuousAt.comp (f := circleMap (⟨a, b⟩ : ℂ) (R / 2)) (g := cfun u v) (hcl _ hz).continuousAt
      (continuous_circleMap _ _).continuousAt
    refine (h1.div ?_ ?_).continuousWithinAt
    · exact (((continuous_circleMap (⟨a, b⟩ : ℂ) (R / 2)).sub continuous_const).pow m).continuousAt
    · exact pow_ne_zero _ (sub_ne_zero.2 (circleMap_ne_center hR2.ne'))
  have hI : Complex.I ≠ 0 := Complex.I_ne_zero
  constructor
  · have h1 := overI_round a b (g := fun z => cfun u v z / (z - ⟨a, b⟩) ^ 1) (hcont 1)
    have h2 := DifferentiableOn.circleIntegral_sub_inv_smul (R := R / 2) (c := (⟨a, b⟩ : ℂ)) (w := ⟨a, b⟩) (f := cfun u v)
      (fun z hz => (hcl z (Metric.closedBall_subset_closedBall (by linarith) hz)).differentiableWithinAt) (Metric.mem_ball_self hR2)
    rw [hdef]
    have e : (∮ z in C(⟨a, b⟩, R / 2), cfun u v z / (z - ⟨a, b⟩) ^ 1) = ∮ z in C(⟨a, b⟩, R / 2), (z - ⟨a, b⟩)⁻¹ • cfun u v z := by
      congr 1
      funext z
      rw [pow_one, smul_eq_mul, div_eq_inv_mul]
    rw [e, h2] at h1
    apply mul_left_cancel₀ hI
    rw [h1, smul_eq_mul, cfun]
    ring
  · have h1 := overI_round a b (g := fun z => cfun u v z / (z - ⟨a, b⟩) ^ 2) (hcont 2)
    have h2 := Complex.two_pi_I_inv_smul_circleIntegral_sub_sq_inv_smul_of_differentiable (U := Metric.ball (⟨a, b⟩ : ℂ) R) (f := cfun u v)
      (c := ⟨a, b⟩) (w₀ := ⟨a, b⟩) (R := R / 2) Metric.isOpen_ball (Metric.closedBall_subset_ball (by linarith))
      (fun z hz => (hcl z (Metric.ball_subset_closedBall hz)).differentiableWithinAt) (Metric.mem_ball_self hR2)
    rw [hdef]
    have e : (∮ z in C(⟨a, b⟩, R / 2), cfun u v z / (z - ⟨a, b⟩) ^ 2) = ∮ z in C(⟨a, b⟩, R / 2), ((z - ⟨a, b⟩) ^ 2)⁻¹ • cfun u v z := by
      congr 1
      funext z
      rw [smul_eq_mul, div_eq_inv_mul]
    rw [(hder a b (interior_subset hi)).deriv] at h2
    have hpi : (2 * Real.pi * Complex.I : ℂ) ≠ 0 := by
      simp [Real.pi_ne_zero]
    rw [e, (inv_smul_eq_iff₀ hpi).1 h2] at h1
    apply mul_left_cancel₀ hI
    rw [h1, smul_eq_mul]
    ring

end PFEM
