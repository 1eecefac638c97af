import Mathlib.Analysis.SpecialFunctions.Log.Deriv
import Mathlib.Analysis.SpecialFunctions.Sqrt
import Verif.Lemmas.RingIntegral
import Verif.Lemmas.PolyFn
import Verif.Props.DiscInner
import Verif.Props.InnerProd
import Verif.Props.RingHarm
import Verif.Props.RingNormal

/-!
Property theorems C132: the energy inner product of harmonic functions on a ring between two concentric circles.
-/

namespace PFEM
open Nystrom Antilap Finset Polynomial MeasureTheory

variable {K : CellG} {x0 y0 a b : ℝ} {n : ℕ}

/-! ### smoothness -/

theorem contDiff_point (x0 y0 : ℝ) : ContDiff ℝ 2 fun p : ℝ × ℝ => (⟨p.1 - x0, p.2 - y0⟩ : ℂ) := by
  have e : (fun p : ℝ × ℝ => (⟨p.1 - x0, p.2 - y0⟩ : ℂ)) = fun p => ((p.1 - x0 : ℝ) : ℂ) + ((p.2 - y0 : ℝ) : ℂ) * Complex.I := by
    funext p
    apply Complex.ext <;> simp
  rw [e]
  have h1 : ContDiff ℝ 2 fun p : ℝ × ℝ => ((p.1 - x0 : ℝ) : ℂ) := Complex.ofRealCLM.contDiff.comp (contDiff_fst.sub contDiff_const)
  have h2 : ContDiff ℝ 2 fun p : ℝ × ℝ => ((p.2 - y0 : ℝ) : ℂ) := Complex.ofRealCLM.contDiff.comp (contDiff_snd.sub contDiff_const)
  exact h1.add (h2.mul contDiff_const)

theorem contDiff_eval (Q : ℂ[X]) : ContDiff ℝ 2 fun z : ℂ => Q.eval z := by
  have h := Q.contDiff_aeval (𝕜 := ℂ) (n := 2)
  simp only [coe_aeval_eq_eval] at h
  exact h.restrict_scalars ℝ

theorem point_ne {p : ℝ × ℝ} (h : p ≠ (x0, y0)) : (⟨p.1 - x0, p.2 - y0⟩ : ℂ) ≠ 0 := by
  intro hh
  have h1 := congrArg Complex.re hh
  have h2 := congrArg Complex.im hh
  simp only [Complex.zero_re, Complex.zero_im] at h1 h2
  exact h (Prod.ext (by linarith) (by linarith))

theorem laurent_contDiff (Q R : ℂ[X]) {p : ℝ × ℝ} (h : p ≠ (x0, y0)) : ContDiffAt ℝ 2 (fun p : ℝ × ℝ => laurent Q R x0 y0 p.1 p.2) p := by
  have hw := (contDiff_point x0 y0).contDiffAt (x := p)
  have hi : ContDiffAt ℝ 2 (fun z : ℂ => z⁻¹) (⟨p.1 - x0, p.2 - y0⟩ : ℂ) := (contDiffAt_inv ℂ (point_ne h)).restrict_scalars ℝ
  have hwi : ContDiffAt ℝ 2 (fun p : ℝ × ℝ => (⟨p.1 - x0, p.2 - y0⟩ : ℂ)⁻¹) p := hi.comp p hw
  exact ((contDiff_eval Q).contDiffAt.comp p hw).add ((contDiff_eval R).contDiffAt.comp p hwi)

theorem re_contDiff {f : ℝ × ℝ → ℂ} {p : ℝ × ℝ} (h : ContDiffAt ℝ 2 f p) : ContDiffAt ℝ 2 (fun p => (f p).re) p :=
  Complex.reCLM.contDiff.contDiffAt.comp p h

theorem im_contDiff {f : ℝ × ℝ → ℂ} {p : ℝ × ℝ} (h : ContDiffAt ℝ 2 f p) : ContDiffAt ℝ 2 (fun p => (f p).im) p :=
  Complex.imCLM.contDiff.contDiffAt.comp p h

theorem radius_pos {p : ℝ × ℝ} (h : p ≠ (x0, y0)) : 0 < (p.1 - x0) ^ 2 + (p.2 - y0) ^ 2 := by
  rcases eq_or_ne p.1 x0 with e | e
  · have : p.2 - y0 ≠ 0 := fun e2 => h (Prod.ext e (by linarith))
    positivity
  · have : p.1 - x0 ≠ 0 := sub_ne_zero.2 e
    positivity

theorem ringData_contDiff (A : ℝ) (Q R : ℂ[X]) {p : ℝ × ℝ} (h : p ≠ (x0, y0)) : ContDiffAt ℝ 2 (fun p : ℝ × ℝ => ringData A Q R x0 y0 p.1 p.2) p := by
  have h0 := radius_pos h
  have h1 : ContDiffAt ℝ 2 (fun p : ℝ × ℝ => (p.1 - x0) ^ 2 + (p.2 - y0) ^ 2) p :=
    (((contDiff_fst.sub contDiff_const).pow 2).add ((contDiff_snd.sub contDiff_const).pow 2)).contDiffAt
  have h2 := (h1.sqrt h0.ne').log (Real.sqrt_pos.2 h0).ne'
  exact (contDiffAt_const.mul h2).add (re_contDiff (laurent_contDiff Q R h))

/-- the derivative of a Laurent polynomial is one -/
theorem laurentDeriv_eq (Q R : ℂ[X]) (x0 y0 x y : ℝ) : laurentDeriv Q R x0 y0 x y = laurent (derivative Q) (-(derivative R * X ^ 2)) x0 y0 x y := by
  simp only [laurentDeriv, laurent, eval_neg, eval_mul, eval_pow, eval_X]
  ring

/-- the gradient in closed form -/
theorem ring_grad_eq {A : ℝ} {Q R : ℂ[X]} {g1 g2 : ℝ → ℝ → ℝ} (hg : RingGradient A Q R x0 y0 g1 g2) {p : ℝ × ℝ} (h : p ≠ (x0, y0)) :
    g1 p.1 p.2 = A * ((p.1 - x0) / ((p.1 - x0) ^ 2 + (p.2 - y0) ^ 2)) + (laurentDeriv Q R x0 y0 p.1 p.2).re ∧
    g2 p.1 p.2 = A * ((p.2 - y0) / ((p.1 - x0) ^ 2 + (p.2 - y0) ^ 2)) + -(laurentDeriv Q R x0 y0 p.1 p.2).im := by
  have h' : ¬(p.1 = x0 ∧ p.2 = y0) := fun e => h (Prod.ext e.1 e.2)
  obtain ⟨u1, u2⟩ := hg _ _ h'
  obtain ⟨v1, v2⟩ := log_gradient A Q R h'
  exact ⟨u1.unique v1, u2.unique v2⟩

/-- the gradient has no divergence -/
theorem ring_harmonic (A : ℝ) (Q R : ℂ[X]) {x y : ℝ} (h : ¬(x = x0 ∧ y = y0)) :
    ∃ l, HasDerivAt (fun t => A * ((t - x0) / ((t - x0) ^ 2 + (y - y0) ^ 2)) + (laurentDeriv Q R x0 y0 t y).re) l x ∧
      HasDerivAt (fun t => A * ((t - y0) / ((x - x0) ^ 2 + (t - y0) ^ 2)) + -(laurentDeriv Q R x0 y0 x t).im) (-l) y := by
  have hp : (x - x0) ^ 2 + (y - y0) ^ 2 ≠ 0 := (radius_pos (p := (x, y)) fun e => h ⟨congrArg Prod.fst e, congrArg Prod.snd e⟩).ne'
  set Q2 := derivative Q
  set R2 := -(derivative R * X ^ 2)
  obtain ⟨a1, -⟩ := laurent_gradient Q2 R2 h
  obtain ⟨-, a2⟩ := laurent_gradient (C Complex.I * Q2) (C Complex.I * R2) h
  simp only [(laurent_mul_I Q2 R2 x0 y0 _ _).1, (laurent_mul_I Q2 R2 x0 y0 _ _).2, Complex.mul_re, Complex.mul_im, Complex.I_re, Complex.I_im, zero_mul,
    one_mul, zero_sub, zero_add] at a2
  have b1 : HasDerivAt (fun t => (t - x0) / ((t - x0) ^ 2 + (y - y0) ^ 2))
      ((1 * ((x - x0) ^ 2 + (y - y0) ^ 2) - (x - x0) * (2 * (x - x0))) / ((x - x0) ^ 2 + (y - y0) ^ 2) ^ 2) x := by
    have d1 : HasDerivAt (fun t => t - x0) 1 x := (hasDerivAt_id x).sub_const x0
    have d2 : HasDerivAt (fun t => (t - x0) ^ 2 + (y - y0) ^ 2) (2 * (x - x0)) x := by
      simpa using (d1.fun_pow 2).add_const ((y - y0) ^ 2)
    exact d1.fun_div d2 hp
  have b2 : HasDerivAt (fun t => (t - y0) / ((x - x0) ^ 2 + (t - y0) ^ 2))
      ((1 * ((x - x0) ^ 2 + (y - y0) ^ 2) - (y - y0) * (2 * (y - y0))) / ((x - x0) ^ 2 + (y - y0) ^ 2) ^ 2) y := by
    have d1 : HasDerivAt (fun t => t - y0) 1 y := (hasDerivAt_id y).sub_const y0
    have d2 : HasDerivAt (fun t => (x - x0) ^ 2 + (t - y0) ^ 2) (2 * (y - y0)) y := by
      simpa using (d1.fun_pow 2).const_add ((x - x0) ^ 2)
    exact d1.fun_div d2 hp
  simp only [laurentDeriv_eq]
  refine ⟨_, (b1.const_mul A).fun_add a1, ?_⟩
  refine ((b2.const_mul A).fun_add a2).congr_deriv ?_
  generalize (laurentDeriv Q2 R2 x0 y0 x y).re = u
  field_simp
  ring

/-! ### Green's formula -/

theorem part_x {f : ℝ × ℝ → ℝ} {p : ℝ × ℝ} (h : DifferentiableAt ℝ f p) : HasDerivAt (fun s => f (s, p.2)) (fderiv ℝ f p (1, 0)) p.1 :=
  h.hasFDerivAt.comp_hasDerivAt p.1 ((hasDerivAt_id p.1).prodMk (hasDerivAt_const p.1 p.2))

theorem part_y {f : ℝ × ℝ → ℝ} {p : ℝ × ℝ} (h : DifferentiableAt ℝ f p) : HasDerivAt (fun s => f (p.1, s)) (fderiv ℝ f p (0, 1)) p.2 :=
  h.hasFDerivAt.comp_hasDerivAt p.2 ((hasDerivAt_const p.2 p.1).prodMk (hasDerivAt_id p.2))

theorem ring_circ (A : ℝ) (Q R : ℂ[X]) {s : ℝ} (hs : 0 < s) (θ : ℝ) :
    s * ((A * ((x0 + s * Real.cos θ - x0) / ((x0 + s * Real.cos θ - x0) ^ 2 + (y0 + s * Real.sin θ - y0) ^ 2)) +
        (laurentDeriv Q R x0 y0 (x0 + s * Real.cos θ) (y0 + s * Real.sin θ)).re) * Real.cos θ +
      (A * ((y0 + s * Real.sin θ - y0) / ((x0 + s * Real.cos θ - x0) ^ 2 + (y0 + s * Real.sin θ - y0) ^ 2)) +
        -(laurentDeriv Q R x0 y0 (x0 + s * Real.cos θ) (y0 + s * Real.sin θ)).im) * Real.sin θ) =
      A + (laurent (X * derivative Q) (-(X * derivative R)) x0 y0 (x0 + s * Real.cos θ) (y0 + s * Real.sin θ)).re := by
  have hr : (x0 + s * Real.cos θ - x0) ^ 2 + (y0 + s * Real.sin θ - y0) ^ 2 = s ^ 2 := by
    linear_combination s ^ 2 * Real.sin_sq_add_cos_sq θ
  have hl : laurent (X * derivative Q) (-(X * derivative R)) x0 y0 (x0 + s * Real.cos θ) (y0 + s * Real.sin θ) =
      ⟨s * Real.cos θ, s * Real.sin θ⟩ * laurentDeriv Q R x0 y0 (x0 + s * Real.cos θ) (y0 + s * Real.sin θ) := by
    have hw : (⟨s * Real.cos θ, s * Real.sin θ⟩ : ℂ) ≠ 0 := by
      have := point_ne (x0 := x0) (y0 := y0) (p := (x0 + s * Real.cos θ, y0 + s * Real.sin θ))
        (fun e => circle_off (x0 := x0) (y0 := y0) hs θ ⟨congrArg Prod.fst e, congrArg Prod.snd e⟩)
      simpa using this
    simp only [laurent, laurentDeriv, eval_mul, eval_X, eval_neg, add_sub_cancel_left]
    field_simp
    ring
  rw [hl, Complex.mul_re]
  simp only [hr]
  have := Real.sin_sq_add_cos_sq θ
  field_simp
  linear_combination A * s * this

/-- Green's formula for a harmonic function and any smooth function -/
theorem ring_green (ha : 0 < a) (hab : a < b) {A : ℝ} {Q R : ℂ[X]} {g1 g2 ψ k1 k2 : ℝ → ℝ → ℝ} (hg : RingGradient A Q R x0 y0 g1 g2)
    (c3 : ∀ p, p ≠ (x0, y0) → ContDiffAt ℝ 2 (fun p : ℝ × ℝ => ψ p.1 p.2) p)
    (hk : ∀ x y, ¬(x = x0 ∧ y = y0) → HasDerivAt (fun t => ψ t y) (k1 x y) x ∧ HasDerivAt (fun t => ψ x t) (k2 x y) y) :
    ringEnergy x0 y0 a b g1 g2 k1 k2 =
      (∫ θ in -Real.pi..Real.pi, (A + (laurent (X * derivative Q) (-(X * derivative R)) x0 y0 (x0 + b * Real.cos θ) (y0 + b * Real.sin θ)).re) *
        ψ (x0 + b * Real.cos θ) (y0 + b * Real.sin θ)) -
      ∫ θ in -Real.pi..Real.pi, (A + (laurent (X * derivative Q) (-(X * derivative R)) x0 y0 (x0 + a * Real.cos θ) (y0 + a * Real.sin θ)).re) *
        ψ (x0 + a * Real.cos θ) (y0 + a * Real.sin θ) := by
  set G1 : ℝ → ℝ → ℝ := fun x y => A * ((x - x0) / ((x - x0) ^ 2 + (y - y0) ^ 2)) + (laurentDeriv Q R x0 y0 x y).re with hG1
  set G2 : ℝ → ℝ → ℝ := fun x y => A * ((y - y0) / ((x - x0) ^ 2 + (y - y0) ^ 2)) + -(laurentDeriv Q R x0 y0 x y).im with hG2
  have cq : ∀ p : ℝ × ℝ, ContDiffAt ℝ 2 (fun p : ℝ × ℝ => (p.1 - x0) ^ 2 + (p.2 - y0) ^ 2) p := fun p =>
    (((contDiff_fst.sub contDiff_const).pow 2).add ((contDiff_snd.sub contDiff_const).pow 2)).contDiffAt
  have c1 : ∀ p, p ≠ (x0, y0) → ContDiffAt ℝ 2 (fun p : ℝ × ℝ => G1 p.1 p.2) p := fun p hp => by
    have := re_contDiff (laurent_contDiff (derivative Q) (-(derivative R * X ^ 2)) hp)
    simp only [← laurentDeriv_eq] at this
    exact (contDiffAt_const.mul ((contDiff_fst.sub contDiff_const).contDiffAt.div (cq p) (radius_pos hp).ne')).add this
  have c2 : ∀ p, p ≠ (x0, y0) → ContDiffAt ℝ 2 (fun p : ℝ × ℝ => G2 p.1 p.2) p := fun p hp => by
    have := im_contDiff (laurent_contDiff (derivative Q) (-(derivative R * X ^ 2)) hp)
    simp only [← laurentDeriv_eq] at this
    exact (contDiffAt_const.mul ((contDiff_snd.sub contDiff_const).contDiffAt.div (cq p) (radius_pos hp).ne')).add this.neg
  have hdiv := ring_divergence x0 y0 ha hab (F := fun p => G1 p.1 p.2 * ψ p.1 p.2)
    (G := fun p => G2 p.1 p.2 * ψ p.1 p.2) (fun p hp => (c1 p hp).mul (c3 p hp)) (fun p hp => (c2 p hp).mul (c3 p hp))
    (D := fun p => g1 p.1 p.2 * k1 p.1 p.2 + g2 p.1 p.2 * k2 p.1 p.2) (fun p hp => by
      have h' : ¬(p.1 = x0 ∧ p.2 = y0) := fun e => hp (Prod.ext e.1 e.2)
      obtain ⟨l, d1, d2⟩ := ring_harmonic A Q R h'
      obtain ⟨e1, e2⟩ := hk _ _ h'
      obtain ⟨q1, q2⟩ := ring_grad_eq hg hp
      have r1 := (part_x (((c1 p hp).mul (c3 p hp)).differentiableAt (by norm_num))).unique (d1.fun_mul e1)
      have r2 := (part_y (((c2 p hp).mul (c3 p hp)).differentiableAt (by norm_num))).unique (d2.fun_mul e2)
      change _ = (fderiv ℝ (fun p : ℝ × ℝ => G1 p.1 p.2 * ψ p.1 p.2) p) (1, 0) +
        (fderiv ℝ (fun p : ℝ × ℝ => G2 p.1 p.2 * ψ p.1 p.2) p) (0, 1)
      refine Eq.trans ?_ (congrArg₂ (· + ·) r1.symm r2.symm)
      simp only [q1, q2]
      ring)
  rw [ringEnergy, hdiv]
  congr 1 <;> refine intervalIntegral.integral_congr fun θ _ => ?_
  · rw [← ring_circ A Q R (ha.trans hab) θ]
    ring
  · rw [← ring_circ A Q R ha θ]
    ring

/-! ### the sums are exact -/

theorem trig_mem (X Y : ℕ → ℝ) (d : ℕ) : (fun θ : ℝ => ((trig X Y (d + 1) (2 * Real.pi) θ : ℝ) : ℂ)) ∈ trigSpan d := by
  have hc : ∀ k ≤ d, (fun θ : ℝ => ((Real.cos (k * θ) : ℝ) : ℂ)) ∈ trigSpan d := by
    intro k hk
    have h1 := trigSpan_exp (d := d) (k := k) (by rw [Nat.abs_cast]; exact_mod_cast hk)
    have h2 := trigSpan_exp (d := d) (k := -k) (by rw [abs_neg, Nat.abs_cast]; exact_mod_cast hk)
    convert (trigSpan d).smul_mem (1 / 2 : ℂ) ((trigSpan d).add_mem h1 h2) using 1
    funext θ
    simp only [Pi.smul_apply, Pi.add_apply, smul_eq_mul, Complex.ofReal_cos, Complex.cos]
    push_cast
    rw [show -((k : ℂ) * θ) * Complex.I = -(k : ℂ) * θ * Complex.I by ring]
    ring
  have hs : ∀ k ≤ d, (fun θ : ℝ => ((Real.sin (k * θ) : ℝ) : ℂ)) ∈ trigSpan d := by
    intro k hk
    have h1 := trigSpan_exp (d := d) (k := k) (by rw [Nat.abs_cast]; exact_mod_cast hk)
    have h2 := trigSpan_exp (d := d) (k := -k) (by rw [abs_neg, Nat.abs_cast]; exact_mod_cast hk)
    convert (trigSpan d).smul_mem (Complex.I / 2 : ℂ) ((trigSpan d).sub_mem h2 h1) using 1
    funext θ
    simp only [Pi.smul_apply, Pi.sub_apply, smul_eq_mul, Complex.ofReal_sin, Complex.sin]
    push_cast
    rw [show -((k : ℂ) * θ) * Complex.I = -(k : ℂ) * θ * Complex.I by ring]
    ring
  have e : (fun θ : ℝ => ((trig X Y (d + 1) (2 * Real.pi) θ : ℝ) : ℂ)) = ∑ k ∈ range (d + 1), (((X k : ℝ) : ℂ) • (fun θ : ℝ => ((Real.cos (k * θ) : ℝ) : ℂ)) +
      ((Y k : ℝ) : ℂ) • fun θ : ℝ => ((Real.sin (k * θ) : ℝ) : ℂ)) := by
    funext θ
    rw [trig_eq, Finset.sum_apply]
    push_cast
    refine sum_congr rfl fun k _ => ?_
    simp
  rw [e]
  refine (trigSpan d).sum_mem fun k hk => ?_
  have hk : k ≤ d := by simp only [Finset.mem_range] at hk; omega
  exact (trigSpan d).add_mem ((trigSpan d).smul_mem _ (hc k hk)) ((trigSpan d).smul_mem _ (hs k hk))

theorem trigSpan_neg {d : ℕ} {f : ℝ → ℂ} (hf : f ∈ trigSpan d) : (fun θ => f (-θ)) ∈ trigSpan d := by
  induction hf using Submodule.span_induction with
  | mem g hg =>
    obtain ⟨k, hk, rfl⟩ := hg
    convert trigSpan_exp (d := d) (k := -k) (by rwa [abs_neg]) using 1
    funext θ
    show Complex.exp _ = Complex.exp _
    congr 1
    push_cast
    ring
  | zero => exact (trigSpan d).zero_mem
  | add a b _ _ ha hb => exact (trigSpan d).add_mem ha hb
  | smul c a _ ha => exact (trigSpan d).smul_mem c ha

/-- the sums on a circle, in either direction -/
theorem ring_trapezoid {N m : ℕ} (hN : m < N) {f : ℝ → ℝ} (hf : (fun θ : ℝ => ((f θ : ℝ) : ℂ)) ∈ trigSpan m) :
    ∑ j ∈ range N, 2 * Real.pi / N * f (2 * Real.pi * j / N) = ∫ θ in -Real.pi..Real.pi, f θ ∧
    ∑ j ∈ range N, 2 * Real.pi / N * f (-(2 * Real.pi * j / N)) = ∫ θ in -Real.pi..Real.pi, f θ := by
  refine ⟨trapezoid_real hN hf, ?_⟩
  have h := trapezoid_real hN (f := fun θ => f (-θ)) (trigSpan_neg hf)
  have h2 := intervalIntegral.integral_comp_neg (a := -Real.pi) (b := Real.pi) f
  rw [neg_neg] at h2
  rw [← h2]
  exact h

/-- the boundary sum of the normal component of a field on the two circles -/
theorem ring_sums {N m : ℕ} (h : K.IsAnnulus x0 y0 a b N) (hN : m < N) {G : Sample → ℝ} {f : ℝ → ℝ → ℝ}
    (hb : ∀ j : ℕ, G (circleSample x0 y0 b N j) = f b (2 * Real.pi * j / N))
    (ha : ∀ j : ℕ, G (holeSample x0 y0 a N j) = -f a (-(2 * Real.pi * j / N)))
    (h1 : (fun θ : ℝ => ((f b θ : ℝ) : ℂ)) ∈ trigSpan m) (h2 : (fun θ : ℝ => ((f a θ : ℝ) : ℂ)) ∈ trigSpan m) :
    dot (K.cols.map G) (steps K) = (∫ θ in -Real.pi..Real.pi, f b θ) - ∫ θ in -Real.pi..Real.pi, f a θ := by
  have hl : K.cols.map G = ((List.range N).map fun j : ℕ => f b (2 * Real.pi * j / N)) ++ (List.range N).map fun j : ℕ => -f a (-(2 * Real.pi * j / N)) := by
    rw [h.cols, List.map_append, List.map_map, List.map_map]
    congr 1
    · exact List.map_congr_left fun j _ => hb j
    · exact List.map_congr_left fun j _ => ha j
  have hst : steps K = ((List.range N).map fun _ => 2 * Real.pi / N) ++ (List.range N).map fun _ => 2 * Real.pi / (N : ℝ) := by
    rw [ring_steps h, two_mul, List.replicate_add]
    simp
  have hd : dot (K.cols.map G) (steps K) =
      dot ((List.range N).map fun j : ℕ => f b (2 * Real.pi * j / N)) ((List.range N).map fun _ => 2 * Real.pi / N) +
      dot ((List.range N).map fun j : ℕ => -f a (-(2 * Real.pi * j / N))) ((List.range N).map fun _ => 2 * Real.pi / N) := by
    rw [hl, hst, dot, entrywise, List.zipWith_append (by simp), List.sum_append]
    rfl
  rw [← (ring_trapezoid hN h1).1, ← (ring_trapezoid hN h2).2, hd, dot_range, dot_range, sub_eq_add_neg, ← Finset.sum_neg_distrib]
  congr 1 <;> exact Finset.sum_congr rfl fun j _ => by ring

theorem natDegree_X_derivative {Q : ℂ[X]} {d : ℕ} (h : Q.natDegree ≤ d) : (X * derivative Q).natDegree < d + 1 := by
  rcases eq_or_ne Q.natDegree 0 with h0 | h0
  · rw [natDegree_eq_zero.1 h0 |>.choose_spec.symm]
    simp
  · have h1 := natDegree_derivative_lt h0
    have h2 := natDegree_mul_le (p := (X : ℂ[X])) (q := derivative Q)
    rw [natDegree_X] at h2
    omega

theorem ring_energy_pair {N : ℕ} (h : K.IsAnnulus x0 y0 a b N) (ha : 0 < a) (hab : a < b) {A : ℝ} {Q R : ℂ[X]} {d e : ℕ} (hde : d + e < N)
    (hQ : Q.natDegree ≤ d) (hR : R.natDegree ≤ d) {g1 g2 ψ k1 k2 : ℝ → ℝ → ℝ} (hg : RingGradient A Q R x0 y0 g1 g2)
    (hc : ∀ p, p ≠ (x0, y0) → ContDiffAt ℝ 2 (fun p : ℝ × ℝ => ψ p.1 p.2) p)
    (hk : ∀ x y, ¬(x = x0 ∧ y = y0) → HasDerivAt (fun t => ψ t y) (k1 x y) x ∧ HasDerivAt (fun t => ψ x t) (k2 x y) y)
    (ht : ∀ s, 0 < s → (fun θ : ℝ => ((ψ (x0 + s * Real.cos θ) (y0 + s * Real.sin θ) : ℝ) : ℂ)) ∈ trigSpan e) :
    pair K (K.normalOf g1 g2) (K.samplesOf ψ) = ringEnergy x0 y0 a b g1 g2 k1 k2 := by
  have hb : 0 < b := ha.trans hab
  have hflux : ∀ s θ, 0 < s → s * (g1 (x0 + s * Real.cos θ) (y0 + s * Real.sin θ) * Real.cos θ + g2 (x0 + s * Real.cos θ) (y0 + s * Real.sin θ) * Real.sin θ) =
      A + (laurent (X * derivative Q) (-(X * derivative R)) x0 y0 (x0 + s * Real.cos θ) (y0 + s * Real.sin θ)).re := by
    intro s θ hs
    obtain ⟨q1, q2⟩ := ring_grad_eq hg (p := (x0 + s * Real.cos θ, y0 + s * Real.sin θ))
      (fun e => circle_off (x0 := x0) (y0 := y0) hs θ ⟨congrArg Prod.fst e, congrArg Prod.snd e⟩)
    simp only at q1 q2
    rw [q1, q2]
    exact ring_circ A Q R hs θ
  have hQ' := natDegree_X_derivative hQ
  have hR' : (-(X * derivative R)).natDegree < d + 1 := by rw [natDegree_neg]; exact natDegree_X_derivative hR
  set u : ℝ → ℝ → ℝ := fun s θ => A + (laurent (X * derivative Q) (-(X * derivative R)) x0 y0 (x0 + s * Real.cos θ) (y0 + s * Real.sin θ)).re with hu
  have tu : ∀ s, 0 < s → (fun θ : ℝ => ((u s θ : ℝ) : ℂ)) ∈ trigSpan d := by
    intro s hs
    have e : ∀ θ, u s θ = (laurent (X * derivative Q + C (A : ℂ)) (-(X * derivative R)) x0 y0 (x0 + s * Real.cos θ) (y0 + s * Real.sin θ)).re := by
      intro θ
      simp only [hu, laurent, eval_add, eval_C, Complex.add_re, Complex.ofReal_re]
      ring
    have hlt : (X * derivative Q + C (A : ℂ)).natDegree < d + 1 :=
      lt_of_le_of_lt (natDegree_add_le _ _) (max_lt hQ' (by rw [natDegree_C]; omega))
    simp only [e, fun θ => (laurent_circle _ _ hlt hR' x0 y0 hs θ).1]
    exact trig_mem _ _ d
  have tuv : ∀ s, 0 < s → (fun θ : ℝ => ((u s θ * ψ (x0 + s * Real.cos θ) (y0 + s * Real.sin θ) : ℝ) : ℂ)) ∈ trigSpan (d + e) := by
    intro s hs
    convert trigSpan_mul (tu s hs) (ht s hs) using 1
    funext θ
    push_cast
    rfl
  rw [ring_green ha hab hg hc hk, pair, CellG.normalOf, CellG.samplesOf, List.zipWith_map_left, List.zipWith_map_right, List.zipWith_self]
  refine ring_sums h hde (f := fun s θ => u s θ * ψ (x0 + s * Real.cos θ) (y0 + s * Real.sin θ)) (fun j => ?_) (fun j => ?_) (tuv b hb) (tuv a ha)
  · simp only [circleSample, hu, ← hflux b _ hb]
    ring
  · simp only [holeSample, hu, ← hflux a _ ha, Real.cos_neg, Real.sin_neg, mul_neg, ← sub_eq_add_neg]
    ring

/-- the values of `ringData` on circles -/
theorem ringData_mem (B : ℝ) {S T : ℂ[X]} {e : ℕ} (hS : S.natDegree ≤ e) (hT : T.natDegree ≤ e) {s : ℝ} (hs : 0 < s) :
    (fun θ : ℝ => ((ringData B S T x0 y0 (x0 + s * Real.cos θ) (y0 + s * Real.sin θ) : ℝ) : ℂ)) ∈ trigSpan e := by
  simp only [fun θ => (ring_values B S T (Nat.lt_succ_of_le hS) (Nat.lt_succ_of_le hT) x0 y0 hs θ).1]
  exact trig_mem _ _ e

/-- the values on the boundary are bounded -/
theorem ringData_le (ha : 0 < a) (hab : a < b) (B : ℝ) (S T : ℂ[X]) {s : ℝ} (hs : s = a ∨ s = b) (θ : ℝ) :
    |ringData B S T x0 y0 (x0 + s * Real.cos θ) (y0 + s * Real.sin θ)| ≤ ringBound B S T a b := by
  have hb : 0 < b := ha.trans hab
  have hs0 : 0 < s := by rcases hs with rfl | rfl <;> assumption
  have hr : (x0 + s * Real.cos θ - x0) ^ 2 + (y0 + s * Real.sin θ - y0) ^ 2 = s ^ 2 := by
    linear_combination s ^ 2 * Real.sin_sq_add_cos_sq θ
  have hn : ‖(⟨s * Real.cos θ, s * Real.sin θ⟩ : ℂ)‖ = s := by
    rw [Complex.norm_def, Complex.normSq_mk, show s * Real.cos θ * (s * Real.cos θ) + s * Real.sin θ * (s * Real.sin θ) = s ^ 2 by
      linear_combination s ^ 2 * Real.sin_sq_add_cos_sq θ, Real.sqrt_sq hs0.le]
  have hpoly : ∀ (P : ℂ[X]) (w : ℂ) (ρ : ℝ), ‖w‖ ≤ ρ → ‖P.eval w‖ ≤ coeffSum P ρ := by
    intro P w ρ hw
    rw [eval_eq_sum_range, coeffSum]
    refine (norm_sum_le _ _).trans (sum_le_sum fun k _ => ?_)
    rw [norm_mul, norm_pow]
    gcongr
  rw [ringData, hr, Real.sqrt_sq hs0.le, ringBound]
  refine (abs_add_le _ _).trans (add_le_add ?_ ?_)
  · rw [abs_mul]
    refine mul_le_mul_of_nonneg_left ?_ (abs_nonneg _)
    rcases hs with rfl | rfl
    · exact le_max_left _ _
    · exact le_max_right _ _
  · refine (Complex.abs_re_le_norm _).trans ?_
    rw [laurent, ringSum, add_sub_cancel_left, add_sub_cancel_left]
    refine (norm_add_le _ _).trans (add_le_add (hpoly _ _ _ ?_) (hpoly _ _ _ ?_))
    · rw [hn]
      rcases hs with rfl | rfl
      · exact hab.le
      · exact le_rfl
    · rw [norm_inv, hn]
      rcases hs with rfl | rfl
      · exact le_rfl
      · exact (inv_le_inv₀ hb ha).2 hab.le

theorem samples_le {N : ℕ} (h : K.IsAnnulus x0 y0 a b N) (ha : 0 < a) (hab : a < b) (B : ℝ) (S T : ℂ[X]) :
    ∀ t ∈ K.samplesOf (ringData B S T x0 y0), |t| ≤ ringBound B S T a b := by
  intro t ht
  rw [CellG.samplesOf, h.cols, List.map_append, List.mem_append, List.map_map, List.map_map] at ht
  rcases ht with ht | ht
  · obtain ⟨j, -, rfl⟩ := List.mem_map.1 ht
    exact ringData_le ha hab B S T (.inr rfl) _
  · obtain ⟨j, -, rfl⟩ := List.mem_map.1 ht
    have := ringData_le (x0 := x0) (y0 := y0) ha hab B S T (.inl rfl) (-(2 * Real.pi * j / N))
    simpa only [Real.cos_neg, Real.sin_neg, mul_neg, ← sub_eq_add_neg, Function.comp_apply, holeSample] using this

theorem pair_within {ε M c : ℝ} (hc : 0 ≤ c) : ∀ {w w' v st : List ℝ}, Within ε w w' → w.length = v.length → w.length = st.length → (∀ t ∈ v, |t| ≤ M) →
    (∀ t ∈ st, t = c) → |dot (List.zipWith (· * ·) w v) st - dot (List.zipWith (· * ·) w' v) st| ≤ w.length * (ε * M * c)
  | [], _, _, _, h, _, _, _, _ => by
    cases h
    simp [dot, entrywise]
  | x :: w, _, [], _, _, hv, _, _, _ => by simp at hv
  | x :: w, _, _ :: _, [], _, _, hs, _, _ => by simp at hs
  | x :: w, _, t :: v, s :: st, h, hv, hs, hM, hst => by
    cases h with
    | cons h0 h1 =>
      have ih := pair_within hc h1 (by simpa using hv) (by simpa using hs) (fun t ht => hM t (List.mem_cons_of_mem _ ht))
        (fun t ht => hst t (List.mem_cons_of_mem _ ht))
      have hs0 := hst s (by simp)
      have ht0 := hM t (by simp)
      subst hs0
      rename_i y w'
      simp only [dot, entrywise, List.zipWith_cons_cons, List.sum_cons, List.length_cons] at ih ⊢
      rw [show ∀ p q : ℝ, x * t * s + p - (y * t * s + q) = (x - y) * t * s + (p - q) by intros; ring]
      refine (abs_add_le _ _).trans ?_
      have : |(x - y) * t * s| ≤ ε * M * s := by
        rw [abs_mul, abs_mul, abs_of_nonneg hc]
        exact mul_le_mul_of_nonneg_right (mul_le_mul h0 ht0 (abs_nonneg _) ((abs_nonneg _).trans h0)) hc
      push_cast
      linarith

/-- C132: on a ring `h1_semi_inner_prod(u, v, K)` of two harmonic functions: `u` has been made by `LocalHarmonic` from the boundary values of
`A log |w| + Re (Q(w) + R(1/w))`, `v` has the boundary values of such a function with `B`, `S`, `T`.  The result differs from the area integral over the
ring of the inner product of the gradients of these two functions by at most `4π` times the error of the normal derivative (C131) times a bound for
the second function on the boundary. -/
theorem C132_energy {gmres : Gmres} {tol : List ℝ → ℝ} (hg : ResidualWithin gmres tol) (h : K.IsAnnulus x0 y0 a b (2 * n)) (ha : 1 / 10 ^ 14 ≤ a)
    (hab : a < b) (h4 : 4 ≤ n) (hn : n ≤ 2 * 10 ^ 7) (hs : 4 * ringConst a b * (a / b) ^ (2 * n) ≤ 1) {strategy pc : String} {s : Nystrom.Solver}
    (hi : init gmres K strategy pc = .ok s) {A B : ℝ} {Q R S T : ℂ[X]} {d e : ℕ} (hd : d < n) (he : e < n) (hQ : Q.natDegree ≤ d)
    (hR : R.natDegree ≤ d) (hS : S.natDegree ≤ e) (hT : T.natDegree ≤ e)
    {g1 g2 k1 k2 : ℝ → ℝ → ℝ} (hgr : RingGradient A Q R x0 y0 g1 g2) (hkr : RingGradient B S T x0 y0 k1 k2) {t : Trace} (ht : t.On K.getEdges)
    (hv : t.values = some (K.samplesOf (ringData A Q R x0 y0))) {u v : LocHarm} (hu : LocHarm.init gmres t (some s) = .ok u)
    (hvv : v.trace.values = some (K.samplesOf (ringData B S T x0 y0))) :
    ∃ (rhs : List ℝ) (I : ℝ), rhs.length = K.numPts + 1 ∧
      (∀ t ∈ rhs, |t| ≤ (3 + 5 * ((a / b) ^ (2 * n - d) / (1 - a / b))) * ringSum Q R a b + 2 * Real.pi * |A| * Real.log (b / a)) ∧
      h1 (.harm u) (.harm v) K = .ok I ∧
      |I - ringEnergy x0 y0 a b g1 g2 k1 k2| ≤ 4 * Real.pi * ringBound B S T a b *
        (Real.sqrt K.numPts * K.numPts / 2 * (ringConst a b * (tol rhs + 5 * ((a / b) ^ (2 * n - d) / (1 - a / b)) * ringSum Q R a b)) +
          tol rhs / (2 * Real.pi * Real.log (b / a))) := by
  have ha0 : 0 < a := lt_of_lt_of_le (by positivity) ha
  obtain ⟨rhs, α, w, r1, r2, -, -, -, hw, hW⟩ := C131_normal hg h ha hab h4 hn hs hi hd hQ hR hgr ht hv hu
  have hwl : w.length = K.numPts := by rw [List.Forall₂.length_eq hW, CellG.normalOf, List.length_map, h.ready.numPts]
  have hsl : (K.samplesOf (ringData B S T x0 y0)).length = K.numPts := by rw [CellG.samplesOf, List.length_map, h.ready.numPts]
  refine ⟨rhs, pair K w (K.samplesOf (ringData B S T x0 y0)), r1, r2, ?_, ?_⟩
  · have := pair_ok h.ready h.edges_ne hwl hsl
    simp only [h1, h1HarmHarm, hw, hvv]
    exact this
  · rw [← ring_energy_pair h ha0 hab (d := d) (e := e) (by omega) hQ hR hgr (fun p hp => ringData_contDiff B S T hp) hkr (fun s hs => ringData_mem B hS hT hs)]
    have hN : (0 : ℝ) < ((2 * n : ℕ) : ℝ) := by exact_mod_cast (by omega : 0 < 2 * n)
    refine (pair_within (c := 2 * Real.pi / (2 * n : ℕ)) (by positivity) hW (hwl.trans hsl.symm) (by rw [hwl, ring_steps h, List.length_replicate, h.numPts])
      (samples_le h ha0 hab B S T) (fun t ht => by rw [ring_steps h] at ht; exact List.eq_of_mem_replicate ht)).trans ?_
    rw [hwl]
    generalize Real.sqrt K.numPts * K.numPts / 2 * _ + _ = E
    rw [h.numPts]
    apply le_of_eq
    push_cast at hN ⊢
    field_simp
    ring

/-- C132: … and of a harmonic function and a polynomial.  The polynomial need not be harmonic. -/
theorem C132_mixed {gmres : Gmres} {tol : List ℝ → ℝ} (hg : ResidualWithin gmres tol) (h : K.IsAnnulus x0 y0 a b (2 * n)) (ha : 1 / 10 ^ 14 ≤ a)
    (hab : a < b) (h4 : 4 ≤ n) (hn : n ≤ 2 * 10 ^ 7) (hs : 4 * ringConst a b * (a / b) ^ (2 * n) ≤ 1) {strategy pc : String} {s : Nystrom.Solver}
    (hi : init gmres K strategy pc = .ok s) {A : ℝ} {Q R : ℂ[X]} {d e : ℕ} (hd : d < n) (he : e ≤ n) (hQ : Q.natDegree ≤ d) (hR : R.natDegree ≤ d)
    {P : Poly ℝ} (hP : ∀ m ∈ P, m.alpha.x + m.alpha.y ≤ e)
    {g1 g2 k1 k2 : ℝ → ℝ → ℝ} (hgr : RingGradient A Q R x0 y0 g1 g2) (hkr : HasGradOn Set.univ P.eval k1 k2) {M : ℝ}
    (hM : ∀ t ∈ K.samplesOf P.eval, |t| ≤ M) {t : Trace} (ht : t.On K.getEdges)
    (hv : t.values = some (K.samplesOf (ringData A Q R x0 y0))) {u : LocHarm} (hu : LocHarm.init gmres t (some s) = .ok u)
    {q : LocPoly} (hq : LocPoly.init P (some K) = .ok q) :
    ∃ (rhs : List ℝ) (I : ℝ), rhs.length = K.numPts + 1 ∧
      (∀ t ∈ rhs, |t| ≤ (3 + 5 * ((a / b) ^ (2 * n - d) / (1 - a / b))) * ringSum Q R a b + 2 * Real.pi * |A| * Real.log (b / a)) ∧
      h1 (.harm u) (.poly q) K = .ok I ∧ h1 (.poly q) (.harm u) K = .ok I ∧
      |I - ringEnergy x0 y0 a b g1 g2 k1 k2| ≤ 4 * Real.pi * M *
        (Real.sqrt K.numPts * K.numPts / 2 * (ringConst a b * (tol rhs + 5 * ((a / b) ^ (2 * n - d) / (1 - a / b)) * ringSum Q R a b)) +
          tol rhs / (2 * Real.pi * Real.log (b / a))) := by
  have ha0 : 0 < a := lt_of_lt_of_le (by positivity) ha
  obtain ⟨rhs, α, w, r1, r2, -, -, -, hw, hW⟩ := C131_normal hg h ha hab h4 hn hs hi hd hQ hR hgr ht hv hu
  have hwl : w.length = K.numPts := by rw [List.Forall₂.length_eq hW, CellG.normalOf, List.length_map, h.ready.numPts]
  have hsl : (K.samplesOf P.eval).length = K.numPts := by rw [CellG.samplesOf, List.length_map, h.ready.numPts]
  have hPe : PolyFn e P.eval := PolyFn.ofPoly fun m hm => by
    have := hP m hm
    simp only [MultiIndex.order]
    exact_mod_cast this
  have hI : h1HarmPoly u q K = .ok (pair K w (K.samplesOf P.eval)) := by
    rw [polyPart_init h.ready] at hq
    cases hq
    have := pair_ok h.ready h.edges_ne hwl hsl
    simp only [h1HarmPoly, hw, polyPart]
    exact this
  refine ⟨rhs, pair K w (K.samplesOf P.eval), r1, r2, hI, hI, ?_⟩
  rw [← ring_energy_pair h ha0 hab (d := d) (e := e) (by omega) hQ hR hgr (fun p _ => hPe.contDiff.contDiffAt) (fun x y _ => hkr x y trivial)
    (fun s _ => hPe.trig x0 y0 s)]
  have hN : (0 : ℝ) < ((2 * n : ℕ) : ℝ) := by exact_mod_cast (by omega : 0 < 2 * n)
  refine (pair_within (c := 2 * Real.pi / (2 * n : ℕ)) (by positivity) hW (hwl.trans hsl.symm) (by rw [hwl, ring_steps h, List.length_replicate, h.numPts])
    hM (fun t ht => by rw [ring_steps h] at ht; exact List.eq_of_mem_replicate ht)).trans ?_
  rw [hwl]
  generalize Real.sqrt K.numPts * K.numPts / 2 * _ + _ = E
  rw [h.numPts]
  apply le_of_eq
  push_cast at hN ⊢
  field_simp
  ring

/-- sums with the weights of the cell -/
theorem ring_weighted {N : ℕ} (h : K.IsAnnulus x0 y0 a b N) (G : Sample → ℝ) :
    dot (K.cols.map G) (cellWeights K) = dot (K.cols.map fun s => G s * s.dxNorm) (steps K) := by
  have hst : steps K = ((List.range N).map fun _ => 2 * Real.pi / N) ++ (List.range N).map fun _ => 2 * Real.pi / (N : ℝ) := by
    rw [ring_steps h, two_mul, List.replicate_add]
    simp
  have hwt : cellWeights K = ((List.range N).map fun _ => 2 * Real.pi / N * b) ++ (List.range N).map fun _ => 2 * Real.pi / (N : ℝ) * a := by
    rw [ring_weights h]
    simp
  rw [hst, hwt, h.cols, List.map_append, List.map_append, dot, dot, entrywise, entrywise, List.zipWith_append (by simp), List.zipWith_append (by simp),
    List.sum_append, List.sum_append]
  simp only [List.map_map]
  refine congrArg₂ (· + ·) ?_ ?_
  · refine (dot_range N _ _).trans (Eq.trans ?_ (dot_range N _ _).symm)
    refine Finset.sum_congr rfl fun j _ => ?_
    simp only [Function.comp_apply, circleSample]
    ring
  · refine (dot_range N _ _).trans (Eq.trans ?_ (dot_range N _ _).symm)
    refine Finset.sum_congr rfl fun j _ => ?_
    simp only [Function.comp_apply, holeSample]
    ring

/-- C132: `integrate_poly_over_mesh_cell` is exact on a ring with more samples on each circle than the degree plus two. -/
theorem C132_integral {N : ℕ} (h : K.IsAnnulus x0 y0 a b N) (ha : 0 < a) (hab : a < b) {P : Poly ℝ} {m : ℕ} (hm : m + 2 < N)
    (hP : ∀ c ∈ P, c.alpha.x + c.alpha.y ≤ m) : integratePoly P K = .ok (∫ z in ring x0 y0 a b, P.eval z.1 z.2) := by
  have hR : PolyFn m (radial P) := radial_poly fun c hc => by
    have := hP c hc
    simp only [MultiIndex.order]
    exact_mod_cast this
  have hF : PolyFn (m + 1) fun x y => x * radial P x y := (PolyFn.x.mul hR).mono (by omega)
  have hG : PolyFn (m + 1) fun x y => y * radial P x y := (PolyFn.y.mul hR).mono (by omega)
  have dF := hF.contDiff.differentiable (by norm_num)
  have dG := hG.contDiff.differentiable (by norm_num)
  have hmem : ∀ s : ℝ, (fun θ : ℝ => ((s * ((x0 + s * Real.cos θ) * radial P (x0 + s * Real.cos θ) (y0 + s * Real.sin θ) * Real.cos θ +
      (y0 + s * Real.sin θ) * radial P (x0 + s * Real.cos θ) (y0 + s * Real.sin θ) * Real.sin θ) : ℝ) : ℂ)) ∈ trigSpan (m + 2) := by
    intro s
    have h1 := trigSpan_mul (hF.trig x0 y0 s) trigSpan_cos
    have h2 := trigSpan_mul (hG.trig x0 y0 s) trigSpan_sin
    convert (trigSpan (m + 2)).smul_mem (s : ℂ) ((trigSpan (m + 2)).add_mem h1 h2) using 1
    funext θ
    simp
  have hdiv := ring_divergence x0 y0 ha hab (fun p _ => hF.contDiff.contDiffAt) (fun p _ => hG.contDiff.contDiffAt)
    (D := fun p => P.eval p.1 p.2) fun p _ => by
      obtain ⟨d1, d2, q1, q2, q3⟩ := C17_divergence P p.1 p.2
      rw [← q3, q1.unique (fderiv_x dF p.1 p.2), q2.unique (fderiv_y dG p.1 p.2)]
  rw [integratePoly_ok h.ready h.edges_ne, ring_weighted h, hdiv]
  congr 1
  refine ring_sums h hm (f := fun s θ => s * ((x0 + s * Real.cos θ) * radial P (x0 + s * Real.cos θ) (y0 + s * Real.sin θ) * Real.cos θ +
      (y0 + s * Real.sin θ) * radial P (x0 + s * Real.cos θ) (y0 + s * Real.sin θ) * Real.sin θ)) (fun j => ?_) (fun j => ?_) (hmem b) (hmem a)
  · simp only [circleSample]
    ring
  · simp only [holeSample, Real.cos_neg, Real.sin_neg, mul_neg, ← sub_eq_add_neg]
    ring

/-- C132: both inner products of two polynomials are exact on a ring, if the coefficients are multiples of numbers `δ` and `ε` such that no product is
dropped as too small (see C05). -/
theorem C132_polys {N : ℕ} (h : K.IsAnnulus x0 y0 a b N) (ha : 0 < a) (hab : a < b) {p q : Poly ℝ} {m : ℕ} (hm : 2 * m + 2 < N)
    (dp : ∀ c ∈ p, c.alpha.x + c.alpha.y ≤ m) (dq : ∀ c ∈ q, c.alpha.x + c.alpha.y ≤ m) (cp : ∀ c ∈ p, (1 / 10 ^ 12 : ℝ) ≤ |c.coef|)
    (cq : ∀ c ∈ q, (1 / 10 ^ 12 : ℝ) ≤ |c.coef|) {δ ε : ℝ} (hp : Poly.OnLattice δ p) (hq : Poly.OnLattice ε q) (hδ : 1 / 10 ^ 12 ≤ δ * ε)
    {f g : LocPoly} (hf : LocPoly.init p (some K) = .ok f) (hg : LocPoly.init q (some K) = .ok g) {p1 p2 q1 q2 : ℝ → ℝ → ℝ}
    (gp : HasGradOn Set.univ p.eval p1 p2) (gq : HasGradOn Set.univ q.eval q1 q2) :
    h1 (.poly f) (.poly g) K = .ok (ringEnergy x0 y0 a b p1 p2 q1 q2) ∧
    l2 (.poly f) (.poly g) K = .ok (∫ z in ring x0 y0 a b, p.eval z.1 z.2 * q.eval z.1 z.2) := by
  rw [polyPart_init h.ready] at hf hg
  cases hf
  cases hg
  have D : ∀ w : Poly ℝ, (∀ c ∈ w, c.alpha.x + c.alpha.y ≤ m) → Poly.DegLe (m : ℤ) w := fun w hw c hc => by
    have := hw c hc
    simp only [MultiIndex.order]
    exact_mod_cast this
  have dp' := D p dp
  have dq' := D q dq
  obtain ⟨l1, l2⟩ := lattice_dx hp
  obtain ⟨r1, r2⟩ := lattice_dx hq
  obtain ⟨m0, f0, -, g0⟩ := mul_lattice hδ hp hq
  obtain ⟨m1, f1, l1', g1⟩ := mul_lattice hδ l1 r1
  obtain ⟨m2, f2, l2', g2⟩ := mul_lattice hδ l2 r2
  have hint : ∀ w : Poly ℝ, Poly.DegLe ((m + m : ℕ) : ℤ) w → integratePoly w K = .ok (∫ z in ring x0 y0 a b, w.eval z.1 z.2) := by
    intro w hw
    refine C132_integral h ha hab (m := m + m) (by omega) fun c hc => ?_
    have := hw c hc
    simp only [MultiIndex.order] at this
    exact_mod_cast this
  have dm : ∀ {u v w : Poly ℝ}, u.mul v = .ok w → Poly.DegLe (m : ℤ) u → Poly.DegLe (m : ℤ) v → Poly.DegLe ((m + m : ℕ) : ℤ) w := by
    intro u v w e hu hv
    rw [Poly.mul_eq] at e
    cases e
    push_cast
    exact Poly.deg_mulP hu hv
  have dd : ∀ {w : Poly ℝ}, Poly.DegLe (m : ℤ) w → Poly.DegLe (m : ℤ) (Poly.nz (w.map Mono.dx)) ∧ Poly.DegLe (m : ℤ) (Poly.nz (w.map Mono.dy)) :=
    fun hw => ⟨Poly.deg_mono (by omega) (Poly.deg_dx hw), Poly.deg_mono (by omega) (Poly.deg_dy hw)⟩
  have dsum : Poly.DegLe ((m + m : ℕ) : ℤ) (m1.add m2) := by
    rw [Poly.add_eq]
    exact Poly.deg_consolidate (Poly.deg_nz (Poly.deg_append (dm f1 (dd dp').1 (dd dq').1) (dm f2 (dd dp').2 (dd dq').2)))
  constructor
  · have e : h1 (.poly (polyPart K p)) (.poly (polyPart K q)) K = integratePoly (m1.add m2) K := by
      simp only [h1, h1PolyPoly, polyPart, Trace.attr, py_ok_bind, f1, f2]
    rw [e, hint _ dsum, ringEnergy]
    congr 2
    funext z
    obtain ⟨u1, u2⟩ := gp z.1 z.2 trivial
    obtain ⟨v1, v2⟩ := gq z.1 z.2 trivial
    rw [(C05_exact m1 m2 _ hδ l1' l2' _ _).1, g1, g2, u1.unique (Poly.hasDerivAt_dx cp z.1 z.2), u2.unique (Poly.hasDerivAt_dy cp z.1 z.2),
      v1.unique (Poly.hasDerivAt_dx cq z.1 z.2), v2.unique (Poly.hasDerivAt_dy cq z.1 z.2)]
  · have e : PFEM.l2 (.poly (polyPart K p)) (.poly (polyPart K q)) K = integratePoly m0 K := by
      simp only [PFEM.l2, l2PolyPoly, polyPart, py_ok_bind, f0]
    rw [e, hint _ (dm f0 dp' dq')]
    simp only [g0]

end PFEM
