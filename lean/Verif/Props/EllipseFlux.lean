import Verif.Lemmas.EllipseIntegral
import Verif.Props.AntilapStable
import Verif.Props.EllipseCell
import Verif.Props.DiscInner

/-!
Property theorem C119, first part: integrals of polynomials over ellipses are exact; boundary sums on ellipses.
-/

namespace PFEM
open Nystrom Antilap Poly MeasureTheory

namespace CellG.IsEllipse
variable {K : CellG} {x0 y0 a b : ℝ} {N : ℕ}

theorem steps (h : K.IsEllipse x0 y0 a b N) : steps K = (List.range N).map fun _ => 2 * Real.pi / N := by
  obtain ⟨c, e, h1, h2, -, h4⟩ := h.ellipse
  simp only [PFEM.steps, h1, List.flatMap_cons, List.flatMap_nil, List.append_nil, ContourG.cols, h2, h4, List.map_map, List.length_map,
    List.length_range, List.length_singleton, Nat.cast_one, mul_one]
  rfl

theorem weights (h : K.IsEllipse x0 y0 a b N) : cellWeights K = (List.range N).map fun j => 2 * Real.pi / N * (ellipseSample x0 y0 a b N j).dxNorm := by
  obtain ⟨c, e, h1, h2, -, h4⟩ := h.ellipse
  simp only [cellWeights, h1, List.flatMap_cons, List.flatMap_nil, List.append_nil, ContourG.cols, h2, h4, List.map_map, List.length_map,
    List.length_range, List.length_singleton, Nat.cast_one, mul_one]
  rfl

theorem oneEdge (h : K.IsEllipse x0 y0 a b N) : K.getEdges.length = 1 := by
  obtain ⟨c, e, h1, h2, -⟩ := h.ellipse
  simp [CellG.getEdges, h1, h2]

theorem bounded (h : K.IsEllipse x0 y0 a b N) (ha : 0 < a) (hb : 0 < b) : K.BoundedBy (max |x0| |y0| + max a b) (max a b) := by
  have key : ∀ z ∈ K.cols, ∃ j, z = ellipseSample x0 y0 a b N j := by
    intro z hz
    rw [h.cols] at hz
    obtain ⟨j, -, rfl⟩ := List.mem_map.1 hz
    exact ⟨j, rfl⟩
  have hA : a ≤ max a b := le_max_left _ _
  have hB : b ≤ max a b := le_max_right _ _
  have hx0 : |x0| ≤ max |x0| |y0| := le_max_left _ _
  have hy0 : |y0| ≤ max |x0| |y0| := le_max_right _ _
  have cs : ∀ c t A : ℝ, 0 < c → c ≤ A → |t| ≤ 1 → |c * t| ≤ A := by
    intro c t A h1 h2 h3
    rw [abs_mul, abs_of_pos h1]
    nlinarith [abs_nonneg t]
  have hq : ∀ t : ℝ, a ^ 2 * Real.sin t ^ 2 ≤ Real.sqrt (a ^ 2 * Real.sin t ^ 2 + b ^ 2 * Real.cos t ^ 2) ^ 2 ∧
      b ^ 2 * Real.cos t ^ 2 ≤ Real.sqrt (a ^ 2 * Real.sin t ^ 2 + b ^ 2 * Real.cos t ^ 2) ^ 2 ∧
      0 < Real.sqrt (a ^ 2 * Real.sin t ^ 2 + b ^ 2 * Real.cos t ^ 2) := by
    intro t
    have hp := ellipse_pos ha hb t
    rw [Real.sq_sqrt hp.le]
    exact ⟨by linarith [show 0 ≤ b ^ 2 * Real.cos t ^ 2 by positivity], by linarith [show 0 ≤ a ^ 2 * Real.sin t ^ 2 by positivity],
      Real.sqrt_pos.2 hp⟩
  have d1 : ∀ t : ℝ, |a * Real.sin t / Real.sqrt (a ^ 2 * Real.sin t ^ 2 + b ^ 2 * Real.cos t ^ 2)| ≤ 1 := by
    intro t
    obtain ⟨h1, -, h3⟩ := hq t
    rw [abs_div, abs_of_pos h3, div_le_one h3]
    exact abs_le_of_sq_le_sq (by rw [mul_pow]; exact h1) h3.le
  have d2 : ∀ t : ℝ, |b * Real.cos t / Real.sqrt (a ^ 2 * Real.sin t ^ 2 + b ^ 2 * Real.cos t ^ 2)| ≤ 1 := by
    intro t
    obtain ⟨-, h1, h3⟩ := hq t
    rw [abs_div, abs_of_pos h3, div_le_one h3]
    exact abs_le_of_sq_le_sq (by rw [mul_pow]; exact h1) h3.le
  refine ⟨fun z hz => ?_, fun z hz => ?_, fun z hz => ?_, fun z hz => ?_, fun z hz => ?_, fun z hz => ?_, fun z hz => ?_⟩ <;>
    obtain ⟨j, rfl⟩ := key z hz <;> simp only [ellipseSample]
  · exact (abs_add_le _ _).trans (add_le_add hx0 (cs _ _ _ ha hA (Real.abs_cos_le_one _)))
  · exact (abs_add_le _ _).trans (add_le_add hy0 (cs _ _ _ hb hB (Real.abs_sin_le_one _)))
  · rw [abs_of_nonneg (Real.sqrt_nonneg _), Real.sqrt_le_left (ha.le.trans hA)]
    have h1 := Real.sin_sq_add_cos_sq (2 * Real.pi * j / N)
    have h2 : a ^ 2 ≤ max a b ^ 2 := pow_le_pow_left₀ ha.le hA 2
    have h3 : b ^ 2 ≤ max a b ^ 2 := pow_le_pow_left₀ hb.le hB 2
    nlinarith [sq_nonneg (Real.sin (2 * Real.pi * j / N)), sq_nonneg (Real.cos (2 * Real.pi * j / N))]
  · rw [neg_mul, neg_div, abs_neg]
    exact d1 _
  · exact d2 _
  · exact d2 _
  · exact d1 _

end CellG.IsEllipse

/-- derivatives along the ellipse -/
theorem ellipse_param (a b t : ℝ) : HasDerivAt (fun s : ℝ => (⟨a * Real.cos s, b * Real.sin s⟩ : ℂ)) (⟨-(a * Real.sin t), b * Real.cos t⟩ : ℂ) t := by
  have e : (fun s : ℝ => (⟨a * Real.cos s, b * Real.sin s⟩ : ℂ)) = fun s : ℝ => ((a * Real.cos s : ℝ) : ℂ) + ((b * Real.sin s : ℝ) : ℂ) * Complex.I := by
    funext s; apply Complex.ext <;> simp [-Complex.ofReal_mul]
  rw [e]
  have h1 := ((Real.hasDerivAt_cos t).const_mul a).ofReal_comp
  have h2 := (((Real.hasDerivAt_sin t).const_mul b).ofReal_comp).mul_const Complex.I
  refine (h1.fun_add h2).congr_deriv ?_
  apply Complex.ext
  · simp [-Complex.ofReal_mul, -Complex.ofReal_neg, -mul_neg]
    ring
  · simp [-Complex.ofReal_mul, -Complex.ofReal_neg, -mul_neg]

open Polynomial in
/-- real and imaginary parts of polynomials are resolved along an ellipse -/
theorem ellipse_trig {K : CellG} {x0 y0 a b : ℝ} {N : ℕ} (h : K.IsEllipse x0 y0 a b N) (ha : 0 < a) (hb : 0 < b) {c : ContourG}
    (hc : K.components = [c]) (Q : ℂ[X]) (hd : 2 * Q.natDegree < N) :
    TrigAlong c (rePoly Q x0 y0) (rePoly (derivative Q) x0 y0) (fun x y => -imPoly (derivative Q) x0 y0 x y) ∧
    TrigAlong c (imPoly Q x0 y0) (imPoly (derivative Q) x0 y0) (rePoly (derivative Q) x0 y0) := by
  have hcols : c.cols = (List.range N).map (ellipseSample x0 y0 a b N) := by
    have := h.cols
    simpa [CellG.cols, hc] using this
  have hlen : c.cols.length = N := by simp [hcols]
  have hed : (c.edges.length : ℝ) = 1 := by
    obtain ⟨c', e, h1, h2, -⟩ := h.ellipse
    rw [hc] at h1
    cases h1
    simp [h2]
  have hθ : ∀ j : ℕ, (j : ℝ) * (2 * Real.pi) / N = 2 * Real.pi * j / N := fun j => by ring
  obtain ⟨α, hα, -⟩ := ellipse_poly ha hb Q
  have e1 := fun θ => mode_parts (ellRho a b) α Q.natDegree θ
  simp only [← hα] at e1
  have hD : ∀ t, HasDerivAt (fun s : ℝ => Q.eval (⟨a * Real.cos s, b * Real.sin s⟩ : ℂ))
      ((derivative Q).eval (⟨a * Real.cos t, b * Real.sin t⟩ : ℂ) * ⟨-(a * Real.sin t), b * Real.cos t⟩) t := by
    intro t
    have := (Q.hasDerivAt (⟨a * Real.cos t, b * Real.sin t⟩ : ℂ)).comp t (ellipse_param a b t)
    exact this
  have hg : ∀ t, Real.sqrt (a ^ 2 * Real.sin t ^ 2 + b ^ 2 * Real.cos t ^ 2) ≠ 0 := fun t => (Real.sqrt_pos.2 (ellipse_pos ha hb t)).ne'
  constructor
  · refine ⟨fun k => (α k).re * (1 + ellRho a b ^ k), fun k => -((α k).im * (1 - ellRho a b ^ k)), Q.natDegree + 1, by rw [hlen]; omega, ?_, ?_⟩
    rotate_left
    · rw [hlen, hed, mul_one, hcols, samples, List.map_map]
      refine List.map_congr_left fun j _ => ?_
      rw [show trig _ _ _ (2 * Real.pi) = _ from funext fun θ => ((e1 θ).1).symm, (re_deriv (hD _)).deriv, hθ]
      have := hg (2 * Real.pi * j / N)
      simp only [Function.comp_apply, rePoly, imPoly, ellipseSample, add_sub_cancel_left, Complex.mul_re]
      generalize Real.sqrt (a ^ 2 * Real.sin (2 * Real.pi * j / N) ^ 2 + b ^ 2 * Real.cos (2 * Real.pi * j / N) ^ 2) = w at this
      generalize Polynomial.eval _ (derivative Q) = z
      field_simp
      ring
    · rw [hlen, hed, mul_one, hcols, samples, List.map_map]
      refine List.map_congr_left fun j _ => ?_
      rw [← (e1 _).1, hθ]
      simp [rePoly, ellipseSample]
  · refine ⟨fun k => (α k).im * (1 + ellRho a b ^ k), fun k => (α k).re * (1 - ellRho a b ^ k), Q.natDegree + 1, by rw [hlen]; omega, ?_, ?_⟩
    rotate_left
    · rw [hlen, hed, mul_one, hcols, samples, List.map_map]
      refine List.map_congr_left fun j _ => ?_
      rw [show trig _ _ _ (2 * Real.pi) = _ from funext fun θ => ((e1 θ).2).symm, (im_deriv (hD _)).deriv, hθ]
      have := hg (2 * Real.pi * j / N)
      simp only [Function.comp_apply, rePoly, imPoly, ellipseSample, add_sub_cancel_left, Complex.mul_im]
      generalize Real.sqrt (a ^ 2 * Real.sin (2 * Real.pi * j / N) ^ 2 + b ^ 2 * Real.cos (2 * Real.pi * j / N) ^ 2) = w at this
      generalize Polynomial.eval _ (derivative Q) = z
      field_simp
      ring
    · rw [hlen, hed, mul_one, hcols, samples, List.map_map]
      refine List.map_congr_left fun j _ => ?_
      rw [← (e1 _).2, hθ]
      simp [imPoly, ellipseSample]

/-! ### boundary sums -/

/-- the divergence theorem holds for the boundary sums of polynomial fields of degree at most `m` -/
theorem ellipse_flux {K : CellG} {x0 y0 a b : ℝ} {N : ℕ} (h : K.IsEllipse x0 y0 a b N) (ha : 0 < a) (hb : 0 < b) {m : ℕ} (hm : m + 1 < N)
    {F G f g : ℝ → ℝ → ℝ} (hF : PolyFn m F) (hG : PolyFn m G) (hf : ∀ x y, HasDerivAt (fun s => F s y) (f x y) x)
    (hg : ∀ x y, HasDerivAt (fun s => G x s) (g x y) y) :
    dot (K.normalOf F G) (steps K) = ∫ p in ellipseRegion x0 y0 a b, (f p.1 p.2 + g p.1 p.2) := by
  rw [ellipse_divergence x0 y0 ha hb hm hF hG hf hg, CellG.normalOf, h.cols, h.steps, List.map_map, dot_range]
  refine Finset.sum_congr rfl fun j _ => ?_
  have := (Real.sqrt_pos.2 (ellipse_pos ha hb (2 * Real.pi * j / N))).ne'
  simp only [Function.comp_apply, ellipseSample]
  generalize Real.sqrt (a ^ 2 * Real.sin (2 * Real.pi * j / N) ^ 2 + b ^ 2 * Real.cos (2 * Real.pi * j / N) ^ 2) = w at this
  generalize Real.sin (2 * Real.pi * j / N) = sn
  generalize Real.cos (2 * Real.pi * j / N) = cn
  field_simp

/-- C119, polynomials: `integrate_poly_over_mesh_cell` is exact on an ellipse with more samples than the degree plus two, whatever its shape. -/
theorem C119_integral {K : CellG} {x0 y0 a b : ℝ} {N : ℕ} (h : K.IsEllipse x0 y0 a b N) (ha : 0 < a) (hb : 0 < b) {p : Poly ℝ}
    (hd : ∀ m ∈ p, m.alpha.x + m.alpha.y + 2 < N) : integratePoly p K = .ok (∫ z in ellipseRegion x0 y0 a b, p.eval z.1 z.2) := by
  rcases List.eq_nil_or_concat p with hp | ⟨q, m, hp⟩
  · subst hp
    have e : ∀ x y, radial [] x y = 0 := fun x y => by simp [radial]
    rw [integratePoly_ok h.ready h.edges_ne, h.cols, h.weights, List.map_map, dot_range]
    simp [e, Poly.eval]
  have hN : 2 < N := by
    have := hd m (by simp [hp])
    omega
  have hdeg : DegLe (N - 3 : ℕ) p := fun m hm => by
    have := hd m hm
    simp only [MultiIndex.order]
    omega
  have hR := radial_poly hdeg
  rw [integratePoly_ok h.ready h.edges_ne]
  have h1 : ∀ x y, ∃ d1 d2, HasDerivAt (fun s => (radialField p s y).1) d1 x ∧ HasDerivAt (fun t => (radialField p x t).2) d2 y ∧
      d1 + d2 = p.eval x y := C17_divergence p
  choose f g hf hg hab using h1
  have hflux := ellipse_flux h ha hb (m := N - 3 + 1) (by omega) (F := fun x y => (radialField p x y).1) (G := fun x y => (radialField p x y).2)
    (f := f) (g := g) ((PolyFn.x.mul hR).mono (by omega)) ((PolyFn.y.mul hR).mono (by omega)) hf hg
  simp only [hab] at hflux
  rw [← hflux, CellG.normalOf, h.cols, h.steps, h.weights, List.map_map, List.map_map, dot_range, dot_range]
  congr 1
  refine Finset.sum_congr rfl fun j _ => ?_
  simp only [Function.comp_apply, radialField]
  ring

theorem ellipse_green {K : CellG} {x0 y0 a b : ℝ} {N : ℕ} (h : K.IsEllipse x0 y0 a b N) (ha : 0 < a) (hb : 0 < b) {d e : ℕ} (hde : d + e + 1 < N)
    {f f1 f2 l g g1 g2 m : ℝ → ℝ → ℝ} (hf : PolyLap d f f1 f2 l) (hg : PolyLap e g g1 g2 m) :
    pair K (K.normalOf f1 f2) (K.samplesOf g) =
      ∫ z in ellipseRegion x0 y0 a b, (g z.1 z.2 * l z.1 z.2 + (f1 z.1 z.2 * g1 z.1 z.2 + f2 z.1 z.2 * g2 z.1 z.2)) := by
  obtain ⟨p, q, hp, hq, hpq⟩ := hf.lap
  have h1 := ellipse_flux h ha hb hde (F := fun x y => f1 x y * g x y) (G := fun x y => f2 x y * g x y)
    (f := fun x y => p x y * g x y + f1 x y * g1 x y) (g := fun x y => q x y * g x y + f2 x y * g2 x y) (hf.fn1.mul hg.fn) (hf.fn2.mul hg.fn)
    (fun x y => (hp x y).fun_mul (hg.grad x y trivial).1) (fun x y => (hq x y).fun_mul (hg.grad x y trivial).2)
  have e1 : List.zipWith (· * ·) (K.normalOf f1 f2) (K.samplesOf g) = K.normalOf (fun x y => f1 x y * g x y) fun x y => f2 x y * g x y := by
    simp only [CellG.normalOf, CellG.samplesOf, List.zipWith_map_left, List.zipWith_map_right, List.zipWith_self]
    refine List.map_congr_left fun s _ => ?_
    ring
  rw [pair, e1, h1]
  congr 1
  funext z
  rw [← hpq]
  ring

end PFEM
