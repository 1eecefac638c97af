import Verif.Lemmas.EllipseIntegral
import Verif.Props.EllipseInner
import Verif.Spec.EllipseInside
import Mathlib.Analysis.Complex.Liouville

/-!
Cauchy's formula with the trapezoidal rule on an ellipse, for polynomials.
-/

namespace PFEM
open Polynomial

/-- inside the ellipse about the origin, at distance at least `δ` from it -/
def EllIn (a b δ : ℝ) (η : ℂ) : Prop := (η.re / a) ^ 2 + (η.im / b) ^ 2 < 1 ∧ ∀ t : ℝ, δ ≤ ‖η - ⟨a * Real.cos t, b * Real.sin t⟩‖

/-- the point of the ellipse with a parameter of modulus one -/
theorem ell_point {a b : ℝ} {w : ℂ} (hw : ‖w‖ = 1) :
    ∃ t : ℝ, ((a + b) / 2 : ℂ) * w + (a - b) / 2 * w⁻¹ = ⟨a * Real.cos t, b * Real.sin t⟩ := by
  refine ⟨w.arg, ?_⟩
  have hw0 : w ≠ 0 := by rintro rfl; simp at hw
  have hc : w.re = Real.cos w.arg := by rw [Complex.cos_arg hw0, hw, div_one]
  have hs : w.im = Real.sin w.arg := by rw [Complex.sin_arg, hw, div_one]
  have hn : Complex.normSq w = 1 := by rw [Complex.normSq_eq_norm_sq, hw, one_pow]
  rw [← hc, ← hs, Complex.inv_def, hn]
  apply Complex.ext
  · simp
    ring
  · simp
    ring

/-- the two parameters of a point -/
theorem ell_roots {a b : ℝ} (ha : 0 < a) (hb : 0 < b) (η : ℂ) :
    ∃ w1 w2 : ℂ, ((a + b) / 2 : ℂ) * (w1 + w2) = η ∧ ((a + b) / 2 : ℂ) * (w1 * w2) = (a - b) / 2 := by
  have hA : (a + b : ℂ) ≠ 0 := by exact_mod_cast (by linarith : a + b ≠ 0)
  obtain ⟨s, hs⟩ := IsAlgClosed.exists_pow_nat_eq (η ^ 2 - (a + b) * (a - b)) (n := 2) (by norm_num)
  refine ⟨(η + s) / (a + b), (η - s) / (a + b), ?_, ?_⟩
  · field_simp
    ring
  · field_simp
    linear_combination -hs

theorem ell_one_le {a b : ℝ} (ha : 0 < a) (hb : 0 < b) {w : ℂ} (hw : 1 ≤ ‖w‖) {η : ℂ}
    (hη : ((a + b) / 2 : ℂ) * w + (a - b) / 2 * w⁻¹ = η) : 1 ≤ (η.re / a) ^ 2 + (η.im / b) ^ 2 := by
  set R := Complex.normSq w with hR
  have hR1 : 1 ≤ R := by
    rw [hR, Complex.normSq_eq_norm_sq]
    nlinarith
  have hxy : R = w.re ^ 2 + w.im ^ 2 := by rw [hR, Complex.normSq_apply]; ring
  have h1 : η.re = w.re * ((a + b) / 2 + (a - b) / 2 / R) := by
    rw [← hη, Complex.inv_def, ← hR]
    simp
    ring
  have h2 : η.im = w.im * ((a + b) / 2 - (a - b) / 2 / R) := by
    rw [← hη, Complex.inv_def, ← hR]
    simp
    ring
  have key : ∀ {p q : ℝ}, 0 < p → 0 < q → 1 / R ≤ (((p + q) / 2 + (p - q) / 2 / R) / p) ^ 2 := by
    intro p q hp hq
    have hRp : 0 < R := by linarith
    rw [div_pow, div_le_div_iff₀ hRp (by positivity), one_mul]
    have e : (((p + q) / 2 + (p - q) / 2 / R) ^ 2 * R) - p ^ 2 = (R - 1) * (((p + q) / 2) ^ 2 - ((p - q) / 2) ^ 2 / R) := by
      field_simp
      ring
    have h3 : ((p - q) / 2) ^ 2 / R ≤ ((p + q) / 2) ^ 2 := by
      rw [div_le_iff₀ hRp]
      nlinarith [mul_pos hp hq, sq_nonneg ((p + q) / 2)]
    nlinarith [mul_nonneg (sub_nonneg.2 hR1) (sub_nonneg.2 h3)]
  have k1 := key ha hb
  have k2 := key hb ha
  have e1 : (η.re / a) ^ 2 = w.re ^ 2 * (((a + b) / 2 + (a - b) / 2 / R) / a) ^ 2 := by rw [h1]; ring
  have e2 : (η.im / b) ^ 2 = w.im ^ 2 * (((b + a) / 2 + (b - a) / 2 / R) / b) ^ 2 := by rw [h2]; ring
  rw [e1, e2]
  have h3 := mul_le_mul_of_nonneg_left k1 (sq_nonneg w.re)
  have h4 := mul_le_mul_of_nonneg_left k2 (sq_nonneg w.im)
  have h5 : w.re ^ 2 * (1 / R) + w.im ^ 2 * (1 / R) = 1 := by
    rw [← add_mul, ← hxy]
    field_simp
  linarith

/-- inside the ellipse the two parameters are inside the unit disc, and away from its boundary -/
theorem ell_rate_le {a b δ : ℝ} (ha : 0 < a) (hb : 0 < b) {η : ℂ} (h : EllIn a b δ η) {w1 w2 : ℂ}
    (h1 : ((a + b) / 2 : ℂ) * (w1 + w2) = η) (h2 : ((a + b) / 2 : ℂ) * (w1 * w2) = (a - b) / 2) :
    ‖w1‖ ≤ ellipseRate a b δ ∧ ‖w2‖ ≤ ellipseRate a b δ := by
  have hab : 0 < a + b := by linarith
  have hA : (a + b : ℂ) ≠ 0 := by exact_mod_cast hab.ne'
  have key : ∀ {w1 w2 : ℂ}, ((a + b) / 2 : ℂ) * (w1 + w2) = η → ((a + b) / 2 : ℂ) * (w1 * w2) = (a - b) / 2 → ‖w2‖ ≤ ‖w1‖ →
      ‖w1‖ ≤ ellipseRate a b δ := by
    intro w1 w2 h1 h2 h12
    by_cases hw : w1 = 0
    · subst hw
      have hw2 : w2 = 0 := by simpa using h12
      have hη : η = 0 := by rw [← h1, hw2]; simp
      have := h.2 0
      rw [hη] at this
      simp only [Real.cos_zero, Real.sin_zero, mul_one, mul_zero, zero_sub, norm_neg] at this
      rw [norm_mk, show a ^ 2 + (0 : ℝ) ^ 2 = a ^ 2 by ring, Real.sqrt_sq ha.le] at this
      rw [norm_zero, ellipseRate, sub_nonneg, div_le_one hab]
      linarith
    · have hr : 0 < ‖w1‖ := norm_pos_iff.2 hw
      have hB : ((a - b) / 2 : ℂ) * w1⁻¹ = (a + b) / 2 * w2 := by rw [← h2]; field_simp
      have hη : ((a + b) / 2 : ℂ) * w1 + (a - b) / 2 * w1⁻¹ = η := by rw [hB, ← h1]; ring
      have hr1 : ‖w1‖ < 1 := by
        by_contra hc
        exact absurd h.1 (not_lt.2 (ell_one_le ha hb (not_lt.1 hc) hη))
      have hrc : (‖w1‖ : ℂ) ≠ 0 := by exact_mod_cast hr.ne'
      obtain ⟨t, ht⟩ := ell_point (a := a) (b := b) (w := w1 / ‖w1‖) (by rw [norm_div, Complex.norm_real, norm_norm, div_self hr.ne'])
      have hd := h.2 t
      rw [← ht] at hd
      have e : η - (((a + b) / 2 : ℂ) * (w1 / ‖w1‖) + (a - b) / 2 * (w1 / ‖w1‖)⁻¹) =
          ((1 - ‖w1‖ : ℝ) : ℂ) * ((a + b) / 2 * w2 - (a + b) / 2 * (w1 / ‖w1‖)) := by
        rw [inv_div, div_eq_mul_inv (‖w1‖ : ℂ) w1, mul_left_comm, hB, ← h1]
        push_cast
        field_simp
        ring
      rw [e, norm_mul, Complex.norm_real, Real.norm_of_nonneg (by linarith)] at hd
      have h3 : ‖((a + b) / 2 : ℂ) * w2 - (a + b) / 2 * (w1 / ‖w1‖)‖ ≤ a + b := by
        refine (norm_sub_le _ _).trans ?_
        have e1 : ‖((a + b) / 2 : ℂ)‖ = (a + b) / 2 := by
          rw [show ((a + b) / 2 : ℂ) = (((a + b) / 2 : ℝ) : ℂ) by push_cast; rfl, Complex.norm_real, Real.norm_of_nonneg (by linarith)]
        rw [norm_mul, norm_mul, e1, norm_div, Complex.norm_real, norm_norm, div_self hr.ne']
        nlinarith
      rw [ellipseRate, le_sub_comm, div_le_iff₀ hab]
      nlinarith
  rcases le_total ‖w2‖ ‖w1‖ with hle | hle
  · have := key h1 h2 hle
    exact ⟨this, hle.trans this⟩
  · have := key (w1 := w2) (w2 := w1) (by rw [add_comm w2]; exact h1) (by rw [mul_comm w2]; exact h2) hle
    exact ⟨hle.trans this, this⟩

theorem EllIn.rate {a b δ : ℝ} (ha : 0 < a) (hb : 0 < b) (hδ : 0 < δ) {η : ℂ} (h : EllIn a b δ η) :
    0 ≤ ellipseRate a b δ ∧ ellipseRate a b δ < 1 ∧ flatness a b ≤ ellipseRate a b δ ^ 2 := by
  have hab : 0 < a + b := by linarith
  obtain ⟨w1, w2, h1, h2⟩ := ell_roots ha hb η
  obtain ⟨k1, k2⟩ := ell_rate_le ha hb h h1 h2
  have k0 := (norm_nonneg _).trans k1
  refine ⟨k0, by rw [ellipseRate, sub_lt_self_iff]; positivity, ?_⟩
  have e : ‖w1‖ * ‖w2‖ = flatness a b := by
    have h3 : w1 * w2 = (((a - b) / (a + b) : ℝ) : ℂ) := by
      have hA : (a + b : ℂ) ≠ 0 := by exact_mod_cast hab.ne'
      push_cast
      rw [eq_div_iff hA]
      linear_combination 2 * h2
    rw [← norm_mul, h3, Complex.norm_real, Real.norm_eq_abs, abs_div, abs_of_pos hab]
    rfl
  rw [← e, pow_two]
  exact mul_le_mul k1 k2 (norm_nonneg _) k0

/-- points near a point inside -/
theorem EllIn.near {a b δ : ℝ} (ha : 0 < a) (hb : 0 < b) (hδ : 0 < δ) {η η' : ℂ} (h : EllIn a b δ η) (hd : ‖η' - η‖ ≤ δ / 2) : EllIn a b (δ / 2) η' := by
  constructor
  · by_contra hc
    set g : ℝ → ℝ := fun s => ((η.re + s * (η' - η).re) / a) ^ 2 + ((η.im + s * (η' - η).im) / b) ^ 2 with hg
    have hcont : ContinuousOn g (Set.Icc 0 1) := by
      refine Continuous.continuousOn ?_
      rw [hg]
      fun_prop
    have g0 : g 0 < 1 := by simpa [hg] using h.1
    have g1 : 1 ≤ g 1 := by simpa [hg] using hc
    obtain ⟨s, ⟨hs0, hs1⟩, hs⟩ := intermediate_value_Icc zero_le_one hcont ⟨g0.le, g1⟩
    simp only [hg] at hs
    set w : ℂ := ⟨(η.re + s * (η' - η).re) / a, (η.im + s * (η' - η).im) / b⟩ with hw
    have hn : ‖w‖ = 1 := by
      rw [hw, norm_mk, hs, Real.sqrt_one]
    have hw0 : w ≠ 0 := by intro e; rw [e] at hn; simp at hn
    have hcos : (η.re + s * (η' - η).re) / a = Real.cos w.arg := by rw [Complex.cos_arg hw0, hn, div_one]
    have hsin : (η.im + s * (η' - η).im) / b = Real.sin w.arg := by rw [Complex.sin_arg, hn, div_one]
    have := h.2 w.arg
    rw [← hcos, ← hsin, mul_div_cancel₀ _ ha.ne', mul_div_cancel₀ _ hb.ne'] at this
    rw [show η - (⟨η.re + s * (η' - η).re, η.im + s * (η' - η).im⟩ : ℂ) = -((s : ℂ) * (η' - η)) by apply Complex.ext <;> simp, norm_neg, norm_mul,
      Complex.norm_real, Real.norm_of_nonneg hs0] at this
    nlinarith [norm_nonneg (η' - η)]
  · intro t
    have h1 := h.2 t
    have h2 := norm_sub_le_norm_sub_add_norm_sub η η' ⟨a * Real.cos t, b * Real.sin t⟩
    rw [norm_sub_rev η η'] at h2
    linarith

/-! ### the sums -/

/-- nodes and increments of the trapezoidal rule on an ellipse about the origin -/
noncomputable def ellPt (a b : ℝ) (N j : ℕ) : ℂ := ⟨a * Real.cos (2 * Real.pi * j / N), b * Real.sin (2 * Real.pi * j / N)⟩
noncomputable def ellInc (a b : ℝ) (N j : ℕ) : ℂ :=
  ⟨2 * Real.pi / N * (-a * Real.sin (2 * Real.pi * j / N)), 2 * Real.pi / N * (b * Real.cos (2 * Real.pi * j / N))⟩

theorem CellG.IsEllipse.getEdges {K : CellG} {x0 y0 a b : ℝ} {N : ℕ} (h : K.IsEllipse x0 y0 a b N) :
    ∃ e, K.getEdges = [e] ∧ e.cols = (List.range N).map (ellipseSample x0 y0 a b N) := by
  obtain ⟨c, e, h1, h2, -, h3⟩ := h.ellipse
  exact ⟨e, by simp [CellG.getEdges, h1, h2], h3⟩

theorem CellG.IsEllipse.equal {K : CellG} {x0 y0 a b : ℝ} {N : ℕ} (h : K.IsEllipse x0 y0 a b N) : K.EqualEdges N := by
  obtain ⟨e, h1, h2⟩ := h.getEdges
  refine ⟨by simp [h1], fun d hd => ?_⟩
  rw [h1, List.mem_singleton] at hd
  subst hd
  simp [h2]

theorem CellG.IsEllipse.nodes {K : CellG} {x0 y0 a b : ℝ} {N : ℕ} (h : K.IsEllipse x0 y0 a b N) (ha : 0 < a) (hb : 0 < b) :
    K.nodes = (List.range N).map fun j => ((⟨x0, y0⟩ : ℂ) + ellPt a b N j, ellInc a b N j) := by
  obtain ⟨e, h1, h2⟩ := h.getEdges
  unfold CellG.nodes
  rw [h1, List.flatMap_singleton, h2, List.map_map]
  refine List.map_congr_left fun j _ => ?_
  simp only [Function.comp, ellipseSample, ellPt, ellInc, List.length_map, List.length_range]
  generalize hθ : 2 * Real.pi * j / N = θ
  have hg : 0 < Real.sqrt (a ^ 2 * Real.sin θ ^ 2 + b ^ 2 * Real.cos θ ^ 2) := by
    refine Real.sqrt_pos.2 ?_
    have h1 := Real.sin_sq_add_cos_sq θ
    by_cases hs : Real.sin θ = 0
    · rw [hs] at h1 ⊢
      have : Real.cos θ ^ 2 = 1 := by linarith
      rw [this]
      positivity
    · have : 0 < Real.sin θ ^ 2 := by positivity
      positivity
  generalize Real.sqrt (a ^ 2 * Real.sin θ ^ 2 + b ^ 2 * Real.cos θ ^ 2) = g at hg
  refine Prod.ext ?_ ?_
  · apply Complex.ext <;> simp
  · apply Complex.ext
    · simp only
      field_simp
    · simp only
      field_simp

/-- the trapezoidal rule integrates polynomials along the ellipse exactly -/
theorem ell_contour {a b : ℝ} (ha : 0 < a) (hb : 0 < b) {N : ℕ} (R : ℂ[X]) (hR : R.natDegree + 1 < N) :
    ∑ j ∈ Finset.range N, R.eval (ellPt a b N j) * ellInc a b N j = 0 := by
  obtain ⟨pu, pv⟩ := PolyFn.complex 0 0 R
  have gu := rePoly_grad Set.univ R 0 0
  have gv := imPoly_grad Set.univ R 0 0
  have pu' : PolyFn R.natDegree fun x y => -rePoly R 0 0 x y := by simpa using pu.smul (-1)
  have pv' : PolyFn R.natDegree fun x y => -imPoly R 0 0 x y := by simpa using pv.smul (-1)
  have i1 := ellipse_divergence 0 0 ha hb hR pv' pu' (fun x y => (gv x y trivial).1.fun_neg) fun x y => (gu x y trivial).2.fun_neg
  have i2 := ellipse_divergence 0 0 ha hb hR pu pv' (fun x y => (gu x y trivial).1) fun x y => (gv x y trivial).2.fun_neg
  simp only [neg_neg, neg_add_cancel, add_neg_cancel, MeasureTheory.integral_zero, zero_add] at i1 i2
  apply Complex.ext
  · rw [Complex.re_sum, Complex.zero_re, i1]
    refine Finset.sum_congr rfl fun j _ => ?_
    rw [Complex.mul_re]
    simp only [ellPt, ellInc, rePoly, imPoly, sub_zero]
    ring
  · rw [Complex.im_sum, Complex.zero_im, i2]
    refine Finset.sum_congr rfl fun j _ => ?_
    rw [Complex.mul_im]
    simp only [ellPt, ellInc, rePoly, imPoly, sub_zero]
    ring

/-- the trapezoidal rule for `1 / (z - η)` -/
theorem ell_unit {a b δ : ℝ} (ha : 0 < a) (hb : 0 < b) (hδ : 0 < δ) {N : ℕ} (hN : 0 < N) {η : ℂ} (h : EllIn a b δ η) {w1 w2 : ℂ}
    (h1 : ((a + b) / 2 : ℂ) * (w1 + w2) = η) (h2 : ((a + b) / 2 : ℂ) * (w1 * w2) = (a - b) / 2) :
    (∑ j ∈ Finset.range N, ellInc a b N j / (ellPt a b N j - η)) / (2 * Real.pi * Complex.I) = 1 / (1 - w1 ^ N) + 1 / (1 - w2 ^ N) - 1 := by
  have hN0 : N ≠ 0 := hN.ne'
  have hω := Complex.isPrimitiveRoot_exp N hN0
  set ω := Complex.exp (2 * Real.pi * Complex.I / N) with hωdef
  have hωj : ∀ j : ℕ, ω ^ j = ⟨Real.cos (2 * Real.pi * j / N), Real.sin (2 * Real.pi * j / N)⟩ := by
    intro j
    rw [hωdef, ← Complex.exp_nat_mul, show (j : ℂ) * (2 * Real.pi * Complex.I / N) = ((2 * Real.pi * j / N : ℝ) : ℂ) * Complex.I by push_cast; ring,
      Complex.exp_mul_I]
    generalize 2 * Real.pi * j / N = θ
    apply Complex.ext <;> simp [Complex.cos_ofReal_re, Complex.sin_ofReal_re]
  have hnorm : ∀ j : ℕ, ‖ω ^ j‖ = 1 := fun j => by rw [norm_pow, hω.norm'_eq_one hN0, one_pow]
  have hne : ∀ j : ℕ, ω ^ j ≠ 0 := fun j e => by have := hnorm j; rw [e] at this; simp at this
  obtain ⟨r0, r1, -⟩ := h.rate ha hb hδ
  obtain ⟨k1, k2⟩ := ell_rate_le ha hb h h1 h2
  have hoff : ∀ {w : ℂ}, ‖w‖ ≤ ellipseRate a b δ → ∀ j < N, (1 : ℂ) * ω ^ j ≠ w := by
    intro w hw j _ e
    rw [one_mul] at e
    have := hnorm j
    rw [e] at this
    linarith
  have hAr : 0 < a + b := by linarith
  have hA : (a + b : ℂ) ≠ 0 := by exact_mod_cast hAr.ne'
  have hNc : (N : ℂ) ≠ 0 := by exact_mod_cast hN0
  have hpi : (Real.pi : ℂ) ≠ 0 := by exact_mod_cast Real.pi_ne_zero
  have hone : ∀ {w : ℂ}, ‖w‖ ≤ ellipseRate a b δ → (∑ j ∈ Finset.range N, ω ^ j / (ω ^ j - w)) / N = 1 / (1 - w ^ N) := by
    intro w hw
    have h3 := circle_power (k := 0) hN hω (r := 1) (hoff hw)
    simp only [one_mul, pow_zero, one_pow, mul_one] at h3
    have hden : (1 : ℂ) - w ^ N ≠ 0 := by
      intro e
      have : ‖w ^ N‖ = 1 := by rw [← sub_eq_zero.1 e, norm_one]
      rw [norm_pow] at this
      have := pow_lt_one₀ (norm_nonneg w) (lt_of_le_of_lt hw r1) hN0
      linarith
    rw [div_eq_div_iff hNc hden, one_mul, ← h3]
    congr 1
    refine Finset.sum_congr rfl fun j _ => by ring
  have hpt : ∀ j : ℕ, ellPt a b N j = (a + b) / 2 * ω ^ j + (a - b) / 2 * (ω ^ j)⁻¹ := by
    intro j
    rw [hωj, ellPt]
    generalize 2 * Real.pi * j / N = θ
    have hn : Complex.normSq ⟨Real.cos θ, Real.sin θ⟩ = 1 := by
      rw [Complex.normSq_mk]
      linarith [Real.sin_sq_add_cos_sq θ]
    rw [Complex.inv_def, hn]
    apply Complex.ext
    · simp
      ring
    · simp
      ring
  have hinc : ∀ j : ℕ, ellInc a b N j = 2 * Real.pi / N * Complex.I * ((a + b) / 2 * ω ^ j - (a - b) / 2 * (ω ^ j)⁻¹) := by
    intro j
    rw [hωj, ellInc]
    generalize 2 * Real.pi * j / N = θ
    have hn : Complex.normSq ⟨Real.cos θ, Real.sin θ⟩ = 1 := by
      rw [Complex.normSq_mk]
      linarith [Real.sin_sq_add_cos_sq θ]
    have hw : (2 * Real.pi / N : ℂ) = ((2 * Real.pi / N : ℝ) : ℂ) := by push_cast; rfl
    rw [Complex.inv_def, hn, hw]
    generalize 2 * Real.pi / (N : ℝ) = q
    apply Complex.ext
    · simp
      exact Or.inl (by ring)
    · simp
      exact Or.inl (by ring)
  rw [← hone k1, ← hone k2, ← add_div, ← Finset.sum_add_distrib, Finset.sum_div]
  have hN1 : (1 : ℂ) = (∑ j ∈ Finset.range N, (1 : ℂ)) / N := by simp [hNc]
  rw [hN1, ← sub_div, ← Finset.sum_sub_distrib, Finset.sum_div]
  refine Finset.sum_congr rfl fun j hj => ?_
  have n1 : ω ^ j - w1 ≠ 0 := sub_ne_zero.2 (by simpa using hoff k1 j (Finset.mem_range.1 hj))
  have n2 : ω ^ j - w2 ≠ 0 := sub_ne_zero.2 (by simpa using hoff k2 j (Finset.mem_range.1 hj))
  have n0 := hne j
  rw [hpt, hinc, ← h1, ← h2]
  generalize ω ^ j = w at *
  have e1 : ((a + b) / 2 : ℂ) * w + (a + b) / 2 * (w1 * w2) * w⁻¹ - (a + b) / 2 * (w1 + w2) = (a + b) / 2 * ((w - w1) * (w - w2)) / w := by
    field_simp
    ring
  have e2 : ((a + b) / 2 : ℂ) * w - (a + b) / 2 * (w1 * w2) * w⁻¹ = (a + b) / 2 * (w ^ 2 - w1 * w2) / w := by
    field_simp
  rw [e1, e2]
  have hI := Complex.I_ne_zero
  field_simp
  ring

/-- Cauchy's formula for a polynomial -/
theorem ell_cauchy {a b δ : ℝ} (ha : 0 < a) (hb : 0 < b) (hδ : 0 < δ) {N : ℕ} {Q : ℂ[X]} (hQ : Q.natDegree < N) (hN : 1 < N) {η : ℂ} (h : EllIn a b δ η) :
    (∑ j ∈ Finset.range N, Q.eval (ellPt a b N j) * (ellInc a b N j / (ellPt a b N j - η))) =
      Q.eval η * ∑ j ∈ Finset.range N, ellInc a b N j / (ellPt a b N j - η) := by
  set R := Q /ₘ (X - C η) with hR
  have hdiv : (X - C η) * R = Q - C (Q.eval η) := by
    rw [hR, ← modByMonic_X_sub_C_eq_C_eval Q η, eq_sub_iff_add_eq, add_comm, modByMonic_add_div]
  have hRd : R.natDegree + 1 < N := by
    rw [hR, natDegree_divByMonic _ (monic_X_sub_C η), natDegree_X_sub_C]
    omega
  have hev : ∀ z : ℂ, Q.eval z = Q.eval η + (z - η) * R.eval z := by
    intro z
    have := congrArg (eval z) hdiv
    rw [eval_mul, eval_sub, eval_X, eval_C, eval_sub, eval_C] at this
    rw [this]
    ring
  have h0 := ell_contour ha hb R hRd
  have hoff : ∀ j : ℕ, ellPt a b N j - η ≠ 0 := by
    intro j e
    have := h.2 (2 * Real.pi * j / N)
    rw [norm_sub_rev] at this
    have e' : ‖ellPt a b N j - η‖ = 0 := by rw [e, norm_zero]
    rw [ellPt] at e'
    linarith
  rw [Finset.mul_sum, ← add_zero (∑ j ∈ Finset.range N, Q.eval η * _), ← h0, ← Finset.sum_add_distrib]
  refine Finset.sum_congr rfl fun j _ => ?_
  rw [hev (ellPt a b N j)]
  have := hoff j
  field_simp

/-! ### the errors -/

/-- the sum for the `m`-th power of the kernel, relative to the centre -/
noncomputable def ellSum (a b : ℝ) (N : ℕ) (Q : ℂ[X]) (m : ℕ) (η : ℂ) : ℂ :=
  cauchySum ((List.range N).map fun j => (ellPt a b N j, ellInc a b N j)) ((List.range N).map fun j => Q.eval (ellPt a b N j)) m η

theorem ellSum_eq (a b : ℝ) (N : ℕ) (Q : ℂ[X]) (m : ℕ) (η : ℂ) : ellSum a b N Q m η =
    (∑ j ∈ Finset.range N, Q.eval (ellPt a b N j) / (ellPt a b N j - η) ^ m * ellInc a b N j) / (2 * Real.pi * Complex.I) := by
  rw [ellSum, cauchySum, List.zipWith_map, List.zipWith_self, list_range_sum]

theorem ellSum_one {a b δ : ℝ} (ha : 0 < a) (hb : 0 < b) (hδ : 0 < δ) {N : ℕ} {Q : ℂ[X]} (hQ : Q.natDegree < N) (hN : 1 < N) {η : ℂ} (h : EllIn a b δ η) :
    ellSum a b N Q 1 η = Q.eval η * ellSum a b N 1 1 η := by
  have h1 := ell_cauchy ha hb hδ hQ hN h
  rw [ellSum_eq, ellSum_eq, ← mul_div_assoc]
  congr 1
  simp only [pow_one, eval_one, one_div]
  simp only [← div_eq_inv_mul]
  rw [← h1]
  refine Finset.sum_congr rfl fun j _ => ?_
  ring

theorem ellSum_unit {a b δ : ℝ} (ha : 0 < a) (hb : 0 < b) (hδ : 0 < δ) {N : ℕ} (hN : 0 < N) {η : ℂ} (h : EllIn a b δ η) :
    ‖ellSum a b N 1 1 η - 1‖ ≤ 2 / (1 - ellipseRate a b δ) * ellipseRate a b δ ^ N := by
  obtain ⟨w1, w2, h1, h2⟩ := ell_roots ha hb η
  have hu := ell_unit ha hb hδ hN h h1 h2
  obtain ⟨r0, r1, -⟩ := h.rate ha hb hδ
  obtain ⟨k1, k2⟩ := ell_rate_le ha hb h h1 h2
  have e : ellSum a b N 1 1 η = 1 / (1 - w1 ^ N) + 1 / (1 - w2 ^ N) - 1 := by
    rw [ellSum_eq, ← hu]
    simp only [pow_one, eval_one, one_div, ← div_eq_inv_mul]
  set θ := ellipseRate a b δ with hθ
  have one : ∀ {w : ℂ}, ‖w‖ ≤ θ → ‖1 / (1 - w ^ N) - 1‖ ≤ 1 / (1 - θ) * θ ^ N := by
    intro w hw
    have hp : ‖w ^ N‖ ≤ θ ^ N := by
      rw [norm_pow]
      exact pow_le_pow_left₀ (norm_nonneg _) hw N
    have hp1 : ‖w ^ N‖ ≤ θ := hp.trans (pow_le_of_le_one r0 r1.le hN.ne')
    have hge : 1 - θ ≤ ‖(1 : ℂ) - w ^ N‖ := by
      have := norm_sub_norm_le (1 : ℂ) (w ^ N)
      rw [norm_one] at this
      linarith
    have hpos : 0 < 1 - θ := by linarith
    have hne : (1 : ℂ) - w ^ N ≠ 0 := norm_pos_iff.1 (lt_of_lt_of_le hpos hge)
    rw [show 1 / (1 - w ^ N) - 1 = w ^ N / (1 - w ^ N) by field_simp; ring, norm_div, div_mul_eq_mul_div, one_mul]
    exact div_le_div₀ (by positivity) hp hpos hge
  have := (norm_add_le (1 / (1 - w1 ^ N) - 1) (1 / (1 - w2 ^ N) - 1)).trans (add_le_add (one k1) (one k2))
  rw [e, show 1 / (1 - w1 ^ N) + 1 / (1 - w2 ^ N) - 1 - 1 = 1 / (1 - w1 ^ N) - 1 + (1 / (1 - w2 ^ N) - 1) by ring]
  refine this.trans (le_of_eq ?_)
  ring

theorem EllIn.off {a b δ : ℝ} (hδ : 0 < δ) {η : ℂ} (h : EllIn a b δ η) (N : ℕ) :
    ∀ p ∈ (List.range N).map fun j => (ellPt a b N j, ellInc a b N j), p.1 ≠ η := by
  intro p hp e
  obtain ⟨j, -, rfl⟩ := List.mem_map.1 hp
  have := h.2 (2 * Real.pi * j / N)
  rw [← e] at this
  simp only [ellPt, sub_self, norm_zero] at this
  linarith

theorem ellSum_deriv {a b δ : ℝ} (hδ : 0 < δ) {η : ℂ} (h : EllIn a b δ η) (N : ℕ) (Q : ℂ[X]) : HasDerivAt (ellSum a b N Q 1) (ellSum a b N Q 2 η) η := by
  have := cauchySum_deriv _ 1 (h.off hδ N) ((List.range N).map fun j => Q.eval (ellPt a b N j))
  rw [Nat.cast_one, one_mul] at this
  exact this

theorem ellSum_two_unit {a b δ : ℝ} (ha : 0 < a) (hb : 0 < b) (hδ : 0 < δ) {N : ℕ} (hN : 0 < N) {η : ℂ} (h : EllIn a b δ η) :
    ‖ellSum a b N 1 2 η‖ ≤ 4 / (δ * (1 - ellipseRate a b (δ / 2))) * ellipseRate a b (δ / 2) ^ N := by
  have hδ2 : 0 < δ / 2 := by linarith
  have near : ∀ z ∈ Metric.closedBall η (δ / 2), EllIn a b (δ / 2) z := fun z hz => h.near ha hb hδ (by
    rw [Metric.mem_closedBall, dist_eq_norm] at hz
    exact hz)
  have hd : DiffContOnCl ℂ (fun z => ellSum a b N 1 1 z - 1) (Metric.ball η (δ / 2)) := by
    refine DifferentiableOn.diffContOnCl ?_
    rw [closure_ball _ hδ2.ne']
    intro z hz
    exact ((ellSum_deriv hδ2 (near z hz) N 1).differentiableAt.sub_const 1).differentiableWithinAt
  have hb' := Complex.norm_deriv_le_of_forall_mem_sphere_norm_le hδ2 hd fun z hz => ellSum_unit ha hb hδ2 hN (near z (Metric.sphere_subset_closedBall hz))
  rw [((ellSum_deriv hδ h N 1).sub_const 1).deriv] at hb'
  refine hb'.trans (le_of_eq ?_)
  field_simp
  ring

theorem ellSum_two {a b δ : ℝ} (ha : 0 < a) (hb : 0 < b) (hδ : 0 < δ) {N : ℕ} {Q : ℂ[X]} (hQ : Q.natDegree < N) (hN : 1 < N) {η : ℂ} (h : EllIn a b δ η) :
    ellSum a b N Q 2 η = (derivative Q).eval η * ellSum a b N 1 1 η + Q.eval η * ellSum a b N 1 2 η := by
  have hδ2 : 0 < δ / 2 := by linarith
  have h1 := (Q.hasDerivAt η).mul (ellSum_deriv hδ h N 1)
  have h2 := ellSum_deriv hδ h N Q
  refine h2.unique (h1.congr_of_eventuallyEq ?_)
  filter_upwards [Metric.closedBall_mem_nhds η hδ2] with z hz
  rw [Metric.mem_closedBall, dist_eq_norm] at hz
  exact ellSum_one ha hb hδ2 hQ hN (h.near ha hb hδ hz)

end PFEM
