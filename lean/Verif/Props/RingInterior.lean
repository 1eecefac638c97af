import Verif.Lemmas.RingCauchy
import Verif.Props.InteriorConv
import Verif.Props.RingEnergy
import Verif.Props.RingHarm
import Verif.Spec.RingInterior

/-!
Property theorems C133: values and gradients of local functions inside a ring between two concentric circles.
-/

namespace PFEM
open Nystrom Antilap Polynomial

variable {K : CellG} {x0 y0 a b : ℝ} {n : ℕ}

theorem CellG.IsAnnulus.equal {N : ℕ} (h : K.IsAnnulus x0 y0 a b N) : K.EqualEdges N := by
  obtain ⟨c, d, e, f, h1, h2, h3, -, -, h4, h5, -⟩ := h.circles
  have he : K.getEdges = [e, f] := by simp [CellG.getEdges, h1, h2, h3]
  refine ⟨by simp [he], fun g hg => ?_⟩
  rw [he] at hg
  rcases List.mem_cons.1 hg with rfl | hg
  · simp [h4]
  · rw [List.mem_singleton] at hg
    subst hg
    simp [h5]

/-- the first of the roots of unity -/
noncomputable def firstRoot (N : ℕ) : ℂ := Complex.exp (2 * Real.pi * Complex.I / N)

theorem firstRoot_pow (N j : ℕ) : firstRoot N ^ j = ⟨Real.cos (2 * Real.pi * j / N), Real.sin (2 * Real.pi * j / N)⟩ := by
  rw [firstRoot, ← Complex.exp_nat_mul, show (j : ℂ) * (2 * Real.pi * Complex.I / N) = ((2 * Real.pi * j / N : ℝ) : ℂ) * Complex.I by push_cast; ring,
    Complex.exp_mul_I]
  generalize 2 * Real.pi * j / N = θ
  apply Complex.ext <;> simp [Complex.cos_ofReal_re, Complex.sin_ofReal_re]

theorem firstRoot_inv (N j : ℕ) : (firstRoot N)⁻¹ ^ j = ⟨Real.cos (2 * Real.pi * j / N), -Real.sin (2 * Real.pi * j / N)⟩ := by
  rw [inv_pow, firstRoot_pow, Complex.inv_def, Complex.normSq_mk]
  have := Real.sin_sq_add_cos_sq (2 * Real.pi * j / N)
  rw [show Real.cos (2 * Real.pi * j / N) * Real.cos (2 * Real.pi * j / N) + Real.sin (2 * Real.pi * j / N) * Real.sin (2 * Real.pi * j / N) = 1 by
    linarith]
  apply Complex.ext <;> simp

theorem ring_nodes {N : ℕ} (h : K.IsAnnulus x0 y0 a b N) :
    K.nodes = ((List.range N).map fun j : ℕ => ((⟨x0, y0⟩ : ℂ) + b * firstRoot N ^ j, 2 * Real.pi / N * (Complex.I * (b * firstRoot N ^ j)))) ++
      (List.range N).map fun j : ℕ => ((⟨x0, y0⟩ : ℂ) + a * (firstRoot N)⁻¹ ^ j, -(2 * Real.pi / N * (Complex.I * (a * (firstRoot N)⁻¹ ^ j)))) := by
  have hw : (2 * Real.pi / N : ℂ) = ((2 * Real.pi / N : ℝ) : ℂ) := by push_cast; rfl
  rw [nodes_eq h.equal, h.cols, List.map_append, List.map_map, List.map_map]
  congr 1
  · refine List.map_congr_left fun j _ => ?_
    rw [firstRoot_pow, hw]
    simp only [Function.comp, circleSample, dz]
    ext1 <;> apply Complex.ext <;> simp <;> ring
  · refine List.map_congr_left fun j _ => ?_
    rw [firstRoot_inv, hw]
    simp only [Function.comp, holeSample, dz]
    ext1 <;> apply Complex.ext <;> simp <;> ring

/-- the sum for a Laurent polynomial, as a sum over the two circles -/
theorem ring_cauchySum {N : ℕ} (hN : 0 < N) (h : K.IsAnnulus x0 y0 a b N) (Q R : ℂ[X]) (ζ : ℂ) :
    cauchySum K.nodes (List.zipWith Complex.mk (K.samplesOf fun x y => (laurent Q R x0 y0 x y).re) (K.samplesOf fun x y => (laurent Q R x0 y0 x y).im)) 1 ζ =
      (∑ j ∈ Finset.range N, (Q.eval (b * firstRoot N ^ j) + R.eval (b * firstRoot N ^ j)⁻¹) / (b * firstRoot N ^ j - (ζ - ⟨x0, y0⟩)) *
        (b * firstRoot N ^ j)) / N -
      (∑ j ∈ Finset.range N, (Q.eval (a * (firstRoot N)⁻¹ ^ j) + R.eval (a * (firstRoot N)⁻¹ ^ j)⁻¹) / (a * (firstRoot N)⁻¹ ^ j - (ζ - ⟨x0, y0⟩)) *
        (a * (firstRoot N)⁻¹ ^ j)) / N := by
  have e : List.zipWith Complex.mk (K.samplesOf fun x y => (laurent Q R x0 y0 x y).re) (K.samplesOf fun x y => (laurent Q R x0 y0 x y).im) =
      ((List.range N).map fun j : ℕ => Q.eval (b * firstRoot N ^ j) + R.eval (b * firstRoot N ^ j)⁻¹) ++
      (List.range N).map fun j : ℕ => Q.eval (a * (firstRoot N)⁻¹ ^ j) + R.eval (a * (firstRoot N)⁻¹ ^ j)⁻¹ := by
    rw [CellG.samplesOf, CellG.samplesOf, List.zipWith_map, List.zipWith_self, h.cols, List.map_append, List.map_map, List.map_map]
    congr 1
    · refine List.map_congr_left fun j _ => ?_
      simp only [Function.comp, laurent, circleSample, add_sub_cancel_left]
      rw [show (⟨b * Real.cos (2 * Real.pi * j / N), b * Real.sin (2 * Real.pi * j / N)⟩ : ℂ) = b * firstRoot N ^ j by
        rw [firstRoot_pow]; apply Complex.ext <;> simp]
    · refine List.map_congr_left fun j _ => ?_
      simp only [Function.comp, laurent, holeSample, add_sub_cancel_left]
      rw [show (⟨a * Real.cos (2 * Real.pi * j / N), y0 - a * Real.sin (2 * Real.pi * j / N) - y0⟩ : ℂ) = a * (firstRoot N)⁻¹ ^ j by
        rw [firstRoot_inv]; apply Complex.ext <;> simp]
  have hI := Complex.I_ne_zero
  have hpi : (Real.pi : ℂ) ≠ 0 := by exact_mod_cast Real.pi_ne_zero
  have hNc : (N : ℂ) ≠ 0 := by exact_mod_cast hN.ne'
  have key : ∀ F z d : ℂ, F / d * (2 * Real.pi / N * (Complex.I * z)) / (2 * Real.pi * Complex.I) = F / d * z / N := by
    intro F z d
    rw [div_eq_iff (mul_ne_zero (mul_ne_zero two_ne_zero hpi) hI)]
    field_simp
  rw [cauchySum, ring_nodes h, e, List.zipWith_append (by simp), List.sum_append, List.zipWith_map, List.zipWith_self, List.zipWith_map,
    List.zipWith_self, list_range_sum, list_range_sum, add_div, Finset.sum_div, Finset.sum_div, Finset.sum_div, Finset.sum_div, sub_eq_add_neg,
    ← Finset.sum_neg_distrib]
  congr 1
  · refine Finset.sum_congr rfl fun j _ => ?_
    rw [pow_one, key, show (⟨x0, y0⟩ : ℂ) + b * firstRoot N ^ j - ζ = b * firstRoot N ^ j - (ζ - ⟨x0, y0⟩) by ring]
  · refine Finset.sum_congr rfl fun j _ => ?_
    rw [pow_one, mul_neg, neg_div, key, show (⟨x0, y0⟩ : ℂ) + a * (firstRoot N)⁻¹ ^ j - ζ = a * (firstRoot N)⁻¹ ^ j - (ζ - ⟨x0, y0⟩) by ring]

theorem firstRoot_primitive {N : ℕ} (hN : 0 < N) : IsPrimitiveRoot (firstRoot N) N := Complex.isPrimitiveRoot_exp N hN.ne'

/-- inside the ring the powers are different -/
theorem ring_powers {N : ℕ} (hN : 0 < N) (ha : 0 < a) {d : ℂ} (h1 : a < ‖d‖) (h2 : ‖d‖ < b) : (a : ℂ) ^ N ≠ d ^ N ∧ (b : ℂ) ^ N ≠ d ^ N := by
  have hb : 0 < b := ha.trans (h1.trans h2)
  constructor <;> intro e <;> have := congrArg norm e <;> rw [norm_pow, norm_pow, Complex.norm_real] at this
  · rw [Real.norm_of_nonneg ha.le] at this
    exact absurd this (pow_lt_pow_left₀ h1 ha.le hN.ne').ne
  · rw [Real.norm_of_nonneg hb.le] at this
    exact absurd this (pow_lt_pow_left₀ h2 (norm_nonneg _) hN.ne').ne'

/-- the sum for a Laurent polynomial is its value times a factor near one -/
theorem ring_cauchy_one {N : ℕ} (h : K.IsAnnulus x0 y0 a b N) (ha : 0 < a) {Q R : ℂ[X]} (hQ : Q.natDegree < N) (hR : R.natDegree < N) {ζ : ℂ}
    (h1 : a < ‖ζ - ⟨x0, y0⟩‖) (h2 : ‖ζ - ⟨x0, y0⟩‖ < b) :
    cauchySum K.nodes (List.zipWith Complex.mk (K.samplesOf fun x y => (laurent Q R x0 y0 x y).re) (K.samplesOf fun x y => (laurent Q R x0 y0 x y).im)) 1 ζ =
      (Q.eval (ζ - ⟨x0, y0⟩) + R.eval (ζ - ⟨x0, y0⟩)⁻¹) * ringFactor a b N (ζ - ⟨x0, y0⟩) := by
  have hN : 0 < N := by omega
  have hb : 0 < b := ha.trans (h1.trans h2)
  obtain ⟨p1, p2⟩ := ring_powers hN ha h1 h2
  rw [ring_cauchySum hN h, ring_laurent (firstRoot_primitive hN) (firstRoot_primitive hN).inv (by exact_mod_cast ha.ne') (by exact_mod_cast hb.ne')
    (norm_pos_iff.1 (ha.trans h1)) p1 p2 hQ hR]

theorem ring_node_off {N : ℕ} (h : K.IsAnnulus x0 y0 a b N) (ha : 0 < a) (hab : a < b) {δ : ℝ} {ζ : ℂ}
    (h1 : a + δ ≤ ‖ζ - ⟨x0, y0⟩‖) (h2 : ‖ζ - ⟨x0, y0⟩‖ ≤ b - δ) : ∀ p ∈ K.nodes, δ ≤ ‖p.1 - ζ‖ ∧ ‖p.2‖ ≤ 2 * Real.pi / N * b := by
  have hb : 0 < b := ha.trans hab
  have hpi := Real.pi_pos
  have n1 : ∀ j : ℕ, ‖firstRoot N ^ j‖ = 1 := fun j => by
    rw [firstRoot_pow, Complex.norm_def, Complex.normSq_mk, ← pow_two, ← pow_two, Real.cos_sq_add_sin_sq, Real.sqrt_one]
  have n2 : ∀ j : ℕ, ‖(firstRoot N)⁻¹ ^ j‖ = 1 := fun j => by rw [inv_pow, norm_inv, n1, inv_one]
  have hw : ‖(2 * Real.pi / N : ℂ)‖ = 2 * Real.pi / N := by
    rw [show (2 * Real.pi / N : ℂ) = ((2 * Real.pi / N : ℝ) : ℂ) by push_cast; rfl, Complex.norm_real, Real.norm_of_nonneg (by positivity)]
  have e : ∀ r : ℝ, 0 < r → ‖(r : ℂ)‖ = r := fun r hr => by rw [Complex.norm_real, Real.norm_of_nonneg hr.le]
  intro p hp
  rw [ring_nodes h, List.mem_append] at hp
  rcases hp with hp | hp <;> obtain ⟨j, -, rfl⟩ := List.mem_map.1 hp <;> dsimp only
  · constructor
    · rw [show (⟨x0, y0⟩ : ℂ) + b * firstRoot N ^ j - ζ = b * firstRoot N ^ j - (ζ - ⟨x0, y0⟩) by ring]
      have := norm_sub_norm_le ((b : ℂ) * firstRoot N ^ j) (ζ - ⟨x0, y0⟩)
      rw [norm_mul, n1, e b hb, mul_one] at this
      linarith
    · rw [norm_mul, norm_mul, norm_mul, n1, e b hb, hw, Complex.norm_I, one_mul, mul_one]
  · constructor
    · rw [show (⟨x0, y0⟩ : ℂ) + a * (firstRoot N)⁻¹ ^ j - ζ = -(ζ - ⟨x0, y0⟩ - a * (firstRoot N)⁻¹ ^ j) by ring, norm_neg]
      have := norm_sub_norm_le (ζ - ⟨x0, y0⟩) ((a : ℂ) * (firstRoot N)⁻¹ ^ j)
      rw [norm_mul, n2, e a ha, mul_one] at this
      linarith
    · rw [norm_neg, norm_mul, norm_mul, norm_mul, n2, e a ha, hw, Complex.norm_I, one_mul, mul_one]
      exact mul_le_mul_of_nonneg_left hab.le (by positivity)

/-- the sum for the derivative -/
theorem ring_cauchy_two {N : ℕ} (h : K.IsAnnulus x0 y0 a b N) (ha : 0 < a) {Q R : ℂ[X]} (hQ : Q.natDegree < N) (hR : R.natDegree < N) {ζ : ℂ}
    (h1 : a < ‖ζ - ⟨x0, y0⟩‖) (h2 : ‖ζ - ⟨x0, y0⟩‖ < b) :
    cauchySum K.nodes (List.zipWith Complex.mk (K.samplesOf fun x y => (laurent Q R x0 y0 x y).re) (K.samplesOf fun x y => (laurent Q R x0 y0 x y).im)) 2 ζ =
      ((derivative Q).eval (ζ - ⟨x0, y0⟩) - (derivative R).eval (ζ - ⟨x0, y0⟩)⁻¹ * (ζ - ⟨x0, y0⟩)⁻¹ ^ 2) * ringFactor a b N (ζ - ⟨x0, y0⟩) +
      (Q.eval (ζ - ⟨x0, y0⟩) + R.eval (ζ - ⟨x0, y0⟩)⁻¹) * ringFactor' a b N (ζ - ⟨x0, y0⟩) := by
  have hN : 0 < N := by omega
  have hab := h1.trans h2
  obtain ⟨p1, p2⟩ := ring_powers hN ha h1 h2
  have hd0 : ζ - ⟨x0, y0⟩ ≠ 0 := norm_pos_iff.1 (ha.trans h1)
  set δ := min (‖ζ - ⟨x0, y0⟩‖ - a) (b - ‖ζ - ⟨x0, y0⟩‖) with hδ
  have hδ0 : 0 < δ := lt_min (by linarith) (by linarith)
  have hoff : ∀ p ∈ K.nodes, p.1 ≠ ζ := by
    intro p hp e
    have := (ring_node_off h ha hab (by linarith [min_le_left (‖ζ - ⟨x0, y0⟩‖ - a) (b - ‖ζ - ⟨x0, y0⟩‖)])
      (by linarith [min_le_right (‖ζ - ⟨x0, y0⟩‖ - a) (b - ‖ζ - ⟨x0, y0⟩‖)]) p hp).1
    rw [e, sub_self, norm_zero] at this
    linarith
  have k1 := cauchySum_deriv K.nodes 1 hoff
    (List.zipWith Complex.mk (K.samplesOf fun x y => (laurent Q R x0 y0 x y).re) (K.samplesOf fun x y => (laurent Q R x0 y0 x y).im))
  have k2 := laurent_factor_deriv Q R p1 p2 hd0
  have k4 : (cauchySum K.nodes (List.zipWith Complex.mk (K.samplesOf fun x y => (laurent Q R x0 y0 x y).re)
      (K.samplesOf fun x y => (laurent Q R x0 y0 x y).im)) 1) =ᶠ[nhds ζ]
      fun z : ℂ => (Q.eval (z - ⟨x0, y0⟩) + R.eval (z - ⟨x0, y0⟩)⁻¹) * ringFactor a b N (z - ⟨x0, y0⟩) := by
    have hc : Continuous fun z : ℂ => ‖z - ⟨x0, y0⟩‖ := continuous_norm.comp (continuous_id.sub continuous_const)
    have o1 : {z : ℂ | a < ‖z - ⟨x0, y0⟩‖} ∈ nhds ζ := (isOpen_lt continuous_const hc).mem_nhds h1
    have o2 : {z : ℂ | ‖z - ⟨x0, y0⟩‖ < b} ∈ nhds ζ := (isOpen_lt hc continuous_const).mem_nhds h2
    filter_upwards [o1, o2] with z hz1 hz2
    exact ring_cauchy_one h ha hQ hR hz1 hz2
  have k5 := k1.unique (k2.congr_of_eventuallyEq k4)
  simp only [Nat.cast_one, one_mul, Nat.reduceAdd] at k5
  exact k5

/-- bounds for Laurent polynomials inside the ring -/
theorem laurent_le (ha : 0 < a) (Q R : ℂ[X]) {d : ℂ} (h1 : a ≤ ‖d‖) (h2 : ‖d‖ ≤ b) : ‖Q.eval d + R.eval d⁻¹‖ ≤ ringSum Q R a b := by
  refine (norm_add_le _ _).trans (add_le_add (eval_norm_le Q h2) (eval_norm_le R ?_))
  rw [norm_inv]
  exact inv_anti₀ ha h1

/-- the errors of the sums if the samples of the conjugate pair have errors of at most `ε` -/
theorem ring_sum_error {N : ℕ} (h : K.IsAnnulus x0 y0 a b N) (ha : 0 < a) (hab : a < b) {δ : ℝ} (hδ : 0 < δ) {Q R : ℂ[X]} (hQ : Q.natDegree < N)
    (hR : R.natDegree < N) {B ε : ℝ} (hB : ∀ d : ℂ, a ≤ ‖d‖ → ‖d‖ ≤ b → ‖Q.eval d + R.eval d⁻¹‖ ≤ B) (hε : 0 ≤ ε) {u v : List ℝ}
    (hu : Within ε u (K.samplesOf fun x y => (laurent Q R x0 y0 x y).re)) (hv : Within ε v (K.samplesOf fun x y => (laurent Q R x0 y0 x y).im)) {ζ : ℂ}
    (h1 : a + δ ≤ ‖ζ - ⟨x0, y0⟩‖) (h2 : ‖ζ - ⟨x0, y0⟩‖ ≤ b - δ) :
    ‖cauchySum K.nodes (List.zipWith Complex.mk u v) 1 ζ - (Q.eval (ζ - ⟨x0, y0⟩) + R.eval (ζ - ⟨x0, y0⟩)⁻¹)‖ ≤
      4 * (b / δ) * ε + B * (2 * (b / δ) * (1 - δ / b) ^ N) ∧
    ‖cauchySum K.nodes (List.zipWith Complex.mk u v) 2 ζ -
        ((derivative Q).eval (ζ - ⟨x0, y0⟩) - (derivative R).eval (ζ - ⟨x0, y0⟩)⁻¹ * (ζ - ⟨x0, y0⟩)⁻¹ ^ 2)‖ ≤
      4 * (b / δ ^ 2) * ε + (ringSum (derivative Q) (-(derivative R * X ^ 2)) a b * (2 * (b / δ) * (1 - δ / b) ^ N) +
        B * (2 * N / a * (b / δ) ^ 2 * (1 - δ / b) ^ N)) := by
  have hN : 0 < N := by omega
  have hNr : (0 : ℝ) < N := by exact_mod_cast hN
  have hb : 0 < b := ha.trans hab
  have hpi := Real.pi_pos
  have hpert : ∀ m : ℕ, ‖cauchySum K.nodes (List.zipWith Complex.mk u v) m ζ - cauchySum K.nodes (List.zipWith Complex.mk
      (K.samplesOf fun x y => (laurent Q R x0 y0 x y).re) (K.samplesOf fun x y => (laurent Q R x0 y0 x y).im)) m ζ‖ ≤ 4 * (b / δ ^ m) * ε := by
    intro m
    have := cauchy_perturb (nodes := K.nodes) (ζ := ζ) (m := m) (B := 2 * Real.pi / N * b / δ ^ m) (ε := ε) (by
      intro p hp
      obtain ⟨o1, o2⟩ := ring_node_off h ha hab h1 h2 p hp
      exact div_le_div₀ (by positivity) o2 (by positivity) (pow_le_pow_left₀ hδ.le o1 m)) (by positivity) hε (within_mk hu hv)
    refine this.trans (le_of_eq ?_)
    rw [ring_nodes h, List.length_append, List.length_map, List.length_map, List.length_range]
    push_cast
    field_simp
    ring
  have hf := ringFactor_sub_one ha hδ h1 h2 hN
  have hf' := ringFactor'_le ha hδ h1 h2 hN
  have p1 := hpert 1
  have p2 := hpert 2
  rw [ring_cauchy_one h ha hQ hR (by linarith) (by linarith), pow_one] at p1
  rw [ring_cauchy_two h ha hQ hR (by linarith) (by linarith)] at p2
  have hL := hB (ζ - ⟨x0, y0⟩) (by linarith) (by linarith)
  have hB0 : 0 ≤ B := (norm_nonneg _).trans hL
  have hD := laurent_le (b := b) ha (derivative Q) (-(derivative R * X ^ 2)) (d := ζ - ⟨x0, y0⟩) (by linarith) (by linarith)
  rw [show (derivative Q).eval (ζ - ⟨x0, y0⟩) + eval (ζ - ⟨x0, y0⟩)⁻¹ (-(derivative R * X ^ 2) : ℂ[X]) =
    (derivative Q).eval (ζ - ⟨x0, y0⟩) - (derivative R).eval (ζ - ⟨x0, y0⟩)⁻¹ * (ζ - ⟨x0, y0⟩)⁻¹ ^ 2 by simp [sub_eq_add_neg]] at hD
  have hD0 := (norm_nonneg _).trans hD
  generalize (derivative Q).eval (ζ - ⟨x0, y0⟩) - (derivative R).eval (ζ - ⟨x0, y0⟩)⁻¹ * (ζ - ⟨x0, y0⟩)⁻¹ ^ 2 = D at *
  generalize Q.eval (ζ - ⟨x0, y0⟩) + R.eval (ζ - ⟨x0, y0⟩)⁻¹ = L at *
  generalize ringFactor a b N (ζ - ⟨x0, y0⟩) = E at *
  generalize ringFactor' a b N (ζ - ⟨x0, y0⟩) = E' at *
  constructor
  · refine (norm_sub_le_norm_sub_add_norm_sub _ (L * E) _).trans (add_le_add p1 ?_)
    rw [show L * E - L = L * (E - 1) by ring, norm_mul]
    exact mul_le_mul hL hf (norm_nonneg _) hB0
  · refine (norm_sub_le_norm_sub_add_norm_sub _ (D * E + L * E') _).trans (add_le_add p2 ?_)
    rw [show D * E + L * E' - D = D * (E - 1) + L * E' by ring]
    refine (norm_add_le _ _).trans (add_le_add ?_ ?_)
    · rw [norm_mul]
      exact mul_le_mul hD hf (norm_nonneg _) hD0
    · rw [norm_mul]
      exact mul_le_mul hL hf' (norm_nonneg _) hB0

/-- points of the ring are neither samples nor the centre -/
theorem CellG.IsAnnulus.off {N : ℕ} (h : K.IsAnnulus x0 y0 a b N) {y : ℝ × ℝ} (hy : y ∈ ring x0 y0 a b) : K.Off y := by
  obtain ⟨h1, h2⟩ := hy
  refine ⟨fun s hs e => ?_, fun c hc p hp => ?_⟩
  · rw [h.cols, List.mem_append] at hs
    rcases hs with hs | hs <;> obtain ⟨j, -, rfl⟩ := List.mem_map.1 hs <;> rw [← e] at h1 h2 <;>
      simp only [circleSample, holeSample, add_sub_cancel_left] at h1 h2 <;> have := Real.sin_sq_add_cos_sq (2 * Real.pi * j / N)
    · nlinarith
    · nlinarith
  · obtain ⟨c', d, e, f, k1, -, -, -, -, -, -, q, hq, hx, hy⟩ := h.circles
    simp only [k1, List.tail_cons, List.mem_singleton] at hc
    subst hc
    rw [hq] at hp
    cases hp
    change y.1 ≠ p.x ∨ y.2 ≠ p.y
    rw [hx, hy]
    by_contra hc
    push Not at hc
    rw [hc.1, hc.2] at h1
    nlinarith [pow_two_nonneg a]

theorem ring_withLogs {N : ℕ} (h : K.IsAnnulus x0 y0 a b N) (α : ℝ) (ψ : ℝ → ℝ → ℝ) (x y : ℝ) :
    withLogs K [α] ψ x y = ψ x y + α * Real.log (radius x0 y0 (x, y)) := by
  obtain ⟨p, hp, hx, hy⟩ := h.pole
  rw [withLogs_poles, hp]
  simp [logDist, hx, hy, radius]

theorem log_radius_le (ha : 0 < a) {r : ℝ} (h1 : a ≤ r) (h2 : r ≤ b) : |Real.log r| ≤ max |Real.log a| |Real.log b| :=
  abs_le_max_abs_abs (Real.log_le_log ha h1) (Real.log_le_log (ha.trans_le h1) h2)

set_option maxHeartbeats 1000000 in
/-- C133: solving a Poisson problem on a ring.  Let the boundary values be those of the anti-Laplacian `p` of the right-hand side (see C09) plus
`A log |w|` plus the real part of a Laurent polynomial `Q(w) + R(1/w)`, `w = z - z0`.  If the linear solver leaves residuals of at most `tol` and finds
solutions that exist, then the object is made, has exactly the given boundary values and, if interior values are requested, these differ at distance `δ` from
the boundary from those of this function by at most `ringValueErr`, and the partial derivatives by at most `ringGradErr`. -/
theorem C133_interior {gmres : Gmres} {tol : List ℝ → ℝ} (hg : ResidualWithin gmres tol) (hf : Finds gmres) (h : K.IsAnnulus x0 y0 a b (2 * n))
    (ha : 1 / 10 ^ 14 ≤ a) (hab : a < b) (h4 : 4 ≤ n) (hn : n ≤ 2 * 10 ^ 7) (hs : 4 * ringConst a b * (a / b) ^ (2 * n) ≤ 1)
    {strategy pc : String} {s : Nystrom.Solver} (hi : init gmres K strategy pc = .ok s) {A : ℝ} {Q R : ℂ[X]} {d : ℕ} (hd : d < n)
    (hQ : Q.natDegree ≤ d) (hR : R.natDegree ≤ d) {f p : Poly ℝ} (hp : f.antiLaplacian = .ok p) {tr : LocPoisson.TraceOr}
    (hv : tr.Gives K (K.samplesOf fun x y => p.eval x y + ringData A Q R x0 y0 x y)) (hin : ∀ y ∈ K.interior, y ∈ ring x0 y0 a b)
    {p1 p2 g1 g2 : ℝ → ℝ → ℝ} (hpg : HasGradOn Set.univ p.eval p1 p2) (hgr : RingGradient A Q R x0 y0 g1 g2) (ei eg : Bool) :
    ∃ (rhs : List ℝ) (F : LocPoisson), rhs.length = K.numPts + 1 ∧
      (∀ t ∈ rhs, |t| ≤ (3 + 5 * ((a / b) ^ (2 * n - d) / (1 - a / b))) * ringSum Q R a b + 2 * Real.pi * |A| * Real.log (b / a)) ∧
      LocPoisson.init gmres (some s) f tr ei eg = .ok F ∧
      F.traceValues = .ok (K.samplesOf fun x y => p.eval x y + ringData A Q R x0 y0 x y) ∧
      ((ei || eg) = true → ∃ U : ℝ × ℝ → ℝ, F.intVals = some (K.interior.map U) ∧ ∀ δ > 0, ∀ y ∈ K.interior, a + δ ≤ radius x0 y0 y →
        radius x0 y0 y ≤ b - δ → |U y - (p.eval y.1 y.2 + ringData A Q R x0 y0 y.1 y.2)| ≤ ringValueErr a b δ n d (tol rhs) Q R) ∧
      (eg = true → ∃ V1 V2 : ℝ × ℝ → ℝ, F.intGrad1 = some (K.interior.map V1) ∧ F.intGrad2 = some (K.interior.map V2) ∧
        ∀ δ > 0, ∀ y ∈ K.interior, a + δ ≤ radius x0 y0 y → radius x0 y0 y ≤ b - δ →
          |V1 y - (p1 y.1 y.2 + g1 y.1 y.2)| ≤ ringGradErr a b δ n d (tol rhs) Q R ∧
          |V2 y - (p2 y.1 y.2 + g2 y.1 y.2)| ≤ ringGradErr a b δ n d (tol rhs) Q R) := by
  rw [Poly.antiLaplacian_ok] at hp
  cases hp
  have ha0 : 0 < a := lt_of_lt_of_le (by positivity) ha
  have hb0 : 0 < b := ha0.trans hab
  have hof : s.Of K := C74_solver h.ready (h.even rfl h4 hn) h.edges_ne (h.holes ha0 hb0) hi
  have hK := hof.cell
  have hlen : ∀ g : ℝ → ℝ → ℝ, (K.samplesOf g).length = K.numPts := fun g => by simp [CellG.samplesOf, h.ready.numPts]
  obtain ⟨⟨c, al⟩, hc⟩ := C114_returns hf h ha hab h4 hn hs hi (Q := Q) (R := R) (by omega) (by omega) (A := A)
  obtain ⟨rhs, α, r1, r2, r3, rfl, r5⟩ := C114_conjugate hg h ha hab h4 hn hs hi hd hQ hR hc
  have hcl : c.length = K.numPts := by rw [List.Forall₂.length_eq r3, hlen]
  have e : List.zipWith (· - ·) (K.samplesOf fun x y => (Poly.alP f).eval x y + ringData A Q R x0 y0 x y) (K.samplesOf (Poly.alP f).eval) =
      K.samplesOf (ringData A Q R x0 y0) := by
    simp only [CellG.samplesOf, List.zipWith_map_left, List.zipWith_map_right, List.zipWith_self, add_sub_cancel_left]
  have hto := made_on h.ready (v := K.samplesOf (ringData A Q R x0 y0)) (hlen _) (w := none) (d := none) nofun nofun
  obtain ⟨P, W, hP, hPl, hWl⟩ := ring_antilap hg hf h ha hab h4 hn hs hi
    (u := List.zipWith (fun x (q : Sample) => x - withLogs K [α] (fun _ _ => 0) q.x q.y) (K.samplesOf (ringData A Q R x0 y0)) K.cols)
    (by simp [CellG.samplesOf, h.ready.numPts]) hcl α
  obtain ⟨k, _, _, hk, -, -, -, hBt⟩ := C74_data h.ready h.edges_ne hof hto rfl hc hcl (by rw [h.numHoles]; rfl) hP hPl hWl
  obtain ⟨t, ht, htv⟩ := hBt.psi
  obtain ⟨t', ht', htv'⟩ := hBt.conj
  set psi := List.zipWith (fun x (q : Sample) => x - withLogs K [α] (fun _ _ => 0) q.x q.y) (K.samplesOf (ringData A Q R x0 y0)) K.cols with hpsi
  have hpl : psi.length = K.numPts := by simp [hpsi, CellG.samplesOf, h.ready.numPts]
  have hparts : LocPoisson.Parts { cell := some K, poly := some (polyPart K (Poly.alP f)), harm := some k } K (Poly.alP f) (Poly.nz ((Poly.alP f).map Mono.dx))
      (Poly.nz ((Poly.alP f).map Mono.dy)) [α] psi c :=
    ⟨rfl, ⟨_, rfl, rfl, rfl, rfl⟩, ⟨k, t, t', rfl, hBt.logCoef, ht, htv, ht', htv'⟩, by rw [h.numHoles]; rfl, hpl, hcl,
      fun c hc => by
        obtain ⟨p, hp, -⟩ := h.holes ha0 hb0 c hc
        exact ⟨p, hp⟩, fun y hy => h.off (hin y hy)⟩
  have hci := computeInterior_ok h.ready h.equal hparts eg
  have hinit : LocPoisson.init gmres (some s) f tr ei eg = (if ei || eg then
      LocPoisson.computeInterior { cell := some K, poly := some (polyPart K (Poly.alP f)), harm := some k } eg
      else .ok { cell := some K, poly := some (polyPart K (Poly.alP f)), harm := some k }) := by
    rw [poissonInit_eq gmres h.ready hK f hv, e, hk, py_ok_bind]
  -- the conjugate pair
  set κ := ringLogErr a b (tol rhs) with hκ
  set Λ := max |Real.log a| |Real.log b| with hΛ
  have hκ' : |α - A| ≤ κ := r5
  have hκ0 : 0 ≤ κ := (abs_nonneg _).trans hκ'
  have hΛ0 : 0 ≤ Λ := (abs_nonneg _).trans (le_max_left _ _)
  have hden : 0 < 2 * Real.pi * Real.log (b / a) := mul_pos Real.two_pi_pos (Real.log_pos ((one_lt_div ha0).2 hab))
  have htol : 0 ≤ tol rhs := by
    have := mul_nonneg hκ0 hden.le
    rwa [hκ, ringLogErr, div_mul_cancel₀ _ hden.ne'] at this
  have hS := ringSum_nonneg (Q := Q) (R := R) ha0 hb0
  obtain ⟨q0, q1, -⟩ := ring_ratio ha0 hab
  have hq : 0 < 1 - a / b := by linarith
  have hC : 0 ≤ ringConst a b := by unfold ringConst; positivity
  set c1 := ringConst a b * (tol rhs + 5 * ((a / b) ^ (2 * n - d) / (1 - a / b)) * ringSum Q R a b) with hc1
  have hc10 : 0 ≤ c1 := by positivity
  have hE : ringPairErr a b n d (tol rhs) Q R = c1 + κ * Λ := rfl
  set ε := c1 + κ * Λ with hε
  have hκΛ : 0 ≤ κ * Λ := mul_nonneg hκ0 hΛ0
  have hε0 : 0 ≤ ε := by linarith
  set Q' : ℂ[X] := Q - C (⟨0, (Q.coeff 0 + R.coeff 0).im⟩ : ℂ) with hQ'
  have hlau : ∀ x y, laurent Q' R x0 y0 x y = laurent Q R x0 y0 x y - ⟨0, (Q.coeff 0 + R.coeff 0).im⟩ := fun x y => by
    rw [laurent, laurent, hQ', eval_sub, eval_C]
    ring
  have hre : ∀ x y, (laurent Q' R x0 y0 x y).re = (laurent Q R x0 y0 x y).re := fun x y => by rw [hlau, Complex.sub_re, sub_zero]
  have him : ∀ x y, (laurent Q' R x0 y0 x y).im = ringConj Q R x0 y0 x y := fun x y => by rw [hlau, Complex.sub_im]; rfl
  have hwv : Within ε c (K.samplesOf fun x y => (laurent Q' R x0 y0 x y).im) := by
    simp only [him]
    exact List.Forall₂.imp (fun _ _ hxy => hxy.trans (by linarith)) r3
  have hwu : Within ε psi (K.samplesOf fun x y => (laurent Q' R x0 y0 x y).re) := by
    have e1 : psi = K.cols.map fun q => (laurent Q R x0 y0 q.x q.y).re + (A - α) * Real.log (radius x0 y0 (q.x, q.y)) := by
      rw [hpsi, CellG.samplesOf, List.zipWith_map_left, List.zipWith_self]
      refine List.map_congr_left fun q _ => ?_
      rw [ring_withLogs h, ringData, radius]
      ring
    rw [e1, CellG.samplesOf]
    unfold Within
    rw [List.forall₂_map_left_iff, List.forall₂_map_right_iff]
    refine List.forall₂_same.2 fun q hq => ?_
    rw [hre, add_sub_cancel_left, abs_mul, abs_sub_comm]
    have hr : a ≤ radius x0 y0 (q.x, q.y) ∧ radius x0 y0 (q.x, q.y) ≤ b := by
      rw [h.cols, List.mem_append] at hq
      rcases hq with hq | hq <;> obtain ⟨j, -, rfl⟩ := List.mem_map.1 hq <;> simp only [circleSample, holeSample, radius]
      · rw [show (x0 + b * Real.cos (2 * Real.pi * j / (2 * n : ℕ)) - x0) ^ 2 + (y0 + b * Real.sin (2 * Real.pi * j / (2 * n : ℕ)) - y0) ^ 2 = b ^ 2 by
          linear_combination b ^ 2 * Real.sin_sq_add_cos_sq (2 * Real.pi * j / (2 * n : ℕ)), Real.sqrt_sq hb0.le]
        exact ⟨hab.le, le_rfl⟩
      · rw [show (x0 + a * Real.cos (2 * Real.pi * j / (2 * n : ℕ)) - x0) ^ 2 + (y0 - a * Real.sin (2 * Real.pi * j / (2 * n : ℕ)) - y0) ^ 2 = a ^ 2 by
          linear_combination a ^ 2 * Real.sin_sq_add_cos_sq (2 * Real.pi * j / (2 * n : ℕ)), Real.sqrt_sq ha0.le]
        exact ⟨le_rfl, hab.le⟩
    calc _ ≤ κ * Λ := mul_le_mul hκ' (log_radius_le ha0 hr.1 hr.2) (abs_nonneg _) hκ0
      _ ≤ ε := by linarith
  have hB : ∀ z : ℂ, a ≤ ‖z‖ → ‖z‖ ≤ b → ‖Q'.eval z + R.eval z⁻¹‖ ≤ 2 * ringSum Q R a b := by
    intro z z1 z2
    rw [hQ', eval_sub, eval_C, sub_add_eq_add_sub]
    refine (norm_sub_le _ _).trans ?_
    have k1 := laurent_le ha0 Q R z1 z2
    have k2 : ‖(⟨0, (Q.coeff 0 + R.coeff 0).im⟩ : ℂ)‖ ≤ ringSum Q R a b := by
      rw [norm_mk, show (0 : ℝ) ^ 2 + (Q.coeff 0 + R.coeff 0).im ^ 2 = (Q.coeff 0 + R.coeff 0).im ^ 2 by ring, Real.sqrt_sq_eq_abs]
      refine (Complex.abs_im_le_norm _).trans ((norm_add_le _ _).trans (add_le_add ?_ ?_))
      · rw [coeff_zero_eq_eval_zero]
        exact eval_norm_le Q (by rw [norm_zero]; exact hb0.le)
      · rw [coeff_zero_eq_eval_zero]
        exact eval_norm_le R (by rw [norm_zero]; positivity)
    linarith
  have hder : derivative Q' = derivative Q := by rw [hQ', derivative_sub, derivative_C, sub_zero]
  have hQd : Q'.natDegree < 2 * n := by rw [hQ', natDegree_sub_C]; omega
  have herr : ∀ δ > 0, ∀ y : ℝ × ℝ, a + δ ≤ radius x0 y0 y → radius x0 y0 y ≤ b - δ →
      ‖cauchySum K.nodes (List.zipWith Complex.mk psi c) 1 ⟨y.1, y.2⟩ - laurent Q' R x0 y0 y.1 y.2‖ ≤
        4 * (b / δ) * ε + 2 * ringSum Q R a b * (2 * (b / δ) * (1 - δ / b) ^ (2 * n)) ∧
      ‖cauchySum K.nodes (List.zipWith Complex.mk psi c) 2 ⟨y.1, y.2⟩ - laurentDeriv Q R x0 y0 y.1 y.2‖ ≤
        4 * (b / δ ^ 2) * ε + (ringSum (derivative Q) (-(derivative R * X ^ 2)) a b * (2 * (b / δ) * (1 - δ / b) ^ (2 * n)) +
          2 * ringSum Q R a b * (2 * (2 * n : ℕ) / a * (b / δ) ^ 2 * (1 - δ / b) ^ (2 * n))) := by
    intro δ hδ y y1 y2
    have ez : (⟨y.1, y.2⟩ : ℂ) - ⟨x0, y0⟩ = ⟨y.1 - x0, y.2 - y0⟩ := rfl
    have en : ‖(⟨y.1, y.2⟩ : ℂ) - ⟨x0, y0⟩‖ = radius x0 y0 y := by rw [ez, norm_mk]; rfl
    have := ring_sum_error h ha0 hab hδ hQd (by omega : R.natDegree < 2 * n) hB hε0 hwu hwv (ζ := ⟨y.1, y.2⟩) (by rw [en]; exact y1) (by rw [en]; exact y2)
    rw [hder] at this
    exact this
  have hF : ∃ F, LocPoisson.init gmres (some s) f tr ei eg = .ok F := by
    rw [hinit]
    split_ifs
    · exact ⟨_, hci⟩
    · exact ⟨_, rfl⟩
  obtain ⟨F, hF⟩ := hF
  refine ⟨rhs, F, r1, r2, hF, ?_, fun hei => ?_, fun heg => ?_⟩
  · subst hK
    exact C75_trace h.ready hv hF
  · rw [hinit, if_pos hei, hci] at hF
    cases hF
    refine ⟨_, rfl, fun δ hδ y _ y1 y2 => ?_⟩
    have k1 := (Complex.abs_re_le_norm _).trans (herr δ hδ y y1 y2).1
    rw [Complex.sub_re, hre] at k1
    have k2 : |(α - A) * Real.log (radius x0 y0 y)| ≤ κ * Λ := by
      rw [abs_mul]
      exact mul_le_mul hκ' (log_radius_le ha0 (by linarith) (by linarith)) (abs_nonneg _) hκ0
    have e2 : cauchyValue K (Poly.alP f).eval [α] psi c y.1 y.2 - ((Poly.alP f).eval y.1 y.2 + ringData A Q R x0 y0 y.1 y.2) =
        ((cauchySum K.nodes (List.zipWith Complex.mk psi c) 1 ⟨y.1, y.2⟩).re - (laurent Q R x0 y0 y.1 y.2).re) + (α - A) * Real.log (radius x0 y0 y) := by
      rw [cauchyValue, ring_withLogs h, ringData, radius]
      ring
    rw [e2, ringValueErr, hE]
    refine (abs_add_le _ _).trans ((add_le_add k1 k2).trans (le_of_eq ?_))
    ring
  · have hei : (ei || eg) = true := by simp [heg]
    rw [hinit, if_pos hei, hci] at hF
    cases hF
    subst heg
    refine ⟨_, _, rfl, rfl, fun δ hδ y hy y1 y2 => ?_⟩
    have k2 := (herr δ hδ y y1 y2).2
    have k3 := (Complex.abs_re_le_norm _).trans k2
    have k4 := (Complex.abs_im_le_norm _).trans k2
    rw [Complex.sub_re] at k3
    rw [Complex.sub_im] at k4
    obtain ⟨u1, u2⟩ := HasGrad.unique (hpg y.1 y.2 trivial)
      ⟨Poly.hasDerivAt_dx (Poly.alP_canonical f).2 y.1 y.2, Poly.hasDerivAt_dy (Poly.alP_canonical f).2 y.1 y.2⟩
    have hyne : y ≠ (x0, y0) := by
      rintro rfl
      simp [radius] at y1
      linarith
    obtain ⟨w1, w2⟩ := ring_grad_eq hgr hyne
    obtain ⟨c', d', e', f', m1, -, -, -, -, -, -, p, hp, hx, hy⟩ := h.circles
    have hl1 : logs1 [α] K.components.tail y.1 y.2 = α * ((y.1 - x0) / ((y.1 - x0) ^ 2 + (y.2 - y0) ^ 2)) := by
      simp [logs1, m1, hp, hx, hy, sq, mul_div_assoc]
    have hl2 : logs2 [α] K.components.tail y.1 y.2 = α * ((y.2 - y0) / ((y.1 - x0) ^ 2 + (y.2 - y0) ^ 2)) := by
      simp [logs2, m1, hp, hx, hy, sq, mul_div_assoc]
    have hrad : radius x0 y0 y ^ 2 = (y.1 - x0) ^ 2 + (y.2 - y0) ^ 2 := Real.sq_sqrt (by positivity)
    have hra : a ≤ radius x0 y0 y := by linarith
    have hlog : ∀ t : ℝ, t ^ 2 ≤ (y.1 - x0) ^ 2 + (y.2 - y0) ^ 2 → |(α - A) * (t / ((y.1 - x0) ^ 2 + (y.2 - y0) ^ 2))| ≤ κ / a := by
      intro t ht
      have h1 : |t| ≤ radius x0 y0 y := Real.abs_le_sqrt ht
      have hpos : 0 < radius x0 y0 y := by linarith
      rw [abs_mul, abs_div, ← hrad, abs_of_pos (by positivity : 0 < radius x0 y0 y ^ 2), div_eq_mul_inv κ a]
      refine mul_le_mul hκ' ?_ (by positivity) hκ0
      calc |t| / radius x0 y0 y ^ 2 ≤ radius x0 y0 y / radius x0 y0 y ^ 2 := div_le_div_of_nonneg_right h1 (by positivity)
        _ = (radius x0 y0 y)⁻¹ := by field_simp
        _ ≤ a⁻¹ := inv_anti₀ ha0 hra
    have hcast : ((2 * n : ℕ) : ℝ) = 2 * n := by push_cast; ring
    have hfin : ringGradErr a b δ n d (tol rhs) Q R = 4 * (b / δ ^ 2) * ε + (ringSum (derivative Q) (-(derivative R * X ^ 2)) a b *
        (2 * (b / δ) * (1 - δ / b) ^ (2 * n)) + 2 * ringSum Q R a b * (2 * (2 * n : ℕ) / a * (b / δ) ^ 2 * (1 - δ / b) ^ (2 * n))) + κ / a := by
      rw [ringGradErr, hE, hcast]
      ring
    simp only [if_true]
    rw [hl1, hl2, u1, u2, w1, w2, hfin]
    constructor
    · have := hlog (y.1 - x0) (by nlinarith [pow_two_nonneg (y.2 - y0)])
      refine le_trans (le_of_eq ?_) ((abs_add_le _ _).trans (add_le_add k3 this))
      congr 1
      ring
    · have := hlog (y.2 - y0) (by nlinarith [pow_two_nonneg (y.1 - x0)])
      rw [← abs_neg] at k4
      refine le_trans (le_of_eq ?_) ((abs_add_le _ _).trans (add_le_add k4 this))
      congr 1
      ring

end PFEM
