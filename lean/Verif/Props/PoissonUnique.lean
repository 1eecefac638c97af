import Verif.Lemmas.MaxPrinciple
import Mathlib.Topology.MetricSpace.ProperSpace.Real

/-!
Property theorems C77 and C120, uniqueness: the solutions with which computed functions on discs and ellipses are compared are the only ones.
-/

namespace PFEM

variable {x0 y0 a b r : ℝ}

theorem ellipse_compact (x0 y0 : ℝ) (ha : 0 < a) (hb : 0 < b) : IsCompact {p : ℝ × ℝ | ((p.1 - x0) / a) ^ 2 + ((p.2 - y0) / b) ^ 2 ≤ 1} := by
  have c : Continuous fun p : ℝ × ℝ => ((p.1 - x0) / a) ^ 2 + ((p.2 - y0) / b) ^ 2 := by fun_prop
  refine (isCompact_Icc (a := (x0 - a, y0 - b)) (b := (x0 + a, y0 + b))).of_isClosed_subset (isClosed_le c continuous_const) fun p hp => ?_
  have hp' : ((p.1 - x0) / a) ^ 2 + ((p.2 - y0) / b) ^ 2 ≤ 1 := hp
  have h1 := abs_le_of_sq_le_sq' (show ((p.1 - x0) / a) ^ 2 ≤ 1 ^ 2 by nlinarith [pow_two_nonneg ((p.2 - y0) / b)]) zero_le_one
  have h2 := abs_le_of_sq_le_sq' (show ((p.2 - y0) / b) ^ 2 ≤ 1 ^ 2 by nlinarith [pow_two_nonneg ((p.1 - x0) / a)]) zero_le_one
  rw [le_div_iff₀ ha, div_le_iff₀ ha] at h1
  rw [le_div_iff₀ hb, div_le_iff₀ hb] at h2
  exact ⟨⟨by dsimp only; linarith [h1.1], by dsimp only; linarith [h2.1]⟩, ⟨by dsimp only; linarith [h1.2], by dsimp only; linarith [h2.2]⟩⟩

/-- C120: a function that is continuous on an ellipse, has the Laplacian `f` inside and the values of `u` on the boundary is `u`, if `u` has the Laplacian `f`.  So
the polynomial with which C120 compares the computed values is the only solution of the problem. -/
theorem C120_unique (ha : 0 < a) (hb : 0 < b) {f u w : ℝ → ℝ → ℝ}
    (hu : HasLaplacian {p | ((p.1 - x0) / a) ^ 2 + ((p.2 - y0) / b) ^ 2 < 1} u f) (hw : HasLaplacian {p | ((p.1 - x0) / a) ^ 2 + ((p.2 - y0) / b) ^ 2 < 1} w f)
    (cu : ContinuousOn (fun p : ℝ × ℝ => u p.1 p.2) {p | ((p.1 - x0) / a) ^ 2 + ((p.2 - y0) / b) ^ 2 ≤ 1})
    (cw : ContinuousOn (fun p : ℝ × ℝ => w p.1 p.2) {p | ((p.1 - x0) / a) ^ 2 + ((p.2 - y0) / b) ^ 2 ≤ 1})
    (hbd : ∀ x y, ((x - x0) / a) ^ 2 + ((y - y0) / b) ^ 2 = 1 → w x y = u x y) {x y : ℝ} (h : ((x - x0) / a) ^ 2 + ((y - y0) / b) ^ 2 ≤ 1) : w x y = u x y := by
  have c : Continuous fun p : ℝ × ℝ => ((p.1 - x0) / a) ^ 2 + ((p.2 - y0) / b) ^ 2 := by fun_prop
  exact poisson_unique (isOpen_lt c continuous_const) (ellipse_compact x0 y0 ha hb) (Set.ofPred_subset_ofPred.2 fun p hp => le_of_lt hp) hw hu cw cu
    (fun x y h1 h2 => hbd x y (le_antisymm h1 (not_lt.1 h2))) x y h

/-- C77: the same on a disc -/
theorem C77_unique (hr : 0 < r) {f u w : ℝ → ℝ → ℝ} (hu : HasLaplacian {p | (p.1 - x0) ^ 2 + (p.2 - y0) ^ 2 < r ^ 2} u f)
    (hw : HasLaplacian {p | (p.1 - x0) ^ 2 + (p.2 - y0) ^ 2 < r ^ 2} w f)
    (cu : ContinuousOn (fun p : ℝ × ℝ => u p.1 p.2) {p | (p.1 - x0) ^ 2 + (p.2 - y0) ^ 2 ≤ r ^ 2})
    (cw : ContinuousOn (fun p : ℝ × ℝ => w p.1 p.2) {p | (p.1 - x0) ^ 2 + (p.2 - y0) ^ 2 ≤ r ^ 2})
    (hbd : ∀ x y, (x - x0) ^ 2 + (y - y0) ^ 2 = r ^ 2 → w x y = u x y) {x y : ℝ} (h : (x - x0) ^ 2 + (y - y0) ^ 2 ≤ r ^ 2) : w x y = u x y := by
  have e : ∀ p : ℝ × ℝ, ((p.1 - x0) / r) ^ 2 + ((p.2 - y0) / r) ^ 2 = ((p.1 - x0) ^ 2 + (p.2 - y0) ^ 2) / r ^ 2 := fun p => by
    rw [div_pow, div_pow, add_div]
  have hr2 : 0 < r ^ 2 := pow_pos hr 2
  have s1 : {p : ℝ × ℝ | (p.1 - x0) ^ 2 + (p.2 - y0) ^ 2 < r ^ 2} = {p | ((p.1 - x0) / r) ^ 2 + ((p.2 - y0) / r) ^ 2 < 1} := by
    ext p
    rw [Set.mem_ofPred_eq, Set.mem_ofPred_eq, e, div_lt_one hr2]
  have s2 : {p : ℝ × ℝ | (p.1 - x0) ^ 2 + (p.2 - y0) ^ 2 ≤ r ^ 2} = {p | ((p.1 - x0) / r) ^ 2 + ((p.2 - y0) / r) ^ 2 ≤ 1} := by
    ext p
    rw [Set.mem_ofPred_eq, Set.mem_ofPred_eq, e, div_le_one hr2]
  rw [s1] at hu hw
  rw [s2] at cu cw
  refine C120_unique hr hr hu hw cu cw (fun x y h => hbd x y ?_) ?_
  · have := e (x, y)
    dsimp only at this
    rwa [this, div_eq_one_iff_eq hr2.ne'] at h
  · have := e (x, y)
    dsimp only at this
    rwa [this, div_le_one hr2]

/-! ### the hypotheses can be met: the harmonic function with boundary values `1 - 2y²` on the unit circle is `x² - y²` -/

theorem saddle_laplacian (S : Set (ℝ × ℝ)) : HasLaplacian S (fun x y => x ^ 2 - y ^ 2) fun _ _ => 0 := by
  have d1 : ∀ t : ℝ, HasDerivAt (fun t : ℝ => 2 * t) 2 t := fun t => by simpa using (hasDerivAt_id t).const_mul 2
  refine ⟨fun x _ => 2 * x, fun _ y => -(2 * y), fun x y _ => ⟨⟨?_, ?_⟩, 2, -2, d1 x, (d1 y).fun_neg, by norm_num⟩⟩
  · simpa using (hasDerivAt_pow 2 x).sub_const (y ^ 2)
  · simpa using (hasDerivAt_pow 2 y).const_sub (x ^ 2)

example : ∃! t : ℝ, ∃ w : ℝ → ℝ → ℝ, HasLaplacian {p | (p.1 - 0) ^ 2 + (p.2 - 0) ^ 2 < (1 : ℝ) ^ 2} w (fun _ _ => 0) ∧
    ContinuousOn (fun p : ℝ × ℝ => w p.1 p.2) {p | (p.1 - 0) ^ 2 + (p.2 - 0) ^ 2 ≤ (1 : ℝ) ^ 2} ∧
    (∀ x y, (x - 0) ^ 2 + (y - 0) ^ 2 = (1 : ℝ) ^ 2 → w x y = 1 - 2 * y ^ 2) ∧ w (1 / 2) 0 = t := by
  refine ⟨1 / 4, ⟨fun x y => x ^ 2 - y ^ 2, saddle_laplacian _, by fun_prop, fun x y h => by linarith, by norm_num⟩, ?_⟩
  rintro t ⟨w, hw, cw, hb, rfl⟩
  rw [C77_unique one_pos (saddle_laplacian _) hw (by fun_prop) cw (fun x y h => by rw [hb x y h]; linarith) (by norm_num)]
  norm_num

end PFEM
