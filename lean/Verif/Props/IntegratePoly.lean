import Mathlib.Analysis.SpecialFunctions.Integrals.Basic
import Verif.Model.IntegratePoly
import Verif.Props.CellBoundary

/-!
Property theorems C17 (integrals of polynomials over a cell).
-/

namespace PFEM
open EdgeG

/-- the function `sum_m m(x, y) / (2 + |m|)` -/
noncomputable def radial (p : Poly ℝ) (x y : ℝ) : ℝ :=
  (p.map fun m => m.coef * x ^ m.alpha.x * y ^ m.alpha.y / (2 + (m.alpha.x + m.alpha.y : ℕ))).sum

/-- the vector field `F(x) = x sum_m m(x) / (2 + |m|)` -/
noncomputable def radialField (p : Poly ℝ) (x y : ℝ) : ℝ × ℝ := (x * radial p x y, y * radial p x y)

theorem mono_eval (m : Mono ℝ) (x y : ℝ) : m.eval x y = m.coef * x ^ m.alpha.x * y ^ m.alpha.y := by
  unfold Mono.eval
  rcases Nat.eq_zero_or_pos m.alpha.x with h1 | h1 <;> rcases Nat.eq_zero_or_pos m.alpha.y with h2 | h2 <;>
    simp [h1, h2]

theorem poly_eval (p : Poly ℝ) (x y : ℝ) : p.eval x y = (p.map fun m => m.coef * x ^ m.alpha.x * y ^ m.alpha.y).sum := by
  have : ∀ (l : List (Mono ℝ)) (v : ℝ), l.foldl (fun val m => val + m.eval x y) v =
      v + (l.map fun m => m.coef * x ^ m.alpha.x * y ^ m.alpha.y).sum := by
    intro l
    induction l with
    | nil => intro v; simp
    | cons m l ih => intro v; simp only [List.foldl_cons, ih, List.map_cons, List.sum_cons]; rw [mono_eval]; ring
  rw [Poly.eval, this, zero_add]

theorem loop_eq {K : CellG} (h : K.Ready) (hne : ∀ c ∈ K.components, c.edges ≠ []) : ∀ (l : List (Mono ℝ)) (val : ℝ),
    integratePolyLoop K (K.cols.map Sample.x) (K.cols.map Sample.y)
      (K.cols.map fun s => s.x * s.nx + s.y * s.ny) val l =
    .ok (val + dot (K.cols.map fun s => (s.x * s.nx + s.y * s.ny) * radial l s.x s.y) (cellWeights K))
  | [], val => by
    have : ∀ (l : List Sample) (w : List ℝ), dot (l.map fun _ => (0 : ℝ)) w = 0 := by
      intro l
      induction l with
      | nil => intro w; simp [dot, entrywise]
      | cons a l ih =>
        intro w
        cases w with
        | nil => simp [dot, entrywise]
        | cons b w => have := ih w; simp [dot, entrywise] at this ⊢; exact this
    simp only [integratePolyLoop, radial, List.map_nil, List.sum_nil, mul_zero, this, add_zero]
  | m :: l, val => by
    have hz : List.zipWith m.eval (K.cols.map Sample.x) (K.cols.map Sample.y) = K.cols.map fun s => m.eval s.x s.y := by
      rw [List.zipWith_map, List.zipWith_self]
    have hb : Np.bin (fun x1 x2 : ℝ => x1 * x2) (K.cols.map fun s => s.x * s.nx + s.y * s.ny) (K.cols.map fun s => m.eval s.x s.y) =
        .ok (K.cols.map fun s => (s.x * s.nx + s.y * s.ny) * m.eval s.x s.y) := by
      unfold Np.bin
      rw [if_pos (by simp), List.zipWith_map, List.zipWith_self]
    simp only [integratePolyLoop, hz, hb, bind, Except.bind]
    rw [cell_integrate h hne (by simp)]
    simp only
    rw [loop_eq h hne l]
    congr 1
    have hl := dot_lincomb 1 1
      ((K.cols.map fun s => (s.x * s.nx + s.y * s.ny) * m.eval s.x s.y).map (· / ((2 : ℝ) + m.alpha.order)))
      (K.cols.map fun s => (s.x * s.nx + s.y * s.ny) * radial l s.x s.y) (cellWeights K) (by simp)
    rw [one_mul, one_mul] at hl
    rw [add_assoc, ← hl]
    congr 2
    rw [lincomb, List.map_map, List.zipWith_map, List.zipWith_self]
    refine List.map_congr_left fun s _ => ?_
    simp only [Function.comp, mono_eval, radial, List.map_cons, List.sum_cons, MultiIndex.order]
    push_cast
    ring

/-- C17: the value returned is the boundary integral of the normal component of the vector field
`F(x) = sum_m x m(x) / (2 + |m|)`. -/
theorem C17_boundary {K : CellG} (h : K.Ready) (hne : ∀ c ∈ K.components, c.edges ≠ []) (p : Poly ℝ) :
    ∃ F1 F2 Fn I, K.evaluateFunction (fun x y => (radialField p x y).1) = .ok F1 ∧
      K.evaluateFunction (fun x y => (radialField p x y).2) = .ok F2 ∧
      K.dotWithNormal F1 F2 = .ok Fn ∧ K.integrate Fn = .ok I ∧ integratePoly p K = .ok I := by
  refine ⟨_, _, _, _, h.evaluateFunction _, h.evaluateFunction _, h.dotWithNormal (by simp) (by simp),
    cell_integrate h hne (by simp), ?_⟩
  have hx := h.dotWithNormal (c1 := K.cols.map Sample.x) (c2 := K.cols.map Sample.y) (by simp) (by simp)
  have e1 : List.zipWith (fun s (p : ℝ × ℝ) => p.1 * s.nx + p.2 * s.ny) K.cols
      ((K.cols.map Sample.x).zip (K.cols.map Sample.y)) = K.cols.map fun s => s.x * s.nx + s.y * s.ny := by
    rw [List.zip_map', List.zipWith_map_right, List.zipWith_self]
  rw [e1] at hx
  simp only [integratePoly, h.getBoundaryPoints, bind, Except.bind, hx]
  rw [loop_eq h hne, zero_add, List.zip_map', List.zipWith_map_right, List.zipWith_self]
  congr 2
  refine List.map_congr_left fun s _ => ?_
  simp only [radialField]
  ring

/-- C17: the divergence of `F` is the polynomial. -/
theorem C17_divergence (p : Poly ℝ) (x y : ℝ) :
    ∃ d1 d2, HasDerivAt (fun s => (radialField p s y).1) d1 x ∧ HasDerivAt (fun t => (radialField p x t).2) d2 y ∧
      d1 + d2 = p.eval x y := by
  induction p with
  | nil =>
    refine ⟨0, 0, ?_, ?_, by simp [Poly.eval]⟩
    · simpa [radialField, radial] using hasDerivAt_const x (0 : ℝ)
    · simpa [radialField, radial] using hasDerivAt_const y (0 : ℝ)
  | cons m l ih =>
    obtain ⟨d1, d2, h1, h2, h3⟩ := ih
    set k : ℝ := 2 + ((m.alpha.x + m.alpha.y : ℕ) : ℝ) with hk
    have hk0 : k ≠ 0 := by rw [hk]; positivity
    have e1 : (fun s => (radialField (m :: l) s y).1) =
        fun s => m.coef * y ^ m.alpha.y / k * s ^ (m.alpha.x + 1) + (radialField l s y).1 := by
      funext s
      simp only [radialField, radial, List.map_cons, List.sum_cons, ← hk]
      ring
    have e2 : (fun t => (radialField (m :: l) x t).2) =
        fun t => m.coef * x ^ m.alpha.x / k * t ^ (m.alpha.y + 1) + (radialField l x t).2 := by
      funext t
      simp only [radialField, radial, List.map_cons, List.sum_cons, ← hk]
      ring
    refine ⟨_, _, by rw [e1]; exact ((hasDerivAt_pow (m.alpha.x + 1) x).const_mul _).add h1,
      by rw [e2]; exact ((hasDerivAt_pow (m.alpha.y + 1) y).const_mul _).add h2, ?_⟩
    have h4 : Poly.eval (m :: l) x y = m.coef * x ^ m.alpha.x * y ^ m.alpha.y + Poly.eval l x y := by
      rw [poly_eval, poly_eval]; simp
    rw [h4, ← h3]
    simp only [Nat.add_sub_cancel, Nat.cast_add, Nat.cast_one]
    have : m.coef * x ^ m.alpha.x * y ^ m.alpha.y = (m.coef * x ^ m.alpha.x * y ^ m.alpha.y / k) * k := by field_simp
    rw [this, hk]
    push_cast
    ring

/-- the radial average: `radial p` only depends on the values of `p` -/
theorem radial_eq (p : Poly ℝ) (x y : ℝ) : radial p x y = ∫ s in (0 : ℝ)..1, s * p.eval (s * x) (s * y) := by
  simp only [poly_eval]
  induction p with
  | nil => simp [radial]
  | cons m l ih =>
    simp only [List.map_cons, List.sum_cons, mul_add]
    rw [intervalIntegral.integral_add]
    · rw [← ih]
      simp only [radial, List.map_cons, List.sum_cons]
      congr 1
      have : ∀ s : ℝ, s * (m.coef * (s * x) ^ m.alpha.x * (s * y) ^ m.alpha.y) =
          (m.coef * x ^ m.alpha.x * y ^ m.alpha.y) * s ^ (m.alpha.x + m.alpha.y + 1) := by intro s; ring
      simp only [this]
      rw [intervalIntegral.integral_const_mul, integral_pow]
      simp only [one_pow, ne_eq, Nat.add_eq_zero_iff, one_ne_zero, and_false, not_false_eq_true, zero_pow, sub_zero]
      push_cast
      rw [mul_one_div]
      congr 1
      ring
    · exact Continuous.intervalIntegrable (by fun_prop) _ _
    · refine Continuous.intervalIntegrable ?_ _ _
      clear ih
      refine continuous_id.mul ?_
      induction l with
      | nil => simpa using continuous_const
      | cons n l ih2 =>
        simp only [List.map_cons, List.sum_cons]
        exact Continuous.add (by fun_prop) ih2

theorem poly_eval_continuous (p : Poly ℝ) (x y : ℝ) : Continuous fun s : ℝ => s * p.eval (s * x) (s * y) := by
  simp only [poly_eval]
  refine continuous_id.mul ?_
  induction p with
  | nil => simpa using continuous_const
  | cons n l ih2 =>
    simp only [List.map_cons, List.sum_cons]
    exact Continuous.add (by fun_prop) ih2

/-- the integral as a sum over all samples -/
theorem integratePoly_ok {K : CellG} (h : K.Ready) (hne : ∀ c ∈ K.components, c.edges ≠ []) (p : Poly ℝ) : integratePoly p K =
    .ok (dot (K.cols.map fun s => (s.x * s.nx + s.y * s.ny) * radial p s.x s.y) (cellWeights K)) := by
  have hx := h.dotWithNormal (c1 := K.cols.map Sample.x) (c2 := K.cols.map Sample.y) (by simp) (by simp)
  have e1 : List.zipWith (fun s (p : ℝ × ℝ) => p.1 * s.nx + p.2 * s.ny) K.cols
      ((K.cols.map Sample.x).zip (K.cols.map Sample.y)) = K.cols.map fun s => s.x * s.nx + s.y * s.ny := by
    rw [List.zip_map', List.zipWith_map_right, List.zipWith_self]
  rw [e1] at hx
  simp only [integratePoly, h.getBoundaryPoints, bind, Except.bind, hx]
  rw [loop_eq h hne, zero_add]

/-- C17: the integral is linear in the polynomial function: it depends only on the values of the polynomial, not on the list of
its monomials, and a linear combination of polynomials has the linear combination of the integrals. -/
theorem C17_linear {K : CellG} (h : K.Ready) (hne : ∀ c ∈ K.components, c.edges ≠ []) (p q r : Poly ℝ) (a b : ℝ)
    (hr : ∀ x y, r.eval x y = a * p.eval x y + b * q.eval x y) :
    ∃ I J, integratePoly p K = .ok I ∧ integratePoly q K = .ok J ∧ integratePoly r K = .ok (a * I + b * J) := by
  have key := integratePoly_ok h hne
  refine ⟨_, _, key p, key q, ?_⟩
  rw [key r, ← dot_lincomb _ _ _ _ _ (by simp)]
  congr 2
  rw [lincomb, List.zipWith_map, List.zipWith_self]
  refine List.map_congr_left fun s _ => ?_
  have : radial r s.x s.y = a * radial p s.x s.y + b * radial q s.x s.y := by
    rw [radial_eq, radial_eq, radial_eq, ← intervalIntegral.integral_const_mul, ← intervalIntegral.integral_const_mul,
      ← intervalIntegral.integral_add]
    · congr 1
      funext t
      rw [hr]
      ring
    · exact ((poly_eval_continuous p _ _).const_mul a).intervalIntegrable _ _
    · exact ((poly_eval_continuous q _ _).const_mul b).intervalIntegrable _ _
  rw [this]
  ring

/-- the hypotheses hold for a sampled circle: see the example at the end of `CellBoundary.lean`; here is a combination -/
example : ∀ x y : ℝ, Poly.eval [⟨⟨1, 0⟩, 2⟩, ⟨⟨0, 1⟩, 3⟩] x y =
    2 * Poly.eval [⟨⟨1, 0⟩, 1⟩] x y + 3 * Poly.eval [⟨⟨0, 1⟩, 1⟩] x y := by
  intro x y
  simp [poly_eval]

end PFEM
