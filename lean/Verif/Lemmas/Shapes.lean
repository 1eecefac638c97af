import Mathlib.Analysis.SpecialFunctions.Complex.Arg
import Mathlib.Analysis.SpecialFunctions.Trigonometric.Angle
import Verif.Lemmas.Segment
import Verif.Spec.Region

/-!
Triangles and discs as regions enclosed by their boundary.
-/

namespace PFEM
open Set

theorem sideCurve_reverse (a b : Vert) : (sideCurve a b).reverse = sideCurve b a := by
  have hpi := Real.pi_pos
  simp only [PCurve.reverse, sideCurve, PCurve.mk.injEq]
  refine ⟨?_, ?_, ?_, ?_, trivial, trivial⟩ <;> funext s <;> field_simp <;> ring

theorem sideCurve_smooth (a b : Vert) : (sideCurve a b).Smooth := fun s => by
  refine ⟨?_, ?_, hasDerivAt_const _ _, hasDerivAt_const _ _⟩
  · have := (((hasDerivAt_id s).div_const (2 * Real.pi)).const_mul (b.x - a.x)).const_add a.x
    rwa [mul_one_div] at this
  · have := (((hasDerivAt_id s).div_const (2 * Real.pi)).const_mul (b.y - a.y)).const_add a.y
    rwa [mul_one_div] at this

/-- twice the area of the triangle `z`, `a`, `b`, counter-clockwise counted positive -/
def twiceArea (z : ℝ × ℝ) (a b : Vert) : ℝ := (a.x - z.1) * (b.y - z.2) - (a.y - z.2) * (b.x - z.1)

theorem side_sweep (z : ℝ × ℝ) (a b : Vert) (s : ℝ) : (sideCurve a b).sweep z s = twiceArea z a b / (2 * Real.pi) := by
  have hpi := Real.pi_pos
  simp only [PCurve.sweep, sideCurve, twiceArea]
  field_simp
  ring

/-- the rays to a side fill the cone between the rays to its ends, with the first of them -/
theorem side_cone {z : ℝ × ℝ} {a b : Vert} (h : 0 < twiceArea z a b) {l t : ℝ} (hl : 0 < l) (h0 : 0 ≤ t) (h1 : t < 2 * Real.pi) {q : ℝ × ℝ}
    (hq : q = (sideCurve a b).ray z l t) : 0 ≤ (a.x - z.1) * (q.2 - z.2) - (a.y - z.2) * (q.1 - z.1) ∧
      0 < (q.1 - z.1) * (b.y - z.2) - (q.2 - z.2) * (b.x - z.1) := by
  have hpi := Real.pi_pos
  have e1 : (a.x - z.1) * (q.2 - z.2) - (a.y - z.2) * (q.1 - z.1) = l * (t / (2 * Real.pi)) * twiceArea z a b := by
    subst hq; simp only [PCurve.ray, sideCurve, twiceArea]; ring
  have e2 : (q.1 - z.1) * (b.y - z.2) - (q.2 - z.2) * (b.x - z.1) = l * (1 - t / (2 * Real.pi)) * twiceArea z a b := by
    subst hq; simp only [PCurve.ray, sideCurve, twiceArea]; ring
  have h2 : t / (2 * Real.pi) < 1 := by rw [div_lt_one (by positivity)]; exact h1
  rw [e1, e2]
  refine ⟨by positivity, mul_pos (mul_pos hl (by linarith)) h⟩

theorem side_once {z : ℝ × ℝ} {a b : Vert} (h : 0 < twiceArea z a b) {s t l : ℝ}
    (hq : ((sideCurve a b).x s, (sideCurve a b).y s) = (sideCurve a b).ray z l t) : s = t := by
  have hpi := Real.pi_pos
  simp only [PCurve.ray, Prod.mk.injEq, sideCurve] at hq
  obtain ⟨h1, h2⟩ := hq
  have e1 : (s / (2 * Real.pi) - l * (t / (2 * Real.pi))) * twiceArea z a b = 0 := by
    simp only [twiceArea]
    linear_combination (a.x - z.1) * h2 - (a.y - z.2) * h1
  have e2 : ((1 - s / (2 * Real.pi)) - l * (1 - t / (2 * Real.pi))) * twiceArea z a b = 0 := by
    simp only [twiceArea]
    linear_combination (b.y - z.2) * h1 - (b.x - z.1) * h2
  have e1 := (mul_eq_zero.1 e1).resolve_right h.ne'
  have e2 := (mul_eq_zero.1 e2).resolve_right h.ne'
  have e3 : l = 1 := by linarith
  rw [e3, one_mul, sub_eq_zero, div_left_inj' (by positivity)] at e1
  exact e1

/-- the solid triangle -/
def solidTriangle (a b c : Vert) : Set (ℝ × ℝ) :=
  {q | ∃ u v w : ℝ, 0 ≤ u ∧ 0 ≤ v ∧ 0 ≤ w ∧ u + v + w = 1 ∧ q = (u * a.x + v * b.x + w * c.x, u * a.y + v * b.y + w * c.y)}

theorem triangle_star {a b c : Vert} (h : 0 < (b.x - a.x) * (c.y - a.y) - (b.y - a.y) * (c.x - a.x)) :
    StarAbout ((a.x + b.x + c.x) / 3, (a.y + b.y + c.y) / 3) 1 [sideCurve a b, sideCurve b c, sideCurve c a] := by
  have hpi := Real.pi_pos
  set z : ℝ × ℝ := ((a.x + b.x + c.x) / 3, (a.y + b.y + c.y) / 3) with hz
  have h1 : 0 < twiceArea z a b := by simp only [twiceArea, hz]; linarith
  have h2 : 0 < twiceArea z b c := by simp only [twiceArea, hz]; linarith
  have h3 : 0 < twiceArea z c a := by simp only [twiceArea, hz]; linarith
  refine ⟨?_, ?_, ?_, ?_⟩
  · rintro (_ | _ | _ | i) C C' k1 k2
    · obtain rfl : sideCurve a b = C := by simpa using k1
      obtain rfl : sideCurve b c = C' := by simpa using k2
      simp [sideCurve]
    · obtain rfl : sideCurve b c = C := by simpa using k1
      obtain rfl : sideCurve c a = C' := by simpa using k2
      simp [sideCurve]
    · obtain rfl : sideCurve c a = C := by simpa using k1
      obtain rfl : sideCurve a b = C' := by simpa using k2
      simp [sideCurve]
    · simp at k1
  · intro C hC s _
    simp only [List.mem_cons, List.not_mem_nil, or_false] at hC
    rw [one_mul]
    rcases hC with rfl | rfl | rfl <;> rw [side_sweep] <;> positivity
  · intro C hC s _ t _ l _ hq
    simp only [List.mem_cons, List.not_mem_nil, or_false] at hC
    rcases hC with rfl | rfl | rfl
    · exact side_once h1 hq
    · exact side_once h2 hq
    · exact side_once h3 hq
  · have e0 : ∀ (C : PCurve) (s : ℝ), (C.x s, C.y s) = C.ray z 1 s := fun C s => by simp [PCurve.ray]
    simp only [List.pairwise_cons, List.mem_cons, List.not_mem_nil, or_false, forall_eq_or_imp, forall_eq, IsEmpty.forall_iff,
      implies_true, List.Pairwise.nil, and_true]
    refine ⟨⟨?_, ?_⟩, ?_⟩ <;> intro s hs t ht l hl hq
    · have k1 := side_cone h1 one_pos hs.1 hs.2 (e0 _ _)
      have k2 := side_cone h2 hl ht.1 ht.2 hq
      linarith [k1.2, k2.1]
    · have k1 := side_cone h1 one_pos hs.1 hs.2 (e0 _ _)
      have k2 := side_cone h3 hl ht.1 ht.2 hq
      linarith [k1.1, k2.2]
    · have k1 := side_cone h2 one_pos hs.1 hs.2 (e0 _ _)
      have k2 := side_cone h3 hl ht.1 ht.2 hq
      linarith [k1.2, k2.1]

theorem ray_of_weights (z : ℝ × ℝ) (a b : Vert) {p q : ℝ} (hp : 0 ≤ p) (hq : 0 ≤ q) :
    ∃ s ∈ Icc 0 (2 * Real.pi), (z.1 + p * (a.x - z.1) + q * (b.x - z.1), z.2 + p * (a.y - z.2) + q * (b.y - z.2)) =
      (sideCurve a b).ray z (p + q) s := by
  have hpi := Real.pi_pos
  rcases (add_nonneg hp hq).eq_or_lt with h0 | h0
  · have hp0 : p = 0 := by linarith
    have hq0 : q = 0 := by linarith
    exact ⟨0, ⟨le_rfl, by positivity⟩, by simp [hp0, hq0, PCurve.ray]⟩
  · refine ⟨2 * Real.pi * (q / (p + q)), ⟨by positivity, ?_⟩, ?_⟩
    · have : q / (p + q) ≤ 1 := by rw [div_le_one h0]; linarith
      nlinarith
    · have e1 : 2 * Real.pi * (q / (p + q)) / (2 * Real.pi) = q / (p + q) := by field_simp
      simp only [PCurve.ray, sideCurve, e1, Prod.mk.injEq]
      constructor <;> field_simp <;> ring

theorem triangle_region (a b c : Vert) :
    starRegion ((a.x + b.x + c.x) / 3, (a.y + b.y + c.y) / 3) [sideCurve a b, sideCurve b c, sideCurve c a] = solidTriangle a b c := by
  have hpi := Real.pi_pos
  set z : ℝ × ℝ := ((a.x + b.x + c.x) / 3, (a.y + b.y + c.y) / 3) with hz
  ext q
  constructor
  · rintro ⟨C, hC, r, hr, s, hs, rfl⟩
    set t := s / (2 * Real.pi) with ht
    have t0 : 0 ≤ t := div_nonneg hs.1 (by positivity)
    have t1 : t ≤ 1 := by rw [ht, div_le_one (by positivity)]; exact hs.2
    have r0 := hr.1
    have r1 : 0 ≤ (1 - r) / 3 := by linarith [hr.2]
    have r2 : 0 ≤ r * (1 - t) := mul_nonneg r0 (by linarith)
    have r3 : 0 ≤ r * t := mul_nonneg r0 t0
    simp only [List.mem_cons, List.not_mem_nil, or_false] at hC
    rcases hC with rfl | rfl | rfl
    · refine ⟨(1 - r) / 3 + r * (1 - t), (1 - r) / 3 + r * t, (1 - r) / 3, by linarith, by linarith, r1, by ring, ?_⟩
      simp only [PCurve.ray, sideCurve, hz, ← ht, Prod.mk.injEq]
      constructor <;> ring
    · refine ⟨(1 - r) / 3, (1 - r) / 3 + r * (1 - t), (1 - r) / 3 + r * t, r1, by linarith, by linarith, by ring, ?_⟩
      simp only [PCurve.ray, sideCurve, hz, ← ht, Prod.mk.injEq]
      constructor <;> ring
    · refine ⟨(1 - r) / 3 + r * t, (1 - r) / 3, (1 - r) / 3 + r * (1 - t), by linarith, r1, by linarith, by ring, ?_⟩
      simp only [PCurve.ray, sideCurve, hz, ← ht, Prod.mk.injEq]
      constructor <;> ring
  · rintro ⟨u, v, w, hu, hv, hw, h1, rfl⟩
    rcases le_total w u with k1 | k1
    · rcases le_total w v with k2 | k2
      · obtain ⟨s, hs, he⟩ := ray_of_weights z a b (p := u - w) (q := v - w) (by linarith) (by linarith)
        refine ⟨sideCurve a b, by simp, u - w + (v - w), ⟨by linarith, by linarith⟩, s, hs, ?_⟩
        rw [← he]
        simp only [hz, Prod.mk.injEq]
        constructor
        · linear_combination (a.x + b.x + c.x) / 3 * h1
        · linear_combination (a.y + b.y + c.y) / 3 * h1
      · obtain ⟨s, hs, he⟩ := ray_of_weights z c a (p := w - v) (q := u - v) (by linarith) (by linarith)
        refine ⟨sideCurve c a, by simp, w - v + (u - v), ⟨by linarith, by linarith⟩, s, hs, ?_⟩
        rw [← he]
        simp only [hz, Prod.mk.injEq]
        constructor
        · linear_combination (a.x + b.x + c.x) / 3 * h1
        · linear_combination (a.y + b.y + c.y) / 3 * h1
    · rcases le_total u v with k2 | k2
      · obtain ⟨s, hs, he⟩ := ray_of_weights z b c (p := v - u) (q := w - u) (by linarith) (by linarith)
        refine ⟨sideCurve b c, by simp, v - u + (w - u), ⟨by linarith, by linarith⟩, s, hs, ?_⟩
        rw [← he]
        simp only [hz, Prod.mk.injEq]
        constructor
        · linear_combination (a.x + b.x + c.x) / 3 * h1
        · linear_combination (a.y + b.y + c.y) / 3 * h1
      · obtain ⟨s, hs, he⟩ := ray_of_weights z c a (p := w - v) (q := u - v) (by linarith) (by linarith)
        refine ⟨sideCurve c a, by simp, w - v + (u - v), ⟨by linarith, by linarith⟩, s, hs, ?_⟩
        rw [← he]
        simp only [hz, Prod.mk.injEq]
        constructor
        · linear_combination (a.x + b.x + c.x) / 3 * h1
        · linear_combination (a.y + b.y + c.y) / 3 * h1

/-- a triangle is enclosed by its sides, run counter-clockwise -/
theorem triangle_encloses {a b c : Vert} (h : 0 < (b.x - a.x) * (c.y - a.y) - (b.y - a.y) * (c.x - a.x)) :
    Encloses [sideCurve a b, sideCurve b c, sideCurve c a] (solidTriangle a b c) := by
  rw [← triangle_region]
  refine .star ?_ (triangle_star h)
  intro C hC
  simp only [List.mem_cons, List.not_mem_nil, or_false] at hC
  rcases hC with rfl | rfl | rfl <;> exact sideCurve_smooth _ _

/-! ### discs -/

/-- the circle about `(u, v)` with radius `r` -/
noncomputable def roundCurve (u v r : ℝ) : PCurve :=
  ⟨fun s => u + r * Real.cos s, fun s => v + r * Real.sin s, fun s => -(r * Real.sin s), fun s => r * Real.cos s,
    fun s => -(r * Real.cos s), fun s => -(r * Real.sin s)⟩

theorem roundCurve_smooth (u v r : ℝ) : (roundCurve u v r).Smooth := fun s =>
  ⟨by simpa [roundCurve] using ((Real.hasDerivAt_cos s).const_mul r).const_add u,
    ((Real.hasDerivAt_sin s).const_mul r).const_add v, ((Real.hasDerivAt_sin s).const_mul r).neg,
    by simpa [roundCurve] using (Real.hasDerivAt_cos s).const_mul r⟩

/-- the closed disc -/
def solidDisc (u v r : ℝ) : Set (ℝ × ℝ) := {q | (q.1 - u) ^ 2 + (q.2 - v) ^ 2 ≤ r ^ 2}

theorem disc_star (u v : ℝ) {r : ℝ} (hr : 0 < r) : StarAbout (u, v) 1 [roundCurve u v r] := by
  refine ⟨?_, ?_, ?_, by simp⟩
  · rintro (_ | i) C C' h1 h2
    · obtain rfl : roundCurve u v r = C := by simpa using h1
      obtain rfl : roundCurve u v r = C' := by simpa using h2
      simp [roundCurve]
    · simp at h1
  · intro C hC s _
    rw [List.mem_singleton] at hC
    subst hC
    have : (roundCurve u v r).sweep (u, v) s = r ^ 2 := by
      simp only [PCurve.sweep, roundCurve]
      linear_combination r ^ 2 * Real.sin_sq_add_cos_sq s
    rw [this]
    positivity
  · intro C hC s hs t ht l hl hq
    rw [List.mem_singleton] at hC
    subst hC
    simp only [PCurve.ray, roundCurve, Prod.mk.injEq, add_sub_cancel_left, add_right_inj] at hq
    have h1 : Real.cos s = l * Real.cos t := by
      have := hq.1
      rw [mul_left_comm] at this
      exact mul_left_cancel₀ hr.ne' this
    have h2 : Real.sin s = l * Real.sin t := by
      have := hq.2
      rw [mul_left_comm] at this
      exact mul_left_cancel₀ hr.ne' this
    have hl1 : l = 1 := by
      have k1 := Real.sin_sq_add_cos_sq s
      have k2 := Real.sin_sq_add_cos_sq t
      rw [h1, h2] at k1
      have : l ^ 2 = 1 := by linear_combination k1 - l ^ 2 * k2
      nlinarith
    rw [hl1, one_mul] at h1 h2
    have := Real.Angle.cos_sin_inj h1 h2
    obtain ⟨k, hk⟩ := Real.Angle.angle_eq_iff_two_pi_dvd_sub.1 this
    have hpi := Real.pi_pos
    have hk0 : k = 0 := by
      have a1 : (k : ℝ) < 1 := by
        by_contra hc
        push Not at hc
        nlinarith [hs.1, hs.2, ht.1, ht.2]
      have a2 : (-1 : ℝ) < k := by
        by_contra hc
        push Not at hc
        nlinarith [hs.1, hs.2, ht.1, ht.2]
      have b1 : k < 1 := by exact_mod_cast a1
      have b2 : -1 < k := by exact_mod_cast a2
      omega
    rw [hk0] at hk
    simp at hk
    linarith

/-- polar coordinates -/
theorem exists_polar (x y : ℝ) : ∃ ρ θ : ℝ, 0 ≤ ρ ∧ θ ∈ Icc 0 (2 * Real.pi) ∧ x = ρ * Real.cos θ ∧ y = ρ * Real.sin θ := by
  have hpi := Real.pi_pos
  have h1 := Complex.norm_mul_cos_arg (⟨x, y⟩ : ℂ)
  have h2 := Complex.norm_mul_sin_arg (⟨x, y⟩ : ℂ)
  have h3 := Complex.neg_pi_lt_arg (⟨x, y⟩ : ℂ)
  have h4 := Complex.arg_le_pi (⟨x, y⟩ : ℂ)
  rcases le_or_gt 0 (Complex.arg ⟨x, y⟩) with h | h
  · exact ⟨_, _, norm_nonneg _, ⟨h, by linarith⟩, h1.symm, h2.symm⟩
  · refine ⟨‖(⟨x, y⟩ : ℂ)‖, Complex.arg ⟨x, y⟩ + 2 * Real.pi, norm_nonneg _, ⟨by linarith, by linarith⟩, ?_, ?_⟩
    · rw [Real.cos_add_two_pi]; exact h1.symm
    · rw [Real.sin_add_two_pi]; exact h2.symm

theorem disc_region (u v : ℝ) {r : ℝ} (hr : 0 < r) : starRegion (u, v) [roundCurve u v r] = solidDisc u v r := by
  ext ⟨x, y⟩
  constructor
  · rintro ⟨C, hC, l, hl, s, hs, hq⟩
    rw [List.mem_singleton] at hC
    subst hC
    simp only [PCurve.ray, roundCurve, Prod.mk.injEq] at hq
    simp only [solidDisc, Set.mem_ofPred_eq, hq.1, hq.2]
    have : (u + l * (u + r * Real.cos s - u) - u) ^ 2 + (v + l * (v + r * Real.sin s - v) - v) ^ 2 = l ^ 2 * r ^ 2 := by
      linear_combination l ^ 2 * r ^ 2 * Real.sin_sq_add_cos_sq s
    rw [this]
    have : l ^ 2 ≤ 1 := by nlinarith [hl.1, hl.2]
    nlinarith [sq_nonneg r]
  · intro hq
    simp only [solidDisc, Set.mem_ofPred_eq] at hq
    obtain ⟨ρ, θ, h0, hθ, h1, h2⟩ := exists_polar (x - u) (y - v)
    have h3 : ρ ^ 2 ≤ r ^ 2 := by
      rw [h1, h2] at hq
      calc ρ ^ 2 = (ρ * Real.cos θ) ^ 2 + (ρ * Real.sin θ) ^ 2 := by linear_combination -ρ ^ 2 * Real.sin_sq_add_cos_sq θ
        _ ≤ r ^ 2 := hq
    have h4 : ρ ≤ r := by nlinarith
    refine ⟨roundCurve u v r, by simp, ρ / r, ⟨by positivity, by rw [div_le_one hr]; exact h4⟩, θ, hθ, ?_⟩
    simp only [PCurve.ray, roundCurve, Prod.mk.injEq]
    constructor
    · field_simp; linear_combination r * h1
    · field_simp; linear_combination r * h2

/-- a disc is enclosed by its circle -/
theorem disc_encloses (u v : ℝ) {r : ℝ} (hr : 0 < r) : Encloses [roundCurve u v r] (solidDisc u v r) := by
  rw [← disc_region u v hr]
  exact .star (by simpa using roundCurve_smooth u v r) (disc_star u v hr)

end PFEM
