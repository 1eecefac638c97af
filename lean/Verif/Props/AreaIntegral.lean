import Verif.Lemmas.GreenRegion
import Verif.Lemmas.Shapes
import Verif.Props.QuadOrder
import Verif.Props.IntegratePoly
import Verif.Props.FftContour

/-!
Property theorems C101: integrals of polynomials over a cell are the integrals over the region that its boundary encloses.
-/

namespace PFEM
open Set MeasureTheory

theorem radial_contDiff (p : Poly ℝ) (k : ℕ) : ContDiff ℝ k fun q : ℝ × ℝ => radial p q.1 q.2 := by
  induction p with
  | nil => simpa [radial] using contDiff_const
  | cons m l ih =>
    have : (fun q : ℝ × ℝ => radial (m :: l) q.1 q.2) = fun q : ℝ × ℝ =>
        m.coef * q.1 ^ m.alpha.x * q.2 ^ m.alpha.y / (2 + ((m.alpha.x + m.alpha.y : ℕ) : ℝ)) + radial l q.1 q.2 := by
      funext q; simp [radial]
    rw [this]
    exact ContDiff.add (by fun_prop) ih

theorem radialField_contDiff (p : Poly ℝ) (k : ℕ) : ContDiff ℝ k (fun q : ℝ × ℝ => (radialField p q.1 q.2).1) ∧
    ContDiff ℝ k fun q : ℝ × ℝ => (radialField p q.1 q.2).2 := by
  have := radial_contDiff p k
  simp only [radialField]
  exact ⟨contDiff_fst.mul this, contDiff_snd.mul this⟩

/-- the flux of the field of a polynomial out of a region is the integral of the polynomial -/
theorem radial_green {Cs : List PCurve} {S : Set (ℝ × ℝ)} (hE : Encloses Cs S) (p : Poly ℝ) :
    IntegrableOn (fun q : ℝ × ℝ => p.eval q.1 q.2) S ∧ ∫ q in S, p.eval q.1 q.2 =
      (Cs.map fun C => C.flux (fun x y => (radialField p x y).1) fun x y => (radialField p x y).2).sum := by
  obtain ⟨h1, h2⟩ := radialField_contDiff p 1
  exact region_green hE (fun q _ => h1.contDiffAt) (fun q _ => h2.contDiffAt) (fun _ _ _ _ => h1.contDiffAt)
    (fun _ _ _ _ => h2.contDiffAt) fun x y _ => C17_divergence p x y

/-- C101: the integral of a polynomial over a cell converges to the integral over the region that the boundary of the cell encloses,
holes left out.  If the rules of all edges have order `k`, then the error is at most `M / n^k` with a constant `M` that does not depend
on `n`: order `p` for the Kress rule with even parameter `p`, `p + 1` for odd `p`, every order for smooth closed edges with the
trapezoidal rule. -/
theorem C101_integral {K : CellG} {Cs : List PCurve} {S : Set (ℝ × ℝ)} (hK : K.Shaped) (hg : K.GoodDiaries)
    (hC : K.BoundaryCurves Cs) (hE : Encloses Cs S) (p : ℤ) {k : ℕ} (hr : K.SuitedRules p k Cs) (hk : 1 ≤ k) (f : Poly ℝ) :
    ∃ M : ℝ, ∀ n d inside fuel K1, getQuadDict n p = .ok d → K.parameterize inside fuel d = some (.ok K1) →
      ∃ I, integratePoly f K1 = .ok I ∧ |I - ∫ q in S, f.eval q.1 q.2| ≤ M / (n : ℝ) ^ k := by
  obtain ⟨h1, h2⟩ := radialField_contDiff f k
  obtain ⟨M, hM⟩ := C86_fields hK hg hC p hr hk (f := fun x y => (radialField f x y).1) (g := fun x y => (radialField f x y).2)
    (fun _ _ _ _ => h1.contDiffAt) fun _ _ _ _ => h2.contDiffAt
  refine ⟨M, fun n d inside fuel K1 hd h => ?_⟩
  obtain ⟨u, v, hu, hv, ⟨w, I, hw, hI, hb⟩, -⟩ := hM n d inside fuel K1 hd h
  obtain ⟨k1, k2, -⟩ := cell_rel hd hK h
  obtain ⟨u', v', w', I', hu', hv', hw', hI', hp⟩ := C17_boundary k1 (fun c hc => (k2 c hc).1) f
  rw [hu] at hu'; cases hu'
  rw [hv] at hv'; cases hv'
  rw [hw] at hw'; cases hw'
  rw [hI] at hI'; cases hI'
  rw [(radial_green hE f).2]
  exact ⟨I, hp, hb⟩

/-- C101: whatever the rules of the edges, the integrals converge. -/
theorem C101_limit {K : CellG} {Cs : List PCurve} {S : Set (ℝ × ℝ)} (hK : K.Shaped) (hg : K.GoodDiaries)
    (hC : K.BoundaryCurves Cs) (hE : Encloses Cs S) (p : ℤ) (f : Poly ℝ) {ε : ℝ} (hε : 0 < ε) :
    ∃ N0 : ℤ, ∀ n ≥ N0, ∀ d inside fuel K1, getQuadDict n p = .ok d → K.parameterize inside fuel d = some (.ok K1) →
      ∃ I, integratePoly f K1 = .ok I ∧ |I - ∫ q in S, f.eval q.1 q.2| < ε := by
  obtain ⟨h1, h2⟩ := radialField_contDiff f 1
  obtain ⟨M, hM⟩ := C85_fields hK hg hC (f := fun x y => (radialField f x y).1) (g := fun x y => (radialField f x y).2)
    (fun _ _ _ _ => h1.continuous.continuousAt) (fun _ _ _ _ => h2.continuous.continuousAt) p hε
  refine ⟨M, fun n hn d inside fuel K1 hd h => ?_⟩
  obtain ⟨u, v, hu, hv, ⟨w, I, hw, hI, hb⟩, -⟩ := hM n hn d inside fuel K1 hd h
  obtain ⟨k1, k2, -⟩ := cell_rel hd hK h
  obtain ⟨u', v', w', I', hu', hv', hw', hI', hp⟩ := C17_boundary k1 (fun c hc => (k2 c hc).1) f
  rw [hu] at hu'; cases hu'
  rw [hv] at hv'; cases hv'
  rw [hw] at hw'; cases hw'
  rw [hI] at hI'; cases hI'
  rw [(radial_green hE f).2]
  exact ⟨I, hp, hb⟩

/-! ### the hypotheses can be met: the area of a disc, and of a triangle without a disc -/

theorem circle_round : circleCurve = roundCurve 2 3 1 := by simp [circleCurve, roundCurve]

theorem circle_encloses : Encloses [circleCurve] (solidDisc 2 3 1) := by
  rw [circle_round]
  exact disc_encloses 2 3 one_pos

theorem unit_radial (x y : ℝ) : radialField [⟨⟨0, 0⟩, 1⟩] x y = (x * (1 / 2), y * (1 / 2)) := by simp [radialField, radial]

theorem unit_eval (x y : ℝ) : Poly.eval [⟨⟨0, 0⟩, 1⟩] x y = (1 : ℝ) := by simp [Poly.eval, Mono.eval_eq]

theorem solidDisc_area : ∫ _q in solidDisc 2 3 1, (1 : ℝ) = Real.pi := by
  have h := (radial_green circle_encloses [⟨⟨0, 0⟩, 1⟩]).2
  simp only [unit_eval, unit_radial, List.map_cons, List.map_nil, List.sum_cons, List.sum_nil, add_zero] at h
  rw [h]
  have e : ∀ s : ℝ, (2 + Real.cos s) * (1 / 2) * Real.cos s - (3 + Real.sin s) * (1 / 2) * -Real.sin s =
      1 / 2 + (Real.cos s + 3 / 2 * Real.sin s) := fun s => by
    have := Real.sin_sq_add_cos_sq s
    linear_combination (1 / 2) * this
  simp only [PCurve.flux, circleCurve, e]
  rw [intervalIntegral.integral_add (by simp) ((by fun_prop : Continuous fun s => Real.cos s + 3 / 2 * Real.sin s).intervalIntegrable _ _),
    intervalIntegral.integral_add (Real.continuous_cos.intervalIntegrable _ _)
      ((by fun_prop : Continuous fun s => 3 / 2 * Real.sin s).intervalIntegrable _ _), intervalIntegral.integral_const_mul]
  simp
  ring

/-- C101: for the disc about `(2, 3)` the computed areas converge to `π` with every order; the cell is parameterized for every `n`. -/
example (k : ℕ) (hk : 1 ≤ k) : ∃ M : ℝ, ∀ n, 4 ≤ n → ∃ d inside K1 I, getQuadDict n 2 = .ok d ∧
    (circleCell "trap").parameterize inside 8 d = some (.ok K1) ∧ integratePoly [⟨⟨0, 0⟩, 1⟩] K1 = .ok I ∧
    |I - Real.pi| ≤ M / (n : ℝ) ^ k := by
  classical
  obtain ⟨h1, h2, h3, h4, h5⟩ := circleCell_ok "trap"
  obtain ⟨M, hM⟩ := C101_integral h1 h2 h3 circle_encloses 2 (k := k) (by
    simp only [CellG.SuitedRules, circleCell, List.flatMap_cons, List.flatMap_nil, List.zip_cons_cons, List.zip_nil_right,
      List.append_nil]
    exact .cons (.inr ⟨rfl, h4⟩) .nil) hk [⟨⟨0, 0⟩, 1⟩]
  refine ⟨M, fun n hn => ?_⟩
  obtain ⟨d, hd⟩ := (C21_dict n 2).1.2 ⟨hn, le_rfl⟩
  obtain ⟨K1, hK1⟩ := C87_circle hd (inside := fun _ q => decide ((q.1 - 2) ^ 2 + (q.2 - 3) ^ 2 < 1)) (fuel := 8) le_rfl
    (K := circleCell "trap") (c := { edges := [shiftedCircle "trap"], orients := [1] }) (e := shiftedCircle "trap") (a := Vert.mk' 2 3)
    rfl rfl rfl rfl (by simp [shiftedCircle, unitCircle, Curve.radius]; norm_num) rfl rfl rfl (by
      intro poly q hq
      simp only [Vert.mk', shiftedCircle, unitCircle, Curve.radius, Option.getD_none] at hq
      simp only [decide_eq_true_eq]
      norm_num at hq
      linarith)
  obtain ⟨I, hI, hb⟩ := hM n d _ 8 K1 hd hK1
  refine ⟨d, _, K1, I, hd, hK1, hI, ?_⟩
  simpa only [unit_eval, solidDisc_area] using hb

/-- the triangle with corners `(0, 0)`, `(10, 0)`, `(0, 10)`, without the disc about `(2, 3)` -/
noncomputable def holedTriangle : CellG :=
  { components := [triangle (Vert.mk' 0 0) (Vert.mk' 10 0) (Vert.mk' 0 10), { edges := [shiftedCircle "trap"], orients := [-1] }] }

theorem holedTriangle_encloses : Encloses [sideCurve (Vert.mk' 0 0) (Vert.mk' 10 0), sideCurve (Vert.mk' 10 0) (Vert.mk' 0 10),
    sideCurve (Vert.mk' 0 10) (Vert.mk' 0 0), circleCurve.reverse]
    (solidTriangle (Vert.mk' 0 0) (Vert.mk' 10 0) (Vert.mk' 0 10) \ solidDisc 2 3 1) := by
  refine Encloses.cut (triangle_encloses (by norm_num [Vert.mk'])) circle_encloses ?_
  rintro ⟨x, y⟩ h
  have h : (x - 2) ^ 2 + (y - 3) ^ 2 ≤ 1 ^ 2 := h
  have h1 := abs_le_of_sq_le_sq' (by nlinarith [sq_nonneg (y - 3)] : (x - 2) ^ 2 ≤ 1 ^ 2) one_pos.le
  have h2 := abs_le_of_sq_le_sq' (by nlinarith [sq_nonneg (x - 2)] : (y - 3) ^ 2 ≤ 1 ^ 2) one_pos.le
  refine ⟨1 - (x + y) / 10, x / 10, y / 10, by linarith [h1.2, h2.2], by linarith [h1.1], by linarith [h2.1], by ring, ?_⟩
  simp only [Vert.mk', Prod.mk.injEq]
  constructor <;> ring

theorem side_flux (a b : Vert) : (sideCurve a b).flux (fun x _ => x * (1 / 2)) (fun _ y => y * (1 / 2)) = (a.x * b.y - a.y * b.x) / 2 := by
  have hpi := Real.pi_pos
  have e : ∀ s : ℝ, (a.x + (b.x - a.x) * (s / (2 * Real.pi))) * (1 / 2) * ((b.y - a.y) / (2 * Real.pi)) -
      (a.y + (b.y - a.y) * (s / (2 * Real.pi))) * (1 / 2) * ((b.x - a.x) / (2 * Real.pi)) = (a.x * b.y - a.y * b.x) / (4 * Real.pi) := fun s => by
    field_simp
    ring
  simp only [PCurve.flux, sideCurve, e, intervalIntegral.integral_const, sub_zero, smul_eq_mul]
  field_simp
  ring

/-- C101: its area is `50 - π`; with the Kress rule of parameter 7 on the sides and the trapezoidal rule on the circle the computed areas
converge to it with order 8. -/
example : ∃ M : ℝ, ∀ n d inside fuel K1, getQuadDict n 7 = .ok d → holedTriangle.parameterize inside fuel d = some (.ok K1) →
    ∃ I, integratePoly [⟨⟨0, 0⟩, 1⟩] K1 = .ok I ∧ |I - (50 - Real.pi)| ≤ M / (n : ℝ) ^ 8 := by
  have hpi := Real.pi_pos
  obtain ⟨M, hM⟩ := C101_integral (K := holedTriangle) (by simp [CellG.Shaped, holedTriangle, triangle])
    (by simp [CellG.GoodDiaries, holedTriangle, triangle, sideEdge, shiftedCircle, unitCircle, EdgeOp.Good])
    (by
      simp only [CellG.BoundaryCurves, holedTriangle, triangle, List.flatMap_cons, List.flatMap_nil, List.zip_cons_cons, List.zip_nil_right,
        List.append_nil, List.cons_append, List.nil_append]
      exact .cons ⟨_, side_follows _ _ _, by simp [oriented]⟩ (.cons ⟨_, side_follows _ _ _, by simp [oriented]⟩
        (.cons ⟨_, side_follows _ _ _, by simp [oriented, sideCurve_reverse]⟩ (.cons ⟨_, shiftedCircle_follows _, by simp [oriented]⟩ .nil))))
    holedTriangle_encloses 7 (k := 8) (by
      simp only [CellG.SuitedRules, holedTriangle, triangle, List.flatMap_cons, List.flatMap_nil, List.zip_cons_cons, List.zip_nil_right,
        List.append_nil, List.cons_append, List.nil_append]
      refine .cons (.inl ⟨rfl, by norm_num⟩) (.cons (.inl ⟨rfl, by norm_num⟩) (.cons (.inl ⟨rfl, by norm_num⟩) (.cons (.inr ⟨rfl, ?_⟩) .nil)))
      intro s
      simp only [PCurve.reverse, circleCurve]
      rw [show 2 * Real.pi - (s + 2 * Real.pi) = -s by ring, Real.cos_two_pi_sub, Real.sin_two_pi_sub]
      simp) (by norm_num) [⟨⟨0, 0⟩, 1⟩]
  refine ⟨M, fun n d inside fuel K1 hd h => ?_⟩
  obtain ⟨I, hI, hb⟩ := hM n d inside fuel K1 hd h
  refine ⟨I, hI, ?_⟩
  have e := (radial_green holedTriangle_encloses [⟨⟨0, 0⟩, 1⟩]).2
  have e2 := (radial_green circle_encloses [⟨⟨0, 0⟩, 1⟩]).2
  simp only [unit_eval, solidDisc_area, List.map_cons, List.map_nil, List.sum_cons, List.sum_nil, add_zero] at e2
  simp only [unit_eval, List.map_cons, List.map_nil, List.sum_cons, List.sum_nil, (C85_direction circleCurve _ _).2.1, ← e2] at e
  have e3 : ∫ _q in solidTriangle (Vert.mk' 0 0) (Vert.mk' 10 0) (Vert.mk' 0 10) \ solidDisc 2 3 1, (1 : ℝ) = 50 - Real.pi := by
    rw [e]
    simp only [unit_radial, side_flux, Vert.mk']
    ring
  simpa only [unit_eval, e3] using hb

end PFEM
