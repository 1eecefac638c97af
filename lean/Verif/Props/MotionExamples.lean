import Verif.Props.Motion
import Verif.Props.MotionEdge
import Verif.Props.EllipseInner
import Verif.Props.OuterBoundary
import Verif.Lemmas.Segment

/-!
Cases that meet the hypotheses of the theorems of C124.
-/

namespace PFEM
open EdgeG (TOL)
open Nystrom

/-! ### a moved cell exists for every cell and every motion -/

/-- the edge with moved samples -/
noncomputable def Motion.edge (m : Motion) (e : EdgeG) : EdgeG := { e with pts := e.pts.map (List.map m.sample) }

/-- the contour with moved samples and moved interior point -/
noncomputable def Motion.contour (m : Motion) (c : ContourG) : ContourG :=
  { c with edges := c.edges.map m.edge, interior := c.interior.map m.vert }

/-- the cell with moved samples and moved interior points -/
noncomputable def Motion.cell (m : Motion) (K : CellG) : CellG := { K with components := K.components.map m.contour }

theorem Motion.cell_moved (m : Motion) (K : CellG) : K.MovedBy m (m.cell K) := by
  refine ⟨?_, rfl, rfl, rfl, ?_⟩
  · simp only [Motion.cell]
    rw [List.forall₂_map_right_iff, List.forall₂_same]
    refine fun c _ => ⟨?_, rfl, rfl⟩
    simp only [Motion.contour]
    rw [List.forall₂_map_right_iff, List.forall₂_same]
    exact fun e _ => ⟨rfl, rfl⟩
  · simp only [Motion.cell, ← List.map_tail]
    rw [List.forall₂_map_right_iff, List.forall₂_same]
    exact fun c _ => rfl

/-- a right angle about the origin, then a shift by `(5, -1)` -/
def quarter : Motion := ⟨1, 0, 1, 5, -1, by norm_num, by norm_num⟩

/-- C124, solver: the ellipse with half-axes 2 and 1 about `(2, 3)`, turned by a right angle and shifted -/
example : ∃ K K' s s', K.IsEllipse 2 3 2 1 (2 * 32) ∧ K.MovedBy quarter K' ∧ init someGmres K "direct" "jacobi" = .ok s ∧
    init someGmres K' "direct" "jacobi" = .ok s' ∧ (∀ v, conjugate someGmres s' v = conjugate someGmres s v) := by
  obtain ⟨d, inside, K, s, -, -, h, hs⟩ := someEllipse_solver
  have hm := quarter.cell_moved K
  rcases C124_solver rfl hm h.ready (h.even rfl (by norm_num) (by norm_num)) h.edges_ne h.holes someGmres "direct" "jacobi" with
    ⟨e, h1, -⟩ | ⟨s1, s', h1, h2, h3, -⟩
  · rw [hs] at h1
    cases h1
  · rw [hs] at h1
    cases h1
    exact ⟨K, _, s, s', h, hm, hs, h2, h3⟩

/-- C124, tiny cells: both ellipses exist -/
example : ∃ K K' : CellG, K.IsEllipse 0 0 2 1 (2 * 32) ∧ K'.IsEllipse 0 0 (2 / 10 ^ 7) (1 / 10 ^ 7) (2 * 32) := by
  classical
  obtain ⟨d, hd⟩ := (C21_dict 32 2).1.2 ⟨by norm_num, le_rfl⟩
  have key : ∀ a b : ℝ, 1 / 10 ^ 11 ≤ a → 1 / 10 ^ 11 ≤ b → ∃ K : CellG, K.IsEllipse 0 0 a b (2 * 32) := by
    intro a b ha hb
    let e : EdgeG := { someEllipse with opts := { someEllipse.opts with a := some a, b := some b }, diary := [.translate (Vert.mk' 0 0)] }
    obtain ⟨K, hK⟩ := C106_parameterize hd (inside := fun _ _ => true) (fuel := 8) le_rfl
      (K := { components := [{ edges := [e], orients := [1] }] }) (c := { edges := [e], orients := [1] }) (e := e) (v := Vert.mk' 0 0) ha hb
      rfl rfl rfl rfl rfl rfl rfl rfl rfl (fun _ _ _ => rfl)
    obtain ⟨h, -⟩ := C106_ellipse hd (a := a) (b := b) (e := e) (v := Vert.mk' 0 0) (lt_of_lt_of_le (by positivity) ha)
      (lt_of_lt_of_le (by positivity) hb) rfl rfl rfl rfl rfl rfl rfl rfl rfl hK
    exact ⟨K, h⟩
  obtain ⟨K, hK⟩ := key 2 1 (by norm_num) (by norm_num)
  obtain ⟨K', hK'⟩ := key (2 / 10 ^ 7) (1 / 10 ^ 7) (by norm_num) (by norm_num)
  exact ⟨K, K', hK, hK'⟩

/-- C124, edges: the segment from `(0, 0)` to `(1, 0)`, turned by a right angle and shifted -/
example : ∃ d e e1 e' e1', getQuadDict 4 7 = .ok d ∧ EdgeG.init (Vert.mk' 0 0) (Vert.mk' 1 0) .line {} "kress" (0, 2 * Real.pi) = .ok e ∧
    e.parameterize d = .ok e1 ∧
    EdgeG.init (quarter.vert (Vert.mk' 0 0)) (quarter.vert (Vert.mk' 1 0)) .line {} "kress" (0, 2 * Real.pi) = .ok e' ∧
    e'.parameterize d = .ok e1' ∧ e1.MovedBy quarter e1' := by
  obtain ⟨d, hd⟩ := getQuadDict_ok
  have hb : (Vert.mk' 0 0).beq (Vert.mk' 1 0) = false := by
    simp [Vert.beq, Vert.sub, Vert.mk', Vert.norm, tol]
    norm_num
  have hz : TOL ≤ ‖(Vert.mk' 1 0).z - (Vert.mk' 0 0).z‖ := by
    have : (Vert.mk' 1 0).z - (Vert.mk' 0 0).z = 1 := by apply Complex.ext <;> simp [Vert.z, Vert.mk']
    rw [this, norm_one]
    norm_num [TOL]
  obtain ⟨e1, h1⟩ := side_parameterize hd hz (qt := "kress") (.inr rfl)
  have hi := sideEdge_init hb "kress"
  obtain ⟨e', e1', g1, g2, g3⟩ := C124_edges (m := quarter) rfl (by rw [hb]; exact nofun) hi h1
  exact ⟨d, _, e1, e', e1', hd, hi, h1, g1, g2, g3⟩

/-- the test against convex polygons is invariant under all turns and shifts -/
theorem convexInside_invariant (m : Motion) (hr : m.r = 1) : convexInside.Invariant m := by
  intro l p
  unfold convexInside
  congr 1
  rw [← List.map_rotate, List.zip_map, List.forall_mem_map]
  apply propext
  refine forall_congr' fun q => forall_congr' fun _ => ?_
  have : ((m.point q.2).1 - (m.point q.1).1) * ((m.point p).2 - (m.point q.1).2) -
      ((m.point q.2).2 - (m.point q.1).2) * ((m.point p).1 - (m.point q.1).1) =
      (q.2.1 - q.1.1) * (p.2 - q.1.2) - (q.2.2 - q.1.2) * (p.1 - q.1.1) := by
    simp only [Motion.point, hr, one_mul]
    linear_combination ((q.2.1 - q.1.1) * (p.2 - q.1.2) - (q.2.2 - q.1.2) * (p.1 - q.1.1)) * m.rot
  simp only [Prod.map]
  rw [this]

/-- half a turn about the origin -/
def half : Motion := ⟨1, -1, 0, 0, 0, by norm_num, by norm_num⟩

/-- a shift by `(u, v)` -/
def shiftBy (u v : ℝ) : Motion := ⟨1, 1, 0, u, v, by norm_num, by norm_num⟩

/-- C124, shifts: the cell inside a circle and the cell inside the circle shifted by `(5, -1)` -/
example : ∃ (d : Quad × Quad) (K K' K1 K1' : CellG), getQuadDict 4 2 = .ok d ∧ List.Forall₂ (ContourG.MadeAt (shiftBy 5 (-1))) K.components K'.components ∧
    K.parameterize (fun _ _ => true) 8 d = some (.ok K1) ∧ K'.parameterize (fun _ _ => true) 8 d = some (.ok K1') ∧
    K1.MovedBy (shiftBy 5 (-1)) K1' := by
  obtain ⟨d, hd⟩ := (C21_dict 4 2).1.2 ⟨by norm_num, le_rfl⟩
  have hi : ∀ a : Vert, ∃ e, EdgeG.init a a .circle {} "trap" (0, 2 * Real.pi) = .ok e ∧ e.curve = .circle ∧ e.opts = {} ∧
      e.quadType = "trap" ∧ e.tBounds = (0, 2 * Real.pi) ∧ e.diary = [.translate a] := by
    intro a
    have hb : a.beq a = true := by simp [Vert.beq, Vert.sub, Vert.mk', Vert.norm, tol]
    refine ⟨_, by rw [EdgeG.init, if_neg (by simp only [ge_iff_le, not_le]; positivity)], rfl, rfl, rfl, rfl, ?_⟩
    simp [EdgeG.setVerts, hb]
  obtain ⟨e, h0, h1, h2, h3, h4, h5⟩ := hi (Vert.mk' 2 3)
  obtain ⟨e', h0', -⟩ := hi ((shiftBy 5 (-1)).vert (Vert.mk' 2 3))
  obtain ⟨K1, hK1⟩ := C87_circle hd (inside := fun _ _ => true) (fuel := 8) le_rfl
    (K := { components := [{ edges := [e], orients := [1] }] }) (c := { edges := [e], orients := [1] }) (e := e) (a := Vert.mk' 2 3)
    rfl rfl rfl h1 (by rw [h2]; simp [Curve.radius]; norm_num) h3 h4 h5 (fun _ _ _ => rfl)
  have hF : List.Forall₂ (ContourG.MadeAt (shiftBy 5 (-1))) [{ edges := [e], orients := [1] }] [{ edges := [e'], orients := [1] }] :=
    .cons ⟨.cons ⟨_, _, _, _, _, _, _, _, _, _, h0, h0', fun _ => rfl⟩ .nil, rfl, rfl, rfl⟩ .nil
  obtain ⟨K1', g1, g2, -⟩ := C124_shift (m := shiftBy 5 (-1)) rfl rfl (inside := fun _ _ => true) (fun _ _ => rfl)
    (K := { components := [{ edges := [e], orients := [1] }] }) (K' := { components := [{ edges := [e'], orients := [1] }] }) hF hd hK1
  exact ⟨d, _, _, K1, K1', hd, hF, hK1, g1, g2⟩

/-! ### a triangle and half a turn -/

/-- the triangle with the corners `(0, 0)`, `(h, 0)`, `(0, h)` -/
noncomputable def cornerTri (h : ℝ) : ContourG :=
  { edges := [sideEdge (Vert.mk' 0 0) (Vert.mk' h 0) "trap", sideEdge (Vert.mk' h 0) (Vert.mk' 0 h) "trap",
      sideEdge (Vert.mk' 0 h) (Vert.mk' 0 0) "trap"], orients := [1, 1, 1] }

theorem side_sampled {n p : ℤ} {d : Quad × Quad} (hd : getQuadDict n p = .ok d) {a b : Vert} {e' : EdgeG}
    (h : (sideEdge a b "trap").parameterize d = .ok e') :
    (∃ s ∈ e'.cols, s.x = a.x ∧ s.y = a.y) ∧ ∃ L, e'.pts = some L ∧
      ∀ s ∈ L, ∃ t : ℝ, 0 ≤ t ∧ t ≤ 1 ∧ s.x = a.x + (b.x - a.x) * t ∧ s.y = a.y + (b.y - a.y) * t := by
  obtain ⟨hn4, -, lam, W, hr, hpts⟩ := follows_pts hd (side_follows a b "trap") (acts := []) (by simp [sideEdge, EdgeOp.Good]) (by simp)
    h (by rfl)
  simp only [List.foldl_nil] at hpts
  have hlam : lam = fun t => t := by
    generalize hq : (sideEdge a b "trap").quadType = qt at hr
    cases hr with
    | trap => rfl
    | kress => simp [sideEdge] at hq
  subst hlam
  have hpi := Real.pi_pos
  have hN : (0 : ℝ) < (2 * n.toNat : ℕ) := by exact_mod_cast (by omega : 0 < 2 * n.toNat)
  refine ⟨?_, _, hpts, ?_⟩
  · refine ⟨(sideCurve a b).sample 0 (W 0), ?_, by simp [PCurve.sample, sideCurve], by simp [PCurve.sample, sideCurve]⟩
    simp only [EdgeG.cols, hpts, Option.getD_some, PCurve.samples, List.range_succ, List.map_append, List.map_cons, List.map_nil,
      List.dropLast_concat, List.map_map, List.mem_map, List.mem_range]
    exact ⟨0, by omega, by simp⟩
  · intro s hs
    simp only [PCurve.samples, List.map_map, List.mem_map, List.mem_range] at hs
    obtain ⟨j, hj, rfl⟩ := hs
    refine ⟨j / (2 * n.toNat : ℕ), by positivity, ?_, ?_, ?_⟩
    · rw [div_le_one hN]
      exact_mod_cast (by omega : j ≤ 2 * n.toNat)
    · simp only [Function.comp, PCurve.sample, sideCurve]
      field_simp
    · simp only [Function.comp, PCurve.sample, sideCurve]
      field_simp

theorem cornerTri_edges (h : ℝ) (hh : h ^ 2 = 1) {n p : ℤ} {d : Quad × Quad} (hd : getQuadDict n p = .ok d) :
    ∀ e ∈ (cornerTri h).edges, ∃ e', e.parameterize d = .ok e' := by
  have hz : ∀ a b : Vert, 1 ≤ (b.x - a.x) ^ 2 + (b.y - a.y) ^ 2 → TOL ≤ ‖b.z - a.z‖ := by
    intro a b hab
    have : ‖b.z - a.z‖ = Real.sqrt ((b.x - a.x) ^ 2 + (b.y - a.y) ^ 2) := by
      rw [Complex.norm_def, Complex.normSq_apply]
      simp [Vert.z, pow_two]
    rw [this]
    refine le_trans ?_ (Real.one_le_sqrt.2 hab)
    norm_num [TOL]
  intro e he
  simp only [cornerTri, List.mem_cons, List.not_mem_nil, or_false] at he
  rcases he with rfl | rfl | rfl
  · exact side_parameterize hd (hz _ _ (by simp [Vert.mk', hh])) (.inl rfl)
  · exact side_parameterize hd (hz _ _ (by simp [Vert.mk', hh])) (.inl rfl)
  · exact side_parameterize hd (hz _ _ (by simp [Vert.mk', hh])) (.inl rfl)

theorem cornerTri_samplable {h : ℝ} (hh : h = 1 ∨ h = -1) {n p : ℤ} {d : Quad × Quad} (hd : getQuadDict n p = .ok d) :
    Samplable d (fun _ _ => true) (cornerTri h) := by
  have h2 : h ^ 2 = 1 := by rcases hh with rfl | rfl <;> norm_num
  refine ⟨by simp [cornerTri], rfl, cornerTri_edges h h2 hd, ?_⟩
  intro c1 hc1
  obtain ⟨k1, k2, -, -, -⟩ := parameterize_edges hd rfl hc1
  obtain ⟨e1, f1, g1⟩ := k2 0 _ 1 rfl rfl
  obtain ⟨e2, f2, g2⟩ := k2 1 _ 1 rfl rfl
  obtain ⟨e3, f3, g3⟩ := k2 2 _ 1 rfl rfl
  rw [if_neg (by norm_num)] at g1 g2 g3
  have hce : c1.edges = [e1, e2, e3] := by
    have k1' : c1.edges.length = 3 := k1
    obtain ⟨x, y, z, hx⟩ := List.length_eq_three.1 k1'
    rw [hx] at g1 g2 g3 ⊢
    simp at g1 g2 g3
    rw [g1, g2, g3]
  obtain ⟨⟨s1, s1m, s1x, s1y⟩, L1, l1, l1'⟩ := side_sampled hd f1
  obtain ⟨⟨s2, s2m, s2x, s2y⟩, L2, l2, l2'⟩ := side_sampled hd f2
  obtain ⟨⟨s3, s3m, s3x, s3y⟩, L3, l3, l3'⟩ := side_sampled hd f3
  simp only [Vert.mk', zero_add, sub_zero, zero_sub, zero_mul, sub_self, add_zero] at *
  have hall : ∀ e ∈ c1.edges, ∀ s ∈ e.pts.getD [], 0 ≤ h * s.x ∧ 0 ≤ h * s.y ∧ h * s.x + h * s.y ≤ 1 := by
    intro e he s hs
    rw [hce] at he
    simp only [List.mem_cons, List.not_mem_nil, or_false] at he
    rcases he with rfl | rfl | rfl
    · rw [l1] at hs
      obtain ⟨t, t0, t1, q1, q2⟩ := l1' s hs
      rw [q1, q2]
      refine ⟨?_, ?_, ?_⟩ <;> nlinarith
    · rw [l2] at hs
      obtain ⟨t, t0, t1, q1, q2⟩ := l2' s hs
      rw [q1, q2]
      refine ⟨?_, ?_, ?_⟩ <;> nlinarith
    · rw [l3] at hs
      obtain ⟨t, t0, t1, q1, q2⟩ := l3' s hs
      rw [q1, q2]
      refine ⟨?_, ?_, ?_⟩ <;> nlinarith
  have hcol : ∀ s ∈ c1.cols, ∃ e ∈ c1.edges, s ∈ e.pts.getD [] := by
    intro s hs
    obtain ⟨e, he, hs⟩ := List.mem_flatMap.1 hs
    exact ⟨e, he, List.dropLast_subset _ hs⟩
  have hm1 : s1 ∈ c1.cols := List.mem_flatMap.2 ⟨e1, by simp [hce], s1m⟩
  have hm2 : s2 ∈ c1.cols := List.mem_flatMap.2 ⟨e2, by simp [hce], s2m⟩
  have hm3 : s3 ∈ c1.cols := List.mem_flatMap.2 ⟨e3, by simp [hce], s3m⟩
  have hbox : ∀ s ∈ c1.cols, 0 ≤ h * s.x ∧ 0 ≤ h * s.y ∧ h * s.x ≤ 1 ∧ h * s.y ≤ 1 := by
    intro s hs
    obtain ⟨e, he, hs⟩ := hcol s hs
    obtain ⟨q1, q2, q3⟩ := hall e he s hs
    exact ⟨q1, q2, by linarith, by linarith⟩
  have h0 : h ≠ 0 := by rcases hh with rfl | rfl <;> norm_num
  have hb : getBoundingBox (c1.cols.map Sample.x) (c1.cols.map Sample.y) = .ok (min 0 h, max 0 h, min 0 h, max 0 h) := by
    have hlen : (1 : ℝ) / 10 ^ 12 ≤ max 0 h - min 0 h := by rcases hh with rfl | rfl <;> norm_num
    refine C56_tight ⟨?_, ?_⟩ ⟨?_, ?_⟩ ⟨?_, ?_⟩ ⟨?_, ?_⟩ hlen hlen
    · rcases hh with rfl | rfl
      · exact List.mem_map.2 ⟨s1, hm1, by rw [s1x]; norm_num⟩
      · exact List.mem_map.2 ⟨s2, hm2, by rw [s2x]; norm_num⟩
    · rintro _ hx
      obtain ⟨s, hs, rfl⟩ := List.mem_map.1 hx
      obtain ⟨q1, -, q3, -⟩ := hbox s hs
      rcases hh with rfl | rfl <;> norm_num <;> linarith
    · rcases hh with rfl | rfl
      · exact List.mem_map.2 ⟨s2, hm2, by rw [s2x]; norm_num⟩
      · exact List.mem_map.2 ⟨s1, hm1, by rw [s1x]; norm_num⟩
    · rintro _ hx
      obtain ⟨s, hs, rfl⟩ := List.mem_map.1 hx
      obtain ⟨q1, -, q3, -⟩ := hbox s hs
      rcases hh with rfl | rfl <;> norm_num <;> linarith
    · rcases hh with rfl | rfl
      · exact List.mem_map.2 ⟨s1, hm1, by rw [s1y]; norm_num⟩
      · exact List.mem_map.2 ⟨s3, hm3, by rw [s3y]; norm_num⟩
    · rintro _ hx
      obtain ⟨s, hs, rfl⟩ := List.mem_map.1 hx
      obtain ⟨-, q2, -, q4⟩ := hbox s hs
      rcases hh with rfl | rfl <;> norm_num <;> linarith
    · rcases hh with rfl | rfl
      · exact List.mem_map.2 ⟨s3, hm3, by rw [s3y]; norm_num⟩
      · exact List.mem_map.2 ⟨s1, hm1, by rw [s1y]; norm_num⟩
    · rintro _ hx
      obtain ⟨s, hs, rfl⟩ := List.mem_map.1 hx
      obtain ⟨-, q2, -, q4⟩ := hbox s hs
      rcases hh with rfl | rfl <;> norm_num <;> linarith
  refine ⟨⟨s1, hm1, s2, hm2, .inl (by rw [s1x, s2x]; exact h0.symm)⟩, _, _, _, _, hb, ?_⟩
  have hw : max 0 h - min 0 h = 1 := by rcases hh with rfl | rfl <;> norm_num
  rw [hw, min_self]
  refine ⟨(h, h), by rcases hh with rfl | rfl <;> norm_num, by rcases hh with rfl | rfl <;> norm_num,
    by rcases hh with rfl | rfl <;> norm_num, by rcases hh with rfl | rfl <;> norm_num, ?_⟩
  rintro ⟨u, v⟩ ⟨hu, hv⟩
  refine ⟨rfl, fun e he s hs => ?_⟩
  obtain ⟨q1, q2, q3⟩ := hall e he s hs
  refine Real.le_sqrt_of_sq_le ?_
  dsimp only at hu hv ⊢
  by_contra hc
  push Not at hc
  norm_num at hc
  have c1 : |s.x - u| < 1 / 100 := abs_lt_of_sq_lt_sq (by nlinarith [sq_nonneg (s.y - v)]) (by norm_num)
  have c2 : |s.y - v| < 1 / 100 := abs_lt_of_sq_lt_sq (by nlinarith [sq_nonneg (s.x - u)]) (by norm_num)
  rw [abs_lt] at c1 c2
  rw [abs_le] at hu hv
  rcases hh with rfl | rfl <;> norm_num at * <;> linarith

/-- C124, turns: a triangle and the triangle made from its corners after half a turn -/
example : ∃ (d : Quad × Quad) (K K' K1 K1' : CellG) (c c' : ContourG), getQuadDict 4 7 = .ok d ∧ K.components = [c] ∧ K'.components = [c'] ∧
    c.MadeAt half c' ∧ K.parameterize (fun _ _ => true) 8 d = some (.ok K1) ∧ K'.parameterize (fun _ _ => true) 8 d = some (.ok K1') ∧
    K1.MovedBy half K1' := by
  obtain ⟨d, hd⟩ := getQuadDict_ok
  have hp : ∀ h : ℝ, h = 1 ∨ h = -1 → ∃ K1, CellG.parameterize (fun _ _ => true) 8 d { components := [cornerTri h] } = some (.ok K1) :=
    fun h hh => C87_cell hd le_rfl (K := { components := [cornerTri h] }) (by simp) (by
      simp only [List.mem_singleton, forall_eq]; exact cornerTri_samplable hh hd)
  obtain ⟨K1, h1⟩ := hp 1 (.inl rfl)
  obtain ⟨K1', h1'⟩ := hp (-1) (.inr rfl)
  have hv : ∀ x y : ℝ, half.vert (Vert.mk' x y) = Vert.mk' (-x) (-y) := by
    intro x y
    simp [Motion.vert, half, Vert.mk']
  have hb : ∀ a b : Vert, 1 ≤ (a.x - b.x) ^ 2 + (a.y - b.y) ^ 2 → a.beq b = false := by
    intro a b hab
    simp only [Vert.beq, Vert.sub, Vert.mk', Vert.norm]
    refine decide_eq_false (not_lt.2 ?_)
    refine le_trans ?_ (Real.one_le_sqrt.2 hab)
    norm_num [tol]
  have he : ∀ a b a' b' : Vert, half.vert a = a' → half.vert b = b' → a.beq b = false → a'.beq b' = false →
      EdgeG.MadeAt half (sideEdge a b "trap") (sideEdge a' b' "trap") := by
    rintro a b _ _ rfl rfl q1 q2
    exact ⟨_, _, _, _, _, _, _, _, _, _, sideEdge_init q1 "trap", sideEdge_init q2 "trap", by rw [q1]; exact nofun⟩
  have hm : (cornerTri 1).MadeAt half (cornerTri (-1)) := by
    refine ⟨?_, rfl, rfl, rfl⟩
    refine .cons (he _ _ _ _ ?_ ?_ (hb _ _ ?_) (hb _ _ ?_)) (.cons (he _ _ _ _ ?_ ?_ (hb _ _ ?_) (hb _ _ ?_))
      (.cons (he _ _ _ _ ?_ ?_ (hb _ _ ?_) (hb _ _ ?_)) .nil)) <;> first | (rw [hv]; norm_num) | norm_num [Vert.mk']
  exact ⟨d, _, _, K1, K1', _, _, hd, rfl, rfl, hm, h1, h1', C124_turn rfl rfl rfl hm h1 h1'⟩

/-! ### harmonic functions -/

theorem shift_ellipse {K : CellG} {x0 y0 a b : ℝ} {N : ℕ} (h : K.IsEllipse x0 y0 a b N) (u v : ℝ) :
    ((shiftBy u v).cell K).IsEllipse (x0 + u) (y0 + v) a b N := by
  refine ⟨((shiftBy u v).cell_moved K).ready h.ready, ?_, h.vertex⟩
  obtain ⟨c, e, h1, h2, h3, h4⟩ := h.ellipse
  refine ⟨(shiftBy u v).contour c, (shiftBy u v).edge e, by simp [Motion.cell, h1], by simp [Motion.contour, h2], h3, ?_⟩
  have : ((shiftBy u v).edge e).cols = e.cols.map (shiftBy u v).sample := EdgeG.MovedBy.cols ⟨rfl, rfl⟩
  rw [this, h4, List.map_map]
  refine List.map_congr_left fun j _ => ?_
  simp only [Function.comp, Motion.sample, shiftBy, ellipseSample]
  congr 1 <;> ring

/-- C124, harmonic functions and energies: data of degree one on the ellipse about `(2, 3)` and on the one about `(7, 2)` -/
example : ∃ (K K' : CellG) (s s' : Solver) (t t' : Trace) (k k' : LocHarm), K.MovedBy (shiftBy 5 (-1)) K' ∧ t.MovedBy (shiftBy 5 (-1)) t' ∧
    init someGmres K "direct" "jacobi" = .ok s ∧ init someGmres K' "direct" "jacobi" = .ok s' ∧ LocHarm.init someGmres t (some s) = .ok k ∧
    LocHarm.init someGmres t' (some s') = .ok k' ∧ t.values = some (K.samplesOf fun x _ => x - 2) ∧ k'.trace.wnd = k.trace.wnd ∧
    h1HarmHarm k' k' K' = h1HarmHarm k k K := by
  obtain ⟨d, inside, K, s, -, -, h, hs⟩ := someEllipse_solver
  have hm := (shiftBy 5 (-1)).cell_moved K
  have h' := shift_ellipse h 5 (-1)
  have hfl : flatness 2 1 = 1 / 3 := by norm_num [flatness]
  obtain ⟨s', hs'⟩ : ∃ s', init someGmres ((shiftBy 5 (-1)).cell K) "direct" "jacobi" = .ok s' := by
    rcases C124_solver rfl hm h.ready (h.even rfl (by norm_num) (by norm_num)) h.edges_ne h.holes someGmres "direct" "jacobi" with
      ⟨e, h1, -⟩ | ⟨s1, s', h1, h2, h3, -⟩
    · rw [hs] at h1
      cases h1
    · exact ⟨s', h2⟩
  have hx : ∀ x0 y0 x y : ℝ, rePoly Polynomial.X x0 y0 x y = x - x0 := by simp [rePoly]
  have hdeg : (Polynomial.X : Polynomial ℂ).natDegree < 32 := by simp
  have hsame : ((shiftBy 5 (-1)).cell K).samplesOf (rePoly Polynomial.X (2 + 5) (3 + -1)) = K.samplesOf (rePoly Polynomial.X 2 3) := by
    simp only [CellG.samplesOf, hm.cols, List.map_map]
    refine List.map_congr_left fun z _ => ?_
    simp only [Function.comp, hx, Motion.sample, shiftBy]
    ring
  obtain ⟨k, -, hk, -⟩ := C106_normal someGmres_exact someGmres_finds h (by norm_num) (by norm_num) (by norm_num) (by norm_num)
    (by norm_num) (by rw [hfl]; norm_num) hs Polynomial.X hdeg
    (made_on h.ready (v := K.samplesOf (rePoly Polynomial.X 2 3)) (by simp [CellG.samplesOf, h.ready.numPts]) (w := none) (d := none) nofun nofun)
    rfl
  obtain ⟨k', -, hk', -⟩ := C106_normal someGmres_exact someGmres_finds h' (by norm_num) (by norm_num) (by norm_num) (by norm_num)
    (by norm_num) (by rw [hfl]; norm_num) hs' Polynomial.X hdeg
    (made_on h'.ready (v := ((shiftBy 5 (-1)).cell K).samplesOf (rePoly Polynomial.X (2 + 5) (3 + -1)))
      (by simp [CellG.samplesOf, h'.ready.numPts]) (w := none) (d := none) nofun nofun)
    rfl
  rw [hsame] at hk'
  have ht : (Trace.made K.getEdges (some (K.samplesOf (rePoly Polynomial.X 2 3))) none none).MovedBy (shiftBy 5 (-1))
      (Trace.made ((shiftBy 5 (-1)).cell K).getEdges (some (K.samplesOf (rePoly Polynomial.X 2 3))) none none) := by
    refine ⟨?_, ?_⟩
    · simp only [Trace.made, Trace.edges_bare]
      exact hm.edges
    · simp only [Trace.made, Trace.bare_on hm.sizes]
  have q := C124_harmonic rfl hm h.ready (h.even rfl (by norm_num) (by norm_num)) h.edges_ne h.holes hs hs' ht hk hk'
  have q' := C124_energy rfl hm h.ready (h.even rfl (by norm_num) (by norm_num)) h.edges_ne h.holes hs hs' ht ht hk hk' hk hk'
  refine ⟨K, _, s, s', _, _, k, k', hm, ht, hs, hs', hk, hk', ?_, q.2.1, q'⟩
  simp only [Trace.made]
  congr 2
  funext x y
  exact hx 2 3 x y

end PFEM
