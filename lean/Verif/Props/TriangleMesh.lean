import Verif.Props.Parameterize
import Verif.Props.SharedExamples
import Verif.Props.StaleFunctions

/-!
The hypotheses of C123 can be met: two triangles with a common side.
-/

namespace PFEM
open EdgeG Plot

/-- the samples of a side -/
structure OnSide (p q : Vert) (e : EdgeG) : Prop where
  pts : ∀ s ∈ e.pts.getD [], ∃ t : ℝ, 0 ≤ t ∧ t ≤ 1 ∧ s.x = p.x + (q.x - p.x) * t ∧ s.y = p.y + (q.y - p.y) * t
  frames : ∀ s ∈ e.pts.getD [], s.tx ^ 2 + s.ty ^ 2 = 1 ∧ s.nx = s.ty ∧ s.ny = -s.tx
  start : ∃ s ∈ e.cols, s.x = p.x ∧ s.y = p.y

theorem onSide_of {p q : Vert} (hpq : p.x ≠ q.x ∨ p.y ≠ q.y) {l : List (ℝ × ℝ)} (hl : SymRule l) {e : EdgeG}
    (h : e.pts = some ((sideCurve p q).samples l)) : OnSide p q e := by
  have hpi := Real.pi_pos
  refine ⟨?_, ?_, ?_⟩
  · intro s hs
    rw [h, Option.getD_some] at hs
    obtain ⟨z, hz, rfl⟩ := List.mem_map.1 hs
    obtain ⟨h1, h2⟩ := hl.range z hz
    exact ⟨z.1 / (2 * Real.pi), by positivity, by rw [div_le_one (by positivity)]; exact h2, rfl, rfl⟩
  · intro s hs
    rw [h, Option.getD_some] at hs
    obtain ⟨z, hz, rfl⟩ := List.mem_map.1 hs
    have h0 : 0 < (sideCurve p q).dx z.1 ^ 2 + (sideCurve p q).dy z.1 ^ 2 := by
      simp only [sideCurve]
      rcases hpq with h0 | h0
      · have : (q.x - p.x) / (2 * Real.pi) ≠ 0 := div_ne_zero (sub_ne_zero.2 h0.symm) (by positivity)
        positivity
      · have : (q.y - p.y) / (2 * Real.pi) ≠ 0 := div_ne_zero (sub_ne_zero.2 h0.symm) (by positivity)
        positivity
    have hs : (sideCurve p q).speed z.1 ^ 2 = (sideCurve p q).dx z.1 ^ 2 + (sideCurve p q).dy z.1 ^ 2 := Real.sq_sqrt h0.le
    have hs0 : (sideCurve p q).speed z.1 ≠ 0 := (Real.sqrt_pos.2 h0).ne'
    refine ⟨?_, rfl, rfl⟩
    simp only [PCurve.sample]
    rw [div_pow, div_pow, ← add_div, ← hs]
    exact div_self (pow_ne_zero 2 hs0)
  · obtain ⟨g, hg⟩ := hl.first
    obtain ⟨g', hg'⟩ := hl.last
    cases l with
    | nil => simp at hg
    | cons z l =>
      simp only [List.head?_cons, Option.some.injEq] at hg
      subst hg
      have hne : l ≠ [] := by
        rintro rfl
        simp only [List.getLast?_singleton, Option.some.injEq, Prod.mk.injEq] at hg'
        linarith [hg'.1]
      refine ⟨(sideCurve p q).sample 0 g, ?_, by simp [PCurve.sample, sideCurve], by simp [PCurve.sample, sideCurve]⟩
      have : ((sideCurve p q).samples l) ≠ [] := by simpa [PCurve.samples] using hne
      simp only [EdgeG.cols, h, Option.getD_some, PCurve.samples, List.map_cons] at this ⊢
      rw [List.dropLast_cons_of_ne_nil this]
      exact List.mem_cons_self

theorem onSide_param {n p : ℤ} {d : Quad × Quad} (hd : getQuadDict n p = .ok d) {a b : Vert} (hab : a.x ≠ b.x ∨ a.y ≠ b.y) {qt : String} {e : EdgeG}
    (h : (sideEdge a b qt).parameterize d = .ok e) : OnSide a b e ∧ OnSide b a e.reverse := by
  obtain ⟨q, γ, hq, g1, g2, g3⟩ := C22_samples_partial hd [] (by simp [sideEdge, EdgeOp.Good]) (by simp) h rfl
  have hC := follows_unique (side_follows a b qt) ⟨γ, g1, g2, rfl⟩
  rw [List.foldl_nil, ← hC] at g3
  have hs := dict_sym hd hq
  have h2 := reverse_pts g3 hs
  rw [sideCurve_reverse] at h2
  exact ⟨onSide_of hab hs g3, onSide_of (by rcases hab with h | h <;> [left; right] <;> exact fun h0 => h h0.symm) hs h2⟩

/-- a closed polygon in the unit square, given by its sides in the direction in which they are passed -/
structure UnitPolygon (c : ContourG) (sides : List (Vert × Vert)) (q : ℝ × ℝ) : Prop where
  orients : c.edges.length = c.orients.length
  same : sides.length = c.edges.length
  side : ∀ (i : ℕ) s, sides[i]? = some s → ∃ a b o, c.edges[i]? = some (sideEdge a b "kress") ∧ c.orients[i]? = some o ∧ TOL ≤ ‖b.z - a.z‖ ∧
    (a.x ≠ b.x ∨ a.y ≠ b.y) ∧ s = if o = -1 then (b, a) else (a, b)
  inBox : ∀ s ∈ sides, (0 ≤ s.1.x ∧ s.1.x ≤ 1 ∧ 0 ≤ s.1.y ∧ s.1.y ≤ 1) ∧ 0 ≤ s.2.x ∧ s.2.x ≤ 1 ∧ 0 ≤ s.2.y ∧ s.2.y ≤ 1
  low : ∃ s ∈ sides, s.1.x = 0 ∧ s.1.y = 0
  high : ∃ s ∈ sides, s.1.x = 1 ∧ s.1.y = 1
  centre : 0 ≤ q.1 ∧ q.1 ≤ 1 ∧ 0 ≤ q.2 ∧ q.2 ≤ 1
  away : ∀ s ∈ sides, ∀ t : ℝ, 0 ≤ t → t ≤ 1 →
    1 / 10 ≤ |s.1.x + (s.2.x - s.1.x) * t - q.1| ∨ 1 / 10 ≤ |s.1.y + (s.2.y - s.1.y) * t - q.2|

theorem UnitPolygon.samplable {n p : ℤ} {d : Quad × Quad} (hd : getQuadDict n p = .ok d) {c : ContourG} {sides : List (Vert × Vert)} {q : ℝ × ℝ}
    (h : UnitPolygon c sides q) : Samplable d (fun _ _ => true) c := by
  have hall : ∀ e ∈ c.edges, ∃ e', e.parameterize d = .ok e' := by
    intro e he
    obtain ⟨i, hi, rfl⟩ := List.getElem_of_mem he
    obtain ⟨a, b, o, g1, -, g3, -⟩ := h.side i _ (List.getElem?_eq_getElem (h.same ▸ hi))
    rw [List.getElem?_eq_getElem hi, Option.some.injEq] at g1
    rw [g1]
    exact side_parameterize hd g3 (.inr rfl)
  refine ⟨?_, h.orients, hall, fun c1 hc1 => ?_⟩
  · rintro h0
    obtain ⟨s, hs, -⟩ := h.low
    have := h.same
    rw [h0] at this
    rw [List.eq_nil_of_length_eq_zero this] at hs
    simp at hs
  · obtain ⟨k1, k2, -, -, -⟩ := parameterize_edges hd h.orients hc1
    have key : ∀ (i : ℕ) s, sides[i]? = some s → ∃ e ∈ c1.edges, c1.edges[i]? = some e ∧ OnSide s.1 s.2 e := by
      intro i s hs
      obtain ⟨a, b, o, g1, g2, g3, g4, rfl⟩ := h.side i s hs
      obtain ⟨e', f1, f2⟩ := k2 i _ o g1 g2
      obtain ⟨o1, o2⟩ := onSide_param hd g4 f1
      refine ⟨_, List.mem_of_getElem? f2, f2, ?_⟩
      by_cases h0 : o = -1
      · simp only [h0, if_true]; exact o2
      · simp only [h0, if_false]; exact o1
    have key' : ∀ s ∈ sides, ∃ e ∈ c1.edges, OnSide s.1 s.2 e := by
      intro s hs
      obtain ⟨i, hi, rfl⟩ := List.getElem_of_mem hs
      obtain ⟨e, e1, -, e2⟩ := key i _ (List.getElem?_eq_getElem hi)
      exact ⟨e, e1, e2⟩
    have back : ∀ e ∈ c1.edges, ∃ s ∈ sides, OnSide s.1 s.2 e := by
      intro e he
      obtain ⟨i, hi, rfl⟩ := List.getElem_of_mem he
      have hi' : i < sides.length := by rw [h.same, ← k1]; exact hi
      obtain ⟨e, -, e1, e2⟩ := key i _ (List.getElem?_eq_getElem hi')
      rw [List.getElem?_eq_getElem hi, Option.some.injEq] at e1
      exact ⟨_, List.getElem_mem hi', e1 ▸ e2⟩
    have hcol : ∀ s ∈ sides, ∃ z ∈ c1.cols, z.x = s.1.x ∧ z.y = s.1.y := by
      intro s hs
      obtain ⟨e, e1, e2⟩ := key' s hs
      obtain ⟨z, z1, z2⟩ := e2.start
      exact ⟨z, List.mem_flatMap.2 ⟨e, e1, z1⟩, z2⟩
    have hbox : ∀ z ∈ c1.cols, 0 ≤ z.x ∧ z.x ≤ 1 ∧ 0 ≤ z.y ∧ z.y ≤ 1 := by
      intro z hz
      obtain ⟨e, he, hz⟩ := List.mem_flatMap.1 hz
      obtain ⟨s, hs, hside⟩ := back e he
      obtain ⟨t, t0, t1, ex, ey⟩ := hside.pts z (List.dropLast_subset _ hz)
      obtain ⟨⟨a1, a2, a3, a4⟩, b1, b2, b3, b4⟩ := h.inBox s hs
      rw [ex, ey]
      refine ⟨?_, ?_, ?_, ?_⟩ <;> nlinarith
    obtain ⟨s0, hs0, hx0, hy0⟩ := h.low
    obtain ⟨s1, hs1, hx1, hy1⟩ := h.high
    obtain ⟨z0, c0, x0, y0⟩ := hcol s0 hs0
    obtain ⟨z1, c1', x1, y1⟩ := hcol s1 hs1
    rw [hx0] at x0
    rw [hy0] at y0
    rw [hx1] at x1
    rw [hy1] at y1
    refine ⟨⟨z0, c0, z1, c1', .inl (by rw [x0, x1]; norm_num)⟩, 0, 1, 0, 1, ?_, ?_⟩
    · refine C56_tight ⟨List.mem_map.2 ⟨z0, c0, x0⟩, ?_⟩ ⟨List.mem_map.2 ⟨z1, c1', x1⟩, ?_⟩ ⟨List.mem_map.2 ⟨z0, c0, y0⟩, ?_⟩
        ⟨List.mem_map.2 ⟨z1, c1', y1⟩, ?_⟩ (by norm_num) (by norm_num)
      all_goals
        intro v hv
        obtain ⟨z, hz, rfl⟩ := List.mem_map.1 hv
        obtain ⟨u1, u2, u3, u4⟩ := hbox z hz
        assumption
    · refine ⟨q, h.centre.1, h.centre.2.1, h.centre.2.2.1, h.centre.2.2.2, fun r hr => ⟨rfl, fun e he z hz => ?_⟩⟩
      obtain ⟨s, hs, hside⟩ := back e he
      obtain ⟨t, t0, t1, ex, ey⟩ := hside.pts z hz
      obtain ⟨r1, r2⟩ := hr
      refine Real.le_sqrt_of_sq_le ?_
      have hm : (0.01 * min ((1 : ℝ) - 0) (1 - 0)) = 1 / 100 := by norm_num
      rw [hm]
      have := h.away s hs t t0 t1
      rw [← ex, ← ey] at this
      rcases this with h0 | h0
      · have : 1 / 100 ≤ |z.x - r.1| := by
          have := abs_sub_abs_le_abs_sub (z.x - q.1) (r.1 - q.1)
          rw [show z.x - q.1 - (r.1 - q.1) = z.x - r.1 by ring] at this
          have : (1 : ℝ) - 0 = 1 := by norm_num
          rw [this] at r1
          linarith
        have h2 : (1 / 100 : ℝ) ^ 2 ≤ (z.x - r.1) ^ 2 := by rw [← sq_abs (z.x - r.1)]; exact pow_le_pow_left₀ (by norm_num) this 2
        nlinarith [sq_nonneg (z.y - r.2)]
      · have : 1 / 100 ≤ |z.y - r.2| := by
          have := abs_sub_abs_le_abs_sub (z.y - q.2) (r.2 - q.2)
          rw [show z.y - q.2 - (r.2 - q.2) = z.y - r.2 by ring] at this
          have : (1 : ℝ) - 0 = 1 := by norm_num
          rw [this] at r2
          linarith
        have h2 : (1 / 100 : ℝ) ^ 2 ≤ (z.y - r.2) ^ 2 := by rw [← sq_abs (z.y - r.2)]; exact pow_le_pow_left₀ (by norm_num) this 2
        nlinarith [sq_nonneg (z.x - r.1)]

/-! ### two triangles -/

/-- the corners of the unit square -/
noncomputable def cA : Vert := Vert.mk' 0 0
noncomputable def cB : Vert := Vert.mk' 1 0
noncomputable def cC : Vert := Vert.mk' 1 1
noncomputable def cD : Vert := Vert.mk' 0 1

/-- five sides; the third one is the diagonal -/
noncomputable def triHeap : EdgeHeap := fun i =>
  if i = 0 then sideEdge cA cB "kress" else if i = 1 then sideEdge cB cC "kress" else if i = 2 then sideEdge cA cC "kress"
  else if i = 3 then sideEdge cC cD "kress" else sideEdge cD cA "kress"

theorem triHeap_settled (i : ℕ) : (triHeap i).Settled := by
  right
  unfold triHeap
  split_ifs <;> exact ⟨rfl, rfl⟩

/-- the mesh: the triangle below the diagonal is cell 0, the one above is cell 1 -/
noncomputable def triMesh : PlanarMesh ℝ where
  store i := if i = 0 then ⟨⟨0, 0, 0⟩, ⟨1, 0, 1⟩, 0, -1, some 0⟩ else if i = 1 then ⟨⟨1, 0, 1⟩, ⟨1, 1, 2⟩, 0, -1, some 1⟩
    else if i = 2 then ⟨⟨0, 0, 0⟩, ⟨1, 1, 2⟩, 1, 0, some 2⟩ else if i = 3 then ⟨⟨1, 1, 2⟩, ⟨0, 1, 3⟩, 1, -1, some 3⟩
    else ⟨⟨0, 1, 3⟩, ⟨0, 0, 0⟩, 1, -1, some 4⟩
  edges := [0, 1, 2, 3, 4]
  numEdges := 5
  vertIdxList := [0, 1, 2, 3]
  numVerts := 4
  cellIdxList := [0, 1]
  numCells := 2

def triLow : CellTopo := ⟨0, [1, 1, -1], [⟨[0, 1, 2], [1, 1, -1], 3⟩], 0, 3⟩

def triHigh : CellTopo := ⟨1, [1, 1, 1], [⟨[2, 3, 4], [1, 1, 1], 3⟩], 0, 3⟩

theorem triMesh_low : triMesh.getCell 0 = .ok triLow := by
  have h1 : triMesh.getCellEdges 0 = .ok [0, 1, 2] := by
    simp [PlanarMesh.getCellEdges, triMesh, EdgeRec.borders, List.filter]
  have ho : CellTopo.orients triMesh.store 0 [0, 1, 2] = .ok [1, 1, -1] := by
    simp [CellTopo.orients, CellTopo.orient, triMesh, bind, Except.bind]
  have hm : CellTopo.incMat triMesh.store [(0, 1), (1, 1), (2, -1)] [(0, 1), (1, 1), (2, -1)] = .ok [[0, 0, 1], [1, 0, 0], [0, 1, 0]] := by
    simp [CellTopo.incMat, CellTopo.incRow, CellTopo.startPt, CellTopo.endPt, bind, Except.bind, triMesh, PVert.dist2, CellTopo.incTol]
    norm_num
  have hinc : CellTopo.incidence triMesh.store [(0, 1), (1, 1), (2, -1)] = .ok [1, 2, 0] := by
    simp only [CellTopo.incidence, hm, bind, Except.bind]
    rfl
  have hl : CellTopo.contourLoop [1, 2, 0] 3 4 0 [false, false, false] [] = some (.ok [[0, 1, 2]]) := by decide
  simp only [PlanarMesh.getCell, h1, py_ok_bind, CellTopo.make, CellTopo.init, ho, List.zip, List.zipWith, hinc, List.length_cons, List.length_nil,
    List.replicate, hl]
  rfl

theorem triMesh_high : triMesh.getCell 1 = .ok triHigh := by
  have h1 : triMesh.getCellEdges 1 = .ok [2, 3, 4] := by
    simp [PlanarMesh.getCellEdges, triMesh, EdgeRec.borders, List.filter]
  have ho : CellTopo.orients triMesh.store 1 [2, 3, 4] = .ok [1, 1, 1] := by
    simp [CellTopo.orients, CellTopo.orient, triMesh, bind, Except.bind]
  have hm : CellTopo.incMat triMesh.store [(2, 1), (3, 1), (4, 1)] [(2, 1), (3, 1), (4, 1)] = .ok [[0, 0, 1], [1, 0, 0], [0, 1, 0]] := by
    simp [CellTopo.incMat, CellTopo.incRow, CellTopo.startPt, CellTopo.endPt, bind, Except.bind, triMesh, PVert.dist2, CellTopo.incTol]
    norm_num
  have hinc : CellTopo.incidence triMesh.store [(2, 1), (3, 1), (4, 1)] = .ok [1, 2, 0] := by
    simp only [CellTopo.incidence, hm, bind, Except.bind]
    rfl
  have hl : CellTopo.contourLoop [1, 2, 0] 3 4 0 [false, false, false] [] = some (.ok [[0, 1, 2]]) := by decide
  simp only [PlanarMesh.getCell, h1, py_ok_bind, CellTopo.make, CellTopo.init, ho, List.zip, List.zipWith, hinc, List.length_cons, List.length_nil,
    List.replicate, hl]
  rfl

theorem long_side {a b : Vert} (h : 1 / 2 ≤ |b.x - a.x| ∨ 1 / 2 ≤ |b.y - a.y|) : TOL ≤ ‖b.z - a.z‖ := by
  have h1 := Complex.abs_re_le_norm (b.z - a.z)
  have h2 := Complex.abs_im_le_norm (b.z - a.z)
  simp only [Vert.z, Complex.sub_re, Complex.sub_im] at h1 h2
  have : TOL ≤ 1 / 2 := by norm_num [TOL]
  rcases h with h | h <;> simp only [Vert.z] <;> linarith

theorem triLow_polygon : UnitPolygon { edges := [sideEdge cA cB "kress", sideEdge cB cC "kress", sideEdge cA cC "kress"], orients := [1, 1, -1] }
    [(cA, cB), (cB, cC), (cC, cA)] (3 / 4, 1 / 4) where
  orients := rfl
  same := rfl
  side := by
    rintro (_ | _ | _ | i) s hs
    · cases hs; exact ⟨_, _, _, rfl, rfl, long_side (.inl (by norm_num [cA, cB, Vert.mk'])), .inl (by norm_num [cA, cB, Vert.mk']), rfl⟩
    · cases hs; exact ⟨_, _, _, rfl, rfl, long_side (.inr (by norm_num [cC, cB, Vert.mk'])), .inr (by norm_num [cC, cB, Vert.mk']), rfl⟩
    · cases hs; exact ⟨_, _, _, rfl, rfl, long_side (.inl (by norm_num [cC, cA, Vert.mk'])), .inl (by norm_num [cC, cA, Vert.mk']), rfl⟩
    · cases hs
  inBox := by simp [cA, cB, cC, Vert.mk']
  low := ⟨(cA, cB), by simp, rfl, rfl⟩
  high := ⟨(cC, cA), by simp, rfl, rfl⟩
  centre := by norm_num
  away := by
    intro s hs t t0 t1
    simp only [List.mem_cons, List.not_mem_nil, or_false] at hs
    rcases hs with rfl | rfl | rfl
    · right; norm_num [cA, cB, Vert.mk']
    · left; norm_num [cC, cB, Vert.mk']
    · simp only [cA, cC, Vert.mk']
      by_contra h0
      push Not at h0
      have h1 := abs_lt.1 h0.1
      have h2 := abs_lt.1 h0.2
      linarith [h1.1, h2.2]

theorem triHigh_polygon : UnitPolygon { edges := [sideEdge cA cC "kress", sideEdge cC cD "kress", sideEdge cD cA "kress"], orients := [1, 1, 1] }
    [(cA, cC), (cC, cD), (cD, cA)] (1 / 4, 3 / 4) where
  orients := rfl
  same := rfl
  side := by
    rintro (_ | _ | _ | i) s hs
    · cases hs; exact ⟨_, _, _, rfl, rfl, long_side (.inl (by norm_num [cA, cC, Vert.mk'])), .inl (by norm_num [cA, cC, Vert.mk']), rfl⟩
    · cases hs; exact ⟨_, _, _, rfl, rfl, long_side (.inl (by norm_num [cC, cD, Vert.mk'])), .inl (by norm_num [cC, cD, Vert.mk']), rfl⟩
    · cases hs; exact ⟨_, _, _, rfl, rfl, long_side (.inr (by norm_num [cD, cA, Vert.mk'])), .inr (by norm_num [cD, cA, Vert.mk']), rfl⟩
    · cases hs
  inBox := by simp [cA, cD, cC, Vert.mk']
  low := ⟨(cA, cC), by simp, rfl, rfl⟩
  high := ⟨(cC, cD), by simp, rfl, rfl⟩
  centre := by norm_num
  away := by
    intro s hs t t0 t1
    simp only [List.mem_cons, List.not_mem_nil, or_false] at hs
    rcases hs with rfl | rfl | rfl
    · simp only [cA, cC, Vert.mk']
      by_contra h0
      push Not at h0
      have h1 := abs_lt.1 h0.1
      have h2 := abs_lt.1 h0.2
      linarith [h1.2, h2.1]
    · right; norm_num [cD, cC, Vert.mk']
    · left; norm_num [cD, cA, Vert.mk']

theorem param_of_value {n p : ℤ} {d : Quad × Quad} (hd : getQuadDict n p = .ok d) {h : EdgeHeap} {K : CellRef} (hn : K.getEdges.Nodup)
    (hne : K.components ≠ []) (hK : ∀ c ∈ K.components, Samplable d (fun _ _ => true) (c.read h)) :
    ∃ h' K', K.parameterize (fun _ _ => true) 8 d false h = some (.ok (h', K')) ∧
      (K.read h).parameterize (fun _ _ => true) 8 d = some (.ok (K'.read h')) := by
  obtain ⟨G, hv⟩ := C87_cell hd (inside := fun _ _ => true) (fuel := 8) le_rfl (K := K.read h) (by simpa [CellRef.read] using hne) (by
    intro c hc
    obtain ⟨c0, hc0, rfl⟩ := List.mem_map.1 hc
    exact hK c0 hc0)
  have hr := C121_refines (fun _ _ => true) 8 d false h K hn
  rw [CellG.parameterizeWith, hv] at hr
  simp only [Bool.false_eq_true, if_false] at hr
  obtain ⟨x, hx, hr⟩ := Option.map_eq_some_iff.1 hr
  cases x with
  | error e => cases hr
  | ok x =>
    simp only [Except.map, Except.ok.injEq] at hr
    exact ⟨x.1, x.2, hx, by rw [hv, ← hr]⟩

end PFEM
