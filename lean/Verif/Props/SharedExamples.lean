import Verif.Props.RingCell
import Verif.Props.Bubble
import Verif.Props.StaleCells

/-!
The hypotheses of C121 and C122 can be met: a disc inside a cell that is bounded by a larger circle.
-/

namespace PFEM
open EdgeG

/-- the circle of radius `r` about `(x, y)` -/
noncomputable def circleAbout (x y r : ℝ) : EdgeG :=
  ⟨Vert.mk' x y, Vert.mk' x y, .circle, { radius := some r }, "trap", (0, 2 * Real.pi), true, [.translate (Vert.mk' x y)], none, -1, -1⟩

/-- two `Edge` objects -/
noncomputable def twoCircles : EdgeHeap := fun i => if i = 0 then circleAbout 2 3 1 else circleAbout (5 / 2) 3 2

theorem twoCircles_settled (i : ℕ) : (twoCircles i).Settled := by
  left
  unfold twoCircles
  split <;> simp [circleAbout, EdgeOp.isJoin]

/-- the mesh: the disc is cell 0, the ring around it is cell 1 -/
noncomputable def twoMesh : PlanarMesh ℝ where
  store i := if i = 0 then ⟨⟨2, 3, 0⟩, ⟨2, 3, 0⟩, 0, 1, some 0⟩ else ⟨⟨5 / 2, 3, 1⟩, ⟨5 / 2, 3, 1⟩, 1, -1, some 1⟩
  edges := [0, 1]
  numEdges := 2
  vertIdxList := []
  numVerts := 0
  cellIdxList := [0, 1]
  numCells := 2

def twoDisc : CellTopo := ⟨0, [1], [⟨[0], [1], 1⟩], 0, 1⟩

def twoRing : CellTopo := ⟨1, [-1, 1], [⟨[0], [-1], 1⟩, ⟨[1], [1], 1⟩], 1, 2⟩

theorem twoMesh_disc : twoMesh.getCell 0 = .ok twoDisc := by
  have h1 : twoMesh.getCellEdges 0 = .ok [0] := by
    simp [PlanarMesh.getCellEdges, twoMesh, EdgeRec.borders, List.filter]
  have ho : CellTopo.orients twoMesh.store 0 [0] = .ok [1] := by
    simp [CellTopo.orients, CellTopo.orient, twoMesh, bind, Except.bind]
  have hm : CellTopo.incMat twoMesh.store [(0, 1)] [(0, 1)] = .ok [[1]] := by
    simp [CellTopo.incMat, CellTopo.incRow, CellTopo.startPt, CellTopo.endPt, bind, Except.bind, twoMesh, PVert.dist2, CellTopo.incTol]
  have hinc : CellTopo.incidence twoMesh.store [(0, 1)] = .ok [0] := by
    simp only [CellTopo.incidence, hm, bind, Except.bind]
    rfl
  have hl : CellTopo.contourLoop [0] 1 2 0 [false] [] = some (.ok [[0]]) := by decide
  simp only [PlanarMesh.getCell, h1, py_ok_bind, CellTopo.make, CellTopo.init, ho, List.zip, List.zipWith, hinc, List.length_cons, List.length_nil,
    List.replicate, hl]
  rfl

theorem twoMesh_ring : twoMesh.getCell 1 = .ok twoRing := by
  have h1 : twoMesh.getCellEdges 1 = .ok [0, 1] := by
    simp [PlanarMesh.getCellEdges, twoMesh, EdgeRec.borders, List.filter]
  have ho : CellTopo.orients twoMesh.store 1 [0, 1] = .ok [-1, 1] := by
    simp [CellTopo.orients, CellTopo.orient, twoMesh, bind, Except.bind]
  have hm : CellTopo.incMat twoMesh.store [(0, -1), (1, 1)] [(0, -1), (1, 1)] = .ok [[1, 0], [0, 1]] := by
    simp [CellTopo.incMat, CellTopo.incRow, CellTopo.startPt, CellTopo.endPt, bind, Except.bind, twoMesh, PVert.dist2, CellTopo.incTol]
    norm_num
  have hinc : CellTopo.incidence twoMesh.store [(0, -1), (1, 1)] = .ok [0, 1] := by
    simp only [CellTopo.incidence, hm, bind, Except.bind]
    rfl
  have hl : CellTopo.contourLoop [0, 1] 2 3 0 [false, false] [] = some (.ok [[0], [1]]) := by decide
  simp only [PlanarMesh.getCell, h1, py_ok_bind, CellTopo.make, CellTopo.init, ho, List.zip, List.zipWith, hinc, List.length_cons, List.length_nil,
    List.replicate, hl]
  rfl

/-- the inside test of the examples -/
noncomputable def twoInside : InsideTest := open Classical in fun _ q => decide (q = (2, 3) ∨ q = (5 / 2, 3))

/-- a cell bounded by circles is parameterized -/
theorem circles_param {n p : ℤ} {d : Quad × Quad} (hd : getQuadDict n p = .ok d) {inside : InsideTest} {fuel : ℕ} (hf : 2 ≤ fuel) {h : EdgeHeap}
    {K : CellRef} (hn : K.getEdges.Nodup) (hne : K.components ≠ [])
    (hK : ∀ c ∈ K.components, ∃ i o v r, c.edges = [i] ∧ c.orients = [o] ∧ h i = circleAbout v.1 v.2 r ∧ 1 / 10 ^ 11 ≤ r ∧
      ∀ poly, inside poly v = true) : ∃ h' K', K.parameterize inside fuel d false h = some (.ok (h', K')) := by
  have hs : ∀ cs : List ContourG, (∀ c ∈ cs, ∃ e o v r, c.edges = [e] ∧ c.orients = [o] ∧ e = circleAbout v.1 v.2 r ∧ 1 / 10 ^ 11 ≤ r ∧
      ∀ poly, inside poly v = true) → ∃ cs', CellG.sampleContours inside fuel d cs = some (.ok cs') ∧ cs'.length = cs.length ∧ ∀ c ∈ cs',
        c.Ready ∧ c.closest.length = c.numPts := by
    intro cs
    induction cs with
    | nil => intro _; exact ⟨[], rfl, rfl, by simp⟩
    | cons c cs ih =>
      intro hc
      obtain ⟨cs', i1, i2, i3⟩ := ih fun x hx => hc x (List.mem_cons_of_mem _ hx)
      obtain ⟨e, o, v, r, a1, a2, a3, a4, a5⟩ := hc c List.mem_cons_self
      have hrad : Curve.radius e.opts = r := by rw [a3]; rfl
      obtain ⟨c1, e1, p1, p2, p3, p4, p5, p6, p6', p7⟩ := circle_contour hd hf a1 a2 (v := Vert.mk' v.1 v.2) (by rw [a3]; rfl) (by rw [hrad]; exact a4)
        (by rw [a3]; rfl) (by rw [a3]; rfl) (by rw [a3]; rfl) (inside := inside) a5
      refine ⟨_ :: cs', by simp only [CellG.sampleContours, p1, p2, i1]; rfl, by simp [i2], ?_⟩
      intro x hx
      rcases List.mem_cons.1 hx with rfl | hx
      · exact ⟨⟨p3.sampled, p3.numPts, p3.vertIdx⟩, by simp [p6, p6']⟩
      · exact i3 x hx
  obtain ⟨cs', b1, b2, b3⟩ := hs (K.read h).components (by
    intro c hc
    obtain ⟨c0, hc0, rfl⟩ := List.mem_map.1 hc
    obtain ⟨i, o, v, r, a1, a2, a3, a4, a5⟩ := hK c0 hc0
    exact ⟨h i, o, v, r, by simp [ContourRef.read, a1], a2, a3, a4, a5⟩)
  have hne' : cs' ≠ [] := by
    intro h0
    rw [h0] at b2
    simp only [List.length_nil, CellRef.read, List.length_map] at b2
    exact hne (List.length_eq_zero_iff.1 b2.symm)
  obtain ⟨G, hG⟩ := finish_ok (inside := inside) (K := { K.read h with components := cs' }) hne' (fun c hc => (b3 c hc).1) fun c hc => (b3 c hc).2
  have hv : (K.read h).parameterize inside fuel d = some (.ok G) := by
    simp only [CellG.parameterize, b1]
    exact congrArg some hG
  have hr := C121_refines inside fuel d false h K hn
  rw [CellG.parameterizeWith, hv] at hr
  simp only [Bool.false_eq_true, if_false] at hr
  obtain ⟨x, hx, hr⟩ := Option.map_eq_some_iff.1 hr
  cases x with
  | error e => cases hr
  | ok x => exact ⟨x.1, x.2, hx⟩

theorem twoDisc_param {n p : ℤ} {d : Quad × Quad} (hd : getQuadDict n p = .ok d) :
    ∃ h' K', (CellRef.ofTopo twoDisc).parameterize twoInside 8 d false twoCircles = some (.ok (h', K')) :=
  circles_param hd (by norm_num) (by simp [CellRef.getEdges, CellRef.ofTopo, twoDisc]) (by simp [CellRef.ofTopo, twoDisc]) (by
    intro c hc
    simp only [CellRef.ofTopo, twoDisc, List.map_cons, List.map_nil, List.mem_cons, List.not_mem_nil, or_false] at hc
    subst hc
    exact ⟨0, 1, (2, 3), 1, rfl, rfl, rfl, by norm_num, fun _ => by simp [twoInside]⟩)

theorem twoRing_param {n p : ℤ} {d : Quad × Quad} (hd : getQuadDict n p = .ok d) :
    ∃ h' K', (CellRef.ofTopo twoRing).parameterize twoInside 8 d false twoCircles = some (.ok (h', K')) :=
  circles_param hd (by norm_num) (by simp [CellRef.getEdges, CellRef.ofTopo, twoRing]) (by simp [CellRef.ofTopo, twoRing]) (by
    intro c hc
    simp only [CellRef.ofTopo, twoRing, List.map_cons, List.map_nil, List.mem_cons, List.not_mem_nil, or_false] at hc
    rcases hc with rfl | rfl
    · exact ⟨0, -1, (2, 3), 1, rfl, rfl, rfl, by norm_num, fun _ => by simp [twoInside]⟩
    · exact ⟨1, 1, (5 / 2, 3), 2, rfl, rfl, by simp [twoCircles], by norm_num, fun _ => by simp [twoInside]⟩)

/-- both cells, one after the other -/
theorem two_param {n p : ℤ} {d : Quad × Quad} (hd : getQuadDict n p = .ok d) :
    ∃ h1 K1 h2 K2, (CellRef.ofTopo twoDisc).parameterize twoInside 8 d false twoCircles = some (.ok (h1, K1)) ∧
      (CellRef.ofTopo twoRing).parameterize twoInside 8 d false h1 = some (.ok (h2, K2)) := by
  obtain ⟨h1, K1, e1⟩ := twoDisc_param hd
  obtain ⟨h2, K2, e2⟩ := twoRing_param hd
  have hc : EdgeCalls twoCircles [.paramCell twoInside 8 d false (CellRef.ofTopo twoDisc)] h1 := .cons ⟨n, p, hd⟩ ⟨K1, e1⟩ (.nil _)
  have := C121_history twoCircles_settled hc twoInside 8 d false (K := CellRef.ofTopo twoRing) (getCell_edges twoMesh_ring).2
  rw [e2] at this
  obtain ⟨x, hx, hr⟩ := Option.map_eq_some_iff.1 this
  cases x with
  | error e => cases hr
  | ok x => exact ⟨h1, K1, x.1, x.2, e1, hx⟩

/-- C121: the two cells with different rules, an edge reversed, both cells deparameterized: the disc is then parameterized as if nothing had
happened. -/
example : ∃ d d' h' calls, calls.length = 5 ∧ EdgeCalls twoCircles calls h' ∧ (∀ i, (twoCircles i).Settled) ∧
    (CellRef.ofTopo twoDisc).getEdges.Nodup ∧ (∀ c ∈ (CellRef.ofTopo twoDisc).components, c.edges.length = c.orients.length) ∧
    getQuadDict 16 2 = .ok d ∧ getQuadDict 32 3 = .ok d' ∧ ∃ h1 h2 K1 K2,
      (CellRef.ofTopo twoDisc).parameterize twoInside 8 d' false twoCircles = some (.ok (h1, K1)) ∧
      (CellRef.ofTopo twoDisc).parameterize twoInside 8 d' false h' = some (.ok (h2, K2)) ∧ K1 = K2 ∧ K1.read h1 = K2.read h2 := by
  obtain ⟨d, hd⟩ := (C21_dict 16 2).1.2 ⟨by norm_num, by norm_num⟩
  obtain ⟨d', hd'⟩ := (C21_dict 32 3).1.2 ⟨by norm_num, by norm_num⟩
  obtain ⟨h1, K1, h2, K2, e1, e2⟩ := two_param hd
  obtain ⟨g1, L1, e3⟩ := twoDisc_param hd'
  have hc : EdgeCalls twoCircles [.paramCell twoInside 8 d false (CellRef.ofTopo twoDisc), .paramCell twoInside 8 d false (CellRef.ofTopo twoRing),
      .reverseEdge 0, .deparamCell K1, .deparamCell K2] _ :=
    .cons ⟨16, 2, hd⟩ ⟨K1, e1⟩ (.cons ⟨16, 2, hd⟩ ⟨K2, e2⟩ (.cons trivial rfl (.cons trivial rfl (.cons trivial rfl (.nil _)))))
  have := C121_history twoCircles_settled hc twoInside 8 d' false (K := CellRef.ofTopo twoDisc) (getCell_edges twoMesh_disc).2
  rw [e3] at this
  obtain ⟨x, hx, hr⟩ := Option.map_eq_some_iff.1 this
  cases x with
  | error e => cases hr
  | ok x =>
    simp only [Except.map, Except.ok.injEq, Prod.mk.injEq] at hr
    exact ⟨d, d', _, _, rfl, hc, twoCircles_settled, (getCell_edges twoMesh_disc).1, (getCell_edges twoMesh_disc).2, hd, hd', g1, x.1, L1, x.2, e3, hx,
      hr.1.symm, hr.2.symm⟩

/-- the samples of a circle begin and end at the same point -/
theorem circle_ends (x0 y0 r : ℝ) {N : ℕ} (hN : 0 < N) :
    ((List.range (N + 1)).map (circleSample x0 y0 r N)).head? = ((List.range (N + 1)).map (circleSample x0 y0 r N)).getLast? := by
  have h0 : (N : ℝ) ≠ 0 := by exact_mod_cast hN.ne'
  rw [List.head?_map, List.getLast?_map, List.getLast?_range, List.head?_range]
  simp only [Nat.add_eq_zero_iff, one_ne_zero, and_false, if_false, Option.map_some, Option.some.injEq, Nat.add_sub_cancel]
  simp [circleSample, h0]

/-- C122 fails: after the ring around it has been parameterized, the area of the disc is found to be `-π` instead of `π`. -/
theorem C122_area : ∃ d h1 h2 K1 K2, getQuadDict 16 2 = .ok d ∧ twoMesh.getCell 0 = .ok twoDisc ∧ twoMesh.getCell 1 = .ok twoRing ∧
    (CellRef.ofTopo twoDisc).parameterize twoInside 8 d false twoCircles = some (.ok (h1, K1)) ∧
    (CellRef.ofTopo twoRing).parameterize twoInside 8 d false h1 = some (.ok (h2, K2)) ∧
    integratePoly onePoly (K1.read h1) = .ok Real.pi ∧ integratePoly onePoly (K1.read h2) = .ok (-Real.pi) := by
  obtain ⟨d, hd⟩ := (C21_dict 16 2).1.2 ⟨by norm_num, by norm_num⟩
  obtain ⟨h1, K1, h2, K2, e1, e2⟩ := two_param hd
  refine ⟨d, h1, h2, K1, K2, hd, twoMesh_disc, twoMesh_ring, e1, e2, ?_⟩
  have hn := (getCell_edges twoMesh_disc).1
  have hr := C121_refines twoInside 8 d false twoCircles (CellRef.ofTopo twoDisc) hn
  rw [e1, CellG.parameterizeWith] at hr
  have hv : ((CellRef.ofTopo twoDisc).read twoCircles).parameterize twoInside 8 d = some (.ok (K1.read h1)) := by
    cases hx : ((CellRef.ofTopo twoDisc).read twoCircles).parameterize twoInside 8 d with
    | none => rw [hx] at hr; cases hr
    | some x =>
      cases x with
      | error x => rw [hx] at hr; cases hr
      | ok G =>
        rw [hx] at hr
        simp only [Bool.false_eq_true, if_false, Option.map_some, Except.map, Option.some.injEq, Except.ok.injEq] at hr
        rw [hr]
  obtain ⟨hD, -, -, -⟩ := C76_circle hd (by norm_num) (c := { edges := [circleAbout 2 3 1], orients := [1] }) (e := circleAbout 2 3 1) (a := Vert.mk' 2 3) rfl rfl rfl rfl
    (by simp [circleAbout, Curve.radius]) rfl rfl rfl hv
  have hD : (K1.read h1).IsDisc 2 3 1 (2 * 16) := hD
  have hA := C78_integral hD one_pos (p := onePoly) (by simp [onePoly])
  rw [disc_area one_pos, one_pow, mul_one] at hA
  obtain ⟨v, v1, v2⟩ := C122_island hd twoCircles_settled (by norm_num : (0 : ℤ) ≠ 1) twoMesh_disc twoMesh_ring
    (by simp [twoDisc, twoRing, CellTopo.getEdges]) e1 e2 (by
      intro e he
      right
      obtain rfl : e = 0 := by simpa [twoDisc, CellTopo.getEdges] using he
      obtain ⟨x, x1, x2⟩ := (C121_frame hn e1).2.2 { edges := [0], orients := [1] } (by simp [CellRef.ofTopo, twoDisc]) 0 0 1 rfl rfl
      obtain ⟨y, y1, -, y3⟩ := circle_edge hd (e := twoCircles 0) (a := Vert.mk' 2 3) rfl (by simp [twoCircles, circleAbout, Curve.radius]) rfl rfl rfl
      rw [y1, Except.ok.injEq] at x1
      rw [x2, if_neg (by norm_num), ← x1]
      exact ⟨_, y3, circle_ends _ _ _ (by norm_num)⟩) onePoly
  rw [hA, Except.ok.injEq] at v1
  exact ⟨hA, by rw [v2, v1]⟩

/-- C122: cells without common edges; and the same cell again with other arguments -/
example : ∃ d h1 K1 h2 K2, getQuadDict 16 2 = .ok d ∧ (∀ i, (twoCircles i).Settled) ∧
    (CellRef.ofTopo twoDisc).parameterize twoInside 8 d false twoCircles = some (.ok (h1, K1)) ∧
    (CellRef.ofTopo twoDisc).parameterize twoInside 9 d false h1 = some (.ok (h2, K2)) ∧ h2 = h1 ∧
    (∀ e ∈ (CellRef.mk [{ edges := [1], orients := [1] }] 0 [] [] (33, 33) 0.05 0.05 []).getEdges, e ∉ (CellRef.ofTopo twoDisc).getEdges) := by
  obtain ⟨d, hd⟩ := (C21_dict 16 2).1.2 ⟨by norm_num, by norm_num⟩
  obtain ⟨h1, K1, e1⟩ := twoDisc_param hd
  obtain ⟨g, K0, e2⟩ := circles_param hd (inside := twoInside) (fuel := 9) (h := twoCircles) (K := CellRef.ofTopo twoDisc) (by norm_num)
    (by simp [CellRef.getEdges, CellRef.ofTopo, twoDisc]) (by simp [CellRef.ofTopo, twoDisc]) (by
    intro c hc
    simp only [CellRef.ofTopo, twoDisc, List.map_cons, List.map_nil, List.mem_cons, List.not_mem_nil, or_false] at hc
    subst hc
    exact ⟨0, 1, (2, 3), 1, rfl, rfl, rfl, by norm_num, fun _ => by simp [twoInside]⟩)
  have hc : EdgeCalls twoCircles [.paramCell twoInside 8 d false (CellRef.ofTopo twoDisc)] h1 := .cons ⟨_, _, hd⟩ ⟨K1, e1⟩ (.nil _)
  have := C121_history twoCircles_settled hc twoInside 9 d false (K := CellRef.ofTopo twoDisc) (getCell_edges twoMesh_disc).2
  rw [e2] at this
  obtain ⟨x, hx, hr⟩ := Option.map_eq_some_iff.1 this
  cases x with
  | error e => cases hr
  | ok x =>
    refine ⟨d, h1, K1, x.1, x.2, hd, twoCircles_settled, e1, hx, ?_, by simp [CellRef.getEdges, CellRef.ofTopo, twoDisc]⟩
    exact C122_again_partial hd twoCircles_settled (getCell_edges twoMesh_disc).1 (getCell_edges twoMesh_disc).2 (.refl _) e1 hx

/-- C122: building spaces on the two edges succeeds, and both edges belong to the ring -/
example : ∃ d h' bs, getQuadDict 16 2 = .ok d ∧ SharedSolver.buildEdgeSpaces d (fun _ _ => .ok ⟨1, [], []⟩) twoCircles [0, 1] = .ok (h', bs) ∧
    ∃ e ∈ (CellRef.ofTopo twoRing).getEdges, e ∈ [0, 1] := by
  obtain ⟨d, hd⟩ := (C21_dict 16 2).1.2 ⟨by norm_num, by norm_num⟩
  obtain ⟨x, hx, -⟩ := circle_edge hd (e := twoCircles 0) (a := Vert.mk' 2 3) rfl (by simp [twoCircles, circleAbout, Curve.radius]) rfl rfl rfl
  obtain ⟨y, hy, -⟩ := circle_edge hd (e := twoCircles 1) (a := Vert.mk' (5 / 2) 3) rfl (by simp [twoCircles, circleAbout, Curve.radius]) rfl rfl rfl
  exact ⟨d, _, _, hd, by
    simp [SharedSolver.buildEdgeSpaces, EdgeHeap.parameterize, EdgeHeap.deparameterize, hx, hy, bind, Except.bind, Function.update]; exact ⟨rfl, rfl⟩,
    0, by simp [CellRef.getEdges, CellRef.ofTopo, twoRing], by simp⟩

end PFEM
