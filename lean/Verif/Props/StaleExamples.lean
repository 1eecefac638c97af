import Verif.Props.DiscInner
import Verif.Props.TriangleMesh

/-!
C123 on concrete meshes: the energy of a function becomes negative, and a gradient plot changes its sign on a common side.
-/

namespace PFEM
open EdgeG Plot Nystrom MeasureTheory Poly

/-- by value, what the first cell is after its parameterization -/
theorem value_of_param {inside : InsideTest} {fuel : ℕ} {d : Quad × Quad} {h h1 : EdgeHeap} {K K1 : CellRef} (hn : K.getEdges.Nodup)
    (e1 : K.parameterize inside fuel d false h = some (.ok (h1, K1))) : (K.read h).parameterize inside fuel d = some (.ok (K1.read h1)) := by
  have hr := C121_refines inside fuel d false h K hn
  rw [e1, CellG.parameterizeWith] at hr
  cases hx : (K.read h).parameterize inside fuel d with
  | none => rw [hx] at hr; cases hr
  | some x =>
    cases x with
    | error x => rw [hx] at hr; cases hr
    | ok G =>
      rw [hx] at hr
      simp only [Bool.false_eq_true, if_false, Option.map_some, Except.map, Option.some.injEq, Except.ok.injEq] at hr
      rw [hr]

theorem param_interior {inside : InsideTest} {fuel : ℕ} {d : Quad × Quad} {K K1 : CellG} (h : K.parameterize inside fuel d = some (.ok K1)) :
    K1.interior = K.interior := by
  unfold CellG.parameterize at h
  split at h
  · cases h
  · cases h
  · next cs hcs =>
    simp only [Option.some.injEq] at h
    obtain ⟨a, ha, h⟩ := bind_ok h
    obtain ⟨b, hb, h⟩ := bind_ok h
    obtain ⟨c, hc, h⟩ := bind_ok h
    obtain ⟨_, -, ha⟩ := bind_ok ha
    obtain ⟨_, -, hb⟩ := bind_ok hb
    obtain ⟨_, -, hc⟩ := bind_ok hc
    obtain ⟨_, -, h⟩ := bind_ok h
    obtain ⟨_, -, hb⟩ := bind_ok hb
    obtain ⟨_, -, hb⟩ := bind_ok hb
    obtain ⟨_, -, h⟩ := bind_ok h
    cases ha; cases hb; cases hc; cases h
    rfl

theorem disc_squares (α β : ℝ) : ∫ z in disc 2 3 1, (α * z.1 ^ 2 + β * z.2 ^ 2) = (17 * α + 37 * β) * Real.pi / 4 := by
  rw [disc_shift, disc_polar (g := fun z => α * (z.1 + 2) ^ 2 + β * (z.2 + 3) ^ 2) (by fun_prop) one_pos]
  have e : ∀ ρ : ℝ, ∫ θ in -Real.pi..Real.pi, ρ * (α * (ρ * Real.cos θ + 2) ^ 2 + β * (ρ * Real.sin θ + 3) ^ 2) =
      (α + β) * Real.pi * ρ ^ 3 + (8 * α + 18 * β) * Real.pi * ρ := fun ρ => by
    have hd : ∀ θ : ℝ, HasDerivAt (fun θ => ρ * (α * (ρ ^ 2 * (θ / 2 + Real.sin θ * Real.cos θ / 2) + 4 * ρ * Real.sin θ + 4 * θ) +
        β * (ρ ^ 2 * (θ / 2 - Real.sin θ * Real.cos θ / 2) - 6 * ρ * Real.cos θ + 9 * θ)))
        (ρ * (α * (ρ * Real.cos θ + 2) ^ 2 + β * (ρ * Real.sin θ + 3) ^ 2)) θ := fun θ => by
      have h1 := ((Real.hasDerivAt_sin θ).fun_mul (Real.hasDerivAt_cos θ)).div_const 2
      have h2 := (hasDerivAt_id' θ).div_const 2
      have h3 := (((h2.fun_add h1).const_mul (ρ ^ 2)).fun_add ((Real.hasDerivAt_sin θ).const_mul (4 * ρ))).fun_add ((hasDerivAt_id' θ).const_mul 4)
      have h4 := (((h2.fun_sub h1).const_mul (ρ ^ 2)).fun_sub ((Real.hasDerivAt_cos θ).const_mul (6 * ρ))).fun_add ((hasDerivAt_id' θ).const_mul 9)
      refine (((h3.const_mul α).fun_add (h4.const_mul β)).const_mul ρ).congr_deriv ?_
      have hc : Real.cos θ ^ 2 = 1 - Real.sin θ ^ 2 := by rw [← Real.sin_sq_add_cos_sq θ]; ring
      ring_nf
      rw [hc]
      ring
    rw [intervalIntegral.integral_eq_sub_of_hasDerivAt (fun θ _ => hd θ) (by
      refine Continuous.intervalIntegrable ?_ _ _
      fun_prop)]
    simp only [Real.sin_neg, Real.cos_neg, Real.sin_pi, Real.cos_pi]
    ring
  simp only [e]
  have hd : ∀ ρ : ℝ, HasDerivAt (fun ρ => (α + β) * Real.pi * (ρ ^ 4 / 4) + (8 * α + 18 * β) * Real.pi * (ρ ^ 2 / 2))
      ((α + β) * Real.pi * ρ ^ 3 + (8 * α + 18 * β) * Real.pi * ρ) ρ := fun ρ =>
    ((((hasDerivAt_pow 4 ρ).div_const 4).const_mul _).fun_add (((hasDerivAt_pow 2 ρ).div_const 2).const_mul _)).congr_deriv (by norm_num)
  rw [intervalIntegral.integral_eq_sub_of_hasDerivAt (fun ρ _ => hd ρ) (by
    refine Continuous.intervalIntegrable ?_ _ _
    fun_prop)]
  ring

/-- C123 fails: on the disc inside the ring, a local function made from its boundary values has the energy it should have; once the ring is
parameterized, the same call gives a negative energy. -/
theorem C123_energy : ∃ d h1 h2 K1 K2 s F, getQuadDict 16 2 = .ok d ∧ twoMesh.getCell 0 = .ok twoDisc ∧ twoMesh.getCell 1 = .ok twoRing ∧
    (CellRef.ofTopo twoDisc).parameterize twoInside 8 d false twoCircles = some (.ok (h1, K1)) ∧
    (CellRef.ofTopo twoRing).parameterize twoInside 8 d false h1 = some (.ok (h2, K2)) ∧
    init someGmres (K1.read h1) "direct" "jacobi" = .ok s ∧
    LocPoisson.init someGmres (some s) onePoly (.value (.arr ((K1.read h1).samplesOf fun x _ => x ^ 2 / 2))) false false = .ok F ∧
    F.cell = some (K1.read h1) ∧ (F.seen K1 h1).getH1 (.poisson F) = .ok (17 * Real.pi / 4) ∧
    (F.seen K1 h2).getH1 (.poisson F) = .ok (-(5 * Real.pi / 2)) := by
  obtain ⟨d, hd⟩ := (C21_dict 16 2).1.2 ⟨by norm_num, by norm_num⟩
  obtain ⟨h1, K1, h2, K2, e1, e2⟩ := two_param hd
  have hn := (getCell_edges twoMesh_disc).1
  have hv := value_of_param hn e1
  obtain ⟨hD, hc, -, -⟩ := C76_circle hd (by norm_num) (c := { edges := [circleAbout 2 3 1], orients := [1] }) (e := circleAbout 2 3 1) (a := Vert.mk' 2 3)
    rfl rfl rfl rfl (by simp [circleAbout, Curve.radius]) rfl rfl rfl hv
  have hD : (K1.read h1).IsDisc 2 3 1 (2 * 16) := hD
  have hin : (K1.read h1).interior = [] := param_interior hv
  obtain ⟨s, hs, -⟩ := C70_init someGmres hD.ready (hD.even rfl (by norm_num) (by norm_num)) hD.edges_ne hD.holes hD.apart (hD.simple one_pos)
  have hx := one_problem (u := halfX2) ⟨_, _, fun x y _ => ⟨halfX2_grad x y trivial, 1, 0, hasDerivAt_id x, hasDerivAt_const y _, by simp [one_eval]⟩⟩
  have gx : (LocPoisson.TraceOr.value (.arr ((K1.read h1).samplesOf fun x _ => x ^ 2 / 2))).Gives (K1.read h1)
      ((K1.read h1).samplesOf halfX2.eval) := ⟨by rw [halfX2_eval], by rw [halfX2_eval]; simp [CellG.samplesOf, hD.ready.numPts]⟩
  have dx : ∀ m ∈ halfX2, m.alpha.x + m.alpha.y + 1 < 16 := by simp [halfX2]
  obtain ⟨B, hB⟩ := C77_poisson 2 3 (r := 1) (by norm_num) hx.canonical hx.anti hx.antiExact hx.solution halfX2_grad (d := 2) (by simp [halfX2])
  obtain ⟨F, hF, -⟩ := hB someGmres _ 16 _ _ s _
    someGmres_exact someGmres_finds hD hc (by norm_num) (by norm_num) (by norm_num) hs gx (by rw [hin]; simp) false false
  obtain ⟨a1, -⟩ := C78_inner_products someGmres_exact someGmres_finds hD hc (by norm_num) (by norm_num) (by norm_num) hs hx hx dx dx
    one_lattice' one_lattice' (by norm_num) gx gx hF hF halfX2_grad halfX2_grad
  have hK := (build_shape hD.ready (init_parts hs).1).1
  obtain ⟨k, hk, c1, c2, c3⟩ := poissonInit_parts hD.ready hK gx hF
  have hseen : F.seen K1 h1 = F := by cases F; simp only at c1; rw [LocPoisson.seen, c1]
  have hval : F.getH1 (.poisson F) = .ok (17 * Real.pi / 4) := by
    rw [a1]
    congr 1
    have := disc_squares 1 0
    simp only [one_mul, zero_mul, add_zero, mul_one, mul_zero] at this ⊢
    simp only [← pow_two]
    exact this
  refine ⟨d, h1, h2, K1, K2, s, F, hd, twoMesh_disc, twoMesh_ring, e1, e2, hs, hF, c1, by rw [hseen]; exact hval, ?_⟩
  obtain ⟨-, key⟩ := C123_inner hd twoCircles_settled (by norm_num : (0 : ℤ) ≠ 1) twoMesh_disc twoMesh_ring
    (by simp [twoDisc, twoRing, CellTopo.getEdges]) e1 e2 (by
      intro e he
      right
      obtain rfl : e = 0 := by simpa [twoDisc, CellTopo.getEdges] using he
      obtain ⟨x, x1, x2⟩ := (C121_frame hn e1).2.2 { edges := [0], orients := [1] } (by simp [CellRef.ofTopo, twoDisc]) 0 0 1 rfl rfl
      obtain ⟨y, y1, -, y3⟩ := circle_edge hd (e := twoCircles 0) (a := Vert.mk' 2 3) rfl (by simp [twoCircles, circleAbout, Curve.radius]) rfl rfl rfl
      rw [y1, Except.ok.injEq] at x1
      rw [x2, if_neg (by norm_num), ← x1]
      exact ⟨_, y3, circle_ends _ _ _ (by norm_num)⟩) c2 c2
  obtain ⟨p1, p2, q1, q2, m1, m2, I, r1, r2, r3, r4, r5, r6, r7, r8⟩ := key _ (hseen ▸ hval)
  rw [r8]
  simp only [polyPart, Option.some.injEq] at r1 r2 r3 r4
  subst r1 r2 r3 r4
  obtain ⟨l1, l2⟩ := lattice_dx one_lattice'
  obtain ⟨m1', f1, l1', g1⟩ := mul_lattice (by norm_num : (1 : ℝ) / 10 ^ 12 ≤ 1 / 4 * (1 / 4)) l1 l1
  obtain ⟨m2', f2, l2', g2⟩ := mul_lattice (by norm_num : (1 : ℝ) / 10 ^ 12 ≤ 1 / 4 * (1 / 4)) l2 l2
  rw [r5, Except.ok.injEq] at f1
  rw [r6, Except.ok.injEq] at f2
  subst f1 f2
  have hp : DegLe 2 (alP onePoly) := by
    intro m hm
    rw [onePoly, one_alP] at hm
    simp only [List.mem_cons, List.not_mem_nil, or_false] at hm
    rcases hm with rfl | rfl <;> simp [MultiIndex.order]
  have dm : ∀ {a c : Poly ℝ}, a.mul a = .ok c → DegLe 2 a → DegLe 4 c := by
    intro a c e ha
    rw [Poly.mul_eq] at e
    cases e
    exact deg_mulP ha ha
  have dsum : DegLe 4 (m1.add m2) := by
    rw [Poly.add_eq]
    exact deg_consolidate (deg_nz (deg_append (dm r5 (deg_mono (by omega) (deg_dx hp))) (dm r6 (deg_mono (by omega) (deg_dy hp)))))
  rw [C78_integral hD one_pos (fun m hm => by
    have := dsum m hm
    simp only [MultiIndex.order] at this
    omega), Except.ok.injEq] at r7
  have hev : ∀ x y, (m1.add m2).eval x y = 1 / 4 * x ^ 2 + 1 / 4 * y ^ 2 := fun x y => by
    rw [(C05_exact m1 m2 _ (by norm_num : (1 : ℝ) / 10 ^ 12 ≤ 1 / 4 * (1 / 4)) l1' l2' x y).1, g1, g2]
    have e1 := (hasDerivAt_dx (alP_canonical onePoly).2 x y)
    have e2 := (hasDerivAt_dy (alP_canonical onePoly).2 x y)
    have hal : ∀ x y, (alP onePoly).eval x y = x ^ 2 / 4 + y ^ 2 / 4 := fun x y => by
      rw [onePoly, one_alP]
      simp [Poly.eval, Mono.eval_eq]
      ring
    simp only [hal] at e1 e2
    have u1 := e1.unique (((hasDerivAt_pow 2 x).div_const 4).fun_add (hasDerivAt_const x (y ^ 2 / 4)))
    have u2 := e2.unique ((hasDerivAt_const y (x ^ 2 / 4)).fun_add ((hasDerivAt_pow 2 y).div_const 4))
    rw [u1, u2]
    norm_num
    ring
  simp only [hev] at r7
  rw [disc_squares] at r7
  rw [← r7]
  congr 1
  ring

/-- C123: the hypothesis on products with a harmonic factor holds for the disc before and after the ring is parameterized -/
example : ∃ d h1 h2 K1 K2, getQuadDict 16 2 = .ok d ∧ (CellRef.ofTopo twoDisc).parameterize twoInside 8 d false twoCircles = some (.ok (h1, K1)) ∧
    (CellRef.ofTopo twoRing).parameterize twoInside 8 d false h1 = some (.ok (h2, K2)) ∧ K1.getEdges = [0] ∧ h2 0 = (h1 0).reverse ∧
    ∀ e ∈ K1.getEdges, (h2 e).pts.isSome = (h1 e).pts.isSome := by
  obtain ⟨d, hd⟩ := (C21_dict 16 2).1.2 ⟨by norm_num, by norm_num⟩
  obtain ⟨h1, K1, h2, K2, e1, e2⟩ := two_param hd
  have hr := C122_reversed hd twoCircles_settled (by norm_num : (0 : ℤ) ≠ 1) twoMesh_disc twoMesh_ring e1 e2 (e := 0)
    (by simp [twoDisc, CellTopo.getEdges]) (by simp [twoRing, CellTopo.getEdges])
  have hE : K1.getEdges = [0] := List.perm_singleton.1 (C121_frame (getCell_edges twoMesh_disc).1 e1).2.1
  refine ⟨d, h1, h2, K1, K2, hd, e1, e2, hE, hr, fun e he => ?_⟩
  · rw [hE, List.mem_singleton] at he
    rw [he, hr]
    simp [EdgeG.reverse]

/-! ### two triangles -/

theorem tri_param {n p : ℤ} {d : Quad × Quad} (hd : getQuadDict n p = .ok d) :
    ∃ h1 K1 h2 K2, (CellRef.ofTopo triLow).parameterize (fun _ _ => true) 8 d false triHeap = some (.ok (h1, K1)) ∧
      (CellRef.ofTopo triHigh).parameterize (fun _ _ => true) 8 d false h1 = some (.ok (h2, K2)) := by
  obtain ⟨h1, K1, e1, -⟩ := param_of_value hd (h := triHeap) (K := CellRef.ofTopo triLow) (getCell_edges triMesh_low).1 (by simp [CellRef.ofTopo, triLow]) (by
    intro c hc
    simp only [CellRef.ofTopo, triLow, List.map_cons, List.map_nil, List.mem_cons, List.not_mem_nil, or_false] at hc
    subst hc
    exact triLow_polygon.samplable hd)
  obtain ⟨h2, K2, e2, -⟩ := param_of_value hd (h := triHeap) (K := CellRef.ofTopo triHigh) (getCell_edges triMesh_high).1 (by simp [CellRef.ofTopo, triHigh]) (by
    intro c hc
    simp only [CellRef.ofTopo, triHigh, List.map_cons, List.map_nil, List.mem_cons, List.not_mem_nil, or_false] at hc
    subst hc
    exact triHigh_polygon.samplable hd)
  have hc : EdgeCalls triHeap [.paramCell (fun _ _ => true) 8 d false (CellRef.ofTopo triLow)] h1 := .cons ⟨n, p, hd⟩ ⟨K1, e1⟩ (.nil _)
  have := C121_history triHeap_settled hc (fun _ _ => true) 8 d false (K := CellRef.ofTopo triHigh) (getCell_edges triMesh_high).2
  rw [e2] at this
  obtain ⟨x, hx, hr⟩ := Option.map_eq_some_iff.1 this
  cases x with
  | error e => cases hr
  | ok x => exact ⟨h1, K1, x.1, x.2, e1, hx⟩

theorem tri_side (i : ℕ) : ∃ a b, triHeap i = sideEdge a b "kress" ∧ (a.x ≠ b.x ∨ a.y ≠ b.y) := by
  unfold triHeap
  split_ifs
  · exact ⟨_, _, rfl, .inl (by norm_num [cA, cB, Vert.mk'])⟩
  · exact ⟨_, _, rfl, .inr (by norm_num [cB, cC, Vert.mk'])⟩
  · exact ⟨_, _, rfl, .inl (by norm_num [cA, cC, Vert.mk'])⟩
  · exact ⟨_, _, rfl, .inl (by norm_num [cC, cD, Vert.mk'])⟩
  · exact ⟨_, _, rfl, .inr (by norm_num [cD, cA, Vert.mk'])⟩

/-- the gradient is shown in the middle of the common side -/
theorem mid_sample {d : Quad × Quad} (hd : getQuadDict 16 2 = .ok d) {x : EdgeG} (hx : (sideEdge cA cC "kress").parameterize d = .ok x) :
    ∃ s ∈ x.reverse.cols, 1 / 10 ^ 8 ≤ s.dxNorm := by
  have hpi := Real.pi_pos
  obtain ⟨q, γ, hq, g1, g2, g3⟩ := C22_samples_partial hd [] (by simp [sideEdge, EdgeOp.Good]) (by simp) hx rfl
  have hC := follows_unique (side_follows cA cC "kress") ⟨γ, g1, g2, rfl⟩
  rw [List.foldl_nil, ← hC] at g3
  have h2 := reverse_pts g3 (dict_sym hd hq)
  rw [sideCurve_reverse] at h2
  have hq' : d.2 = q := by
    have : pickQuad "kress" d = .ok q := hq
    obtain ⟨-, -, t1, t2⟩ := (C21_dict 16 2).2 d hd
    simpa [pickQuad, t1, t2] using this
  have hi := ((C21_dict 16 2).2 d hd).2.1
  rw [hq'] at hi
  simp only [Quad.init, show ¬ ((16 : ℤ) < 4) by norm_num, show ¬ ((2 : ℤ) < 2) by norm_num, if_true, if_false, Except.ok.injEq] at hi
  have hl : (q.t.zip q.wgt)[16]? = some (Quad.kressT 2 Real.pi, Quad.kressW 2 Real.pi) := by
    have hn : (Quad.nodes 16)[16]? = some Real.pi := by
      simp [Quad.nodes]
      ring
    rw [← hi, List.zip_map', List.getElem?_map]
    have : Int.toNat 16 = 16 := rfl
    rw [this, hn]
    rfl
  have hlen : (q.t.zip q.wgt).length = 33 := by
    rw [← hi]
    simp [Quad.nodes]
  have hW : Quad.kressW 2 Real.pi = 2 := by
    norm_num [Quad.kressW, Quad.kressS, Quad.kressC, div_self hpi.ne']
  refine ⟨(sideCurve cC cA).sample (Quad.kressT 2 Real.pi) (Quad.kressW 2 Real.pi), ?_, ?_⟩
  · refine List.mem_of_getElem? (i := 16) ?_
    rw [EdgeG.cols, h2, Option.getD_some, List.getElem?_dropLast, PCurve.samples, List.length_map, hlen, if_pos (by norm_num), List.getElem?_map, hl]
    rfl
  · simp only [PCurve.sample, hW, PCurve.speed]
    have h1 : 1 / 10 ≤ √((sideCurve cC cA).dx (Quad.kressT 2 Real.pi) ^ 2 + (sideCurve cC cA).dy (Quad.kressT 2 Real.pi) ^ 2) := by
      refine Real.le_sqrt_of_sq_le ?_
      simp only [sideCurve, cA, cC, Vert.mk', zero_sub]
      have h4 : Real.pi ≤ 4 := Real.pi_le_four
      have : (1 / 8 : ℝ) ≤ 1 / (2 * Real.pi) := by
        rw [div_le_div_iff₀ (by norm_num) (by positivity)]
        linarith
      have e : (-1 : ℝ) / (2 * Real.pi) = -(1 / (2 * Real.pi)) := by ring
      rw [e]
      nlinarith
    linarith

/-- C123 fails: on the lower one of two triangles, a function that stands for `x + 1` has gradient `(1, 0)`; once the upper triangle is
parameterized, the gradient shown on the common side is `(-1, 0)`. -/
theorem C123_triangles : ∃ d h1 h2 K1 K2, ∃ f : LocPoisson, getQuadDict 16 2 = .ok d ∧ triMesh.getCell 0 = .ok triLow ∧ triMesh.getCell 1 = .ok triHigh ∧
    (CellRef.ofTopo triLow).parameterize (fun _ _ => true) 8 d false triHeap = some (.ok (h1, K1)) ∧
    (CellRef.ofTopo triHigh).parameterize (fun _ _ => true) 8 d false h1 = some (.ok (h2, K2)) ∧
    K1.getEdges.Perm [0, 1, 2] ∧ f.Holds (K1.read h1) Set.univ (fun x _ => x + 1) ∧
    boundaryGradient (f.seen K1 h1) 1 = .ok (K1.getEdges.flatMap fun e => (h1 e).cols.map fun s => shown s 1) ∧
    boundaryGradient (f.seen K1 h2) 1 = .ok (K1.getEdges.flatMap fun e => (h1 e).cols.map fun s => shown s (if e = 2 then -1 else 1)) ∧
    ∃ s ∈ (h1 2).cols, shown s 1 = some 1 ∧ shown s (-1) = some (-1) := by
  obtain ⟨d, hd⟩ := (C21_dict 16 2).1.2 ⟨by norm_num, by norm_num⟩
  obtain ⟨h1, K1, h2, K2, e1, e2⟩ := tri_param hd
  obtain ⟨n1, n2⟩ := getCell_edges triMesh_low
  obtain ⟨-, a2, a3⟩ := C121_frame n1 e1
  have hperm : K1.getEdges.Perm [0, 1, 2] := a2
  have hv := value_of_param n1 e1
  obtain ⟨⟨cs, p1, p2⟩, -, -, hR, -⟩ := C33_parameterize hd (by simp [CellRef.read, CellRef.ofTopo, triLow, ContourRef.read]) hv
  have hh : (K1.read h1).numHoles = 0 := by
    have := p2.length_eq
    rw [CellG.numHoles, p1.length_eq, ← this]
    rfl
  have hF : (K1.read h1).Frames := by
    intro s hs
    rw [read_cols] at hs
    obtain ⟨e, he, hs⟩ := List.mem_flatMap.1 hs
    have he : e ∈ (CellRef.ofTopo triLow).getEdges := a2.mem_iff.1 he
    obtain ⟨γ, hγ, heγ⟩ := List.mem_flatMap.1 he
    obtain ⟨j, hj, hej⟩ := List.getElem_of_mem heγ
    obtain ⟨x, x1, x2⟩ := a3 γ hγ j e _ (by rw [List.getElem?_eq_getElem hj, hej]) (List.getElem?_eq_getElem (n2 γ hγ ▸ hj))
    obtain ⟨a, b, hab, hne⟩ := tri_side e
    rw [hab] at x1
    obtain ⟨o1, o2⟩ := onSide_param hd hne x1
    rw [x2] at hs
    split at hs
    · exact o2.frames s (List.dropLast_subset _ hs)
    · exact o1.frames s (List.dropLast_subset _ hs)
  obtain ⟨p, -, -, hp⟩ := one_holds hR
  obtain ⟨-, xh⟩ := xHarm_holds hR hh
  have hf : LocPoisson.Holds (K1.read h1) Set.univ ⟨some (K1.read h1), some p, some (xHarm (K1.read h1)), none, none, none⟩ (fun x _ => x + 1) :=
    ⟨_, _, _, _, rfl, rfl, xh, hp, fun x y _ => by simp [onePoly, Poly.eval, Mono.eval]⟩
  obtain ⟨r1, r2, -, -⟩ := C123_neighbour hd triHeap_settled (by norm_num : (0 : ℤ) ≠ 1) triMesh_low triMesh_high e1 e2 (by
      intro e _ _
      obtain ⟨a, b, h0, -⟩ := tri_side e
      exact ⟨a, b, _, h0⟩) hF isOpen_univ hf (g1 := fun _ _ => 1) (g2 := fun _ _ => 0)
    (fun x y _ => ⟨(hasDerivAt_id' x).add_const 1, hasDerivAt_const y _⟩)
  refine ⟨d, h1, h2, K1, K2, _, hd, triMesh_low, triMesh_high, e1, e2, hperm, hf, r1, r2.trans ?_, ?_⟩
  rotate_left
  · obtain ⟨x, x1, x2⟩ := a3 _ (List.mem_singleton_self _) 2 2 (-1) rfl rfl
    obtain ⟨s, s1, s2⟩ := mid_sample hd x1
    rw [x2, if_pos rfl]
    exact ⟨s, s1, by rw [shown, if_neg (not_lt.2 s2), if_neg (by norm_num)], by rw [shown, if_neg (not_lt.2 s2), if_neg (by norm_num)]⟩
  congr 1
  rw [List.flatMap_def, List.flatMap_def]
  congr 1
  refine List.map_congr_left fun e he => ?_
  have he := hperm.mem_iff.1 he
  have : e ∈ triHigh.getEdges ↔ e = 2 := by
    simp only [List.mem_cons, List.not_mem_nil, or_false] at he
    simp only [triHigh, CellTopo.getEdges, List.flatMap_cons, List.flatMap_nil, List.append_nil, List.mem_cons, List.not_mem_nil, or_false]
    omega
  simp only [this]

end PFEM
