import Verif.Props.CircleInterior
import Verif.Props.AnnulusSolve

/-!
Property theorem C114, last part: a cell bounded by two concentric circles of the library becomes a ring in the sense of `Spec/Annulus.lean` when it is
parameterized, and the hypotheses of the theorems can be met.
-/

namespace PFEM
open Nystrom

theorem hole_edge {e : EdgeG} {x0 y0 r : ℝ} {N : ℕ} (hN : 0 < N) (h : e.pts = some ((List.range (N + 1)).map (circleSample x0 y0 r N))) :
    e.reverse.pts = some ((List.range (N + 1)).map (holeSample x0 y0 r N)) := by
  have hNr : (0 : ℝ) < N := by exact_mod_cast hN
  simp only [EdgeG.reverse, h, Option.map_some, List.map_map]
  congr 1
  refine List.ext_getElem (by simp) fun j h1 h2 => ?_
  simp only [List.length_map, List.length_range] at h2
  simp only [List.getElem_reverse, List.getElem_map, List.getElem_range, List.length_map, List.length_range, Function.comp_apply]
  have hj : N + 1 - 1 - j = N - j := by omega
  have ht : 2 * Real.pi * ((N - j : ℕ) : ℝ) / N = 2 * Real.pi - 2 * Real.pi * j / N := by
    rw [Nat.cast_sub (by omega)]
    field_simp
  rw [hj]
  simp only [circleSample, holeSample, ht, Real.cos_two_pi_sub, Real.sin_two_pi_sub, Sample.mk.injEq]
  refine ⟨trivial, by ring, ?_, trivial, trivial, ?_, trivial, ?_⟩ <;> ring

/-- the only vertex is the nearest -/
theorem closest_one {c : ContourG} {e : EdgeG} {N : ℕ} (hl : ContourLayout c) (hc : c.edges = [e]) (hn : c.numPts = N) :
    c.closest = List.replicate N 0 := by
  refine List.ext_getElem? fun j => ?_
  rcases lt_or_ge j N with hj | hj
  · have h5 := hl.nearest.2 0 e 0 N (by simp [hc]) hl.first (by
      have := hl.last
      simp only [hc, List.length_singleton] at this
      rw [zero_add, this, hn]) j (by omega)
    simp only [zero_add, hc, List.length_singleton, lt_irrefl, if_false, ite_self] at h5
    rw [List.getElem?_replicate, if_pos hj]
    exact h5
  · rw [List.getElem?_eq_none (by rw [hl.nearest.1, hn]; exact hj), List.getElem?_eq_none (by simpa using hj)]

/-- sampling a contour that consists of one circle -/
theorem circle_contour {n p : ℤ} {d : Quad × Quad} (hd : getQuadDict n p = .ok d) {inside : InsideTest} {fuel : ℕ} (hf : 2 ≤ fuel)
    {c : ContourG} {e : EdgeG} {v : Vert} {o : ℤ} (hc : c.edges = [e]) (ho : c.orients = [o]) (h1 : e.curve = .circle)
    (hr : 1 / 10 ^ 11 ≤ Curve.radius e.opts) (h2 : e.quadType = "trap") (h3 : e.tBounds = (0, 2 * Real.pi)) (h4 : e.diary = [.translate v])
    (hin : ∀ poly, inside poly (v.x, v.y) = true) :
    ∃ c1 e1, c.parameterize d = .ok c1 ∧ c1.findInteriorPoint inside fuel = some (.ok { c1 with interior := some (Vert.mk' v.x v.y) }) ∧
      c1.Ready ∧ c1.edges = [e1] ∧ ¬ e1.IsKress ∧ c1.closest = List.replicate (2 * n.toNat) 0 ∧ c1.numPts = 2 * n.toNat ∧
      e1.cols = (List.range (2 * n.toNat)).map (if o = -1 then holeSample v.x v.y (Curve.radius e.opts) (2 * n.toNat)
        else circleSample v.x v.y (Curve.radius e.opts) (2 * n.toNat)) := by
  set r := Curve.radius e.opts with hrdef
  have hr0 : 0 < r := lt_of_lt_of_le (by positivity) hr
  have hn : 4 ≤ n := ((C21_dict n p).1.1 ⟨d, hd⟩).1
  set N := n.toNat with hN
  have hN4 : 4 ≤ N := by omega
  obtain ⟨e1, g1, g2, g3⟩ := circle_edge hd h1 hr0 h2 h3 h4
  have hlen : c.edges.length = c.orients.length := by simp [hc, ho]
  obtain ⟨c1, hc1⟩ := C28_success hd hlen (by simpa [hc] using ⟨e1, g1⟩)
  obtain ⟨k1, k2, -, k4, k5⟩ := parameterize_edges hd hlen hc1
  obtain ⟨e', f1, f2⟩ := k2 0 e o (by simp [hc]) (by simp [ho])
  have hee : e1 = e' := Except.ok.inj (g1.symm.trans f1)
  rw [← hee] at f2
  set e2 := if o = -1 then e1.reverse else e1 with he2
  have hce : c1.edges = [e2] := by
    rw [hc] at k1
    obtain ⟨x, hx⟩ := List.length_eq_one_iff.1 k1
    rw [hx] at f2 ⊢
    simpa using f2
  set f := if o = -1 then holeSample v.x v.y r (2 * N) else circleSample v.x v.y r (2 * N) with hfdef
  have hpts : e2.pts = some ((List.range (2 * N + 1)).map f) := by
    by_cases h0 : o = -1
    · rw [he2, hfdef, if_pos h0, if_pos h0]
      exact hole_edge (by omega) g3
    · rw [he2, hfdef, if_neg h0, if_neg h0]
      exact g3
  have hq : e2.quadType = "trap" := by
    by_cases h0 : o = -1
    · rw [he2, if_pos h0]; exact g2
    · rw [he2, if_neg h0]; exact g2
  have hcols : e2.cols = (List.range (2 * N)).map f := by
    rw [EdgeG.cols, hpts]
    simp [List.range_succ]
  have hnum : c1.numPts = 2 * N := by
    rw [k4.numPts, ContourG.cols, hce]
    simp [hcols]
  refine ⟨c1, e2, hc1, ?_, k4, hce, ?_, closest_one k5 hce hnum, hnum, hcols⟩
  · by_cases h0 : o = -1
    · refine C115_centre k4 hce hN4 (r := r) (σ := -1) hr (.inr rfl) hpts (fun j => ?_) inside (hin _) hf
      rw [hfdef, if_pos h0]
      exact ⟨rfl, by simp only [holeSample]; ring⟩
    · refine C115_centre k4 hce hN4 (r := r) (σ := 1) hr (.inl rfl) hpts (fun j => ?_) inside (hin _) hf
      rw [hfdef, if_neg h0]
      exact ⟨rfl, by simp only [circleSample]; ring⟩
  · unfold EdgeG.IsKress
    rw [hq]
    decide

theorem outerLoop_two (inside : InsideTest) {c d : ContourG} {k : ℕ} (h : CellG.outerLoop inside 0 0 [c, d] = .ok k) : k = 0 := by
  simp only [CellG.outerLoop, CellG.outerInner] at h
  obtain ⟨j, h1, h2⟩ := bind_ok h
  obtain ⟨b, -, h1⟩ := bind_ok h1
  rw [ite_self] at h1
  cases h1
  simp only [bind, Except.bind] at h2
  cases h2
  rfl

/-- C114: let the boundary of a cell consist of two circles of the library about `v`, the outer one of radius `b` and the hole of radius `a`, both with the
trapezoidal rule.  If the inside test accepts the centre, then `parameterize` returns and the cell is a ring in the sense of these theorems. -/
theorem C114_annulus {n p : ℤ} {q : Quad × Quad} (hd : getQuadDict n p = .ok q) {inside : InsideTest} {fuel : ℕ} (hfu : 2 ≤ fuel)
    {K : CellG} {c d : ContourG} {e f : EdgeG} {v : Vert} {a b : ℝ} (hK : K.components = [c, d]) (hc : c.edges = [e]) (hd' : d.edges = [f])
    (hoc : c.orients = [1]) (hod : d.orients = [-1]) (he1 : e.curve = .circle) (hf1 : f.curve = .circle) (her : Curve.radius e.opts = b)
    (hfr : Curve.radius f.opts = a) (ha : 1 / 10 ^ 11 ≤ a) (hab : a < b) (he2 : e.quadType = "trap") (hf2 : f.quadType = "trap")
    (he3 : e.tBounds = (0, 2 * Real.pi)) (hf3 : f.tBounds = (0, 2 * Real.pi)) (he4 : e.diary = [.translate v]) (hf4 : f.diary = [.translate v])
    (hin : ∀ poly, inside poly (v.x, v.y) = true) :
    ∃ K1, K.parameterize inside fuel q = some (.ok K1) ∧ K1.IsAnnulus v.x v.y a b (2 * n.toNat) := by
  obtain ⟨c1, e1, p1, p2, p3, p4, p5, p6, p6', p7⟩ := circle_contour hd hfu hc hoc he1 (by rw [her]; linarith) he2 he3 he4 hin
  obtain ⟨d1, f1, r1, r2, r3, r4, r5, r6, r6', r7⟩ := circle_contour hd hfu hd' hod hf1 (by rw [hfr]; exact ha) hf2 hf3 hf4 hin
  rw [if_neg (by norm_num), her] at p7
  rw [if_pos rfl, hfr] at r7
  set c2 : ContourG := { c1 with interior := some (Vert.mk' v.x v.y) } with hc2
  set d2 : ContourG := { d1 with interior := some (Vert.mk' v.x v.y) } with hd2
  have hsc : CellG.sampleContours inside fuel q K.components = some (.ok [c2, d2]) := by
    simp only [hK, CellG.sampleContours, p1, p2, r1, r2]
  have hR : ∀ x ∈ [c2, d2], x.Ready := by
    simp only [List.mem_cons, List.not_mem_nil, or_false, forall_eq_or_imp, forall_eq]
    exact ⟨⟨p3.sampled, p3.numPts, p3.vertIdx⟩, ⟨r3.sampled, r3.numPts, r3.vertIdx⟩⟩
  have hL : ∀ x ∈ [c2, d2], x.closest.length = x.numPts := by
    simp only [List.mem_cons, List.not_mem_nil, or_false, forall_eq_or_imp, forall_eq, hc2, hd2]
    exact ⟨by rw [p6, p6', List.length_replicate], by rw [r6, r6', List.length_replicate]⟩
  obtain ⟨K1, hK1⟩ := finish_ok (inside := inside) (K := { K with components := [c2, d2] }) (by simp) hR hL
  have hpar : K.parameterize inside fuel q = some (.ok K1) := by
    simp only [CellG.parameterize, hsc]
    exact congrArg some hK1
  refine ⟨K1, hpar, ?_⟩
  have hor : ∀ x ∈ K.components, x.edges.length = x.orients.length := by simp [hK, hc, hd', hoc, hod]
  obtain ⟨-, -, hlay, hRK, -⟩ := C33_parameterize hd hor hpar
  have hcl := parameterize_closest hd hor hpar
  rw [findClosest_eq hRK fun c hc => (hlay c hc).nearest.1] at hcl
  simp only [Except.ok.injEq] at hcl
  have hcl' : K1.closest = (K1.components.map ContourG.closest).flatten := by
    conv_lhs => rw [← hcl]
  -- the order of the components stays
  have hcomp : K1.components = [c2, d2] := by
    obtain ⟨Ka, ha1, hK1⟩ := bind_ok hK1
    obtain ⟨-, -, ha1⟩ := bind_ok ha1
    cases ha1
    obtain ⟨Kb, hb1, hK1⟩ := bind_ok hK1
    obtain ⟨-, -, hb1⟩ := bind_ok hb1
    obtain ⟨k, hk, hb1⟩ := bind_ok hb1
    have hk0 := outerLoop_two inside hk
    subst hk0
    obtain ⟨cs, hs, hb1⟩ := bind_ok hb1
    cases hb1
    obtain ⟨Kc, hc1, hK1⟩ := bind_ok hK1
    obtain ⟨-, -, hc1⟩ := bind_ok hc1
    cases hc1
    obtain ⟨-, -, hK1⟩ := bind_ok hK1
    obtain ⟨l, -, hK1⟩ := bind_ok hK1
    cases hK1
    simp only [CellG.swap0, Np.get, List.getElem?_cons_zero, bind, Except.bind, List.set_cons_zero] at hs
    cases hs
    rfl
  refine ⟨hRK, ⟨c2, d2, e1, f1, hcomp, p4, r4, p5, r5, p7, r7, _, rfl, rfl, rfl⟩, ?_, ?_⟩
  · rw [hcl', hcomp]
    simp only [List.map_cons, List.map_nil, List.flatten_cons, List.flatten_nil, List.append_nil, List.length_append, hc2, hd2, p6, r6,
      List.length_replicate]
    omega
  · rw [hcl', hcomp]
    simp only [List.map_cons, List.map_nil, List.flatten_cons, List.flatten_nil, List.append_nil, List.mem_append, hc2, hd2, p6, r6,
      List.mem_replicate]
    rintro i (h | h) <;> exact .inl h.2

/-! ### the hypotheses can be met -/

/-- the circle of radius `r` about `(2, 3)` -/
noncomputable def circleAt (r : ℝ) : EdgeG :=
  ⟨Vert.mk' 0 0, Vert.mk' 0 0, .circle, { radius := some r }, "trap", (0, 2 * Real.pi), true, [.translate (Vert.mk' 2 3)], none, -1, -1⟩

/-- the ring between the circles of radii 1 and 2 about `(2, 3)` -/
noncomputable def ringOfCircles : CellG :=
  { components := [{ edges := [circleAt 2], orients := [1] }, { edges := [circleAt 1], orients := [-1] }] }

open Polynomial in
/-- C114, C115: the ring is parameterized with 64 samples on each circle, the solver is made, the conjugate of `7 log |w| + Re (w² + 1/w)` is found up to
`10^(-11)` and the logarithmic coefficient exactly. -/
example : ∃ q inside K s psi, getQuadDict 32 2 = .ok q ∧ ringOfCircles.parameterize inside 8 q = some (.ok K) ∧
    init someGmres K "direct" "jacobi" = .ok s ∧ conjugate someGmres s (K.samplesOf (ringData 7 (X ^ 2) X 2 3)) = .ok (psi, [7]) ∧
    PFEM.Within (1 / 10 ^ 11) psi (K.samplesOf (ringConj (X ^ 2) X 2 3)) := by
  classical
  obtain ⟨q, hd⟩ := (C21_dict 32 2).1.2 ⟨by norm_num, le_rfl⟩
  obtain ⟨K, hK, h⟩ := C114_annulus hd (inside := fun _ q => decide ((q.1 - 2) ^ 2 + (q.2 - 3) ^ 2 < 1)) (fuel := 8) (by norm_num)
    (K := ringOfCircles) (e := circleAt 2) (f := circleAt 1) (v := Vert.mk' 2 3) (a := 1) (b := 2) rfl rfl rfl rfl rfl rfl rfl rfl rfl
    (by norm_num) (by norm_num) rfl rfl rfl rfl rfl rfl (by intro poly; simp [Vert.mk'])
  have h : K.IsAnnulus 2 3 1 2 (2 * 32) := h
  have hc : ringConst 1 2 = 241 / 3 := by norm_num [ringConst]
  have hS : ringSum (X ^ 2) X 1 2 = 5 := by
    norm_num [ringSum, coeffSum, natDegree_X_pow, natDegree_X, Finset.sum_range_succ, coeff_X_pow, coeff_X]
  have hsm : 4 * ringConst 1 2 * (1 / 2) ^ (2 * 32) ≤ 1 := by rw [hc]; norm_num
  obtain ⟨s, hs, -⟩ := C70_init someGmres h.ready (h.even rfl (by norm_num) (by norm_num)) h.edges_ne (h.holes one_pos two_pos)
    (h.apart one_pos (by norm_num)) (h.simple one_pos (by norm_num))
  have hres : ResidualWithin someGmres fun _ => 0 := by
    intro A b M x hx
    have := someGmres_exact A b M x hx
    exact ⟨b, this, List.forall₂_same.2 fun u _ => by simp⟩
  obtain ⟨⟨psi, al⟩, hr⟩ := C114_returns someGmres_finds h (by norm_num) (by norm_num) (by norm_num) (by norm_num) hsm hs (A := 7) (Q := X ^ 2)
    (R := X) (by rw [natDegree_X_pow]; norm_num) (by rw [natDegree_X]; norm_num)
  obtain ⟨rhs, α, -, -, h3, h4, h5⟩ := C114_conjugate hres h (by norm_num) (by norm_num) (by norm_num) (by norm_num) hsm hs (d := 2) (by norm_num)
    (by rw [natDegree_X_pow]) (by rw [natDegree_X]; norm_num) hr
  have hα : α = 7 := by
    rw [zero_div] at h5
    exact sub_eq_zero.1 (abs_eq_zero.1 (le_antisymm h5 (abs_nonneg _)))
  rw [h4, hα] at hr
  refine ⟨q, _, K, s, psi, hd, hK, hs, hr, ?_⟩
  rw [hc, hS] at h3
  exact h3.imp fun u v huv => huv.trans (by norm_num)

end PFEM
