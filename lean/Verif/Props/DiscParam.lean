import Verif.Props.Parameterize
import Verif.Props.DiscCell
import Verif.Props.QuadOrder

/-!
Property theorem C87, second part: cells bounded by a circle are parameterized, for every reasonable inside test.  This provides
cells that meet the hypotheses of C85 and C86.
-/

namespace PFEM
open EdgeG

theorem circleSample_norm (x0 y0 r : ℝ) (N j : ℕ) :
    ((circleSample x0 y0 r N j).x - x0) ^ 2 + ((circleSample x0 y0 r N j).y - y0) ^ 2 = r ^ 2 := by
  simp only [circleSample]
  have := Real.sin_sq_add_cos_sq (2 * Real.pi * j / N)
  linear_combination r ^ 2 * this

/-- C87: a cell whose boundary is one circle, sampled with the trapezoidal rule, can be parameterized with any number of nodes that
the rule accepts and with any inside test that accepts the points up to half the radius from the centre. -/
theorem C87_circle {n p : ℤ} {d : Quad × Quad} (hd : getQuadDict n p = .ok d) {inside : InsideTest} {fuel : ℕ} (hf : 8 ≤ fuel)
    {K : CellG} {c : ContourG} {e : EdgeG} {a : Vert} (hK : K.components = [c]) (hc : c.edges = [e]) (ho : c.orients = [1])
    (h1 : e.curve = .circle) (hr : 1 / 10 ^ 11 ≤ Curve.radius e.opts) (h2 : e.quadType = "trap")
    (h3 : e.tBounds = (0, 2 * Real.pi)) (h4 : e.diary = [.translate a])
    (hin : ∀ poly q, (q.1 - a.x) ^ 2 + (q.2 - a.y) ^ 2 ≤ (Curve.radius e.opts / 2) ^ 2 → inside poly q = true) :
    ∃ K1, K.parameterize inside fuel d = some (.ok K1) := by
  set r := Curve.radius e.opts with hrdef
  have hr0 : 0 < r := lt_of_lt_of_le (by positivity) hr
  have hpi := Real.pi_pos
  have hn : 4 ≤ n := ((C21_dict n p).1.1 ⟨d, hd⟩).1
  obtain ⟨e1, g1, -, g3⟩ := circle_edge hd h1 hr0 h2 h3 h4
  set N := n.toNat with hN
  have hN4 : 4 ≤ N := by omega
  have hNr : (0 : ℝ) < N := by exact_mod_cast (by omega : 0 < N)
  refine C87_cell hd hf (by simp [hK]) fun c' hc' => ?_
  rw [hK, List.mem_singleton] at hc'
  subst hc'
  refine ⟨by simp [hc], by simp [hc, ho], ?_, ?_⟩
  · intro e' he'
    rw [hc, List.mem_singleton] at he'
    subst he'
    exact ⟨e1, g1⟩
  intro c1 hc1
  obtain ⟨k1, k2, -, k4, -⟩ := parameterize_edges hd (by simp [hc, ho]) hc1
  obtain ⟨e', f1, f2⟩ := k2 0 e 1 (by simp [hc]) (by simp [ho])
  have hee : e1 = e' := Except.ok.inj (g1.symm.trans f1)
  rw [if_neg (by norm_num), ← hee] at f2
  have hce : c1.edges = [e1] := by
    rw [hc] at k1
    obtain ⟨x, hx⟩ := List.length_eq_one_iff.1 k1
    rw [hx] at f2 ⊢
    simpa using f2
  have hcols : c1.cols = (List.range (2 * N)).map (circleSample a.x a.y r (2 * N)) := by
    simp only [ContourG.cols, hce, List.flatMap_cons, List.flatMap_nil, List.append_nil, EdgeG.cols, g3, Option.getD_some]
    rw [List.range_succ, List.map_append, List.map_cons, List.map_nil, List.dropLast_concat]
  -- three of the samples
  have hmem : ∀ j, j < 2 * N → circleSample a.x a.y r (2 * N) j ∈ c1.cols := fun j hj => by
    rw [hcols]; exact List.mem_map.2 ⟨j, List.mem_range.2 hj, rfl⟩
  have hall : ∀ s ∈ c1.cols, (s.x - a.x) ^ 2 + (s.y - a.y) ^ 2 = r ^ 2 := by
    intro s hs
    rw [hcols] at hs
    obtain ⟨j, -, rfl⟩ := List.mem_map.1 hs
    exact circleSample_norm _ _ _ _ _
  have hx0 : (circleSample a.x a.y r (2 * N) 0).x = a.x + r := by simp [circleSample]
  have hy0 : (circleSample a.x a.y r (2 * N) 0).y = a.y := by simp [circleSample]
  have hxn : (circleSample a.x a.y r (2 * N) N).x = a.x - r := by
    simp only [circleSample]
    rw [show 2 * Real.pi * (N : ℝ) / ((2 * N : ℕ) : ℝ) = Real.pi by push_cast; field_simp, Real.cos_pi]
    ring
  have hyn : a.y + r / 2 ≤ (circleSample a.x a.y r (2 * N) (N / 2)).y := by
    simp only [circleSample]
    have hm : (N : ℝ) / 3 ≤ ((N / 2 : ℕ) : ℝ) := by
      have : N ≤ 3 * (N / 2) := by omega
      have : (N : ℝ) ≤ 3 * ((N / 2 : ℕ) : ℝ) := by exact_mod_cast this
      linarith
    have hm' : ((N / 2 : ℕ) : ℝ) ≤ N / 2 := Nat.cast_div_le
    have e1 : 2 * Real.pi * ((N / 2 : ℕ) : ℝ) / ((2 * N : ℕ) : ℝ) = Real.pi * (((N / 2 : ℕ) : ℝ) / N) := by
      push_cast; field_simp
    have t1 : (1 : ℝ) / 3 ≤ ((N / 2 : ℕ) : ℝ) / N := by rw [le_div_iff₀ hNr]; linarith
    have t2 : ((N / 2 : ℕ) : ℝ) / N ≤ 1 / 2 := by rw [div_le_iff₀ hNr]; linarith
    rw [e1]
    have : 1 / 2 ≤ Real.sin (Real.pi * (((N / 2 : ℕ) : ℝ) / N)) := by
      rw [← Real.sin_pi_div_six]
      apply Real.sin_le_sin_of_le_of_le_pi_div_two <;> nlinarith
    nlinarith
  -- the bounding box
  have hne : c1.cols ≠ [] := List.ne_nil_of_mem (hmem 0 (by omega))
  obtain ⟨xa, -, hxa⟩ := np_min (l := c1.cols.map Sample.x) (by simpa using hne)
  obtain ⟨xb, -, hxb⟩ := np_max (l := c1.cols.map Sample.x) (by simpa using hne)
  obtain ⟨ya, -, hya⟩ := np_min (l := c1.cols.map Sample.y) (by simpa using hne)
  obtain ⟨yb, -, hyb⟩ := np_max (l := c1.cols.map Sample.y) (by simpa using hne)
  have b1 : xa ≤ a.x - r := hxn ▸ hxa.2 _ (List.mem_map_of_mem (hmem N (by omega)))
  have b2 : a.x + r ≤ xb := hx0 ▸ hxb.2 _ (List.mem_map_of_mem (hmem 0 (by omega)))
  have b3 : ya ≤ a.y := hy0 ▸ hya.2 _ (List.mem_map_of_mem (hmem 0 (by omega)))
  have b4 : a.y + r / 2 ≤ yb := hyn.trans (hyb.2 _ (List.mem_map_of_mem (hmem (N / 2) (by omega))))
  have c1' : a.x - r ≤ xa := by
    obtain ⟨s, hs, rfl⟩ := List.mem_map.1 hxa.1
    have := hall s hs
    nlinarith [sq_nonneg (s.y - a.y)]
  have c2' : xb ≤ a.x + r := by
    obtain ⟨s, hs, rfl⟩ := List.mem_map.1 hxb.1
    have := hall s hs
    nlinarith [sq_nonneg (s.y - a.y)]
  have c3' : a.y - r ≤ ya := by
    obtain ⟨s, hs, rfl⟩ := List.mem_map.1 hya.1
    have := hall s hs
    nlinarith [sq_nonneg (s.x - a.x)]
  have c4' : yb ≤ a.y + r := by
    obtain ⟨s, hs, rfl⟩ := List.mem_map.1 hyb.1
    have := hall s hs
    nlinarith [sq_nonneg (s.x - a.x)]
  refine ⟨⟨_, hmem 0 (by omega), _, hmem N (by omega), .inl (by rw [hx0, hxn]; linarith)⟩, xa, xb, ya, yb, ?_, ?_⟩
  · refine C56_tight hxa hxb hya hyb ?_ ?_ <;> norm_num at hr ⊢ <;> linarith
  · refine ⟨(a.x, a.y), by dsimp only; linarith, by dsimp only; linarith, b3, by dsimp only; linarith, ?_⟩
    rintro ⟨px, py⟩ ⟨hpx, hpy⟩
    dsimp only at hpx hpy
    rw [abs_le] at hpx hpy
    have q1 : |px - a.x| ≤ r / 256 := abs_le.2 ⟨by linarith, by linarith⟩
    have q2 : |py - a.y| ≤ r / 256 := abs_le.2 ⟨by linarith, by linarith⟩
    have s1 : (px - a.x) ^ 2 ≤ (r / 256) ^ 2 := by rw [← sq_abs]; gcongr
    have s2 : (py - a.y) ^ 2 ≤ (r / 256) ^ 2 := by rw [← sq_abs (py - a.y)]; gcongr
    refine ⟨hin _ _ (by dsimp only; nlinarith), ?_⟩
    intro e'' he'' s hs
    rw [hce, List.mem_singleton] at he''
    subst he''
    rw [g3, Option.getD_some] at hs
    obtain ⟨j, -, rfl⟩ := List.mem_map.1 hs
    have hj := circleSample_norm a.x a.y r (2 * N) j
    set u := (circleSample a.x a.y r (2 * N) j).x - a.x
    set v := (circleSample a.x a.y r (2 * N) j).y - a.y
    have hmin : 0.01 * min (xb - xa) (yb - ya) ≤ 0.02 * r := by
      have := min_le_left (xb - xa) (yb - ya)
      norm_num
      linarith
    refine hmin.trans (Real.le_sqrt_of_sq_le ?_)
    have hu : |u| ≤ r := abs_le_of_sq_le_sq (by have := sq_nonneg v; clear * - hj this; linarith) hr0.le
    have hv : |v| ≤ r := abs_le_of_sq_le_sq (by have := sq_nonneg u; clear * - hj this; linarith) hr0.le
    have m1 : |u * (px - a.x)| ≤ r * (r / 256) := by rw [abs_mul]; gcongr
    have m2 : |v * (py - a.y)| ≤ r * (r / 256) := by rw [abs_mul]; gcongr
    rw [abs_le] at m1 m2
    have e3 : ((circleSample a.x a.y r (2 * N) j).x - px) ^ 2 + ((circleSample a.x a.y r (2 * N) j).y - py) ^ 2 =
        (u ^ 2 + v ^ 2) - 2 * (u * (px - a.x)) - 2 * (v * (py - a.y)) + (px - a.x) ^ 2 + (py - a.y) ^ 2 := by
      simp only [u, v]; ring
    rw [e3, hj]
    have z1 := sq_nonneg (px - a.x)
    have z2 := sq_nonneg (py - a.y)
    have z3 : 0 ≤ r ^ 2 := sq_nonneg r
    have z4 : r * (r / 256) = r ^ 2 / 256 := by ring
    rw [z4] at m1 m2
    have z5 : (0.02 * r) ^ 2 = 4 / 10000 * r ^ 2 := by norm_num; ring
    rw [z5]
    clear * - m1 m2 z1 z2 z3
    generalize u * (px - a.x) = A at *
    generalize v * (py - a.y) = B at *
    linarith [m1.2, m2.2]

/-! ### the hypotheses of C85, C86 and C87 can be met -/

/-- the unit circle about `(2, 3)` -/
noncomputable def shiftedCircle (qt : String) : EdgeG := unitCircle qt [.translate (Vert.mk' 2 3)]

/-- the cell inside it -/
noncomputable def circleCell (qt : String) : CellG := { components := [{ edges := [shiftedCircle qt], orients := [1] }] }

/-- its curve -/
noncomputable def circleCurve : PCurve :=
  ⟨fun s => 2 + Real.cos s, fun s => 3 + Real.sin s, fun s => -Real.sin s, Real.cos, fun s => -Real.cos s, fun s => -Real.sin s⟩

theorem shiftedCircle_follows (qt : String) : (shiftedCircle qt).Follows circleCurve := by
  have hpi := Real.pi_pos
  refine ⟨⟨Real.cos, Real.sin, fun s => -Real.sin s, Real.cos, fun s => -Real.cos s, fun s => -Real.sin s⟩, ?_, ?_, ?_⟩
  · exact fun s => ⟨Real.hasDerivAt_cos s, Real.hasDerivAt_sin s, (Real.hasDerivAt_sin s).neg, Real.hasDerivAt_cos s⟩
  · exact fun t => circle_X t
  · have e1 : (2 * Real.pi - 0) / (2 * Real.pi) = 1 := by field_simp; ring
    simp only [shiftedCircle, unitCircle, List.foldl, EdgeOp.act, PCurve.affine, PCurve.retime, circleCurve, Vert.mk', e1,
      PCurve.mk.injEq]
    refine ⟨?_, ?_, ?_, ?_, ?_, ?_⟩ <;> funext s <;> simp only [one_mul, zero_mul, add_zero, zero_add, one_pow]
    · exact add_comm _ _
    · exact add_comm _ _

theorem circleCell_ok (qt : String) : (circleCell qt).Shaped ∧ (circleCell qt).GoodDiaries ∧
    (circleCell qt).BoundaryCurves [circleCurve] ∧ circleCurve.Closed ∧ circleCurve.Moving := by
  refine ⟨by simp [CellG.Shaped, circleCell], by simp [CellG.GoodDiaries, circleCell, shiftedCircle, unitCircle, EdgeOp.Good], ?_, ?_, ?_⟩
  · simp only [CellG.BoundaryCurves, circleCell, List.flatMap_cons, List.flatMap_nil, List.zip_cons_cons, List.zip_nil_right,
      List.append_nil]
    exact .cons ⟨circleCurve, shiftedCircle_follows qt, by simp [oriented]⟩ .nil
  · intro s
    simp [circleCurve]
  · intro s _
    simp only [circleCurve]
    by_contra hc
    push Not at hc
    have := Real.sin_sq_add_cos_sq s
    rw [neg_eq_zero.1 hc.1, hc.2] at this
    norm_num at this

/-- C85, C86, C87: the cell inside the shifted unit circle is parameterized, so the theorems speak about actual results: here they
give the circumference with every order for the trapezoidal rule. -/
example (k : ℕ) (hk : 1 ≤ k) : ∃ M : ℝ, ∀ n, 4 ≤ n → ∃ d inside K1 u I, getQuadDict n 2 = .ok d ∧
    (circleCell "trap").parameterize inside 8 d = some (.ok K1) ∧ K1.evaluateFunction (fun _ _ => 1) = .ok u ∧
    K1.integrate u = .ok I ∧ |I - 2 * Real.pi| ≤ M / (n : ℝ) ^ k := by
  classical
  obtain ⟨h1, h2, h3, h4, h5⟩ := circleCell_ok "trap"
  obtain ⟨M, hM⟩ := C86_cell h1 h2 h3 2 (k := k) (by
    simp only [CellG.SuitedRules, circleCell, List.flatMap_cons, List.flatMap_nil, List.zip_cons_cons, List.zip_nil_right,
      List.append_nil]
    exact .cons (.inr ⟨rfl, h4⟩) .nil) hk (by simpa using h5) (f := fun _ _ => 1) (fun C _ s _ => contDiffAt_const)
  refine ⟨M, fun n hn => ?_⟩
  obtain ⟨d, hd⟩ := (C21_dict n 2).1.2 ⟨hn, le_rfl⟩
  obtain ⟨K1, hK1⟩ := C87_circle hd (inside := fun _ q => decide ((q.1 - 2) ^ 2 + (q.2 - 3) ^ 2 < 1)) (fuel := 8) le_rfl
    (K := circleCell "trap") (c := { edges := [shiftedCircle "trap"], orients := [1] }) (e := shiftedCircle "trap") (a := Vert.mk' 2 3)
    rfl rfl rfl rfl (by simp [shiftedCircle, unitCircle, Curve.radius]; norm_num) rfl rfl rfl (by
      intro poly q hq
      simp only [Vert.mk', shiftedCircle, unitCircle, Curve.radius, Option.getD_none] at hq
      simp only [decide_eq_true_eq]
      norm_num at hq
      linarith)
  obtain ⟨u, I, hu, hI, hb⟩ := hM n d _ 8 K1 hd hK1
  refine ⟨d, _, K1, u, I, hd, hK1, hu, hI, ?_⟩
  have : circleCurve.lineIntegral (fun _ _ => 1) = 2 * Real.pi := by
    simp [PCurve.lineIntegral, PCurve.speed, circleCurve]
  simpa [this] using hb

/-- C86: an edge with the Kress rule: the circle about `(2, 3)`, reflected and reversed -/
example : ∃ e C, EdgeG.Follows e C ∧ (∀ o ∈ e.diary, o.Good) ∧ (∀ a ∈ [EdgeAct.op .reflectX true, .reverse], a.Good) ∧
    SuitedRule 7 8 e.quadType (([EdgeAct.op .reflectX true, .reverse] : List EdgeAct).foldl (fun C a => a.act C) C) ∧
    (([EdgeAct.op .reflectX true, .reverse] : List EdgeAct).foldl (fun C a => a.act C) C).Moving ∧
    (([EdgeAct.op .reflectX true, .reverse] : List EdgeAct).foldl (fun C a => a.act C) C).SmoothOnCurve 8
      (fun x y => Real.exp x * Real.sin y) := by
  refine ⟨shiftedCircle "kress", circleCurve, shiftedCircle_follows _, by simp [shiftedCircle, unitCircle, EdgeOp.Good],
    by simp [EdgeAct.Good, EdgeOp.Good], .inl ⟨rfl, by norm_num⟩, ?_, ?_⟩
  · intro s _
    simp only [List.foldl, EdgeAct.act, EdgeOp.act, PCurve.affine, PCurve.reverse, circleCurve]
    by_contra hc
    push Not at hc
    have := Real.sin_sq_add_cos_sq (2 * Real.pi - s)
    have h1 : Real.sin (2 * Real.pi - s) = 0 := by have := hc.1; linarith
    have h2 : Real.cos (2 * Real.pi - s) = 0 := by have := hc.2; linarith
    rw [h1, h2] at this
    norm_num at this
  · intro s _
    apply ContDiff.contDiffAt
    fun_prop

end PFEM
