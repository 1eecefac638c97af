import Verif.Props.EllipseError
import Verif.Props.DiscParam

/-!
Property theorem C106, last part: ellipses of the library become ellipses in the sense of `Spec/Ellipse.lean` when they are parameterized, and the
hypotheses of the theorems can be met.
-/

namespace PFEM
open Nystrom Antilap

theorem ellipse_pos {a b : ℝ} (ha : 0 < a) (hb : 0 < b) (t : ℝ) : 0 < a ^ 2 * Real.sin t ^ 2 + b ^ 2 * Real.cos t ^ 2 := by
  have h1 := Real.sin_sq_add_cos_sq t
  rcases eq_or_ne (Real.sin t) 0 with h0 | h0
  · rw [h0] at h1
    have : Real.cos t ^ 2 = 1 := by linarith
    rw [h0, this]; positivity
  · positivity

theorem ellipse_base {o : CurveOpts} {a b : ℝ} (ha : 0 < a) (hb : 0 < b) (hoa : o.a = some a) (hob : o.b = some b) (t : ℝ) :
    EdgeG.baseSample .ellipse o 0 1 t 1 = .ok
      (let g := Real.sqrt (a ^ 2 * Real.sin t ^ 2 + b ^ 2 * Real.cos t ^ 2)
       ⟨a * Real.cos t, b * Real.sin t, -a * Real.sin t / g, b * Real.cos t / g, b * Real.cos t / g, a * Real.sin t / g, g,
         -(a * b) / g ^ 3⟩) := by
  have e1 : (1 * (-a * Real.sin t)) ^ 2 + (1 * (b * Real.cos t)) ^ 2 = a ^ 2 * Real.sin t ^ 2 + b ^ 2 * Real.cos t ^ 2 := by ring
  have hpos := ellipse_pos ha hb t
  have hs := (Real.sqrt_pos.2 hpos).ne'
  have hq := Real.sq_sqrt hpos.le
  have h1 := Real.sin_sq_add_cos_sq t
  simp only [EdgeG.baseSample, Curve.X, Curve.DX, Curve.DDX, bind, Except.bind, kwarg, hoa, hob, one_mul, add_zero] at e1 ⊢
  rw [e1]
  generalize Real.sqrt (a ^ 2 * Real.sin t ^ 2 + b ^ 2 * Real.cos t ^ 2) = g at hs hq
  rw [← hq]
  congr 2
  · ring
  · ring
  · field_simp
    linarith

/-- an ellipse sampled with the trapezoidal rule -/
theorem ellipse_edge {n p : ℤ} {d : Quad × Quad} (hd : getQuadDict n p = .ok d) {e : EdgeG} {v : Vert} {a b : ℝ} (ha : 0 < a) (hb : 0 < b)
    (h1 : e.curve = .ellipse) (hoa : e.opts.a = some a) (hob : e.opts.b = some b) (h2 : e.quadType = "trap")
    (h3 : e.tBounds = (0, 2 * Real.pi)) (h4 : e.diary = [.translate v]) :
    ∃ e1, e.parameterize d = .ok e1 ∧ e1.quadType = "trap" ∧
      e1.pts = some ((List.range (2 * n.toNat + 1)).map (ellipseSample v.x v.y a b (2 * n.toNat))) := by
  have hpi := Real.pi_pos
  have h4n : ¬ n < 4 := by
    intro hlt
    simp [getQuadDict, Quad.init, hlt, bind, Except.bind] at hd
  have hd1 := ((C21_dict n p).2 d hd).1
  simp only [Quad.init, h4n, if_false] at hd1
  rw [if_neg (by decide), if_neg (by decide)] at hd1
  simp only [Except.ok.injEq] at hd1
  have hdt : 0.5 * (2 * Real.pi - 0) / Real.pi = 1 := by norm_num; field_simp
  have hz : d.1.t.zip d.1.wgt = (List.range (2 * n.toNat + 1)).map fun j : ℕ => (2 * Real.pi * j / (2 * n.toNat : ℕ), (1 : ℝ)) := by
    rw [← hd1]
    simp only [Quad.nodes]
    rw [show List.replicate (2 * n.toNat + 1) (1 : ℝ) = (List.range (2 * n.toNat + 1)).map fun _ => (1 : ℝ) by simp, List.zip_map']
    refine List.map_congr_left fun j _ => ?_
    congr 1
    ring
  set f : ℝ × ℝ → Sample := fun q =>
    let g := Real.sqrt (a ^ 2 * Real.sin q.1 ^ 2 + b ^ 2 * Real.cos q.1 ^ 2)
    ⟨a * Real.cos q.1, b * Real.sin q.1, -a * Real.sin q.1 / g, b * Real.cos q.1 / g, b * Real.cos q.1 / g, a * Real.sin q.1 / g, g,
      -(a * b) / g ^ 3⟩ with hf
  have hb' : EdgeG.baseSamples .ellipse e.opts 0 1 (d.1.t.zip d.1.wgt) = .ok ((d.1.t.zip d.1.wgt).map f) := by
    refine baseSamples_map fun q hq => ?_
    rw [hz] at hq
    obtain ⟨j, -, rfl⟩ := List.mem_map.1 hq
    exact ellipse_base ha hb hoa hob _
  have he : e.parameterize d = .ok { EdgeG.translate { e with pts := some ((d.1.t.zip d.1.wgt).map f) } v false with quadType := d.1.type } := by
    simp only [EdgeG.parameterize, EdgeG.pickQuad, h2, if_true, bind, Except.bind, h3, hdt, h1, hb', h4, EdgeG.runDiary, EdgeG.apply]
  refine ⟨_, he, by rw [← hd1], ?_⟩
  rw [hz]
  simp only [EdgeG.translate, EdgeG.note, EdgeG.mapPts, Bool.false_eq_true, if_false, Option.map_some, List.map_map]
  congr 1
  refine List.map_congr_left fun j _ => ?_
  simp [ellipseSample, hf, add_comm]

/-- C106: a cell whose boundary is one ellipse with the half-axes `a`, `b`, moved to the centre `v`, run through counter-clockwise and sampled
with the trapezoidal rule, is an ellipse in the sense of these theorems once `parameterize` has returned. -/
theorem C106_ellipse {n p : ℤ} {d : Quad × Quad} (hd : getQuadDict n p = .ok d) {inside : InsideTest} {fuel : ℕ}
    {K K1 : CellG} {c : ContourG} {e : EdgeG} {v : Vert} {a b : ℝ} (ha : 0 < a) (hb : 0 < b) (hK : K.components = [c]) (hc : c.edges = [e])
    (ho : c.orients = [1]) (h1 : e.curve = .ellipse) (hoa : e.opts.a = some a) (hob : e.opts.b = some b) (h2 : e.quadType = "trap")
    (h3 : e.tBounds = (0, 2 * Real.pi)) (h4 : e.diary = [.translate v]) (h : K.parameterize inside fuel d = some (.ok K1)) :
    K1.IsEllipse v.x v.y a b (2 * n.toNat) ∧ 4 ≤ n.toNat := by
  have hor : ∀ c' ∈ K.components, c'.edges.length = c'.orients.length := by simp [hK, hc, ho]
  have h4n : 4 ≤ n := by
    by_contra hlt
    simp [getQuadDict, Quad.init, show n < 4 by omega, bind, Except.bind] at hd
  obtain ⟨⟨cs, hp, hf⟩, hnp, hlay, hR, -⟩ := C33_parameterize hd hor h
  have hcl := parameterize_closest hd hor h
  rw [findClosest_eq hR fun c hc => (hlay c hc).nearest.1] at hcl
  simp only [Except.ok.injEq] at hcl
  have hcl' : K1.closest = (K1.components.map ContourG.closest).flatten := by
    conv_lhs => rw [← hcl]
  rw [hK] at hf
  cases hf with
  | cons hf1 hf2 =>
    cases hf2
    obtain ⟨c1, g1, g2⟩ := hf1
    obtain ⟨k1, k2, -⟩ := parameterize_edges hd (hor c (by simp [hK])) g1
    obtain ⟨pt, hpt⟩ := findInterior_fields g2
    obtain ⟨e1, e2, e3, e4⟩ := ellipse_edge hd ha hb h1 hoa hob h2 h3 h4
    obtain ⟨e', f1, f2⟩ := k2 0 e 1 (by simp [hc]) (by simp [ho])
    have hee : e1 = e' := Except.ok.inj (e2.symm.trans f1)
    rw [if_neg (by norm_num), ← hee] at f2
    have hce : c1.edges = [e1] := by
      rw [hc] at k1
      obtain ⟨x, hx⟩ := List.length_eq_one_iff.1 k1
      rw [hx] at f2 ⊢
      simpa using f2
    have hcols : e1.cols = (List.range (2 * n.toNat)).map (ellipseSample v.x v.y a b (2 * n.toNat)) := by
      rw [EdgeG.cols, e4]
      simp [List.range_succ]
    have hcomp := List.perm_singleton.1 hp
    rw [hpt] at hcomp
    refine ⟨⟨hR, ⟨_, e1, hcomp, hce, ?_, hcols⟩, ?_⟩, by omega⟩
    · unfold EdgeG.IsKress
      rw [e3]
      decide
    · have hl := hlay _ (by rw [hcomp]; exact List.mem_singleton_self _)
      have hnum := (hR.ready _ (by rw [hcomp]; exact List.mem_singleton_self _)).numPts
      simp only [ContourG.cols, hce, List.flatMap_cons, List.flatMap_nil, List.append_nil, hcols, List.length_map, List.length_range] at hnum
      rw [hcl', hcomp, List.map_singleton, List.flatten_singleton]
      refine List.ext_getElem? fun j => ?_
      rcases lt_or_ge j (2 * n.toNat) with hj | hj
      · have h5 := hl.nearest.2 0 e1 0 (2 * n.toNat) (by simp [hce]) hl.first (by
          have := hl.last
          simp only [hce, List.length_singleton] at this
          rw [zero_add, this]
          exact congrArg some hnum) j (by omega)
        simp only [zero_add, hce, List.length_singleton, lt_irrefl, if_false, ite_self] at h5
        rw [List.getElem?_replicate, if_pos hj]
        exact h5
      · rw [List.getElem?_eq_none (by rw [hl.nearest.1, hnum]; exact hj), List.getElem?_eq_none (by simpa using hj)]

theorem ellipseSample_norm (x0 y0 : ℝ) {a b : ℝ} (ha : 0 < a) (hb : 0 < b) (N j : ℕ) :
    (((ellipseSample x0 y0 a b N j).x - x0) / a) ^ 2 + (((ellipseSample x0 y0 a b N j).y - y0) / b) ^ 2 = 1 := by
  simp only [ellipseSample, add_sub_cancel_left]
  rw [mul_div_cancel_left₀ _ ha.ne', mul_div_cancel_left₀ _ hb.ne']
  exact Real.cos_sq_add_sin_sq _

theorem ellipse_far {a b : ℝ} (ha : 0 < a) (hb : 0 < b) (x0 y0 t : ℝ) {P R : ℝ} (q1 : |P| ≤ 1 / 256) (q2 : |R| ≤ 1 / 256) :
    (0.02 * min a b) ^ 2 ≤ (x0 + a * Real.cos t - (x0 + a * P)) ^ 2 + (y0 + b * Real.sin t - (y0 + b * R)) ^ 2 := by
  set m := min a b with hm
  have hm0 : 0 < m := lt_min ha hb
  have hma : m ^ 2 ≤ a ^ 2 := by have := min_le_left a b; gcongr
  have hmb : m ^ 2 ≤ b ^ 2 := by have := min_le_right a b; gcongr
  have h5 := Real.sin_sq_add_cos_sq t
  have m1 : |Real.cos t * P| ≤ 1 / 256 := by
    rw [abs_mul]; nlinarith [Real.abs_cos_le_one t, abs_nonneg P, abs_nonneg (Real.cos t)]
  have m2 : |Real.sin t * R| ≤ 1 / 256 := by
    rw [abs_mul]; nlinarith [Real.abs_sin_le_one t, abs_nonneg R, abs_nonneg (Real.sin t)]
  rw [abs_le] at m1 m2
  have h6 : 1 / 2 ≤ (Real.cos t - P) ^ 2 + (Real.sin t - R) ^ 2 := by
    have := sq_nonneg P
    have := sq_nonneg R
    have e : (Real.cos t - P) ^ 2 + (Real.sin t - R) ^ 2 = 1 - 2 * (Real.cos t * P) - 2 * (Real.sin t * R) + P ^ 2 + R ^ 2 := by
      linear_combination h5
    rw [e]
    linarith [m1.2, m2.2]
  have h7 : m ^ 2 * (1 / 2) ≤ a ^ 2 * (Real.cos t - P) ^ 2 + b ^ 2 * (Real.sin t - R) ^ 2 := by
    calc m ^ 2 * (1 / 2) ≤ m ^ 2 * ((Real.cos t - P) ^ 2 + (Real.sin t - R) ^ 2) := by gcongr
      _ = m ^ 2 * (Real.cos t - P) ^ 2 + m ^ 2 * (Real.sin t - R) ^ 2 := by ring
      _ ≤ _ := by gcongr
  have h8 : (x0 + a * Real.cos t - (x0 + a * P)) ^ 2 + (y0 + b * Real.sin t - (y0 + b * R)) ^ 2 =
      a ^ 2 * (Real.cos t - P) ^ 2 + b ^ 2 * (Real.sin t - R) ^ 2 := by ring
  rw [h8]
  refine le_trans ?_ h7
  have h9 : (0.02 * m) ^ 2 = 4 / 10000 * m ^ 2 := by norm_num; ring
  rw [h9]
  have := sq_nonneg m
  linarith

/-- C106: a cell whose boundary is one ellipse of the library can be parameterized with any number of nodes that the rule accepts and with any
inside test that accepts the points of the ellipse with half the axes. -/
theorem C106_parameterize {n p : ℤ} {d : Quad × Quad} (hd : getQuadDict n p = .ok d) {inside : InsideTest} {fuel : ℕ} (hf : 8 ≤ fuel)
    {K : CellG} {c : ContourG} {e : EdgeG} {v : Vert} {a b : ℝ} (ha : 1 / 10 ^ 11 ≤ a) (hb : 1 / 10 ^ 11 ≤ b) (hK : K.components = [c])
    (hc : c.edges = [e]) (ho : c.orients = [1]) (h1 : e.curve = .ellipse) (hoa : e.opts.a = some a) (hob : e.opts.b = some b)
    (h2 : e.quadType = "trap") (h3 : e.tBounds = (0, 2 * Real.pi)) (h4 : e.diary = [.translate v])
    (hin : ∀ poly q, ((q.1 - v.x) / a) ^ 2 + ((q.2 - v.y) / b) ^ 2 ≤ 1 / 4 → inside poly q = true) :
    ∃ K1, K.parameterize inside fuel d = some (.ok K1) := by
  have ha0 : 0 < a := lt_of_lt_of_le (by positivity) ha
  have hb0 : 0 < b := lt_of_lt_of_le (by positivity) hb
  have hpi := Real.pi_pos
  have hn : 4 ≤ n := ((C21_dict n p).1.1 ⟨d, hd⟩).1
  obtain ⟨e1, g1, -, g3⟩ := ellipse_edge hd ha0 hb0 h1 hoa hob h2 h3 h4
  set N := n.toNat with hN
  have hN4 : 4 ≤ N := by omega
  have hNr : (0 : ℝ) < N := by exact_mod_cast (by omega : 0 < N)
  refine C87_cell hd hf (by simp [hK]) fun c' hc' => ?_
  rw [hK, List.mem_singleton] at hc'
  subst hc'
  refine ⟨by simp [hc], by simp [hc, ho], ?_, ?_⟩
  · intro e' he'
    rw [hc, List.mem_singleton] at he'
    subst he'
    exact ⟨e1, g1⟩
  intro c1 hc1
  obtain ⟨k1, k2, -, k4, -⟩ := parameterize_edges hd (by simp [hc, ho]) hc1
  obtain ⟨e', f1, f2⟩ := k2 0 e 1 (by simp [hc]) (by simp [ho])
  have hee : e1 = e' := Except.ok.inj (g1.symm.trans f1)
  rw [if_neg (by norm_num), ← hee] at f2
  have hce : c1.edges = [e1] := by
    rw [hc] at k1
    obtain ⟨x, hx⟩ := List.length_eq_one_iff.1 k1
    rw [hx] at f2 ⊢
    simpa using f2
  have hcols : c1.cols = (List.range (2 * N)).map (ellipseSample v.x v.y a b (2 * N)) := by
    simp only [ContourG.cols, hce, List.flatMap_cons, List.flatMap_nil, List.append_nil, EdgeG.cols, g3, Option.getD_some]
    rw [List.range_succ, List.map_append, List.map_cons, List.map_nil, List.dropLast_concat]
  -- three of the samples
  have hmem : ∀ j, j < 2 * N → ellipseSample v.x v.y a b (2 * N) j ∈ c1.cols := fun j hj => by
    rw [hcols]; exact List.mem_map.2 ⟨j, List.mem_range.2 hj, rfl⟩
  have hall : ∀ s ∈ c1.cols, ∃ t, s.x = v.x + a * Real.cos t ∧ s.y = v.y + b * Real.sin t := by
    intro s hs
    rw [hcols] at hs
    obtain ⟨j, -, rfl⟩ := List.mem_map.1 hs
    exact ⟨_, rfl, rfl⟩
  have hx0 : (ellipseSample v.x v.y a b (2 * N) 0).x = v.x + a := by simp [ellipseSample]
  have hy0 : (ellipseSample v.x v.y a b (2 * N) 0).y = v.y := by simp [ellipseSample]
  have hxn : (ellipseSample v.x v.y a b (2 * N) N).x = v.x - a := by
    simp only [ellipseSample]
    rw [show 2 * Real.pi * (N : ℝ) / ((2 * N : ℕ) : ℝ) = Real.pi by push_cast; field_simp, Real.cos_pi]
    ring
  have hyn : v.y + b / 2 ≤ (ellipseSample v.x v.y a b (2 * N) (N / 2)).y := by
    simp only [ellipseSample]
    have hm : (N : ℝ) / 3 ≤ ((N / 2 : ℕ) : ℝ) := by
      have : N ≤ 3 * (N / 2) := by omega
      have : (N : ℝ) ≤ 3 * ((N / 2 : ℕ) : ℝ) := by exact_mod_cast this
      linarith
    have hm' : ((N / 2 : ℕ) : ℝ) ≤ N / 2 := Nat.cast_div_le
    have e1 : 2 * Real.pi * ((N / 2 : ℕ) : ℝ) / ((2 * N : ℕ) : ℝ) = Real.pi * (((N / 2 : ℕ) : ℝ) / N) := by
      push_cast; field_simp
    have t1 : (1 : ℝ) / 3 ≤ ((N / 2 : ℕ) : ℝ) / N := by rw [le_div_iff₀ hNr]; linarith
    have t2 : ((N / 2 : ℕ) : ℝ) / N ≤ 1 / 2 := by rw [div_le_iff₀ hNr]; linarith
    rw [e1]
    have : 1 / 2 ≤ Real.sin (Real.pi * (((N / 2 : ℕ) : ℝ) / N)) := by
      rw [← Real.sin_pi_div_six]
      apply Real.sin_le_sin_of_le_of_le_pi_div_two <;> nlinarith
    nlinarith
  -- the bounding box
  have hne : c1.cols ≠ [] := List.ne_nil_of_mem (hmem 0 (by omega))
  obtain ⟨xa, -, hxa⟩ := np_min (l := c1.cols.map Sample.x) (by simpa using hne)
  obtain ⟨xb, -, hxb⟩ := np_max (l := c1.cols.map Sample.x) (by simpa using hne)
  obtain ⟨ya, -, hya⟩ := np_min (l := c1.cols.map Sample.y) (by simpa using hne)
  obtain ⟨yb, -, hyb⟩ := np_max (l := c1.cols.map Sample.y) (by simpa using hne)
  have b1 : xa ≤ v.x - a := hxn ▸ hxa.2 _ (List.mem_map_of_mem (hmem N (by omega)))
  have b2 : v.x + a ≤ xb := hx0 ▸ hxb.2 _ (List.mem_map_of_mem (hmem 0 (by omega)))
  have b3 : ya ≤ v.y := hy0 ▸ hya.2 _ (List.mem_map_of_mem (hmem 0 (by omega)))
  have b4 : v.y + b / 2 ≤ yb := hyn.trans (hyb.2 _ (List.mem_map_of_mem (hmem (N / 2) (by omega))))
  have c1' : v.x - a ≤ xa := by
    obtain ⟨s, hs, rfl⟩ := List.mem_map.1 hxa.1
    obtain ⟨t, h5, -⟩ := hall s hs
    nlinarith [Real.neg_one_le_cos t]
  have c2' : xb ≤ v.x + a := by
    obtain ⟨s, hs, rfl⟩ := List.mem_map.1 hxb.1
    obtain ⟨t, h5, -⟩ := hall s hs
    nlinarith [Real.cos_le_one t]
  have c3' : v.y - b ≤ ya := by
    obtain ⟨s, hs, rfl⟩ := List.mem_map.1 hya.1
    obtain ⟨t, -, h5⟩ := hall s hs
    nlinarith [Real.neg_one_le_sin t]
  have c4' : yb ≤ v.y + b := by
    obtain ⟨s, hs, rfl⟩ := List.mem_map.1 hyb.1
    obtain ⟨t, -, h5⟩ := hall s hs
    nlinarith [Real.sin_le_one t]
  refine ⟨⟨_, hmem 0 (by omega), _, hmem N (by omega), .inl (by rw [hx0, hxn]; linarith)⟩, xa, xb, ya, yb, ?_, ?_⟩
  · refine C56_tight hxa hxb hya hyb ?_ ?_ <;> norm_num at ha hb ⊢ <;> linarith
  · refine ⟨(v.x, v.y), by dsimp only; linarith, by dsimp only; linarith, b3, by dsimp only; linarith, ?_⟩
    rintro ⟨px, py⟩ ⟨hpx, hpy⟩
    dsimp only at hpx hpy
    rw [abs_le] at hpx hpy
    have q1 : |(px - v.x) / a| ≤ 1 / 256 := by
      rw [abs_div, abs_of_pos ha0, div_le_iff₀ ha0]
      exact abs_le.2 ⟨by linarith, by linarith⟩
    have q2 : |(py - v.y) / b| ≤ 1 / 256 := by
      rw [abs_div, abs_of_pos hb0, div_le_iff₀ hb0]
      exact abs_le.2 ⟨by linarith, by linarith⟩
    set P := (px - v.x) / a with hP
    set R := (py - v.y) / b with hR
    have s1 : P ^ 2 ≤ (1 / 256) ^ 2 := by rw [← sq_abs]; gcongr
    have s2 : R ^ 2 ≤ (1 / 256) ^ 2 := by rw [← sq_abs R]; gcongr
    refine ⟨hin _ _ (by dsimp only; rw [← hP, ← hR]; norm_num at s1 s2 ⊢; linarith), ?_⟩
    intro e'' he'' s hs
    rw [hce, List.mem_singleton] at he''
    subst he''
    rw [g3, Option.getD_some] at hs
    obtain ⟨j, -, rfl⟩ := List.mem_map.1 hs
    set m := min a b with hm
    have hm0 : 0 < m := lt_min ha0 hb0
    have hmin : 0.01 * min (xb - xa) (yb - ya) ≤ 0.02 * m := by
      rcases le_total a b with hab | hab
      · have := min_le_left (xb - xa) (yb - ya)
        rw [hm, min_eq_left hab]
        norm_num
        linarith
      · have := min_le_right (xb - xa) (yb - ya)
        rw [hm, min_eq_right hab]
        norm_num
        linarith
    refine hmin.trans (Real.le_sqrt_of_sq_le ?_)
    simp only [ellipseSample]
    set t := 2 * Real.pi * (j : ℝ) / ((2 * N : ℕ) : ℝ)
    have hpxe : px = v.x + a * P := by rw [hP]; field_simp; ring
    have hpye : py = v.y + b * R := by rw [hR]; field_simp; ring
    rw [hpxe, hpye]
    exact ellipse_far ha0 hb0 v.x v.y t q1 q2

/-! ### the hypotheses can be met -/

/-- the ellipse with half-axes 2 and 1 about `(2, 3)` -/
noncomputable def someEllipse : EdgeG :=
  ⟨Vert.mk' 0 0, Vert.mk' 0 0, .ellipse, { a := some 2, b := some 1 }, "trap", (0, 2 * Real.pi), true, [.translate (Vert.mk' 2 3)], none, -1, -1⟩

/-- the cell inside it -/
noncomputable def ellipseCell : CellG := { components := [{ edges := [someEllipse], orients := [1] }] }

open Polynomial in
/-- C106: the ellipse is parameterized with 64 samples, the solver is made, and the weighted normal derivative of `Re (z - 2 - 3i)³` is found up
to `3 · 6 · 8 · 3^(-61) / (2/3)²`, which is less than `10^(-26)`. -/
example : ∃ d inside K s t u w, getQuadDict 32 2 = .ok d ∧ ellipseCell.parameterize inside 8 d = some (.ok K) ∧
    init someGmres K "direct" "jacobi" = .ok s ∧ LocHarm.init someGmres t (some s) = .ok u ∧
    u.trace.values = some (K.samplesOf (rePoly (X ^ 3) 2 3)) ∧ u.trace.wnd = some w ∧ w.length = 64 ∧
    ∀ (j : ℕ) (z : Sample) (y g1 g2 : ℝ), K.cols[j]? = some z → w[j]? = some y → HasGrad (rePoly (X ^ 3) 2 3) z.x z.y g1 g2 →
      |y - (g1 * z.nx + g2 * z.ny) * z.dxNorm| ≤ 1 / 10 ^ 26 := by
  classical
  obtain ⟨d, hd⟩ := (C21_dict 32 2).1.2 ⟨by norm_num, le_rfl⟩
  obtain ⟨K, hK⟩ := C106_parameterize hd (inside := fun _ q => decide (((q.1 - 2) / 2) ^ 2 + ((q.2 - 3) / 1) ^ 2 < 1)) (fuel := 8) le_rfl
    (K := ellipseCell) (c := { edges := [someEllipse], orients := [1] }) (e := someEllipse) (v := Vert.mk' 2 3) (a := 2) (b := 1)
    (by norm_num) (by norm_num) rfl rfl rfl rfl rfl rfl rfl rfl rfl (by
      intro poly q hq
      simp only [Vert.mk'] at hq
      simp only [decide_eq_true_eq]
      linarith)
  obtain ⟨h, -⟩ := C106_ellipse hd (a := 2) (b := 1) (e := someEllipse) (v := Vert.mk' 2 3) (by norm_num) (by norm_num) rfl rfl rfl rfl rfl rfl rfl
    rfl rfl hK
  have h : K.IsEllipse 2 3 2 1 (2 * 32) := h
  have hfl : flatness 2 1 = 1 / 3 := by norm_num [flatness]
  obtain ⟨s, hs, -⟩ := C70_init someGmres h.ready (h.even rfl (by norm_num) (by norm_num)) h.edges_ne h.holes h.apart
    (h.simple (by norm_num) (by norm_num))
  obtain ⟨u, w, h1, -, h3, -, h5, h6, h7⟩ := C106_normal someGmres_exact someGmres_finds h (by norm_num) (by norm_num) (by norm_num) (by norm_num)
    (by norm_num) (by rw [hfl]; norm_num) hs (X ^ 3) (by simp)
    (made_on h.ready (v := K.samplesOf (rePoly (X ^ 3) 2 3)) (by simp [CellG.samplesOf, h.ready.numPts])
      (w := none) (d := none) nofun nofun) rfl
  refine ⟨d, _, K, s, _, u, w, hd, hK, hs, h1, h3, h5, by rw [h6, h.numPts], fun j z y g1 g2 hz hy hg => ?_⟩
  refine (h7 j z y g1 g2 hz hy hg).trans ?_
  rw [hfl]
  norm_num [coeffSum, natDegree_X_pow, Finset.sum_range_succ, coeff_X_pow]

end PFEM
