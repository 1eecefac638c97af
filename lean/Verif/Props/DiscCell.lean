import Verif.Props.Disc

/-!
Property theorem C76, second part: parameterized circles are discs in the sense of `Spec/Disc.lean`, and the hypotheses of the theorems can be met.
-/

namespace PFEM
open Nystrom Antilap

theorem circle_base {o : CurveOpts} (hr : 0 < Curve.radius o) (t : ℝ) :
    EdgeG.baseSample .circle o 0 1 t 1 = .ok ⟨Curve.radius o * Real.cos t, Curve.radius o * Real.sin t, -Real.sin t, Real.cos t, Real.cos t,
      Real.sin t, Curve.radius o, -1 / Curve.radius o⟩ := by
  have e1 : (1 * (-Curve.radius o * Real.sin t)) ^ 2 + (1 * (Curve.radius o * Real.cos t)) ^ 2 = Curve.radius o ^ 2 := by
    have := Real.sin_sq_add_cos_sq t
    linear_combination Curve.radius o ^ 2 * this
  simp only [EdgeG.baseSample, Curve.X, Curve.DX, Curve.DDX, bind, Except.bind, one_mul, add_zero] at e1 ⊢
  rw [e1, Real.sqrt_sq hr.le]
  have := Real.sin_sq_add_cos_sq t
  congr 2 <;> field_simp
  linarith

theorem baseSamples_map {c : CurveType} {o : CurveOpts} {a dt : ℝ} {f : ℝ × ℝ → Sample} : ∀ {l : List (ℝ × ℝ)},
    (∀ q ∈ l, EdgeG.baseSample c o a dt q.1 q.2 = .ok (f q)) → EdgeG.baseSamples c o a dt l = .ok (l.map f)
  | [], _ => rfl
  | q :: l, h => by
    have ih := baseSamples_map (l := l) fun q hq => h q (by simp [hq])
    simp only [EdgeG.baseSamples, h q (by simp), ih, bind, Except.bind, List.map_cons]

/-- a circle sampled with the trapezoidal rule -/
theorem circle_edge {n p : ℤ} {d : Quad × Quad} (hd : getQuadDict n p = .ok d) {e : EdgeG} {a : Vert} (h1 : e.curve = .circle)
    (hr : 0 < Curve.radius e.opts) (h2 : e.quadType = "trap") (h3 : e.tBounds = (0, 2 * Real.pi)) (h4 : e.diary = [.translate a]) :
    ∃ e1, e.parameterize d = .ok e1 ∧ e1.quadType = "trap" ∧
      e1.pts = some ((List.range (2 * n.toNat + 1)).map (circleSample a.x a.y (Curve.radius e.opts) (2 * n.toNat))) := by
  have hpi := Real.pi_pos
  have h4n : ¬ n < 4 := by
    intro hlt
    simp [getQuadDict, Quad.init, hlt, bind, Except.bind] at hd
  have hd1 := ((C21_dict n p).2 d hd).1
  simp only [Quad.init, h4n, if_false] at hd1
  rw [if_neg (by decide), if_neg (by decide)] at hd1
  simp only [Except.ok.injEq] at hd1
  have hdt : 0.5 * (2 * Real.pi - 0) / Real.pi = 1 := by norm_num; field_simp
  have hz : d.1.t.zip d.1.wgt = (List.range (2 * n.toNat + 1)).map fun j : ℕ => (2 * Real.pi * j / (2 * n.toNat : ℕ), (1 : ℝ)) := by
    rw [← hd1]
    simp only [Quad.nodes]
    rw [show List.replicate (2 * n.toNat + 1) (1 : ℝ) = (List.range (2 * n.toNat + 1)).map fun _ => (1 : ℝ) by simp, List.zip_map']
    refine List.map_congr_left fun j _ => ?_
    congr 1
    ring
  set f : ℝ × ℝ → Sample := fun q => ⟨Curve.radius e.opts * Real.cos q.1, Curve.radius e.opts * Real.sin q.1, -Real.sin q.1, Real.cos q.1,
      Real.cos q.1, Real.sin q.1, Curve.radius e.opts, -1 / Curve.radius e.opts⟩ with hf
  have hb : EdgeG.baseSamples .circle e.opts 0 1 (d.1.t.zip d.1.wgt) = .ok ((d.1.t.zip d.1.wgt).map f) := by
    refine baseSamples_map fun q hq => ?_
    rw [hz] at hq
    obtain ⟨j, -, rfl⟩ := List.mem_map.1 hq
    exact circle_base hr _
  have he : e.parameterize d = .ok { EdgeG.translate { e with pts := some ((d.1.t.zip d.1.wgt).map f) } a false with quadType := d.1.type } := by
    simp only [EdgeG.parameterize, EdgeG.pickQuad, h2, if_true, bind, Except.bind, h3, hdt, h1, hb, h4, EdgeG.runDiary, EdgeG.apply]
  refine ⟨_, he, by rw [← hd1], ?_⟩
  rw [hz]
  simp only [EdgeG.translate, EdgeG.note, EdgeG.mapPts, Bool.false_eq_true, if_false, Option.map_some, List.map_map]
  congr 1
  refine List.map_congr_left fun j _ => ?_
  simp [circleSample, hf, add_comm]

/-- C76: a cell whose boundary is one circle, run through counter-clockwise and sampled with the trapezoidal rule, is a disc in the sense of
these theorems once `parameterize` has returned. -/
theorem C76_circle {n p : ℤ} {d : Quad × Quad} (hd : getQuadDict n p = .ok d) (hn : n ≤ 2 * 10 ^ 7) {inside : InsideTest} {fuel : ℕ}
    {K K1 : CellG} {c : ContourG} {e : EdgeG} {a : Vert} (hK : K.components = [c]) (hc : c.edges = [e]) (ho : c.orients = [1])
    (h1 : e.curve = .circle) (hr : 0 < Curve.radius e.opts) (h2 : e.quadType = "trap") (h3 : e.tBounds = (0, 2 * Real.pi))
    (h4 : e.diary = [.translate a]) (h : K.parameterize inside fuel d = some (.ok K1)) :
    K1.IsDisc a.x a.y (Curve.radius e.opts) (2 * n.toNat) ∧ Corners K1 ∧ 4 ≤ n.toNat ∧ n.toNat ≤ 2 * 10 ^ 7 := by
  have hor : ∀ c' ∈ K.components, c'.edges.length = c'.orients.length := by simp [hK, hc, ho]
  have h4n : 4 ≤ n := by
    by_contra hlt
    simp [getQuadDict, Quad.init, show n < 4 by omega, bind, Except.bind] at hd
  obtain ⟨hR, -, hC, -⟩ := C51_sampled hd hn hor (by simp [hK, hc]) h
  obtain ⟨⟨cs, hp, hf⟩, -⟩ := C33_parameterize hd hor h
  rw [hK] at hf
  cases hf with
  | cons hf1 hf2 =>
    cases hf2
    obtain ⟨c1, g1, g2⟩ := hf1
    obtain ⟨k1, k2, -⟩ := parameterize_edges hd (hor c (by simp [hK])) g1
    obtain ⟨pt, hpt⟩ := findInterior_fields g2
    obtain ⟨e1, e2, e3, e4⟩ := circle_edge hd h1 hr h2 h3 h4
    obtain ⟨e', f1, f2⟩ := k2 0 e 1 (by simp [hc]) (by simp [ho])
    have hee : e1 = e' := Except.ok.inj (e2.symm.trans f1)
    rw [if_neg (by norm_num), ← hee] at f2
    have hce : c1.edges = [e1] := by
      rw [hc] at k1
      obtain ⟨x, hx⟩ := List.length_eq_one_iff.1 k1
      rw [hx] at f2 ⊢
      simpa using f2
    refine ⟨⟨hR, _, e1, List.perm_singleton.1 hp, by rw [hpt]; exact hce, ?_, ?_⟩, hC, by omega, by omega⟩
    · unfold EdgeG.IsKress
      rw [e3]
      decide
    · rw [EdgeG.cols, e4]
      simp [List.range_succ]

/-! ### the hypotheses can be met -/

/-- the unit disc with `2n` samples -/
noncomputable def sampledDisc (n : ℕ) : CellG :=
  { components := [{ edges := [{ unitCircle "trap" [] with pts := some ((List.range (2 * n + 1)).map (circleSample 0 0 1 (2 * n))) }]
                     orients := [1], numPts := 2 * n, vertIdx := [0, 2 * n], closest := List.replicate (2 * n) 0 }]
    numPts := 2 * n, startIdx := [0, 2 * n], closest := List.replicate (2 * n) 0 }

theorem sampledDisc_ok {n : ℕ} (hn : 0 < n) : (sampledDisc n).IsDisc 0 0 1 (2 * n) ∧ Corners (sampledDisc n) := by
  have hcols : ({ unitCircle "trap" [] with pts := some ((List.range (2 * n + 1)).map (circleSample 0 0 1 (2 * n))) } : EdgeG).cols =
      (List.range (2 * n)).map (circleSample 0 0 1 (2 * n)) := by
    simp [EdgeG.cols, List.range_succ]
  refine ⟨⟨⟨?_, ?_, ?_⟩, _, _, rfl, rfl, ?_, hcols⟩, by simp [sampledDisc], ?_⟩
  · intro c hc
    simp only [sampledDisc, List.mem_singleton] at hc
    subst hc
    refine ⟨?_, ?_, ?_⟩
    · intro e he
      simp only [List.mem_singleton] at he
      subst he
      exact ⟨_, rfl, by simp; omega⟩
    · simp only [ContourG.cols, List.flatMap_cons, List.flatMap_nil, List.append_nil, hcols]
      simp
    · simp only [List.map_cons, List.map_nil, hcols]
      simp [List.range_succ, blockStart]
  · simp only [sampledDisc, CellG.cols, ContourG.cols, List.flatMap_cons, List.flatMap_nil, List.append_nil, hcols]
    simp
  · simp [sampledDisc, List.range_succ, blockStart]
  · simp only [EdgeG.IsKress, unitCircle]
    decide
  · intro i hi
    simp only [sampledDisc, List.mem_replicate] at hi
    rw [hi.2]
    simp [sampledDisc]
    omega

/-- a solver of linear systems that always finds an exact solution if there is one -/
noncomputable def someGmres : Gmres := fun A b _ =>
  open Classical in if h : ∃ x, A x = .ok b then .ok h.choose else .error .valueError

theorem someGmres_exact : Exact someGmres := by
  intro A b M x hx
  unfold someGmres at hx
  split_ifs at hx with h
  cases hx
  exact h.choose_spec

theorem someGmres_finds : Finds someGmres := by
  intro A b M x hx
  unfold someGmres
  rw [dif_pos ⟨x, hx⟩]
  exact ⟨_, rfl⟩

open Polynomial in
/-- the real part of `z³` on the unit disc with 32 samples -/
example : ∃ s t u, init someGmres (sampledDisc 16) "direct" "jacobi" = .ok s ∧ LocHarm.init someGmres t (some s) = .ok u ∧
    u.Holds (sampledDisc 16) Set.univ (rePoly (X ^ 3) 0 0) ∧ rePoly (X ^ 3) 0 0 2 1 = 2 := by
  obtain ⟨hd, hc⟩ := sampledDisc_ok (n := 16) (by norm_num)
  obtain ⟨s, hs, -⟩ := C70_init someGmres hd.ready (hd.even rfl (by norm_num) (by norm_num)) hd.edges_ne hd.holes hd.apart (hd.simple one_pos)
  obtain ⟨u, h1, -, h3⟩ := C76_harmonic someGmres_exact someGmres_finds hd hc (by norm_num) (by norm_num) (by norm_num) hs (X ^ 3)
    (by simp) (made_on hd.ready (v := (sampledDisc 16).samplesOf (rePoly (X ^ 3) 0 0)) (by simp [CellG.samplesOf, hd.ready.numPts])
      (w := none) (d := none) nofun nofun) rfl
  refine ⟨s, _, u, hs, h1, h3, ?_⟩
  simp [rePoly, pow_succ]
  norm_num

end PFEM
