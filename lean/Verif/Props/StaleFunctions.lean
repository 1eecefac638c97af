import Verif.Lemmas.Segment
import Verif.Props.InnerProd
import Verif.Props.PlotLocal
import Verif.Props.StaleCells
import Verif.Spec.StaleFunctions

/-!
Property theorem C123: what happens to the local functions of a cell when its neighbours are parameterized.  The specification is in
`Spec/StaleFunctions.lean`.
-/

namespace PFEM
open EdgeG Plot

/-! ### straight edges -/

theorem straight_reverse {e : EdgeG} (h : e.Straight) : e.reverse.Straight := by
  obtain ⟨C, l, u, v, h1, h2, h3⟩ := h
  exact ⟨C.reverse, l, -u, -v, reverse_pts h1 h2, h2, fun s => ⟨by simp [PCurve.reverse, (h3 _).1], by simp [PCurve.reverse, (h3 _).2]⟩⟩

/-- an edge on the curve `line` between two points has straight samples -/
theorem straight_param {n p : ℤ} {d : Quad × Quad} (hd : getQuadDict n p = .ok d) {a b : Vert} {qt : String} {e : EdgeG}
    (h : (sideEdge a b qt).parameterize d = .ok e) : e.Straight := by
  obtain ⟨q, γ, hq, g1, g2, g3⟩ := C22_samples_partial hd [] (by simp [sideEdge, EdgeOp.Good]) (by simp) h rfl
  have hC := follows_unique (side_follows a b qt) ⟨γ, g1, g2, rfl⟩
  rw [List.foldl_nil, ← hC] at g3
  exact ⟨_, _, (b.x - a.x) / (2 * Real.pi), (b.y - a.y) / (2 * Real.pi), g3, dict_sym hd hq, fun s => ⟨rfl, rfl⟩⟩

/-- reversed, a straight edge keeps its weights and turns its frames -/
theorem straight_frames {e : EdgeG} (h : e.Straight) : e.reverse.cols.map Sample.nx = e.cols.map (fun s => -s.nx) ∧
    e.reverse.cols.map Sample.ny = e.cols.map (fun s => -s.ny) ∧ e.reverse.cols.map Sample.tx = e.cols.map (fun s => -s.tx) ∧
    e.reverse.cols.map Sample.ty = e.cols.map (fun s => -s.ty) ∧ e.reverse.cols.map Sample.dxNorm = e.cols.map Sample.dxNorm := by
  obtain ⟨C, l, u, v, h1, h2, h3⟩ := h
  have hs : ∀ s, C.reverse.speed s = C.speed s := by
    intro s
    simp only [PCurve.speed, PCurve.reverse, (h3 _).1, (h3 _).2]
    congr 1
    ring
  simp only [EdgeG.cols, h1, reverse_pts h1 h2, Option.getD_some, PCurve.samples, ← List.map_dropLast, List.map_map]
  refine ⟨?_, ?_, ?_, ?_, ?_⟩ <;> refine List.map_congr_left fun q _ => ?_ <;>
    simp only [Function.comp, PCurve.sample, hs] <;> simp only [PCurve.reverse, (h3 _).1, (h3 _).2] <;> ring

/-! ### gradients on the boundary -/

theorem read_cols (K : CellRef) (h : EdgeHeap) : (K.read h).cols = K.getEdges.flatMap fun e => (h e).cols := by
  simp only [CellG.cols, CellRef.read, ContourG.cols, ContourRef.read, CellRef.getEdges, List.flatMap_map, List.flatMap_assoc]

/-- the arrays of a gradient plot when the frames have been turned at some of the samples: `P` holds the samples with the sign of the change -/
theorem boundaryGradient_signed {f f' : LocPoisson} {K K' : CellG} (hK : K'.Ready) (hf : f' = { f with cell := some K' })
    {hn ht pn pt : Sample → ℝ} (h : PlotDerivs f K hn ht pn pt) {P : List (Sample × ℝ)} (c0 : K.cols = P.map Prod.fst)
    (c1 : K'.cols.map Sample.nx = P.map fun q => q.2 * q.1.nx) (c2 : K'.cols.map Sample.ny = P.map fun q => q.2 * q.1.ny)
    (c3 : K'.cols.map Sample.tx = P.map fun q => q.2 * q.1.tx) (c4 : K'.cols.map Sample.ty = P.map fun q => q.2 * q.1.ty)
    (c5 : K'.cols.map Sample.dxNorm = P.map fun q => q.1.dxNorm) :
    boundaryGradient f' 1 = .ok (P.map fun q => cut (q.2 * (q.1.nx * (hn q.1 + pn q.1) + q.1.tx * (ht q.1 + pt q.1))) q.1.dxNorm) ∧
    boundaryGradient f' 2 = .ok (P.map fun q => cut (q.2 * (q.1.ny * (hn q.1 + pn q.1) + q.1.ty * (ht q.1 + pt q.1))) q.1.dxNorm) := by
  obtain ⟨-, ⟨k, hk, h1, h2⟩, p, t, hp, hpt, h3, h4⟩ := h
  subst hf
  have e1 : List.replicate K'.numPts (1 : ℝ) = K'.cols.map fun _ => (1 : ℝ) := by rw [hK.numPts]; simp
  have e0 : List.replicate K'.numPts (0 : ℝ) = K'.cols.map fun _ => (0 : ℝ) := by rw [hK.numPts]; simp
  rw [c0, List.map_map] at h1 h2 h3 h4
  constructor
  · simp only [boundaryGradient, hk, hp, hpt, Trace.attr, h1, h2, h3, h4, getDeriv, py_ok_bind, e1, e0, if_true,
      normal_map hK, tangent_map hK, getDxNorm_eq hK, one_mul, zero_mul, add_zero, c1, c3, c5, bin_maps', Function.comp]
    congr 1
    refine List.map_congr_left fun q _ => ?_
    congr 1
    ring
  · simp only [boundaryGradient, hk, hp, hpt, Trace.attr, h1, h2, h3, h4, getDeriv, py_ok_bind, e1, e0, if_true,
      normal_map hK, tangent_map hK, getDxNorm_eq hK, one_mul, zero_mul, zero_add, c2, c4, c5, bin_maps', Function.comp,
      show ¬(2 : ℤ) = 1 by decide, if_false]
    congr 1
    refine List.map_congr_left fun q _ => ?_
    congr 1
    ring

/-- C123 fails: let `f` hold a function with gradient `(g1, g2)` on a parameterized cell, and let some edges of the cell, all of them straight, be
reversed afterwards (`back`).  Then the gradient plots of `f` show `-g1` and `-g2` on these edges. -/
theorem C123_gradient {h g : EdgeHeap} {K : CellRef} (hR : (K.read h).Ready) (hU : Uniform (K.read h)) (hF : (K.read h).Frames) {back : ℕ → Bool}
    (hg : ∀ e ∈ K.getEdges, if back e then (h e).Straight ∧ g e = (h e).reverse else g e = h e) {S : Set (ℝ × ℝ)} (hS : IsOpen S) {f : LocPoisson}
    {u g1 g2 : ℝ → ℝ → ℝ} (hf : f.Holds (K.read h) S u) (hu : HasGradOn S u g1 g2) :
    boundaryGradient (f.seen K g) 1 = .ok (K.getEdges.flatMap fun e => (h e).cols.map fun s => shown s (if back e then -g1 s.x s.y else g1 s.x s.y)) ∧
    boundaryGradient (f.seen K g) 2 = .ok (K.getEdges.flatMap fun e => (h e).cols.map fun s => shown s (if back e then -g2 s.x s.y else g2 s.x s.y)) := by
  obtain ⟨hn, ht, pn, pt, hD, he⟩ := Holds.derivs hS (f := f.seen K h) rfl hf hu
  have hR' := (ready_cell hR hU (g := g) fun e he => by
    have := hg e he
    split at this
    · exact .inl this.2
    · exact .inr this).1
  have key : ∀ (F G : Sample → ℝ), (∀ e ∈ K.getEdges, back e = true → (h e).reverse.cols.map F = (h e).cols.map fun s => -G s) →
      (∀ s, F s = G s) → (K.read g).cols.map F =
        (K.getEdges.flatMap fun e => (h e).cols.map fun s => (s, if back e then (-1 : ℝ) else 1)).map fun q => q.2 * G q.1 := by
    intro F G h1 h2
    rw [read_cols, List.map_flatMap, List.map_flatMap, List.flatMap_def, List.flatMap_def]
    congr 1
    refine List.map_congr_left fun e he => ?_
    have := hg e he
    rw [List.map_map]
    split at this
    · rename_i hb
      rw [this.2, h1 e he hb, hb]
      exact List.map_congr_left fun s _ => by simp
    · rename_i hb
      rw [this]
      exact List.map_congr_left fun s _ => by simp [hb, h2]
  have hst : ∀ e ∈ K.getEdges, back e = true → (h e).Straight := fun e he hb => by
    have := hg e he
    rw [if_pos hb] at this
    exact this.1
  obtain ⟨r1, r2⟩ := boundaryGradient_signed hR' (f := f.seen K h) (f' := f.seen K g) rfl hD
    (P := K.getEdges.flatMap fun e => (h e).cols.map fun s => (s, if back e then (-1 : ℝ) else 1))
    (by
      rw [read_cols, List.map_flatMap]
      congr 1
      funext e
      rw [List.map_map]
      exact (List.map_id _).symm)
    (key _ _ (fun e he hb => (straight_frames (hst e he hb)).1) fun _ => rfl)
    (key _ _ (fun e he hb => (straight_frames (hst e he hb)).2.1) fun _ => rfl)
    (key _ _ (fun e he hb => (straight_frames (hst e he hb)).2.2.1) fun _ => rfl)
    (key _ _ (fun e he hb => (straight_frames (hst e he hb)).2.2.2.1) fun _ => rfl)
    (by
      rw [read_cols, List.map_flatMap, List.map_flatMap, List.flatMap_def, List.flatMap_def]
      congr 1
      refine List.map_congr_left fun e he => ?_
      have := hg e he
      rw [List.map_map]
      split at this
      · rw [this.2, (straight_frames this.1).2.2.2.2]; rfl
      · rw [this]; rfl)
  rw [r1, r2, List.map_flatMap, List.map_flatMap, List.flatMap_def, List.flatMap_def, List.flatMap_def, List.flatMap_def]
  refine ⟨congrArg (fun l => Except.ok (List.flatten l)) (List.map_congr_left fun e hee => ?_),
    congrArg (fun l => Except.ok (List.flatten l)) (List.map_congr_left fun e hee => ?_)⟩
  all_goals
    rw [List.map_map]
    refine List.map_congr_left fun s hs => ?_
    have hm : s ∈ (K.read h).cols := by rw [read_cols]; exact List.mem_flatMap.2 ⟨e, hee, hs⟩
    obtain ⟨t1, n1, n2⟩ := hF s hm
    simp only [Function.comp]
    rw [(he s hm).1, (he s hm).2, ← cut_shown]
    congr 1
    rw [n1, n2]
    split
  · linear_combination (-(g1 s.x s.y * s.dxNorm)) * t1
  · linear_combination (g1 s.x s.y * s.dxNorm) * t1
  · linear_combination (-(g2 s.x s.y * s.dxNorm)) * t1
  · linear_combination (g2 s.x s.y * s.dxNorm) * t1

/-- C123 fails: a cell of a planar mesh is parameterized and `f` holds a function on it; then one other cell is parameterized with the same rules.
If the edges between the two cells are straight, the gradient plots of `f` show the wrong sign on them, and what they did before on all others. -/
theorem C123_neighbour {n p : ℤ} {d : Quad × Quad} (hd : getQuadDict n p = .ok d) {inside inside' : InsideTest} {fuel fuel' : ℕ} {points points' : Bool}
    {h h1 h2 : EdgeHeap} (hs : ∀ i, (h i).Settled) {m : PlanarMesh ℝ} {c c' : ℤ} (hcc : c ≠ c') {k k' : CellTopo} (hk : m.getCell c = .ok k)
    (hk' : m.getCell c' = .ok k') {K1 K2 : CellRef}
    (e1 : (CellRef.ofTopo k).parameterize inside fuel d points h = some (.ok (h1, K1)))
    (e2 : (CellRef.ofTopo k').parameterize inside' fuel' d points' h1 = some (.ok (h2, K2)))
    (hst : ∀ e ∈ k.getEdges, e ∈ k'.getEdges → ∃ a b qt, h e = sideEdge a b qt)
    (hF : (K1.read h1).Frames) {S : Set (ℝ × ℝ)} (hS : IsOpen S) {f : LocPoisson} {u g1 g2 : ℝ → ℝ → ℝ} (hf : f.Holds (K1.read h1) S u)
    (hu : HasGradOn S u g1 g2) :
    boundaryGradient (f.seen K1 h1) 1 = .ok (K1.getEdges.flatMap fun e => (h1 e).cols.map fun s => shown s (g1 s.x s.y)) ∧
    boundaryGradient (f.seen K1 h2) 1 = .ok (K1.getEdges.flatMap fun e => (h1 e).cols.map fun s =>
      shown s (if e ∈ k'.getEdges then -g1 s.x s.y else g1 s.x s.y)) ∧
    boundaryGradient (f.seen K1 h1) 2 = .ok (K1.getEdges.flatMap fun e => (h1 e).cols.map fun s => shown s (g2 s.x s.y)) ∧
    boundaryGradient (f.seen K1 h2) 2 = .ok (K1.getEdges.flatMap fun e => (h1 e).cols.map fun s =>
      shown s (if e ∈ k'.getEdges then -g2 s.x s.y else g2 s.x s.y)) := by
  have hE : ∀ k : CellTopo, (CellRef.ofTopo k).getEdges = k.getEdges := fun k => by
    simp [CellRef.getEdges, CellRef.ofTopo, CellTopo.getEdges, List.flatMap_map]
  obtain ⟨n1, n2⟩ := getCell_edges hk
  obtain ⟨n1', n2'⟩ := getCell_edges hk'
  obtain ⟨hR, hU⟩ := parameterized_ready hd n1 (fun γ hγ => ⟨getCell_nonempty hk γ hγ, n2 γ hγ⟩) e1
  obtain ⟨-, a2, a3⟩ := C121_frame n1 e1
  obtain ⟨b1, -, -⟩ := C121_frame n1' e2
  have hmem : ∀ e, e ∈ K1.getEdges ↔ e ∈ k.getEdges := fun e => by rw [a2.mem_iff, hE]
  have g0 := C123_gradient hR hU hF (g := h1) (back := fun _ => false) (fun e _ => by simp) hS hf hu
  have g' := C123_gradient hR hU hF (g := h2) (back := fun e => decide (e ∈ k'.getEdges)) (fun e he => by
    have he := (hmem e).1 he
    by_cases h0 : e ∈ k'.getEdges
    · rw [if_pos (by simpa using h0)]
      refine ⟨?_, C122_reversed hd hs hcc hk hk' e1 e2 he h0⟩
      obtain ⟨a, b, qt, hq⟩ := hst e he h0
      obtain ⟨γ, hγ, heγ⟩ := List.mem_flatMap.1 ((hE k).symm ▸ he)
      obtain ⟨j, hj, hej⟩ := List.getElem_of_mem heγ
      obtain ⟨x, x1, x2⟩ := a3 γ hγ j e _ (by rw [List.getElem?_eq_getElem hj, hej]) (List.getElem?_eq_getElem (n2 γ hγ ▸ hj))
      rw [hq] at x1
      have hx := straight_param hd x1
      rw [x2]
      split
      · exact straight_reverse hx
      · exact hx
    · rw [if_neg (by simpa using h0)]
      exact b1 e (by rw [hE]; exact h0)) hS hf hu
  simp only [Bool.false_eq_true, if_false, decide_eq_true_eq] at g0 g'
  exact ⟨g0.1, g'.1, g0.2, g'.2⟩

/-! ### inner products -/

theorem guard_same {h g : EdgeHeap} {K : CellRef} (hg : ∀ e ∈ K.getEdges, (g e).pts.isSome = (h e).pts.isSome) :
    (K.read g).isParameterized = (K.read h).isParameterized := by
  have : ∀ c ∈ K.components, (c.read g).isParameterized = (c.read h).isParameterized := by
    intro c hc
    simp only [ContourG.isParameterized, ContourRef.read, List.all_map]
    rw [Bool.eq_iff_iff]
    simp only [List.all_eq_true, Function.comp]
    constructor <;> intro H e he
    · rw [← hg e (List.mem_flatMap.2 ⟨c, hc, he⟩)]; exact H e he
    · rw [hg e (List.mem_flatMap.2 ⟨c, hc, he⟩)]; exact H e he
  simp only [CellG.isParameterized, CellRef.read, List.all_map]
  rw [Bool.eq_iff_iff]
  simp only [List.all_eq_true, Function.comp]
  constructor <;> intro H c hc
  · rw [← this c hc]; exact H c hc
  · rw [this c hc]; exact H c hc

theorem blockLoop_map {α β γ : Type} (f : α → ℕ → ℕ → Py (List β)) (m : γ → α) (idx : List ℕ) : ∀ (l : List γ) (i : ℕ) (acc : List β),
    Np.blockLoop f idx i acc (l.map m) = Np.blockLoop (fun c => f (m c)) idx i acc l
  | [], _, _ => rfl
  | c :: l, i, acc => by
    simp only [List.map_cons, Np.blockLoop, blockLoop_map f m idx l]

theorem preweighted_same {h g : EdgeHeap} {K : CellRef} (hg : ∀ e ∈ K.getEdges, (g e).pts.isSome = (h e).pts.isSome) (w : List ℝ) :
    (K.read g).integratePreweighted w = (K.read h).integratePreweighted w := by
  have e0 : (K.read g).guard = (K.read h).guard := by rw [CellG.guard, CellG.guard, guard_same hg]
  have e1 : ∀ f : EdgeHeap, (K.read f).components = K.components.map (ContourRef.read f) := fun _ => rfl
  have e2 : ∀ f : EdgeHeap, (K.read f).numPts = K.numPts ∧ (K.read f).startIdx = K.startIdx := fun _ => ⟨rfl, rfl⟩
  simp only [CellG.integratePreweighted, e0, e1, (e2 _).1, (e2 _).2, blockLoop_map]
  simp only [ContourRef.read, List.length_map]

/-- C123 (partial; the full statement is for all inner products): products in which one function is harmonic do not change while the edges of the cell
remain sampled. -/
theorem C123_harmonic_partial {h g : EdgeHeap} {K : CellRef} (hg : ∀ e ∈ K.getEdges, (g e).pts.isSome = (h e).pts.isSome) (φ : LocHarm) (w : Obj) :
    h1 (.harm φ) w (K.read g) = h1 (.harm φ) w (K.read h) ∧ h1 w (.harm φ) (K.read g) = h1 w (.harm φ) (K.read h) ∧
    l2 (.harm φ) w (K.read g) = l2 (.harm φ) w (K.read h) ∧ l2 w (.harm φ) (K.read g) = l2 w (.harm φ) (K.read h) ∧
    ∀ f : LocPoisson, (f.seen K g).getH1 (.harm φ) = (f.seen K h).getH1 (.harm φ) ∧ (f.seen K g).getL2 (.harm φ) = (f.seen K h).getL2 (.harm φ) := by
  have e := preweighted_same hg
  have a1 : ∀ w : Obj, h1 (.harm φ) w (K.read g) = h1 (.harm φ) w (K.read h) ∧ l2 (.harm φ) w (K.read g) = l2 (.harm φ) w (K.read h) := by
    intro w
    cases w <;> simp only [h1, l2, h1HarmHarm, h1HarmPoly, l2HarmHarm, l2HarmPoly, e, and_self]
  have a2 : ∀ w : Obj, h1 w (.harm φ) (K.read g) = h1 w (.harm φ) (K.read h) ∧ l2 w (.harm φ) (K.read g) = l2 w (.harm φ) (K.read h) := by
    intro w
    cases w <;> simp only [h1, l2, h1HarmHarm, h1HarmPoly, l2HarmHarm, l2HarmPoly, e, and_self]
  refine ⟨(a1 w).1, (a2 w).1, (a1 w).2, (a2 w).2, fun f => ⟨?_, ?_⟩⟩
  · simp only [LocPoisson.getH1, LocPoisson.seen, Trace.attr, py_ok_bind, (a2 _).1]
  · simp only [LocPoisson.getL2, LocPoisson.seen, Trace.attr, py_ok_bind, (a2 _).2]

theorem some_of_attr {α : Type} {o : Option α} {x : α} (h : Trace.attr o = .ok x) : o = some x := by
  cases o with
  | none => cases h
  | some y => cases h; rfl

/-- C123 fails: with all edges of the cell reversed, the inner products of two local functions are wrong by twice the integrals of the products of the
polynomial parts and of their gradients. -/
theorem inner_turned {h g : EdgeHeap} {K : CellRef} (hg : ∀ e ∈ K.getEdges, (g e).pts.isSome = (h e).pts.isSome)
    (hneg : ∀ q : Poly ℝ, ∃ v, integratePoly q (K.read h) = .ok v ∧ integratePoly q (K.read g) = .ok (-v)) {f G : LocPoisson} {p q : LocPoly}
    (hp : f.poly = some p) (hq : G.poly = some q) :
    (∀ v, (f.seen K h).getL2 (.poisson G) = .ok v → ∃ r I, p.exact.mul q.exact = .ok r ∧ integratePoly r (K.read h) = .ok I ∧
      (f.seen K g).getL2 (.poisson G) = .ok (v - 2 * I)) ∧
    ∀ v, (f.seen K h).getH1 (.poisson G) = .ok v → ∃ p1 p2 q1 q2 m1 m2 I, p.grad1 = some p1 ∧ p.grad2 = some p2 ∧ q.grad1 = some q1 ∧
      q.grad2 = some q2 ∧ p1.mul q1 = .ok m1 ∧ p2.mul q2 = .ok m2 ∧ integratePoly (m1.add m2) (K.read h) = .ok I ∧
      (f.seen K g).getH1 (.poisson G) = .ok (v - 2 * I) := by
  constructor
  · intro v hv
    simp only [LocPoisson.getL2, LocPoisson.seen] at hv ⊢
    obtain ⟨a, ha, hv⟩ := bind_ok hv
    obtain ⟨b, hb, hv⟩ := bind_ok hv
    obtain ⟨_, hK, hv⟩ := bind_ok hv
    cases hK
    obtain ⟨x1, hx1, hv⟩ := bind_ok hv
    obtain ⟨_, hq', hv⟩ := bind_ok hv
    rw [hq] at hq'
    cases hq'
    obtain ⟨x2, hx2, hv⟩ := bind_ok hv
    obtain ⟨_, hp', hv⟩ := bind_ok hv
    rw [hp] at hp'
    cases hp'
    obtain ⟨x3, hx3, hv⟩ := bind_ok hv
    obtain ⟨x4, hx4, hv⟩ := bind_ok hv
    cases hv
    have y1 := (C123_harmonic_partial hg a (.harm b)).2.2.1.trans hx1
    have y2 := (C123_harmonic_partial hg a (.poly q)).2.2.1.trans hx2
    have y3 := (C123_harmonic_partial hg b (.poly p)).2.2.2.1.trans hx3
    obtain ⟨r, hr, hx4⟩ := bind_ok hx4
    obtain ⟨I, i1, i2⟩ := hneg r
    rw [i1] at hx4
    cases hx4
    have y4 : l2 (.poly p) (.poly q) (K.read g) = .ok (-x4) := by
      simp only [l2, l2PolyPoly, hr, py_ok_bind, i2]
    refine ⟨r, x4, hr, i1, ?_⟩
    simp only [some_of_attr ha, some_of_attr hb, hp, hq, Trace.attr, py_ok_bind, y1, y2, y3, y4, Except.ok.injEq]
    ring
  · intro v hv
    simp only [LocPoisson.getH1, LocPoisson.seen] at hv ⊢
    obtain ⟨a, ha, hv⟩ := bind_ok hv
    obtain ⟨b, hb, hv⟩ := bind_ok hv
    obtain ⟨_, hK, hv⟩ := bind_ok hv
    cases hK
    obtain ⟨x1, hx1, hv⟩ := bind_ok hv
    obtain ⟨_, hp', hv⟩ := bind_ok hv
    rw [hp] at hp'
    cases hp'
    obtain ⟨_, hq', hv⟩ := bind_ok hv
    rw [hq] at hq'
    cases hq'
    obtain ⟨x2, hx2, hv⟩ := bind_ok hv
    obtain ⟨x3, hx3, hv⟩ := bind_ok hv
    obtain ⟨x4, hx4, hv⟩ := bind_ok hv
    cases hv
    have y1 := (C123_harmonic_partial hg a (.harm b)).1.trans hx1
    have y3 := (C123_harmonic_partial hg a (.poly q)).1.trans hx3
    have y4 := (C123_harmonic_partial hg b (.poly p)).2.1.trans hx4
    obtain ⟨p1, hp1, hx2⟩ := bind_ok hx2
    obtain ⟨q1, hq1, hx2⟩ := bind_ok hx2
    obtain ⟨m1, hm1, hx2⟩ := bind_ok hx2
    obtain ⟨p2, hp2, hx2⟩ := bind_ok hx2
    obtain ⟨q2, hq2, hx2⟩ := bind_ok hx2
    obtain ⟨m2, hm2, hx2⟩ := bind_ok hx2
    obtain ⟨I, i1, i2⟩ := hneg (m1.add m2)
    rw [i1] at hx2
    cases hx2
    have y2 : h1 (.poly p) (.poly q) (K.read g) = .ok (-x2) := by
      simp only [h1, h1PolyPoly, hp1, hq1, hm1, hp2, hq2, hm2, py_ok_bind, i2]
    refine ⟨p1, p2, q1, q2, m1, m2, x2, some_of_attr hp1, some_of_attr hp2, some_of_attr hq1, some_of_attr hq2, hm1, hm2, i1, ?_⟩
    simp only [some_of_attr ha, some_of_attr hb, hp, hq, Trace.attr, py_ok_bind, y1, y2, y3, y4, Except.ok.injEq]
    ring

/-- C123 fails: a cell of a planar mesh all of whose edges belong to one other cell is parameterized, and `f`, `G` are local functions on it; then the
other cell is parameterized with the same rules.  Without any exception the inner products of `f` and `G` are now wrong by twice the integrals of the
products of the polynomial parts and of their gradients. -/
theorem C123_inner {n p : ℤ} {d : Quad × Quad} (hd : getQuadDict n p = .ok d) {inside inside' : InsideTest} {fuel fuel' : ℕ} {points points' : Bool}
    {h h1 h2 : EdgeHeap} (hs : ∀ i, (h i).Settled) {m : PlanarMesh ℝ} {c c' : ℤ} (hcc : c ≠ c') {k k' : CellTopo} (hk : m.getCell c = .ok k)
    (hk' : m.getCell c' = .ok k') {K1 K2 : CellRef} (hi : ∀ e ∈ k.getEdges, e ∈ k'.getEdges)
    (e1 : (CellRef.ofTopo k).parameterize inside fuel d points h = some (.ok (h1, K1)))
    (e2 : (CellRef.ofTopo k').parameterize inside' fuel' d points' h1 = some (.ok (h2, K2)))
    (hq : ∀ e ∈ k.getEdges, (h e).quadType = "kress" ∨ ∃ L, (h1 e).pts = some L ∧ L.head? = L.getLast?) {f G : LocPoisson} {p q : LocPoly}
    (hp : f.poly = some p) (hG : G.poly = some q) :
    (∀ v, (f.seen K1 h1).getL2 (.poisson G) = .ok v → ∃ r I, p.exact.mul q.exact = .ok r ∧ integratePoly r (K1.read h1) = .ok I ∧
      (f.seen K1 h2).getL2 (.poisson G) = .ok (v - 2 * I)) ∧
    ∀ v, (f.seen K1 h1).getH1 (.poisson G) = .ok v → ∃ p1 p2 q1 q2 m1 m2 I, p.grad1 = some p1 ∧ p.grad2 = some p2 ∧ q.grad1 = some q1 ∧
      q.grad2 = some q2 ∧ p1.mul q1 = .ok m1 ∧ p2.mul q2 = .ok m2 ∧ integratePoly (m1.add m2) (K1.read h1) = .ok I ∧
      (f.seen K1 h2).getH1 (.poisson G) = .ok (v - 2 * I) := by
  refine inner_turned (fun e he => ?_) (fun r => C122_island hd hs hcc hk hk' hi e1 e2 hq r) hp hG
  have hE : (CellRef.ofTopo k).getEdges = k.getEdges := by
    simp [CellRef.getEdges, CellRef.ofTopo, CellTopo.getEdges, List.flatMap_map]
  have he : e ∈ k.getEdges := by rw [(C121_frame (getCell_edges hk).1 e1).2.1.mem_iff, hE] at he; exact he
  rw [C122_reversed hd hs hcc hk hk' e1 e2 he (hi e he)]
  simp [EdgeG.reverse]

end PFEM
