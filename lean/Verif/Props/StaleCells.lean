import Verif.Lemmas.LineSum
import Verif.Props.AreaIntegral
import Verif.Props.SharedSolver

/-!
Property theorem C122: what happens to a parameterized cell when others are parameterized.  The specification is in `Spec/SharedEdges.lean`.
-/

namespace PFEM
open EdgeG

/-! ### cells that keep their samples -/

/-- C122 (partial; the full statement is for every two cells): a cell keeps its samples while another one without common edges is parameterized. -/
theorem C122_disjoint_partial {inside : InsideTest} {fuel : ℕ} {d : Quad × Quad} {points : Bool} {h h' : EdgeHeap} {K K' L : CellRef}
    (hn : K.getEdges.Nodup) (hh : K.parameterize inside fuel d points h = some (.ok (h', K'))) (hd : ∀ e ∈ L.getEdges, e ∉ K.getEdges) :
    L.read h' = L.read h :=
  read_cell_congr fun i hi => (C121_frame hn hh).1 i (hd i hi)

/-- C122 (partial): parameterizing a cell twice with the same rules is the same as doing it once. -/
theorem C122_again_partial {n p : ℤ} {d : Quad × Quad} (hd : getQuadDict n p = .ok d) {inside inside' : InsideTest} {fuel fuel' : ℕ}
    {points points' : Bool} {h h1 h2 : EdgeHeap} (hs : ∀ i, (h i).Settled) {K K1 K2 L : CellRef} (hn : K.getEdges.Nodup)
    (hl : ∀ c ∈ K.components, c.edges.length = c.orients.length) (hL : L.components.Perm K.components)
    (e1 : K.parameterize inside fuel d points h = some (.ok (h1, K1))) (e2 : L.parameterize inside' fuel' d points' h1 = some (.ok (h2, K2))) :
    h2 = h1 := by
  have hLe : L.getEdges.Perm K.getEdges := hL.flatMap_right _
  obtain ⟨a1, -, a3⟩ := C121_frame hn e1
  obtain ⟨b1, -, b3⟩ := C121_frame (hLe.nodup_iff.2 hn) e2
  have same : ∀ i, (h i).SameEdge (h1 i) := by
    obtain ⟨cs, k, -⟩ := parameterize_split e1
    exact sampleContours_same hd hs k
  funext e
  by_cases he : e ∈ K.getEdges
  · obtain ⟨c, hc, hec⟩ := List.mem_flatMap.1 he
    obtain ⟨j, hj, hej⟩ := List.getElem_of_mem hec
    have g1 : c.edges[j]? = some e := by rw [List.getElem?_eq_getElem hj, hej]
    have g2 : c.orients[j]? = some (c.orients[j]'(hl c hc ▸ hj)) := List.getElem?_eq_getElem _
    obtain ⟨x, x1, x2⟩ := a3 c hc j e _ g1 g2
    obtain ⟨y, y1, y2⟩ := b3 c (hL.mem_iff.2 hc) j e _ g1 g2
    rw [← sameEdge_param (same e) d, x1] at y1
    cases y1
    rw [x2, y2]
  · exact b1 e fun h0 => he (hLe.mem_iff.1 h0)

/-! ### cells that do not -/

theorem reverse_reverse (e : EdgeG) : e.reverse.reverse = e := by
  obtain ⟨_, _, _, _, _, _, _, _, pts, _, _⟩ := e
  cases pts with
  | none => rfl
  | some l =>
    simp only [EdgeG.reverse, Option.map_some, List.map_reverse, List.reverse_reverse, List.map_map]
    congr 2
    conv_rhs => rw [← List.map_id l]
    refine List.map_congr_left fun s _ => ?_
    simp

/-- C122 fails: in a planar mesh every edge between two cells is reversed when the second cell is parameterized after the first with the same rules. -/
theorem C122_reversed {n p : ℤ} {d : Quad × Quad} (hd : getQuadDict n p = .ok d) {inside inside' : InsideTest} {fuel fuel' : ℕ}
    {points points' : Bool} {h h1 h2 : EdgeHeap} (hs : ∀ i, (h i).Settled) {m : PlanarMesh ℝ} {c c' : ℤ} (hcc : c ≠ c') {k k' : CellTopo}
    (hk : m.getCell c = .ok k) (hk' : m.getCell c' = .ok k') {K1 K2 : CellRef}
    (e1 : (CellRef.ofTopo k).parameterize inside fuel d points h = some (.ok (h1, K1)))
    (e2 : (CellRef.ofTopo k').parameterize inside' fuel' d points' h1 = some (.ok (h2, K2))) {e : ℕ} (he : e ∈ k.getEdges) (he' : e ∈ k'.getEdges) :
    h2 e = (h1 e).reverse := by
  have orient : ∀ {c : ℤ} {k : CellTopo}, m.getCell c = .ok k → e ∈ k.getEdges →
      (c = (m.store e).pos ∨ c = (m.store e).neg) ∧ ∃ γ ∈ (CellRef.ofTopo k).components, ∃ j : ℕ, γ.edges[j]? = some e ∧
        γ.orients[j]? = some (side c (m.store e)) := by
    intro c k hk he
    obtain ⟨es, hes, hk⟩ := bind_ok hk
    unfold CellTopo.make at hk
    split at hk
    · rename_i r hr
      subst hk
      obtain ⟨a1, -, -, -, -, a6⟩ := C29_contours m.store c es _ k hr (Nat.lt_succ_self _)
      obtain ⟨-, hb, -⟩ := (C29_accepts_iff m.store c es _ (Nat.lt_succ_self _)).1 ⟨k, hr⟩
      obtain ⟨γ, hγ, heγ⟩ := List.mem_flatMap.1 he
      obtain ⟨j, hj, hej⟩ := List.getElem_of_mem heγ
      have g1 : γ.edges[j]? = some e := by rw [List.getElem?_eq_getElem hj, hej]
      refine ⟨hb e (a1.mem_iff.1 he), { edges := γ.edges, orients := γ.orients }, List.mem_map.2 ⟨γ, hγ, rfl⟩, j, g1, ?_⟩
      simp only [(a6 γ hγ).2.2.1, List.getElem?_map, g1, Option.map_some]
    · cases hk
  obtain ⟨n1, -⟩ := getCell_edges hk
  obtain ⟨n1', -⟩ := getCell_edges hk'
  obtain ⟨o1, γ, hγ, j, g1, g2⟩ := orient hk he
  obtain ⟨o1', γ', hγ', j', g1', g2'⟩ := orient hk' he'
  obtain ⟨x, x1, x2⟩ := (C121_frame n1 e1).2.2 γ hγ j e _ g1 g2
  obtain ⟨y, y1, y2⟩ := (C121_frame n1' e2).2.2 γ' hγ' j' e _ g1' g2'
  have same : (h e).SameEdge (h1 e) := by
    obtain ⟨cs, k, -⟩ := parameterize_split e1
    exact sampleContours_same hd hs k e
  rw [← sameEdge_param same d, x1] at y1
  cases y1
  rw [x2, y2]
  unfold side
  by_cases hp : c = (m.store e).pos
  · have hp' : c' ≠ (m.store e).pos := fun h0 => hcc (hp.trans h0.symm)
    rw [if_neg hp', if_pos hp, if_pos rfl, if_neg (by norm_num)]
  · have hp' : c' = (m.store e).pos := by
      rcases o1' with h0 | h0
      · exact h0
      · exact absurd ((o1.resolve_left hp).trans h0.symm) hcc
    rw [if_pos hp', if_neg hp, if_neg (by norm_num), if_pos rfl, reverse_reverse]

/-! ### integrals over such a cell -/

/-- a sample of the reversed edge -/
theorem reverse_cols {e : EdgeG} {L : List Sample} (hL : e.pts = some L) : e.reverse.cols = ((L.tail).map Sample.flip).reverse := by
  simp only [EdgeG.cols, EdgeG.reverse, hL, Option.map_some, Option.getD_some]
  rw [List.dropLast_reverse, ← List.map_tail]
  rfl

theorem sum_tail {ψ : Sample → ℝ} : ∀ {L : List Sample} {a b : Sample}, L.head? = some a → L.getLast? = some b → ψ a = ψ b →
    (L.tail.map ψ).sum = (L.dropLast.map ψ).sum := by
  intro L a b ha hb hab
  have h1 : (L.map ψ).sum = ψ a + (L.tail.map ψ).sum := by
    cases L with
    | nil => simp at ha
    | cons x l => simp only [List.head?_cons, Option.some.injEq] at ha; subst ha; simp
  have h2 : (L.map ψ).sum = (L.dropLast.map ψ).sum + ψ b := by
    have hne : L ≠ [] := by intro h0; simp [h0] at ha
    have : L = L.dropLast ++ [b] := by
      rw [List.getLast?_eq_some_getLast hne, Option.some.injEq] at hb
      rw [← hb, List.dropLast_append_getLast hne]
    conv_lhs => rw [this]
    simp
  linarith

theorem edgeSum_form (φ : Sample → ℝ) (e : EdgeG) : edgeSum φ e = 2 * Real.pi / (e.cols.length : ℝ) * (e.cols.map fun s => φ s * s.dxNorm).sum := by
  rw [edgeSum, dot, entrywise, EdgeG.weights, List.zipWith_map, List.zipWith_self, ← List.sum_map_mul_left]
  congr 1
  refine List.map_congr_left fun s _ => ?_
  ring

theorem sum_neg_map {α : Type} (f : α → ℝ) (l : List α) : (l.map fun a => -f a).sum = -(l.map f).sum := by
  induction l with
  | nil => simp
  | cons a l ih => simp only [List.map_cons, List.sum_cons, ih]; ring

theorem edgeSum_reverse {φ : Sample → ℝ} (hφ : ∀ s, φ s.flip = -φ s) {e : EdgeG} {L : List Sample} {a b : Sample} (hL : e.pts = some L)
    (ha : L.head? = some a) (hb : L.getLast? = some b) (hab : φ a * a.dxNorm = φ b * b.dxNorm) : edgeSum φ e.reverse = -edgeSum φ e := by
  rw [edgeSum_form, edgeSum_form, reverse_cols hL]
  have hc : e.cols = L.dropLast := by simp [EdgeG.cols, hL]
  rw [hc, List.length_reverse, List.length_map, List.length_tail, List.length_dropLast, List.map_reverse, List.sum_reverse, List.map_map,
    ← sum_tail (ψ := fun s => φ s * s.dxNorm) ha hb hab]
  have : ((fun s : Sample => φ s * s.dxNorm) ∘ Sample.flip) = fun s => -(φ s * s.dxNorm) := by
    funext s
    simp only [Function.comp, hφ]
    simp only [Sample.flip]
    ring
  rw [this, sum_neg_map]
  ring

theorem ready_contour {h g : EdgeHeap} {c : ContourRef} (hr : (c.read h).Ready)
    (hg : ∀ e ∈ c.edges, (g e).cols.length = (h e).cols.length ∧ ∀ L, (h e).pts = some L → ∃ L', (g e).pts = some L' ∧ L'.length = L.length) :
    (c.read g).Ready ∧ (c.read g).cols.length = (c.read h).cols.length := by
  have hl : (c.edges.map g).map (fun e => e.cols.length) = (c.edges.map h).map fun e => e.cols.length := by
    rw [List.map_map, List.map_map]
    exact List.map_congr_left fun e he => (hg e he).1
  have hc : (c.read g).cols.length = (c.read h).cols.length := by
    simp only [ContourG.cols, ContourRef.read, List.length_flatMap]
    exact congrArg List.sum hl
  refine ⟨⟨?_, ?_, ?_⟩, hc⟩
  · intro e he
    obtain ⟨i, hi, rfl⟩ := List.mem_map.1 he
    obtain ⟨L, h1, h2⟩ := hr.sampled (h i) (List.mem_map.2 ⟨i, hi, rfl⟩)
    obtain ⟨L', h3, h4⟩ := (hg i hi).2 L h1
    exact ⟨L', h3, by omega⟩
  · rw [hc]; exact hr.numPts
  · have := hr.vertIdx
    simp only [ContourRef.read, List.length_map] at this ⊢
    rw [hl]
    exact this

theorem reverse_same_size (e : EdgeG) : e.reverse.cols.length = e.cols.length ∧ ∀ L, e.pts = some L → ∃ L', e.reverse.pts = some L' ∧ L'.length = L.length := by
  constructor
  · cases hp : e.pts with
    | none => simp [EdgeG.cols, EdgeG.reverse, hp]
    | some L => simp [EdgeG.cols, EdgeG.reverse, hp]
  · intro L hL
    exact ⟨_, by simp only [EdgeG.reverse, hL, Option.map_some]; rfl, by simp⟩

/-- the cell after `parameterize`, seen with its edges by value -/
theorem parameterized_ready {n p : ℤ} {d : Quad × Quad} (hd : getQuadDict n p = .ok d) {inside : InsideTest} {fuel : ℕ} {points : Bool}
    {h h1 : EdgeHeap} {K K1 : CellRef} (hn : K.getEdges.Nodup) (hl : ∀ c ∈ K.components, c.edges ≠ [] ∧ c.edges.length = c.orients.length)
    (e1 : K.parameterize inside fuel d points h = some (.ok (h1, K1))) : (K1.read h1).Ready ∧ Uniform (K1.read h1) := by
  have hr := C121_refines inside fuel d points h K hn
  rw [e1] at hr
  simp only [Option.map_some, Except.map] at hr
  unfold CellG.parameterizeWith at hr
  have hor : ∀ c ∈ (K.read h).components, c.edges.length = c.orients.length := by
    intro c hc
    obtain ⟨c0, hc0, rfl⟩ := List.mem_map.1 hc
    simp [ContourRef.read, (hl c0 hc0).2]
  have hne : ∀ c ∈ (K.read h).components, c.edges ≠ [] := by
    intro c hc
    obtain ⟨c0, hc0, rfl⟩ := List.mem_map.1 hc
    simp [ContourRef.read, (hl c0 hc0).1]
  cases hv : (K.read h).parameterize inside fuel d with
  | none => rw [hv] at hr; simp at hr
  | some r =>
    rw [hv] at hr
    cases r with
    | error x => simp at hr
    | ok G =>
      obtain ⟨-, -, -, hR, hU⟩ := C33_parameterize hd hor hv
      have hU := hU hne
      cases points with
      | false =>
        simp only [Bool.false_eq_true, if_false, Option.some.injEq, Except.ok.injEq] at hr
        rw [hr]
        exact ⟨hR, hU⟩
      | true =>
        simp only [if_true, Option.some.injEq] at hr
        have hr := hr.symm
        unfold CellG.generateInteriorPoints at hr
        obtain ⟨_, _, hr⟩ := bind_ok hr
        obtain ⟨_, _, hr⟩ := bind_ok hr
        obtain ⟨_, _, hr⟩ := bind_ok hr
        simp only [Except.ok.injEq] at hr
        rw [← hr]
        exact ⟨⟨hR.1, hR.2, hR.3⟩, hU⟩

theorem ready_cell {h g : EdgeHeap} {K : CellRef} (hr : (K.read h).Ready) (hU : Uniform (K.read h)) (hg : ∀ e ∈ K.getEdges, g e = (h e).reverse ∨ g e = h e) :
    (K.read g).Ready ∧ Uniform (K.read g) := by
  have hsz : ∀ e ∈ K.getEdges, (g e).cols.length = (h e).cols.length ∧
      ∀ L, (h e).pts = some L → ∃ L', (g e).pts = some L' ∧ L'.length = L.length := by
    intro e he
    rcases hg e he with h0 | h0
    · rw [h0]; exact reverse_same_size (h e)
    · rw [h0]; exact ⟨rfl, fun L hL => ⟨L, hL, rfl⟩⟩
  have hc : ∀ c ∈ K.components, (c.read g).Ready ∧ (c.read g).cols.length = (c.read h).cols.length := by
    intro c hc
    refine ready_contour (hr.ready _ (List.mem_map.2 ⟨c, hc, rfl⟩)) fun e he => ?_
    exact hsz e (List.mem_flatMap.2 ⟨c, hc, he⟩)
  constructor
  · refine ⟨?_, ?_, ?_⟩
    · intro c hc'
      obtain ⟨c0, hc0, rfl⟩ := List.mem_map.1 hc'
      exact (hc c0 hc0).1
    · have := hr.numPts
      simp only [CellG.cols, CellRef.read, List.length_flatMap, List.map_map] at this ⊢
      rw [this]
      exact congrArg List.sum (List.map_congr_left fun c hc' => ((hc c hc').2).symm)
    · have := hr.startIdx
      simp only [CellRef.read, List.length_map, List.map_map] at this ⊢
      exact this
  · intro c hc'
    obtain ⟨c0, hc0, rfl⟩ := List.mem_map.1 hc'
    obtain ⟨h1, N, h2⟩ := hU (c0.read h) (List.mem_map.2 ⟨c0, hc0, rfl⟩)
    refine ⟨by simpa [ContourRef.read] using h1, N, fun e he => ?_⟩
    obtain ⟨i, hi, rfl⟩ := List.mem_map.1 he
    rw [(hsz i (List.mem_flatMap.2 ⟨c0, hc0, hi⟩)).1]
    exact h2 (h i) (List.mem_map.2 ⟨i, hi, rfl⟩)

theorem integratePoly_edges {K : CellG} (h : K.Ready) (hU : Uniform K) (p : Poly ℝ) : integratePoly p K =
    .ok ((K.components.flatMap ContourG.edges).map (edgeSum fun s => (s.x * s.nx + s.y * s.ny) * radial p s.x s.y)).sum := by
  rw [integratePoly_ok h (fun c hc => (hU c hc).1), ← cell_sum h hU, cell_integrate h (fun c hc => (hU c hc).1) (by simp)]

/-- C122 fails: if all edges of a parameterized cell are reversed afterwards, the integral of every polynomial over the cell has the wrong sign.  The
edges have the Kress rule, or are closed with equal first and last samples. -/
theorem C122_negated {n p : ℤ} {d : Quad × Quad} (hd : getQuadDict n p = .ok d) {inside : InsideTest} {fuel : ℕ} {points : Bool}
    {h h1 g : EdgeHeap} {K K1 : CellRef} (hn : K.getEdges.Nodup) (hl : ∀ c ∈ K.components, c.edges ≠ [] ∧ c.edges.length = c.orients.length)
    (e1 : K.parameterize inside fuel d points h = some (.ok (h1, K1)))
    (hq : ∀ e ∈ K.getEdges, (h e).quadType = "kress" ∨ ∃ L, (h1 e).pts = some L ∧ L.head? = L.getLast?)
    (hg : ∀ e ∈ K.getEdges, g e = (h1 e).reverse) (q : Poly ℝ) :
    ∃ v, integratePoly q (K1.read h1) = .ok v ∧ integratePoly q (K1.read g) = .ok (-v) := by
  obtain ⟨hR, hU⟩ := parameterized_ready hd hn hl e1
  obtain ⟨-, a2, a3⟩ := C121_frame hn e1
  obtain ⟨hR', hU'⟩ := ready_cell hR hU fun e he => .inl (hg e (a2.mem_iff.1 he))
  refine ⟨_, integratePoly_edges hR hU q, ?_⟩
  rw [integratePoly_edges hR' hU' q]
  have hE : ∀ f : EdgeHeap, (K1.read f).components.flatMap ContourG.edges = K1.getEdges.map f := by
    intro f
    simp only [CellRef.read, CellRef.getEdges, ContourRef.read, List.flatMap_map, List.map_flatMap]
  rw [hE, hE, List.map_map, List.map_map, ← sum_neg_map]
  congr 2
  refine List.map_congr_left fun e he => ?_
  simp only [Function.comp]
  have he := a2.mem_iff.1 he
  rw [hg e he]
  obtain ⟨c, hc, hec⟩ := List.mem_flatMap.1 he
  obtain ⟨j, hj, hej⟩ := List.getElem_of_mem hec
  obtain ⟨x, x1, x2⟩ := a3 c hc j e _ (by rw [List.getElem?_eq_getElem hj, hej]) (List.getElem?_eq_getElem ((hl c hc).2 ▸ hj))
  obtain ⟨hn4, Lx, hLx, hlen, hz⟩ := parameterize_size hd x1
  have hne : ∃ L, (h1 e).pts = some L ∧ L ≠ [] := by
    rw [x2]
    split
    · refine ⟨_, by simp only [EdgeG.reverse, hLx, Option.map_some]; rfl, ?_⟩
      intro h0
      have := congrArg List.length h0
      simp [hlen] at this
    · exact ⟨Lx, hLx, by intro h0; simp [h0] at hlen⟩
  obtain ⟨L, hL, hne⟩ := hne
  obtain ⟨a, ha⟩ : ∃ a, L.head? = some a := ⟨_, List.head?_eq_some_head hne⟩
  obtain ⟨b, hb⟩ : ∃ b, L.getLast? = some b := ⟨_, List.getLast?_eq_some_getLast hne⟩
  refine edgeSum_reverse (φ := fun s => (s.x * s.nx + s.y * s.ny) * radial q s.x s.y) (fun s => ?_) hL ha hb ?_
  · simp only [Sample.flip]; ring
  · rcases hq e he with hk | ⟨L', hL', hend⟩
    · have z0 : ∀ s, Lx.head? = some s → s.dxNorm = 0 := fun s hs => hz hk s (.inl (by rw [← List.head?_eq_getElem?]; exact hs))
      have z1 : ∀ s, Lx.getLast? = some s → s.dxNorm = 0 := fun s hs =>
        hz hk s (.inr (by rw [List.getLast?_eq_getElem?, hlen] at hs; simpa using hs))
      have : a.dxNorm = 0 ∧ b.dxNorm = 0 := by
        rw [x2] at hL
        split at hL
        · simp only [EdgeG.reverse, hLx, Option.map_some, Option.some.injEq] at hL
          subst hL
          rw [List.head?_reverse, List.getLast?_map] at ha
          rw [List.getLast?_reverse, List.head?_map] at hb
          obtain ⟨a', ha', rfl⟩ := Option.map_eq_some_iff.1 ha
          obtain ⟨b', hb', rfl⟩ := Option.map_eq_some_iff.1 hb
          exact ⟨z1 a' ha', z0 b' hb'⟩
        · rw [hLx, Option.some.injEq] at hL
          subst hL
          exact ⟨z0 a ha, z1 b hb⟩
      rw [this.1, this.2]; ring
    · rw [hL, Option.some.injEq] at hL'
      subst hL'
      rw [ha, hb, Option.some.injEq] at hend
      rw [hend]

theorem getCell_nonempty {m : PlanarMesh ℝ} {c : ℤ} {k : CellTopo} (hk : m.getCell c = .ok k) : ∀ γ ∈ (CellRef.ofTopo k).components, γ.edges ≠ [] := by
  intro γ hγ
  obtain ⟨es, hes, hk⟩ := bind_ok hk
  unfold CellTopo.make at hk
  split at hk
  · rename_i r hr
    subst hk
    obtain ⟨-, -, -, -, -, a6⟩ := C29_contours m.store c es _ k hr (Nat.lt_succ_self _)
    obtain ⟨δ, hδ, rfl⟩ := List.mem_map.1 hγ
    exact (a6 δ hδ).1
  · cases hk

/-- C122 fails: a cell of a planar mesh all of whose edges belong to one other cell (it fills a hole of that cell) is parameterized; then the other
cell is parameterized with the same rules.  Without any exception the integral of every polynomial over the first cell now has the wrong sign. -/
theorem C122_island {n p : ℤ} {d : Quad × Quad} (hd : getQuadDict n p = .ok d) {inside inside' : InsideTest} {fuel fuel' : ℕ} {points points' : Bool}
    {h h1 h2 : EdgeHeap} (hs : ∀ i, (h i).Settled) {m : PlanarMesh ℝ} {c c' : ℤ} (hcc : c ≠ c') {k k' : CellTopo} (hk : m.getCell c = .ok k)
    (hk' : m.getCell c' = .ok k') {K1 K2 : CellRef} (hi : ∀ e ∈ k.getEdges, e ∈ k'.getEdges)
    (e1 : (CellRef.ofTopo k).parameterize inside fuel d points h = some (.ok (h1, K1)))
    (e2 : (CellRef.ofTopo k').parameterize inside' fuel' d points' h1 = some (.ok (h2, K2)))
    (hq : ∀ e ∈ k.getEdges, (h e).quadType = "kress" ∨ ∃ L, (h1 e).pts = some L ∧ L.head? = L.getLast?) (q : Poly ℝ) :
    ∃ v, integratePoly q (K1.read h1) = .ok v ∧ integratePoly q (K1.read h2) = .ok (-v) := by
  have hE : (CellRef.ofTopo k).getEdges = k.getEdges := by
    simp [CellRef.getEdges, CellRef.ofTopo, CellTopo.getEdges, List.flatMap_map]
  obtain ⟨n1, n2⟩ := getCell_edges hk
  refine C122_negated hd n1 (fun γ hγ => ⟨getCell_nonempty hk γ hγ, n2 γ hγ⟩) e1 (by rw [hE]; exact hq) ?_ q
  · intro e he
    rw [hE] at he
    exact C122_reversed hd hs hcc hk hk' e1 e2 he (hi e he)

/-! ### building a global function space -/

theorem buildEdgeSpaces_pts {d : Quad × Quad} {space : ℕ → EdgeG → Py (EdgeSpace ℝ)} : ∀ {es : List ℕ} {h h' : EdgeHeap} {bs : List (EdgeSpace ℝ)},
    SharedSolver.buildEdgeSpaces d space h es = .ok (h', bs) → (∀ e ∈ es, (h' e).pts = none) ∧ ∀ e ∉ es, h' e = h e
  | [], h, h', bs, hh => by cases hh; exact ⟨by simp, fun _ _ => rfl⟩
  | e :: es, h, h', bs, hh => by
    obtain ⟨h1, hh1, hh⟩ := bind_ok hh
    obtain ⟨x, hx, hh1⟩ := bind_ok hh1
    cases hh1
    obtain ⟨b, hb, hh⟩ := bind_ok hh
    obtain ⟨r, hr, hh⟩ := bind_ok hh
    obtain ⟨h2, bs2⟩ := r
    cases hh
    obtain ⟨i1, i2⟩ := buildEdgeSpaces_pts hr
    refine ⟨fun i hi => ?_, fun i hi => ?_⟩
    · by_cases hm : i ∈ es
      · exact i1 i hm
      · rcases List.mem_cons.1 hi with rfl | hi
        · rw [i2 i hm]; simp [EdgeHeap.deparameterize, EdgeG.deparameterize]
        · exact absurd hi hm
    · simp only [List.mem_cons, not_or] at hi
      rw [i2 i hi.2]
      simp [EdgeHeap.deparameterize, hi.1]

/-- C122 fails: building the edge spaces of a mesh discards the samples of all its edges.  A cell that was parameterized before raises
`NotParameterizedError` when its boundary points are asked for or a polynomial is integrated over it. -/
theorem C122_space {d : Quad × Quad} {space : ℕ → EdgeG → Py (EdgeSpace ℝ)} {es : List ℕ} {h h' : EdgeHeap} {bs : List (EdgeSpace ℝ)}
    (hh : SharedSolver.buildEdgeSpaces d space h es = .ok (h', bs)) {K : CellRef} (he : ∃ e ∈ K.getEdges, e ∈ es) (q : Poly ℝ) :
    (K.read h').getBoundaryPoints = .error .notParameterized ∧ integratePoly q (K.read h') = .error .notParameterized := by
  obtain ⟨e, he, hes⟩ := he
  obtain ⟨c, hc, hec⟩ := List.mem_flatMap.1 he
  have hp := (buildEdgeSpaces_pts hh).1 e hes
  have hg : (K.read h').guard = .error .notParameterized := by
    have : (K.read h').isParameterized = false := by
      by_contra h0
      simp only [Bool.not_eq_false, CellG.isParameterized, List.all_eq_true] at h0
      have := h0 (c.read h') (List.mem_map.2 ⟨c, hc, rfl⟩)
      simp only [ContourG.isParameterized, List.all_eq_true] at this
      have := this (h' e) (List.mem_map.2 ⟨e, hec, rfl⟩)
      simp [hp] at this
    simp [CellG.guard, this]
  have h1 : (K.read h').getBoundaryPoints = .error .notParameterized := by
    unfold CellG.getBoundaryPoints
    rw [hg]; rfl
  exact ⟨h1, by unfold integratePoly; rw [h1]; rfl⟩

end PFEM
