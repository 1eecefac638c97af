import Verif.Props.OuterBoundary

/-!
Property theorems C28 (releasing the samples of a contour) and C65 (the vertex nearest to a sample of a cell).
-/

namespace PFEM
open EdgeG

theorem sampleEdges_deparam (d : Quad × Quad) : ∀ (es : List EdgeG) (os : List ℤ), es.length = os.length →
    ContourG.sampleEdges d (es.map EdgeG.deparameterize) os = ContourG.sampleEdges d es os
  | [], os, _ => rfl
  | e :: es, [], h => by simp at h
  | e :: es, o :: os, h => by
    have h1 : (EdgeG.deparameterize e).parameterize d = e.parameterize d := rfl
    simp only [List.map_cons, ContourG.sampleEdges, h1, sampleEdges_deparam d es os (by simpa using h)]

/-- C28: `deparameterize` drops all samples of a contour with the sizes that belong to them, so that boundary data cannot be
asked for; sampling the contour again gives what sampling the contour as it was gives. -/
theorem C28_deparameterize (c : ContourG) :
    c.deparameterize.numPts = 0 ∧ c.deparameterize.closest = [] ∧
    c.deparameterize.edges.length = c.edges.length ∧ (∀ e ∈ c.deparameterize.edges, e.pts = none) ∧
    (c.edges ≠ [] → ∀ f, c.deparameterize.evaluateFunction f = .error .notParameterized) ∧
    (c.edges.length = c.orients.length → ∀ d, c.deparameterize.parameterize d = c.parameterize d) := by
  refine ⟨rfl, rfl, by simp [ContourG.deparameterize], ?_, ?_, ?_⟩
  · intro e he
    obtain ⟨e', -, rfl⟩ := List.mem_map.1 he
    rfl
  · intro hne f
    obtain ⟨e, l, hl⟩ := List.exists_cons_of_ne_nil hne
    have : c.deparameterize.guard = .error .notParameterized := by
      simp [ContourG.guard, ContourG.isParameterized, ContourG.deparameterize, hl, EdgeG.deparameterize]
    simp only [ContourG.evaluateFunction, this, bind, Except.bind]
  · intro ho d
    simp only [ContourG.parameterize]
    rw [show c.deparameterize.orients = c.orients from rfl, show c.deparameterize.edges = c.edges.map EdgeG.deparameterize from rfl,
      sampleEdges_deparam d _ _ ho]
    cases ContourG.sampleEdges d c.edges c.orients with
    | error e => rfl
    | ok es =>
      simp only [bind, Except.bind, ContourG.findNumPts]
      cases hg : es.all (fun e => e.pts.isSome)
      · simp [ContourG.guard, ContourG.isParameterized, hg]
      · simp [ContourG.guard, ContourG.isParameterized, hg, ContourG.findLocalVertIdx, ContourG.findClosest, bind, Except.bind]
        rfl

/-! ### nearest vertices of a cell -/

/-- the entry for sample `j` of component `i` should be the place, among all samples of the cell, of the vertex nearest to it
on that component: the component's own entry moved by the number of samples before the component -/
def NearestOf (K : CellG) (i : ℕ) : Prop :=
  ∀ c s, K.components[i]? = some c → K.startIdx[i]? = some s → ∀ (j : ℕ) v, c.closest[j]? = some v → K.closest[s + j]? = some (s + v)

theorem findClosest_eq {K : CellG} (h : K.Ready) (hl : ∀ c ∈ K.components, c.closest.length = c.numPts) :
    K.findClosest = .ok { K with closest := (K.components.map ContourG.closest).flatten } := by
  have := blockLoop_start (fun (c : ContourG) _ _ => (.ok c.closest : Py (List ℕ))) ContourG.numPts K.components
    (List.replicate K.numPts 0) (vs := K.components.map ContourG.closest) (by
      rw [List.length_replicate, h.numPts, CellG.cols, List.length_flatMap]
      congr 1
      exact List.map_congr_left fun c hc => ((h.ready c hc).numPts).symm)
    (blocks_const _ _ _ _ _ fun _ _ => rfl) (by
      rw [List.map_map]
      exact List.map_congr_left fun c hc => hl c hc)
  rw [offsets_zero, ← h.startIdx] at this
  simp only [CellG.findClosest, h.guard, bind, Except.bind, this]

/-- what `_find_closest_vert_idx` stores: the entries of every component as they are -/
theorem C65_entries {K : CellG} (h : K.Ready) (hl : ∀ c ∈ K.components, c.closest.length = c.numPts) :
    ∃ K1, K.findClosest = .ok K1 ∧ K1.components = K.components ∧ K1.startIdx = K.startIdx ∧ K1.closest.length = K.numPts ∧
      ∀ (i : ℕ) c s, K.components[i]? = some c → K.startIdx[i]? = some s → ∀ j < c.numPts, K1.closest[s + j]? = c.closest[j]? := by
  refine ⟨_, findClosest_eq h hl, rfl, rfl, ?_, ?_⟩
  · rw [List.length_flatten, List.map_map, h.numPts, CellG.cols, List.length_flatMap]
    congr 1
    exact List.map_congr_left fun c hc => by rw [Function.comp, hl c hc, (h.ready c hc).numPts]
  · intro i c s hi hs j hj
    have hlen : (K.components.map ContourG.closest).map List.length = K.components.map ContourG.numPts := by
      rw [List.map_map]
      exact List.map_congr_left fun c hc => hl c hc
    have := flatten_get (K.components.map ContourG.closest) i c.closest (by rw [List.getElem?_map, hi]; rfl) j
      (by rw [hl c (List.mem_of_getElem? hi)]; exact hj)
    rw [hlen] at this
    have hlt : i < K.components.length := (List.getElem?_eq_some_iff.1 hi).1
    rw [h.startIdx, List.getElem?_map, List.getElem?_range (by omega)] at hs
    simp only [Option.map_some, Option.some.injEq] at hs
    rw [← hs]
    exact this

/-- C65 for the first component, which is the outer boundary; what is missing are the holes, see `C65_holes`. -/
theorem C65_partial {K : CellG} (h : K.Ready) (hl : ∀ c ∈ K.components, c.closest.length = c.numPts) :
    ∃ K1, K.findClosest = .ok K1 ∧ NearestOf K1 0 := by
  obtain ⟨K1, h1, h2, h3, -, h5⟩ := C65_entries h hl
  refine ⟨K1, h1, fun c s hc hs j v hv => ?_⟩
  rw [h2] at hc
  rw [h3] at hs
  have hlt := (List.getElem?_eq_some_iff.1 hv).1
  have := h5 0 c s hc hs j (by rw [← hl c (List.mem_of_getElem? hc)]; exact hlt)
  have hs0 : s = 0 := by
    rw [h.startIdx, List.getElem?_map, List.getElem?_range (by omega)] at hs
    simp only [Option.map_some, Option.some.injEq, blockStart, List.take_zero, List.sum_nil] at hs
    exact hs.symm
  rw [this, hv, hs0]
  simp

theorem parameterize_closest {n p : ℤ} {d : Quad × Quad} (hd : getQuadDict n p = .ok d) {inside : InsideTest} {fuel : ℕ}
    {K K1 : CellG} (ho : ∀ c ∈ K.components, c.edges.length = c.orients.length)
    (h : K.parameterize inside fuel d = some (.ok K1)) : K1.findClosest = .ok K1 := by
  obtain ⟨-, hn, hlay, hr, hU⟩ := C33_parameterize hd ho h
  have hl : ∀ c ∈ K1.components, c.closest.length = c.numPts := fun c hc => (hlay c hc).nearest.1
  unfold CellG.parameterize at h
  split at h
  · cases h
  · cases h
  · simp only [Option.some.injEq] at h
    obtain ⟨Ka, -, h⟩ := bind_ok h
    obtain ⟨Kb, -, h⟩ := bind_ok h
    obtain ⟨Kc, -, h⟩ := bind_ok h
    have h' := h
    obtain ⟨-, -, h'⟩ := bind_ok h'
    obtain ⟨cl, -, h'⟩ := bind_ok h'
    cases h'
    have hrc : Kc.Ready := ⟨hr.ready, hr.numPts, hr.startIdx⟩
    rw [findClosest_eq hrc hl] at h
    simp only [Except.ok.injEq, CellG.mk.injEq] at h
    rw [findClosest_eq hr hl]
    simp only [Except.ok.injEq, CellG.mk.injEq, true_and]
    simpa using h

/-- C65 fails for every hole of every cell: the entry of the first sample of each component is 0, the first sample of the outer
boundary, and so are the samples of the hole that lie nearest to its first vertex. -/
theorem C65_holes {n p : ℤ} {d : Quad × Quad} (hd : getQuadDict n p = .ok d) {inside : InsideTest} {fuel : ℕ}
    {K K1 : CellG} (ho : ∀ c ∈ K.components, c.edges.length = c.orients.length) (hne : ∀ c ∈ K.components, c.edges ≠ [])
    (h : K.parameterize inside fuel d = some (.ok K1)) :
    NearestOf K1 0 ∧ ∀ i, 1 ≤ i → i < K1.components.length → ¬ NearestOf K1 i := by
  obtain ⟨-, hn, hlay, hr, hU⟩ := C33_parameterize hd ho h
  have hl : ∀ c ∈ K1.components, c.closest.length = c.numPts := fun c hc => (hlay c hc).nearest.1
  have hsame : K1.findClosest = .ok K1 := parameterize_closest hd ho h
  have hpos : ∀ c ∈ K1.components, 0 < c.numPts ∧ c.closest[0]? = some 0 := by
    intro c hc
    obtain ⟨hce, -⟩ := hU hne c hc
    obtain ⟨e, l, hel⟩ := List.exists_cons_of_ne_nil hce
    have h0 : c.edges[0]? = some e := by rw [hel]; rfl
    obtain ⟨L, hL, hL2⟩ := (hr.ready c hc).sampled e (by rw [hel]; simp)
    have he : e.numPts = (L.length : ℤ) := by simp [EdgeG.numPts, hL]
    obtain ⟨v, v', hv, hv', hw⟩ := (hlay c hc).width 0 e h0
    rw [(hlay c hc).first] at hv
    cases hv
    have hv0 : 0 < v' := by omega
    have := (hlay c hc).nearest.2 0 e 0 v' h0 (hlay c hc).first hv' 0 (by omega)
    rw [if_pos (by rw [he]; norm_num; omega)] at this
    refine ⟨?_, by simpa using this⟩
    have := (List.getElem?_eq_some_iff.1 this).1
    rw [hl c hc] at this
    omega
  obtain ⟨K2, h1, h2, h3, -, h5⟩ := C65_entries hr hl
  rw [hsame] at h1
  cases h1
  constructor
  · obtain ⟨K2, h1, h2⟩ := C65_partial hr hl
    rw [hsame] at h1
    cases h1
    exact h2
  · intro i hi hlt hN
    have hidx : K1.startIdx[i]? = some (blockStart (K1.components.map ContourG.numPts) i) := by
      rw [hr.startIdx, List.getElem?_map, List.getElem?_range (by omega)]
      rfl
    have hc : K1.components[i]? = some K1.components[i] := List.getElem?_eq_getElem hlt
    obtain ⟨p1, p2⟩ := hpos _ (List.getElem_mem hlt)
    have e1 := hN _ _ hc hidx 0 0 p2
    rw [h5 i _ _ hc hidx 0 p1, p2] at e1
    simp only [Option.some.injEq, add_zero] at e1
    have : 0 < blockStart (K1.components.map ContourG.numPts) i := by
      obtain ⟨k, rfl⟩ : ∃ k, i = k + 1 := ⟨i - 1, by omega⟩
      obtain ⟨q1, -⟩ := hpos _ (List.getElem_mem (show k < K1.components.length by omega))
      rw [blockStart_succ _ k (w := K1.components[k].numPts) (by
        rw [List.getElem?_map, List.getElem?_eq_getElem (by omega)]; rfl)]
      omega
    omega

/-- the square of side 4 with a square hole of side 2, four samples each -/
noncomputable def holedCell : CellG :=
  { components := [squareContour 2, squareContour 1], numPts := 8, startIdx := [0, 4, 8], meshSize := (3, 3) }

theorem holedCell_ready : holedCell.Ready := by
  refine ⟨?_, ?_, ?_⟩
  · intro c hc
    simp only [holedCell, List.mem_cons, List.not_mem_nil, or_false] at hc
    rcases hc with rfl | rfl <;> exact square_ready _
  · simp [holedCell, CellG.cols, squareContour, ContourG.cols, EdgeG.cols]
  · simp [holedCell, squareContour, List.range_succ, blockStart]

/-- C65 is violated: in the square with a square hole the first sample of the hole is said to be nearest to the first vertex of
the outer square. The cell meets the hypotheses of `C65_entries` and `C65_partial`. -/
theorem C65_violated : ∃ K1, holedCell.findClosest = .ok K1 ∧ K1.closest = [0, 0, 0, 0, 0, 0, 0, 0] ∧
    K1.startIdx[1]? = some 4 ∧ ¬ NearestOf K1 1 := by
  have hl : ∀ c ∈ holedCell.components, c.closest.length = c.numPts := by
    intro c hc
    simp only [holedCell, List.mem_cons, List.not_mem_nil, or_false] at hc
    rcases hc with rfl | rfl <;> rfl
  refine ⟨_, findClosest_eq holedCell_ready hl, rfl, rfl, ?_⟩
  intro h
  have := h (squareContour 1) 4 rfl rfl 0 0 rfl
  simp [holedCell, squareContour] at this

end PFEM
