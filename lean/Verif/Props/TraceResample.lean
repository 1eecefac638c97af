import Verif.Props.TraceInput

/-!
C118: a trace whose edges are sampled again.
-/

namespace PFEM
namespace Trace

theorem sampled_ready {es : List EdgeG} {t : Trace} (h : ∀ e ∈ es, ∃ L, e.pts = some L ∧ 2 ≤ L.length) (ht : t.edges = es) :
    t.ready = true := (ready_iff t).2 fun e he => by
  obtain ⟨L, hL, -⟩ := h e (ht ▸ he)
  exact ⟨L, hL⟩

/-- what `find_values` computes depends on the functions and the edges only -/
theorem findValues_congr {t u : Trace} (hf : t.funcs = u.funcs) (he : t.edges = u.edges) :
    (t.findValues).2 = (u.findValues).2 ∧ ((t.findValues).2 = .ok () → (t.findValues).1.values = (u.findValues).1.values) := by
  have hr : t.ready = u.ready := by simp [ready, he]
  unfold findValues
  rw [hf, hr]
  rcases u.funcs with _ | fs
  · exact ⟨rfl, fun h => by cases h⟩
  · by_cases h : u.ready = true
    · simp only [h, if_true, findSizes, he]
      exact ⟨trivial, fun _ => trivial⟩
    · simp only [h]
      exact ⟨rfl, fun h => by cases h⟩

/-- C118 for functions: after the edges of a trace have been sampled again, with any numbers of points, `find_values`
stores the values of the functions at the new samples, and the sizes and blocks are those of the new samples.

Missing for the full claim: values that are set as numbers or arrays use the old sizes (`C118_violated`). -/
theorem C118_functions_partial {t : Trace} {fs : List PyFn} {gs : List (ℝ → ℝ → ℝ)} (hf : t.funcs = some fs)
    (hfs : fs.map PyFn.run = gs.map .ok) {es : List EdgeG} (hl : gs.length = es.length) (hn : t.numEdges = es.length)
    (hes : ∀ e ∈ es, ∃ L, e.pts = some L ∧ 2 ≤ L.length) :
    ((t.resample es).findValues).2 = .ok () ∧ ((t.resample es).findValues).1.Sized ∧
    ((t.resample es).findValues).1.edges = es ∧
    ((t.resample es).findValues).1.values = some (List.zipWith (fun e g => e.cols.map fun s => g s.x s.y) es gs).flatten := by
  have hb := good_bare hes
  have hg : ({ bare es with funcs := some fs } : Trace).Good :=
    good_of ⟨hb.sampled, hb.numEdges, hb.numPts, hb.idx⟩ hb.values hb.wnd hb.wtd
  have he : ({ bare es with funcs := some fs } : Trace).edges = es := edges_bare es
  have hv := findValues_eq hg rfl (gs := gs) hfs (by rw [he]; exact hl)
  obtain ⟨h1, h2⟩ := findValues_congr (t := t.resample es) (u := { bare es with funcs := some fs }) hf he.symm
  rw [hv] at h1 h2
  refine ⟨h1, ?_, ?_, ?_⟩
  · have hr : (t.resample es).ready = true := sampled_ready hes rfl
    have : ((t.resample es).findValues).1 = { (t.resample es).findSizes with values := ((t.resample es).findValues).1.values } := by
      unfold findValues
      simp only [show (t.resample es).funcs = some fs from hf, hr, if_true]
    rw [this]
    refine ⟨hes, hn, ?_, ?_⟩
    · simp only [findSizes, sizes, resample]
      congr 2
      exact List.map_congr_left fun e he => npts_sub e
    · simp only [findSizes, sizes, resample]
      rw [idxLoop_zero]
  · have hr : (t.resample es).ready = true := sampled_ready hes rfl
    unfold findValues
    simp only [show (t.resample es).funcs = some fs from hf, hr, if_true]
    rfl
  · rw [h2 h1, he]

/-- The claim is violated for every trace: after the edges have been sampled with another total number of points,
`set_trace_values` refuses an array with an entry for every sample. -/
theorem C118_violated {t : Trace} (h : t.Good) {es : List EdgeG}
    (hne : (es.map fun e => e.cols.length).sum ≠ t.sizes.sum) (v : List ℝ)
    (hv : v.length = (es.map fun e => e.cols.length).sum) :
    ((t.resample es).setValues (.one (.arr v))).2 = .error .valueError := by
  have : (t.resample es).convert (.one (.arr v)) = .error .valueError := by
    simp only [convert, show (t.resample es).numPts = some t.sizes.sum from h.numPts, attr, bind, Except.bind]
    rw [if_pos (by omega)]
  simp only [setValues, this, bind, Except.bind]

/-- … and a number is stored as often as there were samples before. -/
theorem C118_violated_number {t : Trace} (h : t.Good) {es : List EdgeG} (hlen : es.length = t.edges.length) (c : ℝ) :
    ((t.resample es).setValues (.one (.num c))).2 = .ok () ∧
    ∃ v, ((t.resample es).setValues (.one (.num c))).1.values = some v ∧ v.length = t.sizes.sum := by
  have hn : (t.resample es).numEdges = es.length := by rw [hlen]; exact h.numEdges
  have key : ∀ (left k : ℕ) (u : Trace) (a : List ℝ), k + left = es.length → u.edges = es → u.numEdges = es.length →
      u.idx = some (blocksOf t.sizes) → u.values = some a → a.length = t.sizes.sum →
      ∃ u', edgeLoop setOnEdge (List.replicate es.length (.num c)) left k u = (u', .ok ()) ∧
        ∃ v, u'.values = some v ∧ v.length = t.sizes.sum := by
    intro left
    induction left with
    | zero => intro k u a _ _ _ _ hv ha; exact ⟨u, rfl, a, hv, ha⟩
    | succ left ih =>
      intro k u a hk he hne hi hv ha
      have hk' : k < es.length := by omega
      have hg : Np.get (List.replicate es.length (FloatLike.num c)) k = .ok (.num c) := by
        simp [Np.get, hk']
      have hr : ¬ ((k : ℤ) < 0 ∨ (k : ℤ) ≥ (u.numEdges : ℤ)) := by rw [hne]; omega
      have hbl : (blocksOf t.sizes).length = es.length := by simp [blocksOf, sizes, hlen]
      obtain ⟨b, hb⟩ : ∃ b, (blocksOf t.sizes)[k]? = some b := ⟨_, List.getElem?_eq_getElem (by omega)⟩
      have hE : Np.get u.edges k = .ok (es[k]) := by
        rw [he]; simp [Np.get, List.getElem?_eq_getElem hk']
      have hblock : u.edgeBlock k (.num c) = .ok b := by
        simp only [edgeBlock, if_neg hr, Int.toNat_natCast, hE, validate, bind, Except.bind, hi, attr]
        simp [Np.get, hb]
      obtain ⟨a', ha'⟩ : ∃ a', Np.setSlice a b.1 b.2 [c] = .ok a' := by
        simp only [Np.setSlice]
        split
        · exact ⟨_, rfl⟩
        · simp
      have hset : u.setOnEdge k (.num c) = ({ u with values := some a' }, .ok ()) := by
        simp only [setOnEdge, hblock, bind, Except.bind, hv, attr, assign, ha']
      rw [edgeLoop, hg]
      simp only [hset]
      exact ih (k + 1) _ a' (by omega) he hne hi rfl (by rw [setSlice_len ha', ha])
  obtain ⟨u', h1, h2⟩ := key es.length 0 { t.resample es with values := some (List.replicate t.sizes.sum 0) }
    (List.replicate t.sizes.sum 0) (by omega) rfl hn h.idx rfl (by simp)
  have hconv : (t.resample es).convert (.one (.num c)) = .ok (List.replicate es.length (.num c)) := by
    simp only [convert, hn]
  simp only [setValues, hconv, show (t.resample es).numPts = some t.sizes.sum from h.numPts, attr, bind, Except.bind]
  simp only [hn, show (t.resample es).numPts = some t.sizes.sum from h.numPts] at h1
  rw [hn, h1]
  exact ⟨rfl, h2⟩

/-- `get_edge_sampled_point_indices`: for edge `k`, or `k - num_edges`, the place of its block, which has as many entries as the
edge has samples before its last; any other index raises `IndexError`. -/
theorem C118_indices {t : Trace} (h : t.Good) (k : ℤ) :
    (∀ (j : ℕ) (e : EdgeG), t.edges[j]? = some e → (k = j ∨ k = (j : ℤ) - t.edges.length) →
      ∃ s, t.edgeIndices k = .ok (s, s + e.cols.length) ∧ s = ((t.edges.take j).map fun e => e.cols.length).sum) ∧
    (k < -(t.edges.length : ℤ) ∨ (t.edges.length : ℤ) ≤ k → t.edgeIndices k = .error .indexError) := by
  have hl : (blocksOf t.sizes).length = t.edges.length := by simp [blocksOf, sizes]
  have hgen : t.edgeIndices k = pyGetZ (blocksOf t.sizes) k := by
    simp only [edgeIndices, h.idx, attr, bind, Except.bind]
  rw [hgen]
  constructor
  · intro j e he hk
    have hj : j < t.edges.length := by
      by_contra hc
      rw [List.getElem?_eq_none (by omega)] at he; cases he
    have hget : (blocksOf t.sizes)[j]? = some (blockStart t.sizes j, blockStart t.sizes (j + 1)) := by
      simp [blocksOf, sizes, hj]
    have hs : blockStart t.sizes j = ((t.edges.take j).map fun e => e.cols.length).sum := by
      simp [blockStart, sizes, List.map_take]
    have hs' : blockStart t.sizes (j + 1) = blockStart t.sizes j + e.cols.length := by
      simp only [blockStart, sizes]
      rw [List.take_add_one]
      simp [he]
    refine ⟨_, ?_, hs⟩
    rw [← hs']
    rcases hk with rfl | rfl
    · simp [pyGetZ, hget]
    · have h1 : ¬(0 : ℤ) ≤ (j : ℤ) - t.edges.length := by omega
      have h2 : (0 : ℤ) ≤ (j : ℤ) - t.edges.length + (blocksOf t.sizes).length := by rw [hl]; omega
      have h3 : ((j : ℤ) - t.edges.length + (blocksOf t.sizes).length).toNat = j := by rw [hl]; omega
      simp only [pyGetZ, h1, h2, if_true, if_false, h3, hget]
  · intro hk
    unfold pyGetZ
    rw [hl]
    split
    · rw [List.getElem?_eq_none (by rw [hl]; omega)]
    · rw [if_neg (by omega)]

/-- two edges sampled at other points: three and four samples in their blocks -/
noncomputable def twoEdges' : List EdgeG :=
  twoEdges.map fun e => { e with pts := e.pts.map fun L => L ++ L }

/-- the hypotheses hold for the sample trace and these edges -/
example : sampleTrace.Good ∧ twoEdges'.length = sampleTrace.edges.length ∧
    (twoEdges'.map fun e => e.cols.length).sum ≠ sampleTrace.sizes.sum ∧
    (∀ e ∈ twoEdges', ∃ L, e.pts = some L ∧ 2 ≤ L.length) := by
  refine ⟨sampleTrace_good, ?_, ?_, ?_⟩
  · rw [show sampleTrace.edges = twoEdges from edges_bare _]; simp [twoEdges']
  · rw [sampleTrace_sizes]
    simp [twoEdges', twoEdges, squareContour, EdgeG.cols]
  · intro e he
    obtain ⟨e', he', rfl⟩ := List.mem_map.1 he
    obtain ⟨L, hL, h2⟩ := twoEdges_sampled e' he'
    exact ⟨L ++ L, by simp [hL], by simp; omega⟩

end Trace
end PFEM
