import Verif.Lemmas.Layout
import Verif.Props.Split

/-!
Property theorems C28 (layout of the samples of a contour) and C33 (layout of boundary data of a cell).
-/

namespace PFEM
open EdgeG

/-! ### C28 -/

/-- every edge of the contour has been sampled, with at least two samples -/
def ContourG.Sampled (c : ContourG) : Prop := ∀ e ∈ c.edges, ∃ L, e.pts = some L ∧ 2 ≤ L.length

theorem npts_cols (e : EdgeG) : ContourG.npts e - 1 = e.cols.length := by simp [ContourG.npts, EdgeG.cols]

theorem sampled_guard {c : ContourG} (h : c.Sampled) : c.guard = .ok () := by
  have : c.isParameterized = true := by
    rw [ContourG.isParameterized, List.all_eq_true]
    intro e he
    obtain ⟨L, hL, -⟩ := h e he
    simp [hL]
  simp [ContourG.guard, this]

theorem foldl_npts : ∀ (l : List EdgeG) (n : ℕ), l.foldl (fun n e => n + (ContourG.npts e - 1)) n =
    n + (l.map fun e => ContourG.npts e - 1).sum
  | [], n => by simp
  | e :: l, n => by simp [foldl_npts l, add_assoc]

/-- the three methods at the end of `parameterize` -/
theorem layout_eq {c : ContourG} (h : c.Sampled) :
    (do let c ← c.findNumPts
        let c ← c.findLocalVertIdx
        c.findClosest) = .ok { c with
      numPts := c.cols.length
      vertIdx := (List.range (c.edges.length + 1)).map (blockStart (c.edges.map fun e => e.cols.length))
      closest := (closestVals c.cols.length 0 c.edges).flatten } := by
  have hw : (fun e => ContourG.npts e - 1) = fun e : EdgeG => e.cols.length := funext npts_cols
  have hg := sampled_guard h
  have h2 : ∀ e ∈ c.edges, 2 ≤ ContourG.npts e := by
    intro e he
    obtain ⟨L, hL, hL2⟩ := h e he
    simpa [ContourG.npts, hL] using hL2
  have hn : c.edges.foldl (fun n e => n + (ContourG.npts e - 1)) 0 = c.cols.length := by
    rw [foldl_npts, hw, ContourG.cols_len, zero_add]
  have hv : ContourG.vertIdxLoop 0 c.edges =
      (List.range (c.edges.length + 1)).map (blockStart (c.edges.map fun e => e.cols.length)) := by
    rw [vertIdxLoop_eq, offsets_zero, hw]
  have hcl : ContourG.closestLoop (ContourG.vertIdxLoop 0 c.edges) c.cols.length 0 (List.replicate c.cols.length 0) c.edges =
      .ok (closestVals c.cols.length 0 c.edges).flatten := by
    by_cases hN : c.cols.length = 0
    · have : c.edges = [] := by
        by_contra hne
        obtain ⟨e, es, he⟩ := List.exists_cons_of_ne_nil hne
        have h3 := h2 e (by simp [he])
        rw [ContourG.cols_len, he] at hN
        have h4 := npts_cols e
        simp only [List.map_cons, List.sum_cons] at hN
        omega
      simp [this, ContourG.closestLoop, closestVals, ContourG.cols]
    · have := closestLoop_eq c.cols.length hN c.edges [] [] (List.replicate c.cols.length 0) h2
        (by rw [hw, List.length_replicate, ContourG.cols_len])
      rw [vertIdxLoop_eq]
      exact this
  have e1 : c.findNumPts = .ok { c with numPts := c.cols.length } := by
    simp only [ContourG.findNumPts, hg, bind, Except.bind, hn]
  have e2 : ContourG.findLocalVertIdx { c with numPts := c.cols.length } =
      .ok { c with numPts := c.cols.length, vertIdx := ContourG.vertIdxLoop 0 c.edges } := by
    have : ContourG.guard { c with numPts := c.cols.length } = .ok () := hg
    simp only [ContourG.findLocalVertIdx, this, bind, Except.bind]
  have e3 : ContourG.findClosest { c with numPts := c.cols.length, vertIdx := ContourG.vertIdxLoop 0 c.edges } =
      .ok { c with numPts := c.cols.length, vertIdx := ContourG.vertIdxLoop 0 c.edges,
                   closest := (closestVals c.cols.length 0 c.edges).flatten } := by
    have : ContourG.guard { c with numPts := c.cols.length, vertIdx := ContourG.vertIdxLoop 0 c.edges } = .ok () := hg
    simp only [ContourG.findClosest, this, bind, Except.bind, hcl]
  rw [e1]
  simp only [bind, Except.bind]
  rw [e2]
  simp only
  rw [e3, hv]

/-- The layout that C28 asks for. -/
structure ContourLayout (c : ContourG) : Prop where
  /-- `num_pts` is the sum of `n_i - 1` -/
  total : (c.numPts : ℤ) = (c.edges.map fun e => e.numPts - 1).sum
  /-- there is one vertex index more than there are edges; the first is 0 and the last `num_pts` -/
  first : c.vertIdx[0]? = some 0
  last : c.vertIdx[c.edges.length]? = some c.numPts
  len : c.vertIdx.length = c.edges.length + 1
  /-- the block of an edge has `n_i - 1` places (`e.numPts` is `n_i`) -/
  width : ∀ (i : ℕ) e, c.edges[i]? = some e → ∃ v v' : ℕ, c.vertIdx[i]? = some v ∧ c.vertIdx[i + 1]? = some v' ∧
    (v' : ℤ) = v + (e.numPts - 1)
  /-- every index lies in exactly one block -/
  cover : ∀ m < c.numPts, ∃! i : ℕ, ∃ v v', c.vertIdx[i]? = some v ∧ c.vertIdx[i + 1]? = some v' ∧ v ≤ m ∧ m < v'
  /-- the nearest vertex: the start of the edge on the first half of its block, on the second half the start of the next
  edge, which after the last edge is the first one, at index 0 -/
  nearest : c.closest.length = c.numPts ∧ ∀ (i : ℕ) e v v', c.edges[i]? = some e → c.vertIdx[i]? = some v →
    c.vertIdx[i + 1]? = some v' → ∀ j : ℕ, v + j < v' → c.closest[v + j]? =
      some (if (j : ℤ) < e.numPts / 2 then v else if i + 1 < c.edges.length then v' else 0)

theorem layout_holds {c : ContourG} (h : c.Sampled) {c1 : ContourG} (he : c1.edges = c.edges)
    (hn : c1.numPts = c.cols.length)
    (hv : c1.vertIdx = (List.range (c.edges.length + 1)).map (blockStart (c.edges.map fun e => e.cols.length)))
    (hc : c1.closest = (closestVals c.cols.length 0 c.edges).flatten) : ContourLayout c1 := by
  have hw : (fun e => ContourG.npts e - 1) = fun e : EdgeG => e.cols.length := funext npts_cols
  have hN : ∀ e ∈ c.edges, e.numPts - 1 = (e.cols.length : ℤ) ∧ 1 ≤ e.cols.length ∧ e.numPts / 2 = ((ContourG.npts e / 2 : ℕ) : ℤ) ∧
      ContourG.npts e = e.cols.length + 1 := by
    intro e he
    obtain ⟨L, hL, hL2⟩ := h e he
    have e1 : e.cols.length = L.length - 1 := by simp [EdgeG.cols, hL]
    have e2 : e.numPts = (L.length : ℤ) := by simp [EdgeG.numPts, hL]
    have e3 : ContourG.npts e = L.length := by simp [ContourG.npts, hL]
    rw [e1, e2, e3]
    refine ⟨by omega, by omega, by omega, by omega⟩
  have h2 : ∀ e ∈ c.edges, 2 ≤ ContourG.npts e := fun e he => by have := hN e he; omega
  have hidx : ∀ i : ℕ, i ≤ c.edges.length → c1.vertIdx[i]? = some (blockStart (c.edges.map fun e => e.cols.length) i) := by
    intro i hi
    rw [hv, List.getElem?_map, List.getElem?_range (by omega)]
    rfl
  have hidx' : ∀ (i : ℕ) v, c1.vertIdx[i]? = some v → i ≤ c.edges.length ∧ v = blockStart (c.edges.map fun e => e.cols.length) i := by
    intro i v hi
    have hlt : i ≤ c.edges.length := by
      by_contra hgt
      rw [List.getElem?_eq_none (by rw [hv]; simp; omega)] at hi
      cases hi
    rw [hidx i hlt] at hi
    exact ⟨hlt, (Option.some.inj hi).symm⟩
  have htot : blockStart (c.edges.map fun e => e.cols.length) c.edges.length = c.cols.length := by
    have := blockStart_length (c.edges.map fun e => e.cols.length)
    rw [List.length_map] at this
    rw [this, ContourG.cols_len]
  constructor
  · rw [hn, he, ContourG.cols_len]
    clear hn hv hc hidx hidx' htot he h2
    unfold ContourG.Sampled at h
    generalize c.edges = l at *
    clear h
    induction l with
    | nil => rfl
    | cons a l ih =>
      simp only [List.map_cons, List.sum_cons, Nat.cast_add]
      rw [ih fun e he => hN e (by simp [he]), (hN a (by simp)).1]
  · rw [hidx 0 (by omega)]; simp [blockStart]
  · rw [he, hidx _ le_rfl, htot, hn]
  · rw [hv, he]; simp
  · intro i e hi
    rw [he] at hi
    have hlt : i < c.edges.length := by
      by_contra hge
      rw [List.getElem?_eq_none (by omega)] at hi; cases hi
    refine ⟨_, _, hidx i (by omega), hidx (i + 1) (by omega), ?_⟩
    rw [blockStart_succ _ i (w := e.cols.length) (by rw [List.getElem?_map, hi]; rfl),
      (hN e (List.mem_of_getElem? hi)).1]
    push_cast; ring
  · intro m hm
    rw [hn, ContourG.cols_len] at hm
    obtain ⟨i, w, h1, h2, h3⟩ := block_cover _ m hm
    have hlt : i < c.edges.length := by
      by_contra hge
      rw [List.getElem?_eq_none (by simp; omega)] at h1; cases h1
    refine ⟨i, ⟨_, _, hidx i (by omega), hidx (i + 1) (by omega), h2, by rw [blockStart_succ _ i h1]; exact h3⟩, ?_⟩
    rintro i' ⟨v, v', k1, k2, k3, k4⟩
    obtain ⟨l1, rfl⟩ := hidx' _ _ k1
    obtain ⟨l2, rfl⟩ := hidx' _ _ k2
    obtain ⟨w', hw'⟩ : ∃ w', (c.edges.map fun e => e.cols.length)[i']? = some w' := by
      rw [List.getElem?_eq_getElem (by simp; omega)]; exact ⟨_, rfl⟩
    rw [blockStart_succ _ i' hw'] at k4
    exact (block_unique _ m h1 hw' h2 h3 k3 k4).symm
  · have hlen := closestVals_length c.cols.length c.edges 0 h2
    refine ⟨by rw [hc, hn, List.length_flatten, hlen, hw, ContourG.cols_len], ?_⟩
    intro i e v v' hi h1 h2' j hj
    rw [he] at hi ⊢
    obtain ⟨l1, rfl⟩ := hidx' _ _ h1
    obtain ⟨l2, rfl⟩ := hidx' _ _ h2'
    obtain ⟨n1, n2, n3, n4⟩ := hN e (List.mem_of_getElem? hi)
    have hb := blockStart_succ (c.edges.map fun e => e.cols.length) i (w := e.cols.length) (by rw [List.getElem?_map, hi]; rfl)
    have hg := closestVals_get c.cols.length c.edges 0 i e hi
    have hj' : j < e.cols.length := by omega
    have hf := flatten_get _ i _ hg j (by simp; omega)
    rw [hlen, hw] at hf
    rw [hc, hf, n3, List.getElem?_append, List.length_replicate]
    simp only [zero_add, Nat.cast_lt]
    by_cases hjm : j < ContourG.npts e / 2
    · simp [hjm]
    · rw [if_neg hjm, if_neg hjm, List.getElem?_replicate, if_pos (by omega)]
      congr 1
      split
      · next hlt =>
        refine Nat.mod_eq_of_lt ?_
        rw [← htot]
        obtain ⟨w', hw'⟩ : ∃ e', c.edges[i + 1]? = some e' := by
          rw [List.getElem?_eq_getElem (by omega)]; exact ⟨_, rfl⟩
        have b2 := blockStart_succ (c.edges.map fun e => e.cols.length) (i + 1) (w := w'.cols.length)
          (by rw [List.getElem?_map, hw']; rfl)
        have b3 := blockStart_mono (c.edges.map fun e => e.cols.length) (show i + 1 + 1 ≤ c.edges.length by omega)
        have b4 := (hN w' (List.mem_of_getElem? hw')).2.1
        omega
      · next hge =>
        have : i + 1 = c.edges.length := by omega
        rw [this, htot, Nat.mod_self]

/-- C28: for every contour whose edges carry any numbers (at least two) of samples, the methods that compute the layout
succeed and the layout is as stated. -/
theorem C28_layout {c : ContourG} (h : c.Sampled) :
    ∃ c1, (do let c ← c.findNumPts
              let c ← c.findLocalVertIdx
              c.findClosest) = .ok c1 ∧ c1.edges = c.edges ∧ ContourLayout c1 :=
  ⟨_, layout_eq h, rfl, layout_holds h rfl rfl rfl rfl⟩

theorem sampleEdges_get {d : Quad × Quad} : ∀ {es : List EdgeG} {os : List ℤ} {r : List EdgeG}, es.length = os.length →
    ContourG.sampleEdges d es os = .ok r → r.length = es.length ∧ ∀ (i : ℕ) e o, es[i]? = some e → os[i]? = some o →
      ∃ e', e.parameterize d = .ok e' ∧ r[i]? = some (if o = -1 then e'.reverse else e')
  | [], [], r, _, h => by cases h; simp
  | e :: es, o :: os, r, hl, h => by
    obtain ⟨e', he', h⟩ := bind_ok h
    obtain ⟨r', hr', h⟩ := bind_ok h
    cases h
    obtain ⟨i1, i2⟩ := sampleEdges_get (by simpa using hl) hr'
    refine ⟨by simp [i1], ?_⟩
    intro i e2 o2 h1 h2
    cases i with
    | zero =>
      simp only [List.getElem?_cons_zero, Option.some.injEq] at h1 h2
      subst h1 h2
      exact ⟨e', he', by simp⟩
    | succ i =>
      simp only [List.getElem?_cons_succ] at h1 h2 ⊢
      exact i2 i e2 o2 h1 h2

theorem sampleEdges_size {n p : ℤ} {d : Quad × Quad} (hd : getQuadDict n p = .ok d) {c : ContourG} {es : List EdgeG}
    (ho : c.edges.length = c.orients.length) (hes : ContourG.sampleEdges d c.edges c.orients = .ok es) :
    ∀ e ∈ es, ∃ L, e.pts = some L ∧ (L.length : ℤ) = 2 * n + 1 ∧ 2 ≤ L.length := by
  obtain ⟨s1, s2⟩ := sampleEdges_get ho hes
  intro e he
  obtain ⟨i, hi⟩ := List.getElem?_of_mem he
  have hlt : i < c.edges.length := by
    by_contra hge
    rw [List.getElem?_eq_none (by omega)] at hi; cases hi
  obtain ⟨e', h1, h2⟩ := s2 i _ _ (List.getElem?_eq_getElem hlt) (List.getElem?_eq_getElem (by omega))
  obtain ⟨hn, L, hL, hL', -⟩ := parameterize_size hd h1
  rw [hi, Option.some.injEq] at h2
  subst h2
  split
  · refine ⟨_, by simp only [EdgeG.reverse, hL, Option.map_some]; rfl, ?_, ?_⟩
    · simp [hL']; omega
    · simp [hL']; omega
  · exact ⟨L, hL, by rw [hL']; push_cast; omega, by omega⟩

/-- what `ClosedContour.parameterize` leaves behind -/
theorem parameterize_edges {n p : ℤ} {d : Quad × Quad} (hd : getQuadDict n p = .ok d) {c c1 : ContourG}
    (ho : c.edges.length = c.orients.length) (h : c.parameterize d = .ok c1) :
    c1.edges.length = c.edges.length ∧
    (∀ (i : ℕ) e o, c.edges[i]? = some e → c.orients[i]? = some o →
      ∃ e', e.parameterize d = .ok e' ∧ c1.edges[i]? = some (if o = -1 then e'.reverse else e')) ∧
    (∀ e ∈ c1.edges, e.numPts = 2 * n + 1) ∧ c1.Ready ∧ ContourLayout c1 := by
  obtain ⟨es, hes, h⟩ := bind_ok h
  obtain ⟨s1, s2⟩ := sampleEdges_get ho hes
  have hsz := sampleEdges_size hd ho hes
  have hS : ContourG.Sampled { c with edges := es } := fun e he => by
    obtain ⟨L, h1, -, h2⟩ := hsz e he
    exact ⟨L, h1, h2⟩
  have := layout_eq hS
  rw [this] at h
  cases h
  refine ⟨s1, s2, ?_, ⟨hS, rfl, rfl⟩, layout_holds hS rfl rfl rfl rfl⟩
  intro e he
  obtain ⟨L, h1, h2, -⟩ := hsz e he
  simp [EdgeG.numPts, h1, h2]

/-- C28: after `parameterize` of a contour with one orientation per edge, edge `i` has been sampled with `2n+1` samples and
reversed if its orientation is -1, and the layout is as stated. -/
theorem C28_parameterize {n p : ℤ} {d : Quad × Quad} (hd : getQuadDict n p = .ok d) {c c1 : ContourG}
    (ho : c.edges.length = c.orients.length) (h : c.parameterize d = .ok c1) :
    c1.edges.length = c.edges.length ∧
    (∀ (i : ℕ) e o, c.edges[i]? = some e → c.orients[i]? = some o →
      ∃ e', e.parameterize d = .ok e' ∧ c1.edges[i]? = some (if o = -1 then e'.reverse else e')) ∧
    (∀ e ∈ c1.edges, e.numPts = 2 * n + 1) ∧ ContourLayout c1 :=
  let ⟨h1, h2, h3, _, h5⟩ := parameterize_edges hd ho h
  ⟨h1, h2, h3, h5⟩

theorem sampleEdges_ok {d : Quad × Quad} : ∀ {es : List EdgeG} {os : List ℤ}, es.length = os.length →
    (∀ e ∈ es, ∃ e', e.parameterize d = .ok e') → ∃ r, ContourG.sampleEdges d es os = .ok r
  | [], [], _, _ => ⟨_, rfl⟩
  | e :: es, o :: os, hl, h => by
    obtain ⟨e', he'⟩ := h e (by simp)
    obtain ⟨r, hr⟩ := sampleEdges_ok (es := es) (os := os) (by simpa using hl) fun x hx => h x (by simp [hx])
    exact ⟨_, by simp only [ContourG.sampleEdges, he', hr, bind, Except.bind]; rfl⟩

/-- C28: `parameterize` of a contour (up to the search for an interior point) succeeds if each of its edges can be
sampled. -/
theorem C28_success {n p : ℤ} {d : Quad × Quad} (hd : getQuadDict n p = .ok d) {c : ContourG}
    (ho : c.edges.length = c.orients.length) (h : ∀ e ∈ c.edges, ∃ e', e.parameterize d = .ok e') :
    ∃ c1, c.parameterize d = .ok c1 := by
  obtain ⟨es, hes⟩ := sampleEdges_ok ho h
  have hS : ContourG.Sampled { c with edges := es } := fun e he => by
    obtain ⟨L, h1, -, h2⟩ := sampleEdges_size hd ho hes e he
    exact ⟨L, h1, h2⟩
  have := layout_eq hS
  simp only [ContourG.parameterize, hes, bind, Except.bind] at this ⊢
  exact ⟨_, this⟩

theorem getQuadDict_ok : ∃ d, getQuadDict 4 7 = .ok d := (C21_dict 4 7).1.2 ⟨by norm_num, by norm_num⟩

/-- a circle can be sampled -/
theorem circle_parameterize {d : Quad × Quad} {qt : String} (hq : ∃ q, pickQuad qt d = .ok q) (a : Vert) :
    ∃ e', (unitCircle qt [.translate a]).parameterize d = .ok e' := by
  obtain ⟨q, hq⟩ := hq
  obtain ⟨γ, -, -, g3⟩ := base_samples .circle {} (by simp [OptsOk])
  have h1 := g3 0 (0.5 * (2 * Real.pi - 0) / Real.pi) (q.t.zip q.wgt)
  simp only [EdgeG.parameterize, unitCircle, hq, bind, Except.bind, h1, EdgeG.runDiary, EdgeG.apply]
  exact ⟨_, rfl⟩

/-- the hypotheses of `C28_parameterize` hold for a circle, and for a circle traversed backwards -/
example (o : ℤ) : ∃ d c c1, getQuadDict 4 7 = .ok d ∧ c.edges.length = c.orients.length ∧ c.edges ≠ [] ∧
    ContourG.parameterize d c = .ok c1 := by
  obtain ⟨d, hd⟩ := getQuadDict_ok
  obtain ⟨e', he'⟩ := circle_parameterize (d := d) (qt := "trap") ⟨d.1, rfl⟩ (Vert.mk' 1 2)
  obtain ⟨c1, h1⟩ := C28_success hd (c := ⟨[unitCircle "trap" [.translate (Vert.mk' 1 2)]], [o], 0, [], [], none⟩) rfl
    (by simp only [List.mem_singleton, forall_eq]; exact ⟨e', he'⟩)
  exact ⟨d, _, c1, hd, rfl, by simp, h1⟩

/-- the hypothesis of `C28_layout` holds for a contour with edges of different sizes -/
example : ∃ c : ContourG, c.Sampled ∧ c.edges.map EdgeG.numPts = [2, 3] := by
  let s : Sample := ⟨0, 0, 1, 0, 0, -1, 1, 0⟩
  refine ⟨⟨[{ unitCircle "trap" [] with pts := some [s, s] }, { unitCircle "trap" [] with pts := some [s, s, s] }], [1, 1],
    0, [], [], none⟩, ?_, rfl⟩
  intro e he
  simp only [List.mem_cons, List.not_mem_nil, or_false] at he
  rcases he with rfl | rfl
  · exact ⟨_, rfl, by simp⟩
  · exact ⟨_, rfl, by simp⟩

end PFEM
