import Verif.Props.EdgeGeom
import Verif.Props.CellBoundary
import Verif.Spec.SharedEdges

/-!
Lemmas about edges in a heap.
-/

namespace PFEM
open EdgeG

/-! ### edges up to their samples -/

theorem sameEdge_refl (e : EdgeG) : e.SameEdge e := rfl
theorem EdgeG.SameEdge.symm {e e' : EdgeG} (h : e.SameEdge e') : e'.SameEdge e := Eq.symm h
theorem EdgeG.SameEdge.trans {e e' e'' : EdgeG} (h : e.SameEdge e') (k : e'.SameEdge e'') : e.SameEdge e'' := Eq.trans h k

theorem sameEdge_reverse (e : EdgeG) : e.SameEdge e.reverse := rfl
theorem sameEdge_deparam (e : EdgeG) : e.SameEdge e.deparameterize := rfl
theorem sameEdge_pts (e : EdgeG) (l) : e.SameEdge { e with pts := l } := rfl

theorem sameEdge_param {e e' : EdgeG} (h : e.SameEdge e') (d : Quad × Quad) : e.parameterize d = e'.parameterize d := by
  have key : ∀ x : EdgeG, x.parameterize d = x.deparameterize.parameterize d := fun _ => rfl
  rw [key e, key e', show e.deparameterize = e'.deparameterize from h]

theorem sameEdge_settled {e e' : EdgeG} (h : e.SameEdge e') (hs : e.Settled) : e'.Settled := by
  have k : ∀ x : EdgeG, x.Settled ↔ x.deparameterize.Settled := fun _ => Iff.rfl
  rw [k] at hs ⊢
  rw [← show e.deparameterize = e'.deparameterize from h]
  exact hs

theorem sameEdge_orthogonal {e e' : EdgeG} {A} (h : e.orthogonal A false = .ok e') : e.SameEdge e' := by
  unfold orthogonal at h
  split at h
  · cases h
  · cases h; rfl

theorem sameEdge_dilate {e e' : EdgeG} {al} (h : e.dilate al false = .ok e') : e.SameEdge e' := by
  unfold dilate at h
  split at h
  · cases h
  · cases h; rfl

theorem sameEdge_orthIf {e e' : EdgeG} {A}
    (h : (if e.pts.isSome then orthogonal e A false else .ok e) = .ok e') : e.SameEdge e' := by
  split at h
  · exact sameEdge_orthogonal h
  · cases h; rfl

theorem sameEdge_apply {e e' : EdgeG} {op} (hj : op.isJoin = false) (h : e.apply op false = .ok e') : e.SameEdge e' := by
  cases op with
  | joinPoints a b => cases hj
  | rotate th => exact sameEdge_orthIf (e := e) h
  | reflectX => exact sameEdge_orthIf (e := e) h
  | reflectY => exact sameEdge_orthIf (e := e) h
  | translate a => cases h; rfl
  | dilate al => exact sameEdge_dilate h
  | orthogonal A => exact sameEdge_orthogonal h

theorem sameEdge_runDiary : ∀ (l : List EdgeOp) {e e' : EdgeG}, (∀ o ∈ l, o.isJoin = false) → runDiary l e = .ok e' → e.SameEdge e'
  | [], e, e', _, h => by cases h; rfl
  | o :: l, e, e', hj, h => by
    obtain ⟨e1, h1, h2⟩ := bind_ok h
    exact (sameEdge_apply (hj o (by simp)) h1).trans (sameEdge_runDiary l (fun o ho => hj o (by simp [ho])) h2)

theorem sameEdge_join {e e' : EdgeG} (hl : e.isLoop = false) (hdi : e.diary = [.joinPoints e.anchor e.endpnt])
    (h : e.joinPoints e.anchor e.endpnt false = .ok e') : e.SameEdge e' := by
  unfold joinPoints at h
  dsimp only at h
  split at h
  · cases h
  rename_i hab
  have nb := beq_far hab
  split at h
  · cases h; rfl
  · cases h
  · split at h
    · cases h
    obtain ⟨e2, r2, h⟩ := bind_ok h
    obtain ⟨e3, r3, h⟩ := bind_ok h
    cases h
    have k1 : ∀ v, e.SameEdge (translate (note false (.joinPoints e.anchor e.endpnt) e) v false) := fun _ => rfl
    have k := ((k1 _).trans (sameEdge_apply (op := .rotate _) rfl r2)).trans (sameEdge_dilate r3)
    have hk : ∀ f : EdgeG, e.SameEdge f → e.SameEdge (setVerts (translate f e.anchor false) e.anchor e.endpnt) := by
      intro f hf
      have h1 : (setVerts (translate f e.anchor false) e.anchor e.endpnt).deparameterize = { f.deparameterize with
          anchor := e.anchor, endpnt := e.endpnt, isLoop := e.anchor.beq e.endpnt
          diary := if e.anchor.beq e.endpnt then [.translate e.anchor] else [.joinPoints e.anchor e.endpnt] } := rfl
      unfold SameEdge
      rw [h1, ← show e.deparameterize = f.deparameterize from hf, nb, if_neg (by simp), ← hdi, ← hl]
      rfl
    exact hk _ k

theorem settled_param {n p : ℤ} {d : Quad × Quad} (hd : getQuadDict n p = .ok d) {e e1 : EdgeG} (hs : e.Settled)
    (h : e.parameterize d = .ok e1) : e.SameEdge e1 := by
  obtain ⟨q, hq, h⟩ := bind_ok h
  obtain ⟨l, hl, h⟩ := bind_ok h
  obtain ⟨e', he', h⟩ := bind_ok h
  cases h
  have ht := pick_type hd hq
  have key : e.SameEdge e' := by
    refine (sameEdge_pts e (some l)).trans ?_
    rcases hs with hs | ⟨h1, h2⟩
    · exact sameEdge_runDiary _ hs he'
    · have he2 : runDiary [.joinPoints e.anchor e.endpnt] { e with pts := some l } = .ok e' := h1 ▸ he'
      obtain ⟨e2, h3, h4⟩ := bind_ok he2
      cases h4
      exact sameEdge_join (e := { e with pts := some l }) h2 h1 h3
  have h6 : e'.quadType = e.quadType := (congrArg EdgeG.quadType key).symm
  have : ({ e' with quadType := q.type } : EdgeG) = e' := by rw [ht, ← h6]
  rw [this]
  exact key

/-! ### a contour -/

theorem sampleEdges_refines (d : Quad × Quad) : ∀ (es : List ℕ) (os : List ℤ) (h : EdgeHeap), es.Nodup →
    (ContourRef.sampleEdges d h es os).map (fun h' => es.map h') = ContourG.sampleEdges d (es.map h) os
  | [], os, h, _ => by cases os <;> rfl
  | e :: es, [], h, _ => rfl
  | e :: es, o :: os, h, hn => by
    obtain ⟨hne, hn⟩ := List.nodup_cons.1 hn
    simp only [ContourRef.sampleEdges, EdgeHeap.parameterize, List.map_cons, ContourG.sampleEdges]
    cases hx : (h e).parameterize d with
    | error x => rfl
    | ok x =>
      simp only [py_ok_bind]
      set h1 : EdgeHeap := if o = -1 then EdgeHeap.reverse (Function.update h e x) e else Function.update h e x with hh1
      have a1 : h1 e = if o = -1 then x.reverse else x := by
        rw [hh1]; split <;> simp [EdgeHeap.reverse]
      have a2 : ∀ i, i ≠ e → h1 i = h i := by
        intro i hi
        rw [hh1]; split <;> simp [EdgeHeap.reverse, hi]
      have a3 : es.map h1 = es.map h := List.map_congr_left fun i hi => a2 i fun h0 => hne (h0 ▸ hi)
      have ih := sampleEdges_refines d es os h1 hn
      have fr := sampleEdges_frame d es os h1
      rw [a3] at ih
      rw [← ih]
      cases hs : ContourRef.sampleEdges d h1 es os with
      | error y => rfl
      | ok h2 => simp only [Except.map, py_ok_bind, fr h2 hs e hne, a1]
where
  sampleEdges_frame (d : Quad × Quad) : ∀ (es : List ℕ) (os : List ℤ) (h h' : EdgeHeap),
      ContourRef.sampleEdges d h es os = .ok h' → ∀ i ∉ es, h' i = h i
    | [], os, h, h', hh, i, _ => by cases os <;> · cases hh; rfl
    | e :: es, [], h, h', hh, i, _ => by cases hh; rfl
    | e :: es, o :: os, h, h', hh, i, hi => by
      simp only [List.mem_cons, not_or] at hi
      obtain ⟨h1, hh1, hh⟩ := bind_ok hh
      obtain ⟨x, hx, hh1⟩ := bind_ok hh1
      cases hh1
      rw [sampleEdges_frame d es os _ h' hh i hi.2]
      split <;> simp [EdgeHeap.reverse, hi.1]

theorem sampleEdges_frame {d : Quad × Quad} {es : List ℕ} {os : List ℤ} {h h' : EdgeHeap}
    (hh : ContourRef.sampleEdges d h es os = .ok h') {i : ℕ} (hi : i ∉ es) : h' i = h i :=
  sampleEdges_refines.sampleEdges_frame d es os h h' hh i hi

theorem keep_read {h : EdgeHeap} {c : ContourRef} {g : ContourG} (h1 : g.edges = c.edges.map h) (h2 : g.orients = c.orients) :
    (c.keep g).read h = g := by
  cases g
  simp only at h1 h2
  subst h1; subst h2
  rfl

theorem prep_fields {c g : ContourG} (h : (do
      let g ← c.findNumPts
      let g ← g.findLocalVertIdx
      g.findClosest : Py ContourG) = .ok g) : g.edges = c.edges ∧ g.orients = c.orients := by
  obtain ⟨g1, h1, h⟩ := bind_ok h
  obtain ⟨_, _, h1⟩ := bind_ok h1
  cases h1
  obtain ⟨g2, h2, h⟩ := bind_ok h
  obtain ⟨_, _, h2⟩ := bind_ok h2
  cases h2
  obtain ⟨_, _, h⟩ := bind_ok h
  obtain ⟨_, _, h⟩ := bind_ok h
  cases h
  exact ⟨rfl, rfl⟩

theorem interior_fields {c g : ContourG} {inside : InsideTest} {fuel : ℕ} (h : c.findInteriorPoint inside fuel = some (.ok g)) :
    g.edges = c.edges ∧ g.orients = c.orients := by
  unfold ContourG.findInteriorPoint at h
  split at h
  · simp at h
  · dsimp only at h
    split at h
    · simp at h
    · simp at h
    · simp only [Option.some.injEq, Except.ok.injEq] at h
      subst h
      exact ⟨rfl, rfl⟩

/-- what a contour with its edges by value does in the loop of `CellG.sampleContours` -/
noncomputable def contourByValue (inside : InsideTest) (fuel : ℕ) (d : Quad × Quad) (c : ContourG) : Option (Py ContourG) :=
  match c.parameterize d with
  | .error e => some (.error e)
  | .ok c => c.findInteriorPoint inside fuel

theorem contour_refines {inside : InsideTest} {fuel : ℕ} {d : Quad × Quad} {h : EdgeHeap} {c : ContourRef} (hn : c.edges.Nodup) :
    (c.parameterize inside fuel d h).map (Except.map fun r => r.2.read r.1) = contourByValue inside fuel d (c.read h) := by
  have hs := sampleEdges_refines d c.edges c.orients h hn
  unfold ContourRef.parameterize contourByValue ContourG.parameterize
  simp only [ContourRef.read] at hs ⊢
  rw [← hs]
  cases hh : ContourRef.sampleEdges d h c.edges c.orients with
  | error e => rfl
  | ok h1 =>
    simp only [Except.map, py_ok_bind]
    cases hp : (do
      let g ← ContourG.findNumPts ⟨c.edges.map h1, c.orients, c.numPts, c.vertIdx, c.closest, c.interior⟩
      let g ← g.findLocalVertIdx
      g.findClosest : Py ContourG) with
    | error e => rfl
    | ok g =>
      obtain ⟨p1, p2⟩ := prep_fields hp
      simp only
      cases hi : g.findInteriorPoint inside fuel with
      | none => rfl
      | some r =>
        cases r with
        | error e => rfl
        | ok g' =>
          obtain ⟨i1, i2⟩ := interior_fields hi
          exact congrArg (fun x => some (Except.ok x)) (keep_read (h := h1) (c := c) (i1.trans p1) (i2.trans p2))

theorem contour_frame {inside : InsideTest} {fuel : ℕ} {d : Quad × Quad} {h h' : EdgeHeap} {c c' : ContourRef}
    (hh : c.parameterize inside fuel d h = some (.ok (h', c'))) :
    ContourRef.sampleEdges d h c.edges c.orients = .ok h' ∧ c'.edges = c.edges ∧ c'.orients = c.orients := by
  unfold ContourRef.parameterize at hh
  split at hh
  · simp at hh
  · rename_i h1 hs
    split at hh
    · simp at hh
    · split at hh
      · simp at hh
      · simp at hh
      · simp only [Option.some.injEq, Except.ok.injEq, Prod.mk.injEq] at hh
        obtain ⟨rfl, rfl⟩ := hh
        exact ⟨hs, rfl, rfl⟩

/-! ### a cell -/

/-- the contours have the edges and orientations that they had -/
def SameRefs (cs cs' : List ContourRef) : Prop := List.Forall₂ (fun c c' => c'.edges = c.edges ∧ c'.orients = c.orients) cs cs'

theorem SameRefs.edges {cs cs' : List ContourRef} (h : SameRefs cs cs') : cs'.flatMap ContourRef.edges = cs.flatMap ContourRef.edges := by
  induction h with
  | nil => rfl
  | cons h _ ih => simp [h.1, ih]

theorem sampleContours_frame {inside : InsideTest} {fuel : ℕ} {d : Quad × Quad} : ∀ {cs cs' : List ContourRef} {h h' : EdgeHeap},
    CellRef.sampleContours inside fuel d h cs = some (.ok (h', cs')) →
    SameRefs cs cs' ∧ ∀ i ∉ cs.flatMap ContourRef.edges, h' i = h i
  | [], cs', h, h', hh => by
    simp only [CellRef.sampleContours, Option.some.injEq, Except.ok.injEq, Prod.mk.injEq] at hh
    obtain ⟨rfl, rfl⟩ := hh
    exact ⟨.nil, fun _ _ => rfl⟩
  | c :: cs, cs', h, h', hh => by
    unfold CellRef.sampleContours at hh
    split at hh
    · simp at hh
    · simp at hh
    · rename_i h1 c1 hc
      split at hh
      · simp at hh
      · simp at hh
      · rename_i h2 cs2 hcs
        simp only [Option.some.injEq, Except.ok.injEq, Prod.mk.injEq] at hh
        obtain ⟨rfl, rfl⟩ := hh
        obtain ⟨a1, a2, a3⟩ := contour_frame hc
        obtain ⟨b1, b2⟩ := sampleContours_frame hcs
        refine ⟨.cons ⟨a2, a3⟩ b1, fun i hi => ?_⟩
        simp only [List.flatMap_cons, List.mem_append, not_or] at hi
        rw [b2 i hi.2, sampleEdges_frame a1 hi.1]

theorem read_congr {h h' : EdgeHeap} {c : ContourRef} (hh : ∀ i ∈ c.edges, h' i = h i) : c.read h' = c.read h := by
  simp only [ContourRef.read, List.map_congr_left hh]

theorem sampleContours_refines {inside : InsideTest} {fuel : ℕ} {d : Quad × Quad} : ∀ {cs : List ContourRef} {h : EdgeHeap},
    (cs.flatMap ContourRef.edges).Nodup →
    (CellRef.sampleContours inside fuel d h cs).map (Except.map fun r => r.2.map (ContourRef.read r.1)) =
      CellG.sampleContours inside fuel d (cs.map (ContourRef.read h))
  | [], h, _ => rfl
  | c :: cs, h, hn => by
    simp only [List.flatMap_cons, List.nodup_append] at hn
    obtain ⟨n1, n2, n3⟩ := hn
    have hc := contour_refines (inside := inside) (fuel := fuel) (d := d) (h := h) n1
    simp only [contourByValue] at hc
    simp only [CellRef.sampleContours, List.map_cons, CellG.sampleContours]
    cases hp : c.parameterize inside fuel d h with
    | none =>
      rw [hp] at hc
      cases hq : (c.read h).parameterize d with
      | error e => rw [hq] at hc; simp at hc
      | ok g => rw [hq] at hc; simp only [Option.map_none] at hc; simp only [← hc, Option.map_none]
    | some r =>
      rw [hp] at hc
      cases r with
      | error e =>
        cases hq : (c.read h).parameterize d with
        | error e' => rw [hq] at hc; simpa [Except.map] using hc
        | ok g => rw [hq] at hc; simp only [Option.map_some, Except.map] at hc; simp only [← hc, Option.map_some, Except.map]
      | ok r =>
        obtain ⟨h1, c1⟩ := r
        obtain ⟨a1, a2, a3⟩ := contour_frame hp
        cases hq : (c.read h).parameterize d with
        | error e' => rw [hq] at hc; simp [Except.map] at hc
        | ok g =>
          rw [hq] at hc
          simp only [Option.map_some, Except.map] at hc
          have e1 : cs.map (ContourRef.read h) = cs.map (ContourRef.read h1) := by
            refine List.map_congr_left fun c' hc' => (read_congr fun i hi => ?_).symm
            refine sampleEdges_frame a1 fun h0 => n3 i h0 i (List.mem_flatMap.2 ⟨c', hc', hi⟩) rfl
          have ih := sampleContours_refines (inside := inside) (fuel := fuel) (d := d) (cs := cs) (h := h1) n2
          simp only [← hc, e1, ← ih]
          cases hr : CellRef.sampleContours inside fuel d h1 cs with
          | none => rfl
          | some r =>
            cases r with
            | error e => rfl
            | ok r =>
              obtain ⟨h2, cs2⟩ := r
              have fr := (sampleContours_frame hr).2
              have : c1.read h2 = c1.read h1 := read_congr fun i hi => fr i fun h0 => n3 i (a2 ▸ hi) i h0 rfl
              simp only [Option.map_some, Except.map, List.map_cons, this]

theorem swap0_map {α β : Type} (f : α → β) (l : List α) (k : ℕ) : CellG.swap0 (l.map f) k = (CellG.swap0 l k).map (List.map f) := by
  simp only [CellG.swap0, Np.get, List.getElem?_map]
  cases l[0]? <;> cases l[k]? <;> simp [bind, Except.bind, Except.map, List.map_set]

/-- `CellG.parameterize` after the loop over the components -/
noncomputable def finishByValue (inside : InsideTest) (points : Bool) (K : CellG) : Py CellG := do
  let K ← K.findNumPts
  let K ← K.findOuter inside
  let K ← K.findStartIdx
  let K ← K.findClosest
  if points then K.generateInteriorPoints inside else .ok K

theorem map_bind {α α' β β' : Type} {x : Py α} {y : Py α'} {f : α → Py β} {g : α' → Py β'} (rd : α → α') (rd' : β → β')
    (h1 : x.map rd = y) (h2 : ∀ a, (f a).map rd' = g (rd a)) : (x >>= f).map rd' = y >>= g := by
  subst h1
  cases x with
  | error e => rfl
  | ok a => exact h2 a

theorem findNumPts_refines (h : EdgeHeap) (K : CellRef) :
    (do
      let g ← (K.read h).findNumPts
      .ok { K with numPts := g.numPts } : Py CellRef).map (CellRef.read h) = (K.read h).findNumPts := by
  unfold CellG.findNumPts
  cases (K.read h).guard <;> rfl

theorem findOuter_refines (inside : InsideTest) (h : EdgeHeap) (K : CellRef) :
    (K.findOuter inside h).map (CellRef.read h) = (K.read h).findOuter inside := by
  unfold CellRef.findOuter CellG.findOuter
  cases (K.read h).guard with
  | error e => rfl
  | ok u =>
    simp only [py_ok_bind]
    cases CellG.outerLoop inside 0 0 (K.read h).components with
    | error e => rfl
    | ok k =>
      simp only [py_ok_bind]
      rw [show (K.read h).components = K.components.map (ContourRef.read h) from rfl, swap0_map]
      cases CellG.swap0 K.components k <;> rfl

theorem findStartIdx_refines (h : EdgeHeap) (K : CellRef) :
    (do
      let g ← (K.read h).findStartIdx
      .ok { K with startIdx := g.startIdx } : Py CellRef).map (CellRef.read h) = (K.read h).findStartIdx := by
  unfold CellG.findStartIdx
  cases (K.read h).guard <;> rfl

theorem findClosest_refines (h : EdgeHeap) (K : CellRef) :
    (do
      let g ← (K.read h).findClosest
      .ok { K with closest := g.closest } : Py CellRef).map (CellRef.read h) = (K.read h).findClosest := by
  unfold CellG.findClosest
  cases (K.read h).guard with
  | error e => rfl
  | ok u =>
    simp only [py_ok_bind]
    cases Np.blockLoop (fun c _ _ => .ok c.closest) (K.read h).startIdx 0 (List.replicate (K.read h).numPts 0)
      (K.read h).components <;> rfl

theorem interiorPoints_refines (inside : InsideTest) (points : Bool) (h : EdgeHeap) (K : CellRef) :
    (if points then do
        let g ← (K.read h).generateInteriorPoints inside
        .ok { K with interior := g.interior }
      else .ok K : Py CellRef).map (CellRef.read h) =
      if points then (K.read h).generateInteriorPoints inside else .ok (K.read h) := by
  cases points with
  | false => rfl
  | true =>
    simp only [if_true]
    cases hi : (K.read h).generateInteriorPoints inside with
    | error e => rfl
    | ok g =>
      unfold CellG.generateInteriorPoints at hi
      obtain ⟨_, _, hi⟩ := bind_ok hi
      obtain ⟨_, _, hi⟩ := bind_ok hi
      obtain ⟨_, _, hi⟩ := bind_ok hi
      cases hi
      rfl

theorem finish_assoc (inside : InsideTest) (points : Bool) (h : EdgeHeap) (K : CellRef) :
    K.finish inside points h = (do
      let K ← (do
        let g ← (K.read h).findNumPts
        .ok { K with numPts := g.numPts } : Py CellRef)
      let K ← K.findOuter inside h
      let K ← (do
        let g ← (K.read h).findStartIdx
        .ok { K with startIdx := g.startIdx } : Py CellRef)
      let K ← (do
        let g ← (K.read h).findClosest
        .ok { K with closest := g.closest } : Py CellRef)
      if points then do
        let g ← (K.read h).generateInteriorPoints inside
        .ok { K with interior := g.interior }
      else .ok K) := by
  unfold CellRef.finish
  simp only [bind_assoc]
  rfl

theorem finish_refines (inside : InsideTest) (points : Bool) (h : EdgeHeap) (K : CellRef) :
    (K.finish inside points h).map (CellRef.read h) = finishByValue inside points (K.read h) := by
  rw [finish_assoc]
  exact map_bind _ _ (findNumPts_refines h K) fun K => map_bind _ _ (findOuter_refines inside h K) fun K =>
    map_bind _ _ (findStartIdx_refines h K) fun K => map_bind _ _ (findClosest_refines h K) fun K => interiorPoints_refines inside points h K

theorem finish_edges {inside : InsideTest} {points : Bool} {h : EdgeHeap} {K K' : CellRef} (hh : K.finish inside points h = .ok K') :
    K'.components.Perm K.components := by
  obtain ⟨g, hg, hh⟩ := bind_ok hh
  obtain ⟨K1, h1, hh⟩ := bind_ok hh
  obtain ⟨_, _, h1⟩ := bind_ok h1
  obtain ⟨_, _, h1⟩ := bind_ok h1
  obtain ⟨cs, hcs, h1⟩ := bind_ok h1
  cases h1
  obtain ⟨g2, hg2, hh⟩ := bind_ok hh
  obtain ⟨g3, hg3, hh⟩ := bind_ok hh
  have := swap0_perm hcs
  cases points with
  | false => cases hh; exact this
  | true =>
    obtain ⟨g4, hg4, hh⟩ := bind_ok hh
    cases hh
    exact this

theorem parameterizeWith_eq (inside : InsideTest) (fuel : ℕ) (d : Quad × Quad) (points : Bool) (K : CellG) :
    K.parameterizeWith inside fuel d points =
      match CellG.sampleContours inside fuel d K.components with
      | none => none
      | some (.error e) => some (.error e)
      | some (.ok cs) => some (finishByValue inside points { K with components := cs }) := by
  unfold CellG.parameterizeWith CellG.parameterize
  cases CellG.sampleContours inside fuel d K.components with
  | none => rfl
  | some r =>
    cases r with
    | error e => rfl
    | ok cs =>
      simp only [finishByValue]
      generalize ({ K with components := cs } : CellG) = K0
      cases h1 : K0.findNumPts with
      | error e => rfl
      | ok K1 =>
        simp only [py_ok_bind]
        cases h2 : K1.findOuter inside with
        | error e => rfl
        | ok K2 =>
          simp only [py_ok_bind]
          cases h3 : K2.findStartIdx with
          | error e => rfl
          | ok K3 =>
            simp only [py_ok_bind]
            cases h4 : K3.findClosest with
            | error e => rfl
            | ok K4 => rfl

end PFEM
