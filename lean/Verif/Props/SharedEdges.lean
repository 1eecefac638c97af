import Verif.Lemmas.SharedEdges
import Verif.Props.CellTopo
import Verif.Props.DiscParam

/-!
Property theorem C121: cells that share `Edge` objects.  The specification is in `Spec/SharedEdges.lean`.
-/

namespace PFEM
open EdgeG

/-! ### one cell -/

/-- C121: `parameterize` of a cell that refers to shared edges has the outcome (result, exception or exhausted search) of the same call on a cell
that holds copies of its edges. -/
theorem C121_refines (inside : InsideTest) (fuel : ℕ) (d : Quad × Quad) (points : Bool) (h : EdgeHeap) (K : CellRef) (hn : K.getEdges.Nodup) :
    (K.parameterize inside fuel d points h).map (Except.map fun r => r.2.read r.1) = (K.read h).parameterizeWith inside fuel d points := by
  rw [parameterizeWith_eq]
  unfold CellRef.parameterize
  rw [show (K.read h).components = K.components.map (ContourRef.read h) from rfl, ← sampleContours_refines hn]
  cases hs : CellRef.sampleContours inside fuel d h K.components with
  | none => rfl
  | some r =>
    cases r with
    | error e => rfl
    | ok r =>
      obtain ⟨h1, cs⟩ := r
      have := finish_refines inside points h1 { K with components := cs }
      simp only [Option.map_some, Except.map] at this ⊢
      refine congrArg some ?_
      rw [show (CellRef.read h1 { K with components := cs }) = { K.read h with components := cs.map (ContourRef.read h1) } from rfl] at this
      rw [← this]
      cases CellRef.finish inside points h1 { K with components := cs } <;> rfl

theorem parameterize_split {inside : InsideTest} {fuel : ℕ} {d : Quad × Quad} {points : Bool} {h h' : EdgeHeap} {K K' : CellRef}
    (hh : K.parameterize inside fuel d points h = some (.ok (h', K'))) :
    ∃ cs, CellRef.sampleContours inside fuel d h K.components = some (.ok (h', cs)) ∧
      CellRef.finish inside points h' { K with components := cs } = .ok K' := by
  unfold CellRef.parameterize at hh
  split at hh
  · simp at hh
  · simp at hh
  · rename_i h1 cs hs
    simp only [Option.some.injEq] at hh
    obtain ⟨K1, h2, hh⟩ := bind_ok hh
    cases hh
    exact ⟨cs, hs, h2⟩

theorem sampleEdges_values {d : Quad × Quad} : ∀ {es : List ℕ} {os : List ℤ} {h h' : EdgeHeap}, es.Nodup →
    ContourRef.sampleEdges d h es os = .ok h' → ∀ (j : ℕ) (e : ℕ) (o : ℤ), es[j]? = some e → os[j]? = some o →
      ∃ x, (h e).parameterize d = .ok x ∧ h' e = if o = -1 then x.reverse else x
  | [], os, h, h', hn, hh, j, e, o, he, ho => by simp at he
  | a :: es, [], h, h', hn, hh, j, e, o, he, ho => by simp at ho
  | a :: es, b :: os, h, h', hn, hh, j, e, o, he, ho => by
    obtain ⟨hne, hn⟩ := List.nodup_cons.1 hn
    obtain ⟨h1, hh1, hh⟩ := bind_ok hh
    obtain ⟨x, hx, hh1⟩ := bind_ok hh1
    cases hh1
    cases j with
    | zero =>
      simp only [List.getElem?_cons_zero, Option.some.injEq] at he ho
      subst he; subst ho
      refine ⟨x, hx, ?_⟩
      rw [sampleEdges_frame hh hne]
      split <;> simp [EdgeHeap.reverse]
    | succ j =>
      simp only [List.getElem?_cons_succ] at he ho
      obtain ⟨y, hy, h3⟩ := sampleEdges_values hn hh j e o he ho
      have hea : e ≠ a := fun h0 => hne (h0 ▸ List.mem_of_getElem? he)
      refine ⟨y, ?_, h3⟩
      rw [← hy]
      split <;> simp [EdgeHeap.reverse, hea]

theorem sampleContours_values {inside : InsideTest} {fuel : ℕ} {d : Quad × Quad} : ∀ {cs cs' : List ContourRef} {h h' : EdgeHeap},
    (cs.flatMap ContourRef.edges).Nodup → CellRef.sampleContours inside fuel d h cs = some (.ok (h', cs')) →
    ∀ c ∈ cs, ∀ (j : ℕ) (e : ℕ) (o : ℤ), c.edges[j]? = some e → c.orients[j]? = some o →
      ∃ x, (h e).parameterize d = .ok x ∧ h' e = if o = -1 then x.reverse else x
  | [], cs', h, h', hn, hh, c, hc, j, e, o, he, ho => by simp at hc
  | c0 :: cs, cs', h, h', hn, hh, c, hc, j, e, o, he, ho => by
    simp only [List.flatMap_cons, List.nodup_append] at hn
    obtain ⟨n1, n2, n3⟩ := hn
    unfold CellRef.sampleContours at hh
    split at hh
    · simp at hh
    · simp at hh
    · rename_i h1 c1 hc1
      split at hh
      · simp at hh
      · simp at hh
      · rename_i h2 cs2 hcs
        simp only [Option.some.injEq, Except.ok.injEq, Prod.mk.injEq] at hh
        obtain ⟨rfl, rfl⟩ := hh
        obtain ⟨a1, a2, a3⟩ := contour_frame hc1
        obtain ⟨b1, b2⟩ := sampleContours_frame hcs
        rcases List.mem_cons.1 hc with rfl | hc
        · obtain ⟨x, hx, h3⟩ := sampleEdges_values n1 a1 j e o he ho
          exact ⟨x, hx, by rw [b2 e fun h0 => n3 e (List.mem_of_getElem? he) e h0 rfl, h3]⟩
        · obtain ⟨x, hx, h3⟩ := sampleContours_values n2 hcs c hc j e o he ho
          refine ⟨x, ?_, h3⟩
          rw [← hx, sampleEdges_frame a1 fun h0 => n3 e h0 e (List.mem_flatMap.2 ⟨c, hc, List.mem_of_getElem? he⟩) rfl]

/-- C121: a call of `parameterize` that returns leaves alone every edge that is not on the boundary of the cell; an edge on the boundary is sampled
anew, and reversed if its orientation is `-1`; the cell has the edges it had. -/
theorem C121_frame {inside : InsideTest} {fuel : ℕ} {d : Quad × Quad} {points : Bool} {h h' : EdgeHeap} {K K' : CellRef} (hn : K.getEdges.Nodup)
    (hh : K.parameterize inside fuel d points h = some (.ok (h', K'))) :
    (∀ e ∉ K.getEdges, h' e = h e) ∧ K'.getEdges.Perm K.getEdges ∧
    ∀ c ∈ K.components, ∀ (j : ℕ) (e : ℕ) (o : ℤ), c.edges[j]? = some e → c.orients[j]? = some o →
      ∃ x, (h e).parameterize d = .ok x ∧ h' e = if o = -1 then x.reverse else x := by
  obtain ⟨cs, h1, h2⟩ := parameterize_split hh
  obtain ⟨b1, b2⟩ := sampleContours_frame h1
  refine ⟨b2, ?_, sampleContours_values hn h1⟩
  have := (finish_edges h2).flatMap_right ContourRef.edges
  rw [show K.getEdges = K.components.flatMap ContourRef.edges from rfl, ← b1.edges]
  exact this

/-! ### any history -/

theorem sampleEdges_same {n p : ℤ} {d : Quad × Quad} (hd : getQuadDict n p = .ok d) : ∀ {es : List ℕ} {os : List ℤ} {h h' : EdgeHeap},
    (∀ i, (h i).Settled) → ContourRef.sampleEdges d h es os = .ok h' → ∀ i, (h i).SameEdge (h' i)
  | [], os, h, h', hs, hh, i => by cases os <;> · cases hh; rfl
  | e :: es, [], h, h', hs, hh, i => by cases hh; rfl
  | e :: es, o :: os, h, h', hs, hh, i => by
    obtain ⟨h1, hh1, hh⟩ := bind_ok hh
    obtain ⟨x, hx, hh1⟩ := bind_ok hh1
    cases hh1
    have k := settled_param hd (hs e) hx
    have k1 : ∀ i, (h i).SameEdge ((if o = -1 then EdgeHeap.reverse (Function.update h e x) e else Function.update h e x) i) := by
      intro i
      by_cases hi : i = e
      · subst hi
        split
        · simp only [EdgeHeap.reverse, Function.update_self]; exact k.trans (sameEdge_reverse x)
        · simpa using k
      · split <;> simp [EdgeHeap.reverse, hi, sameEdge_refl]
    exact (k1 i).trans (sampleEdges_same hd (fun j => sameEdge_settled (k1 j) (hs j)) hh i)

theorem sampleContours_same {n p : ℤ} {d : Quad × Quad} (hd : getQuadDict n p = .ok d) {inside : InsideTest} {fuel : ℕ} :
    ∀ {cs cs' : List ContourRef} {h h' : EdgeHeap}, (∀ i, (h i).Settled) →
    CellRef.sampleContours inside fuel d h cs = some (.ok (h', cs')) → ∀ i, (h i).SameEdge (h' i)
  | [], cs', h, h', hs, hh, i => by
    simp only [CellRef.sampleContours, Option.some.injEq, Except.ok.injEq, Prod.mk.injEq] at hh
    rw [hh.1]; rfl
  | c :: cs, cs', h, h', hs, hh, i => by
    unfold CellRef.sampleContours at hh
    split at hh
    · simp at hh
    · simp at hh
    · rename_i h1 c1 hc1
      split at hh
      · simp at hh
      · simp at hh
      · rename_i h2 cs2 hcs
        simp only [Option.some.injEq, Except.ok.injEq, Prod.mk.injEq] at hh
        obtain ⟨rfl, rfl⟩ := hh
        have k := sampleEdges_same hd hs (contour_frame hc1).1
        exact (k i).trans (sampleContours_same hd (fun j => sameEdge_settled (k j) (hs j)) hcs i)

theorem foldl_deparam_same : ∀ (es : List ℕ) (h : EdgeHeap) (i : ℕ), (h i).SameEdge (es.foldl EdgeHeap.deparameterize h i)
  | [], _, _ => rfl
  | e :: es, h, i => by
    refine EdgeG.SameEdge.trans ?_ (foldl_deparam_same es (h.deparameterize e) i)
    by_cases hi : i = e
    · subst hi; simp [EdgeHeap.deparameterize, sameEdge_deparam]
    · simp [EdgeHeap.deparameterize, hi, sameEdge_refl]

theorem dropContours_same : ∀ (cs : List ContourRef) (h : EdgeHeap) (i : ℕ), (h i).SameEdge ((CellRef.dropContours h cs).1 i)
  | [], _, _ => rfl
  | c :: cs, h, i => (foldl_deparam_same c.edges h i).trans (dropContours_same cs _ i)

theorem leads_same {h h' : EdgeHeap} {c : EdgeCall} (hv : c.Valid) (hs : ∀ i, (h i).Settled) (hc : c.Leads h h') (i : ℕ) :
    (h i).SameEdge (h' i) := by
  cases c with
  | paramEdge d e =>
    obtain ⟨n, p, hd⟩ := hv
    obtain ⟨x, hx, hc⟩ := bind_ok hc
    cases hc
    by_cases hi : i = e
    · subst hi; simpa using settled_param hd (hs i) hx
    · simp [hi, sameEdge_refl]
  | deparamEdge e => cases hc; exact foldl_deparam_same [e] h i
  | reverseEdge e =>
    cases hc
    by_cases hi : i = e
    · subst hi; simp [EdgeHeap.reverse, sameEdge_reverse]
    · simp [EdgeHeap.reverse, hi, sameEdge_refl]
  | paramCell inside fuel d points K =>
    obtain ⟨n, p, hd⟩ := hv
    obtain ⟨K', hc⟩ := hc
    obtain ⟨cs, h1, -⟩ := parameterize_split hc
    exact sampleContours_same hd hs h1 i
  | deparamCell K => cases hc; exact dropContours_same K.components h i

/-- C121: calls of `parameterize`, `deparameterize` and `reverse_orientation` on edges and cells, in any order, change nothing but the samples. -/
theorem C121_calls {h h' : EdgeHeap} {cs : List EdgeCall} (hs : ∀ i, (h i).Settled) (hc : EdgeCalls h cs h') (i : ℕ) :
    (h i).SameEdge (h' i) := by
  induction hc with
  | nil h => rfl
  | cons hv h1 _ ih =>
    have k := leads_same hv hs h1
    exact (k i).trans (ih fun j => sameEdge_settled (k j) (hs j))

theorem sampleEdges_sim {d : Quad × Quad} : ∀ {es : List ℕ} {os : List ℤ} {h g : EdgeHeap} (S : List ℕ), es.length = os.length →
    (∀ i, (h i).SameEdge (g i)) → (∀ i ∈ S, h i = g i) →
    (∃ x, ContourRef.sampleEdges d h es os = .error x ∧ ContourRef.sampleEdges d g es os = .error x) ∨
    ∃ h' g', ContourRef.sampleEdges d h es os = .ok h' ∧ ContourRef.sampleEdges d g es os = .ok g' ∧
      (∀ i, (h' i).SameEdge (g' i)) ∧ ∀ i ∈ S ++ es, h' i = g' i
  | [], os, h, g, S, hl, h1, h2 => .inr ⟨h, g, by cases os <;> rfl, by cases os <;> rfl, h1, by simpa using h2⟩
  | e :: es, [], h, g, S, hl, h1, h2 => by simp at hl
  | e :: es, o :: os, h, g, S, hl, h1, h2 => by
    simp only [ContourRef.sampleEdges, EdgeHeap.parameterize]
    rw [sameEdge_param (h1 e) d]
    cases hx : (g e).parameterize d with
    | error x => exact .inl ⟨x, rfl, rfl⟩
    | ok x =>
      simp only [py_ok_bind]
      have key : ∀ f : EdgeHeap, ∀ i, (if o = -1 then EdgeHeap.reverse (Function.update f e x) e else Function.update f e x) i =
          if i = e then (if o = -1 then x.reverse else x) else f i := by
        intro f i
        by_cases hi : i = e
        · subst hi; split <;> simp [EdgeHeap.reverse]
        · split <;> simp [EdgeHeap.reverse, hi]
      have := sampleEdges_sim (d := d) (es := es) (os := os) (S ++ [e])
        (h := if o = -1 then EdgeHeap.reverse (Function.update h e x) e else Function.update h e x)
        (g := if o = -1 then EdgeHeap.reverse (Function.update g e x) e else Function.update g e x) (by simpa using hl)
        (fun i => by rw [key, key]; split; exacts [rfl, h1 i])
        (fun i hi => by
          rw [key, key]
          split
          · rfl
          · rename_i hie
            simp only [List.mem_append, List.mem_singleton, hie, or_false] at hi
            exact h2 i hi)
      simpa using this

theorem contour_sim {inside : InsideTest} {fuel : ℕ} {d : Quad × Quad} {h g : EdgeHeap} {c : ContourRef} (S : List ℕ)
    (hl : c.edges.length = c.orients.length) (h1 : ∀ i, (h i).SameEdge (g i)) (h2 : ∀ i ∈ S, h i = g i) :
    (c.parameterize inside fuel d h = none ∧ c.parameterize inside fuel d g = none) ∨
    (∃ x, c.parameterize inside fuel d h = some (.error x) ∧ c.parameterize inside fuel d g = some (.error x)) ∨
    ∃ h' g' c', c.parameterize inside fuel d h = some (.ok (h', c')) ∧ c.parameterize inside fuel d g = some (.ok (g', c')) ∧
      (∀ i, (h' i).SameEdge (g' i)) ∧ (∀ i ∈ S ++ c.edges, h' i = g' i) := by
  unfold ContourRef.parameterize
  rcases sampleEdges_sim (d := d) S hl h1 h2 with ⟨x, e1, e2⟩ | ⟨h', g', e1, e2, e3, e4⟩
  · exact .inr (.inl ⟨x, by rw [e1], by rw [e2]⟩)
  · rw [e1, e2]
    simp only
    rw [read_congr (h := g') (h' := h') fun i hi => e4 i (by simp [hi])]
    split
    · exact .inr (.inl ⟨_, rfl, rfl⟩)
    · split
      · exact .inl ⟨rfl, rfl⟩
      · exact .inr (.inl ⟨_, rfl, rfl⟩)
      · exact .inr (.inr ⟨_, _, _, rfl, rfl, e3, e4⟩)

theorem sampleContours_sim {inside : InsideTest} {fuel : ℕ} {d : Quad × Quad} : ∀ {cs : List ContourRef} {h g : EdgeHeap} (S : List ℕ),
    (∀ c ∈ cs, c.edges.length = c.orients.length) → (∀ i, (h i).SameEdge (g i)) → (∀ i ∈ S, h i = g i) →
    (CellRef.sampleContours inside fuel d h cs = none ∧ CellRef.sampleContours inside fuel d g cs = none) ∨
    (∃ x, CellRef.sampleContours inside fuel d h cs = some (.error x) ∧ CellRef.sampleContours inside fuel d g cs = some (.error x)) ∨
    ∃ h' g' cs', CellRef.sampleContours inside fuel d h cs = some (.ok (h', cs')) ∧
      CellRef.sampleContours inside fuel d g cs = some (.ok (g', cs')) ∧ (∀ i, (h' i).SameEdge (g' i)) ∧
      ∀ i ∈ S ++ cs.flatMap ContourRef.edges, h' i = g' i
  | [], h, g, S, _, h1, h2 => .inr (.inr ⟨h, g, [], rfl, rfl, h1, by simpa using h2⟩)
  | c :: cs, h, g, S, hl, h1, h2 => by
    unfold CellRef.sampleContours
    rcases contour_sim (inside := inside) (fuel := fuel) (d := d) S (hl c (by simp)) h1 h2 with
      ⟨e1, e2⟩ | ⟨x, e1, e2⟩ | ⟨h', g', c', e1, e2, e3, e4⟩
    · exact .inl ⟨by rw [e1], by rw [e2]⟩
    · exact .inr (.inl ⟨x, by rw [e1], by rw [e2]⟩)
    · rw [e1, e2]
      simp only
      rcases sampleContours_sim (inside := inside) (fuel := fuel) (d := d) (cs := cs) (S ++ c.edges) (fun c hc => hl c (by simp [hc])) e3 e4 with
        ⟨f1, f2⟩ | ⟨x, f1, f2⟩ | ⟨h2, g2, cs2, f1, f2, f3, f4⟩
      · exact .inl ⟨by rw [f1], by rw [f2]⟩
      · exact .inr (.inl ⟨x, by rw [f1], by rw [f2]⟩)
      · exact .inr (.inr ⟨h2, g2, c' :: cs2, by rw [f1], by rw [f2], f3, by simpa using f4⟩)

theorem read_cell_congr {h g : EdgeHeap} {K : CellRef} (hh : ∀ i ∈ K.getEdges, h i = g i) : K.read h = K.read g := by
  unfold CellRef.read
  rw [List.map_congr_left fun c hc => read_congr (h := g) (h' := h) fun i hi => hh i (List.mem_flatMap.2 ⟨c, hc, hi⟩)]

theorem finish_congr {inside : InsideTest} {points : Bool} {h g : EdgeHeap} {K : CellRef} (hh : ∀ i ∈ K.getEdges, h i = g i) :
    K.finish inside points h = K.finish inside points g := by
  unfold CellRef.finish
  rw [read_cell_congr hh]
  cases (K.read g).findNumPts with
  | error e => rfl
  | ok x =>
    simp only [py_ok_bind]
    have e1 : CellRef.findOuter inside h { K with numPts := x.numPts } = CellRef.findOuter inside g { K with numPts := x.numPts } := by
      unfold CellRef.findOuter
      rw [read_cell_congr (K := { K with numPts := x.numPts }) hh]
    rw [e1]
    cases ho : CellRef.findOuter inside g { K with numPts := x.numPts } with
    | error e => rfl
    | ok K1 =>
      have hp : ∀ i ∈ K1.getEdges, h i = g i := by
        obtain ⟨_, _, ho⟩ := bind_ok ho
        obtain ⟨_, _, ho⟩ := bind_ok ho
        obtain ⟨cs, hcs, ho⟩ := bind_ok ho
        cases ho
        intro i hi
        exact hh i (((swap0_perm hcs).flatMap_right ContourRef.edges).mem_iff.1 hi)
      simp only [py_ok_bind]
      rw [read_cell_congr hp]
      cases (K1.read g).findStartIdx with
      | error e => rfl
      | ok y =>
        simp only [py_ok_bind]
        rw [read_cell_congr (K := { K1 with startIdx := y.startIdx }) hp]
        cases (CellRef.read g { K1 with startIdx := y.startIdx }).findClosest with
        | error e => rfl
        | ok z =>
          simp only [py_ok_bind]
          rw [read_cell_congr (K := { K1 with startIdx := y.startIdx, closest := z.closest }) hp]

/-- `parameterize` only depends on the edges up to their samples -/
theorem parameterize_sim {inside : InsideTest} {fuel : ℕ} {d : Quad × Quad} {points : Bool} {h g : EdgeHeap} {K : CellRef}
    (hl : ∀ c ∈ K.components, c.edges.length = c.orients.length) (h1 : ∀ i, (h i).SameEdge (g i)) :
    (K.parameterize inside fuel d points h = none ∧ K.parameterize inside fuel d points g = none) ∨
    (∃ x, K.parameterize inside fuel d points h = some (.error x) ∧ K.parameterize inside fuel d points g = some (.error x)) ∨
    ∃ h' g' K', K.parameterize inside fuel d points h = some (.ok (h', K')) ∧ K.parameterize inside fuel d points g = some (.ok (g', K')) ∧
      (∀ e ∈ K.getEdges, h' e = g' e) ∧ K'.read h' = K'.read g' := by
  unfold CellRef.parameterize
  rcases sampleContours_sim (inside := inside) (fuel := fuel) (d := d) [] hl h1 (by simp) with
    ⟨e1, e2⟩ | ⟨x, e1, e2⟩ | ⟨h', g', cs, e1, e2, e3, e4⟩
  · exact .inl ⟨by rw [e1], by rw [e2]⟩
  · exact .inr (.inl ⟨x, by rw [e1], by rw [e2]⟩)
  · have he := (sampleContours_frame e1).1.edges
    have hag : ∀ i ∈ CellRef.getEdges { K with components := cs }, h' i = g' i := fun i hi => e4 i (by rw [List.nil_append, ← he]; exact hi)
    rw [e1, e2]
    simp only
    rw [finish_congr hag]
    cases hf : CellRef.finish inside points g' { K with components := cs } with
    | error x => exact .inr (.inl ⟨x, rfl, rfl⟩)
    | ok K' =>
      refine .inr (.inr ⟨h', g', K', rfl, rfl, fun e he' => e4 e (by rw [List.nil_append]; exact he'), read_cell_congr fun i hi => ?_⟩)
      exact hag i (((finish_edges hf).flatMap_right ContourRef.edges).mem_iff.1 hi)

/-- C121: whatever calls of `parameterize`, `deparameterize` and `reverse_orientation` on edges and cells (this one and its neighbours, with other
quadrature rules) went before, `parameterize` of a cell has the same outcome as on the edges as they were at the beginning: the same exception, or the
same attributes and the same samples on all its edges. -/
theorem C121_history {h h' : EdgeHeap} {calls : List EdgeCall} (hs : ∀ i, (h i).Settled) (hc : EdgeCalls h calls h') (inside : InsideTest) (fuel : ℕ)
    (d : Quad × Quad) (points : Bool) {K : CellRef} (hl : ∀ c ∈ K.components, c.edges.length = c.orients.length) :
    (K.parameterize inside fuel d points h').map (Except.map fun r => (r.2, r.2.read r.1)) =
      (K.parameterize inside fuel d points h).map (Except.map fun r => (r.2, r.2.read r.1)) := by
  rcases parameterize_sim (inside := inside) (fuel := fuel) (d := d) (points := points) hl (fun i => (C121_calls hs hc i)) with
    ⟨e1, e2⟩ | ⟨x, e1, e2⟩ | ⟨a, b, K', e1, e2, -, e4⟩
  · rw [e1, e2]
  · rw [e1, e2]
  · rw [e1, e2]
    simp [Except.map, e4]

/-- C121: the edges that the constructor makes meet the hypothesis. -/
theorem C121_settled {a b : Vert} {curve : CurveType} {opts : CurveOpts} {qt : String} {tb : ℝ × ℝ} {pos neg : ℤ} {e : EdgeG}
    (h : EdgeG.init a b curve opts qt tb pos neg = .ok e) : e.Settled := by
  unfold EdgeG.init at h
  split at h
  · cases h
  · cases h
    unfold EdgeG.Settled setVerts
    cases hb : a.beq b with
    | true => left; simp [EdgeOp.isJoin]
    | false => right; simp

end PFEM
