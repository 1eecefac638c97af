import Verif.Model.MeshReuse
import Verif.Props.PlanarMesh
import Verif.Lemmas.Py

/-!
Property theorems C127: meshes that share edges, and edges that are added to a mesh later.
-/

set_option linter.unusedSectionVars false

namespace PFEM

variable {K : Type} [Field K] [LinearOrder K]

namespace Reuse

/-- two states of the edges that differ in the numbers of the edges only -/
def Alike (st st' : EdgeStore K) : Prop := ∀ e, (st' e).anchor = (st e).anchor ∧ (st' e).endpnt = (st e).endpnt ∧ (st' e).pos = (st e).pos ∧
  (st' e).neg = (st e).neg

variable {st st' : EdgeStore K}

theorem Alike.isLoop (h : Alike st st') (e : ℕ) : (st' e).isLoop = (st e).isLoop := by
  rw [EdgeRec.isLoop, EdgeRec.isLoop, (h e).1, (h e).2.1]

theorem Alike.orients (h : Alike st st') (c : ℤ) : ∀ es, CellTopo.orients st' c es = CellTopo.orients st c es
  | [] => rfl
  | e :: es => by
    rw [CellTopo.orients, CellTopo.orients, h.orients c es, CellTopo.orient, CellTopo.orient, (h e).2.2.1, (h e).2.2.2]

theorem Alike.incRow (h : Alike st st') (a : PVert K) : ∀ l, CellTopo.incRow st' a l = CellTopo.incRow st a l
  | [] => rfl
  | (e, o) :: l => by
    rw [CellTopo.incRow, CellTopo.incRow, h.incRow a l, CellTopo.endPt, CellTopo.endPt, (h e).1, (h e).2.1]

theorem Alike.incMat (h : Alike st st') (all : List (ℕ × ℤ)) : ∀ l, CellTopo.incMat st' all l = CellTopo.incMat st all l
  | [] => rfl
  | (e, o) :: l => by
    rw [CellTopo.incMat, CellTopo.incMat, h.incMat all l, CellTopo.startPt, CellTopo.startPt, (h e).1, (h e).2.1]
    simp only [h.incRow]

theorem Alike.make (h : Alike st st') (c : ℤ) (es : List ℕ) : CellTopo.make st' c es = CellTopo.make st c es := by
  have hi : ∀ all, CellTopo.incidence st' all = CellTopo.incidence st all := fun all => by
    rw [CellTopo.incidence, CellTopo.incidence, h.incMat]
  rw [CellTopo.make, CellTopo.make, CellTopo.init, CellTopo.init, h.orients]
  simp only [hi]

theorem Alike.vertStep (h : Alike st st') : PlanarMesh.vertStep st' = PlanarMesh.vertStep st := by
  funext l e
  rw [PlanarMesh.vertStep, PlanarMesh.vertStep, h.isLoop, (h e).1, (h e).2.1]

theorem Alike.cellStep (h : Alike st st') : PlanarMesh.cellStep st' = PlanarMesh.cellStep st := by
  funext l e
  rw [PlanarMesh.cellStep, PlanarMesh.cellStep, (h e).2.2.1, (h e).2.2.2]

theorem Alike.addEdges (h : Alike st st') : ∀ es s, PlanarMesh.addEdges st' es s = PlanarMesh.addEdges st es s
  | [], _ => rfl
  | e :: es, s => by
    rw [PlanarMesh.addEdges, PlanarMesh.addEdges, PlanarMesh.addEdge, PlanarMesh.addEdge, (h e).2.2.1, (h e).2.2.2]
    simp only [h.addEdges es]

theorem alike_setIdx (st : EdgeStore K) (k : ℕ) (es : List ℕ) : Alike st (PlanarMesh.setIdx st k es) := fun e =>
  PlanarMesh.setIdx_fields st k es e

theorem alike_init {es : List ℕ} {m : PlanarMesh K} (h : PlanarMesh.init st es = .ok m) : Alike st m.store := by
  obtain ⟨r, -, h1, -⟩ := PlanarMesh.init_spec st es m h
  rw [h1]
  exact alike_setIdx _ _ _

theorem Alike.symm (h : Alike st st') : Alike st' st := fun e => ⟨(h e).1.symm, (h e).2.1.symm, (h e).2.2.1.symm, (h e).2.2.2.symm⟩

theorem Alike.trans {st'' : EdgeStore K} (h : Alike st st') (h' : Alike st' st'') : Alike st st'' := fun e =>
  ⟨(h' e).1.trans (h e).1, (h' e).2.1.trans (h e).2.1, (h' e).2.2.1.trans (h e).2.2.1, (h' e).2.2.2.trans (h e).2.2.2⟩

theorem Alike.ext (h : Alike st st') {e : ℕ} (hi : (st' e).idx = (st e).idx) : st' e = st e := by
  have := h e
  revert this hi
  cases st' e
  cases st e
  rintro rfl ⟨h1, h2, h3, h4⟩
  simp only at h1 h2 h3 h4
  subst h1 h2 h3 h4
  rfl

end Reuse

open Reuse

/-- C127: making a second mesh changes nothing but the numbers of its edges.  The cells of the first mesh, their positions and the boundary flags
stay what they were. -/
theorem C127_frame {es2 : List ℕ} {m1 m2 : PlanarMesh K} (h2 : PlanarMesh.init m1.store es2 = .ok m2) :
    (∀ e, m2.store e = { m1.store e with idx := (m2.store e).idx }) ∧ (∀ e, e ∉ es2 → m2.store e = m1.store e) ∧
      (∀ c, (m1.after m2.store).getCell c = m1.getCell c ∧ (m1.after m2.store).getAbsCellIdx c = m1.getAbsCellIdx c) ∧
      (∀ v, (m1.after m2.store).vertIsOnBoundary v = m1.vertIsOnBoundary v) ∧
      ∀ k, (m1.after m2.store).edgeIsOnBoundary k = m1.edgeIsOnBoundary k := by
  have ha := alike_init h2
  obtain ⟨-, -, hmem, -, -, hout⟩ := C34_edges _ _ _ h2
  refine ⟨fun e => ?_, fun e he => hout e (by rwa [hmem]), fun c => ⟨?_, rfl⟩, fun v => ?_, fun k => ?_⟩
  · obtain ⟨a, b, c, d⟩ := ha e
    show m2.store e = ⟨(m1.store e).anchor, (m1.store e).endpnt, (m1.store e).pos, (m1.store e).neg, (m2.store e).idx⟩
    rw [← a, ← b, ← c, ← d]
  · have hb : ∀ e, (m2.store e).borders c = (m1.store e).borders c := fun e => by
      rw [EdgeRec.borders, EdgeRec.borders, (ha e).2.2.1, (ha e).2.2.2]
    simp only [PlanarMesh.getCell, PlanarMesh.getCellEdges, PlanarMesh.after, hb, ha.make]
  · simp only [PlanarMesh.vertIsOnBoundary, PlanarMesh.after, (ha _).1, (ha _).2.1, (ha _).2.2.1, (ha _).2.2.2]
  · simp only [PlanarMesh.edgeIsOnBoundary, PlanarMesh.after, (ha _).2.2.1, (ha _).2.2.2]

/-- C127: after a second mesh was made, the first one is in the state in which it would be if it were made now, exactly if every edge of both meshes
has the same number in both.  (For instance: no common edges; the same list; one list continuing the other.)  In particular everything proved about
meshes holds for it then. -/
theorem C127_iff {st : EdgeStore K} {es1 es2 : List ℕ} {m1 m2 : PlanarMesh K} (h1 : PlanarMesh.init st es1 = .ok m1)
    (h2 : PlanarMesh.init m1.store es2 = .ok m2) :
    PlanarMesh.init m2.store es1 = .ok (m1.after m2.store) ↔
      ∀ k e : ℕ, m1.edges[k]? = some e → e ∈ m2.edges → m2.edges[k]? = some e := by
  have a1 := alike_init h1
  have a2 := alike_init h2
  have a12 := a1.trans a2
  obtain ⟨n1, -, mem1, -, idx1, out1⟩ := C34_edges _ _ _ h1
  obtain ⟨n2, -, mem2, -, idx2, out2⟩ := C34_edges _ _ _ h2
  constructor
  · intro h k e hk he
    obtain ⟨-, -, -, -, idx3, -⟩ := C34_edges _ _ _ h
    have e1 := idx3 k e hk
    obtain ⟨j, hj⟩ := List.mem_iff_getElem?.1 he
    have e2 := idx2 j e hj
    have e3 : (m2.store e).idx = some k := by
      have : m2.store e = { m2.store e with idx := some k } := e1
      rw [this]
    rw [e2] at e3
    simp only [Option.some.injEq] at e3
    rw [← e3]
    exact hj
  · intro h
    obtain ⟨r, hr, s1, s2, s3, s4, s5, s6, s7⟩ := PlanarMesh.init_spec st es1 m1 h1
    have hr' : PlanarMesh.addEdges m2.store es1 ([], 0) = .ok r := by rw [a12.addEdges]; exact hr
    have hset : PlanarMesh.setIdx m2.store 0 r.1 = m2.store := by
      funext e
      refine (alike_setIdx m2.store 0 r.1).ext ?_
      by_cases he : e ∈ r.1
      · obtain ⟨k, hk, rfl⟩ := List.mem_iff_getElem.1 he
        rw [← s2] at hk
        have hk' : m1.edges[k]? = some r.1[k] := by simp only [s2, List.getElem?_eq_getElem (s2 ▸ hk)]
        rw [PlanarMesh.setIdx_getElem _ _ _ (s2 ▸ n1) k (s2 ▸ hk), Nat.zero_add]
        by_cases hm : r.1[k] ∈ m2.edges
        · rw [idx2 k _ (h k _ hk' hm)]
        · rw [out2 _ hm, idx1 k _ hk']
      · rw [PlanarMesh.setIdx_notMem _ _ _ _ he]
    have hc : PlanarMesh.buildCellList m2.store r.1 = m1.cellIdxList := by
      rw [s4, PlanarMesh.buildCellList, PlanarMesh.buildCellList, a12.cellStep, (alike_setIdx st 0 r.1).cellStep]
    have hv : PlanarMesh.buildVertList m2.store r.1 = m1.vertIdxList := by
      rw [s5, PlanarMesh.buildVertList, PlanarMesh.buildVertList, a12.vertStep, (alike_setIdx st 0 r.1).vertStep]
    rw [PlanarMesh.init, hr', py_ok_bind]
    simp only [hset, hc, hv]
    rw [← s2, ← s3, ← s6, ← s7]
    rfl

/-- C127: otherwise function spaces on the first mesh use the wrong edge spaces.  If the second mesh has the edge `e` of the first at position `k`, then a
function space on the first mesh takes for `e` the edge space of the edge with number `k`; if there is no such edge, an `IndexError` is raised. -/
theorem C127_spaces {es2 : List ℕ} {m1 m2 : PlanarMesh K} (h2 : PlanarMesh.init m1.store es2 = .ok m2) {deg : ℤ} {space : ℕ → EdgeSpace K} {s : GlobFunSp K} (hs : GlobFunSp.init m1 deg space = .ok s)
    {k e : ℕ} (he : m2.edges[k]? = some e) :
    (∀ e', m1.edges[k]? = some e' → (s.after m2.store).cellEdgeSpaces [e] = .ok [space e']) ∧
      (m1.edges.length ≤ k → (s.after m2.store).cellEdgeSpaces [e] = .error .indexError) := by
  obtain ⟨-, -, -, -, idx2, -⟩ := C34_edges _ _ _ h2
  have hi : ((s.after m2.store).mesh.store e).idx = some k := by
    show (m2.store e).idx = some k
    rw [idx2 k e he]
  have hes : s.edgeSpaces = m1.edges.map space := by
    unfold GlobFunSp.init at hs
    split at hs
    · cases hs
    · cases hs
      rfl
  have hes' : (s.after m2.store).edgeSpaces = m1.edges.map space := hes
  constructor
  · intro e' he'
    have : pyGetZ (m1.edges.map space) ((k : ℕ) : ℤ) = .ok (space e') := by
      unfold pyGetZ
      rw [if_pos (by omega), Int.toNat_natCast, List.getElem?_map, he']
      rfl
    simp only [GlobFunSp.cellEdgeSpaces, hi, Option.getD_some, hes', this, py_ok_bind]
  · intro hk
    have : pyGetZ (m1.edges.map space) ((k : ℕ) : ℤ) = .error .indexError := by
      unfold pyGetZ
      rw [if_pos (by omega), Int.toNat_natCast, List.getElem?_eq_none (by simpa using hk)]
    simp only [GlobFunSp.cellEdgeSpaces, hi, Option.getD_some, hes', this]
    rfl

/-- C127: `add_edge` on an existing mesh.  Edges without cells are rejected, and edges of the mesh are ignored.  A new edge is appended, but not
numbered, and the lists of cells and vertices are not updated: they are those of a new mesh made from the same edges exactly if the cells of
the edge, and its vertices if it is not closed, were there before; cells that were not there are not found. -/
theorem C127_add {st : EdgeStore K} {es : List ℕ} {m : PlanarMesh K} (h : PlanarMesh.init st es = .ok m) (e : ℕ) :
    ((st e).neg < 0 ∧ (st e).pos < 0 → m.addTo e = .error .valueError) ∧
    (¬ ((st e).neg < 0 ∧ (st e).pos < 0) → e ∈ m.edges → m.addTo e = .ok m) ∧
    (¬ ((st e).neg < 0 ∧ (st e).pos < 0) → e ∉ m.edges → ∃ m' n, m.addTo e = .ok m' ∧ PlanarMesh.init m.store (m.edges ++ [e]) = .ok n ∧
      m'.edges = n.edges ∧ m'.numEdges = n.numEdges ∧ m'.store e = st e ∧ (n.store e).idx = some m.edges.length ∧
      (m'.cellIdxList = n.cellIdxList ↔ (0 ≤ (st e).pos → (st e).pos ∈ m.cellIdxList) ∧ (0 ≤ (st e).neg → (st e).neg ∈ m.cellIdxList)) ∧
      (m'.vertIdxList = n.vertIdxList ↔ ((st e).anchor.dist2 (st e).endpnt < tol K ^ 2 ∨
        ((0 ≤ (st e).anchor.idx → (st e).anchor.idx ∈ m.vertIdxList) ∧ (0 ≤ (st e).endpnt.idx → (st e).endpnt.idx ∈ m.vertIdxList)))) ∧
      ∀ c, c ∉ m.cellIdxList → m'.getCell c = .error .indexError) := by
  have ha := alike_init h
  obtain ⟨nd, -, hmem, hnum, hidx, hout⟩ := C34_edges _ _ _ h
  obtain ⟨hv, hc, -, -, hvm, hcm⟩ := C34_index_lists _ _ _ h
  have hp := (ha e).2.2.1
  have hn := (ha e).2.2.2
  refine ⟨fun hbad => ?_, fun hgood hin => ?_, fun hgood hnew => ?_⟩
  · rw [PlanarMesh.addTo, PlanarMesh.addEdge, hp, hn, if_pos hbad]
    rfl
  · rw [PlanarMesh.addTo, PlanarMesh.addEdge, hp, hn, if_neg hgood, if_pos hin, py_ok_bind]
  · have hex : ∃ n, PlanarMesh.init m.store (m.edges ++ [e]) = .ok n := by
      rw [C34_accepts_iff]
      have h0 := (C34_accepts_iff st es).1 ⟨m, h⟩
      intro e' he'
      rcases List.mem_append.1 he' with he' | he'
      · rw [(ha e').2.2.1, (ha e').2.2.2]
        exact h0 e' ((hmem e').1 he')
      · rw [List.mem_singleton] at he'
        subst he'
        rw [hp, hn]
        rw [not_and_or, not_lt, not_lt, or_comm] at hgood
        exact hgood
    obtain ⟨n, hN⟩ := hex
    obtain ⟨nd', sub', hmem', hnum', hidx', -⟩ := C34_edges _ _ _ hN
    obtain ⟨hv', hc', -, -, hvm', hcm'⟩ := C34_index_lists _ _ _ hN
    have hnd : (m.edges ++ [e]).Nodup := List.nodup_append.2 ⟨nd, by simp, by
      intro a h1 b h2
      rw [List.mem_singleton] at h2
      rintro rfl
      exact hnew (h2 ▸ h1)⟩
    have hedges : n.edges = m.edges ++ [e] :=
      sub'.eq_of_length (((List.perm_ext_iff_of_nodup nd' hnd).2 hmem').length_eq)
    have key : ∀ {l l' : List ℤ}, l.Pairwise (· < ·) → l'.Pairwise (· < ·) → (l = l' ↔ ∀ x, x ∈ l ↔ x ∈ l') := by
      intro l l' h1 h2
      constructor
      · rintro rfl x
        rfl
      · intro hx
        exact ((List.perm_ext_iff_of_nodup (h1.imp ne_of_lt) (h2.imp ne_of_lt)).2 hx).eq_of_pairwise
          (fun a b _ _ h3 h4 => absurd h3 (lt_asymm h4)) h1 h2
    refine ⟨_, n, by rw [PlanarMesh.addTo, PlanarMesh.addEdge, hp, hn, if_neg hgood, if_neg hnew, py_ok_bind], hN, hedges.symm, ?_, ?_, ?_, ?_, ?_, ?_⟩
    · show m.numEdges + 1 = n.numEdges
      rw [hnum, hnum', hedges]
      simp
    · show m.store e = st e
      exact hout e hnew
    · rw [hidx' m.edges.length e (by rw [hedges]; simp)]
    · show m.cellIdxList = n.cellIdxList ↔ _
      rw [key hc hc']
      constructor
      · intro hx
        refine ⟨fun h0 => (hx _).2 ((hcm' _).2 ⟨h0, e, by simp, Or.inl ?_⟩), fun h0 => (hx _).2 ((hcm' _).2 ⟨h0, e, by simp, Or.inr ?_⟩)⟩
        · rw [hp]
        · rw [hn]
      · rintro ⟨h1, h2⟩ x
        rw [hcm' x]
        constructor
        · intro hx
          obtain ⟨h0, e', he', hx'⟩ := (hcm x).1 hx
          exact ⟨h0, e', by simp [(hmem e').2 he'], by rw [(ha e').2.2.1, (ha e').2.2.2]; exact hx'⟩
        · rintro ⟨h0, e', he', hx⟩
          rw [(ha e').2.2.1, (ha e').2.2.2] at hx
          rcases List.mem_append.1 he' with he' | he'
          · exact (hcm x).2 ⟨h0, e', (hmem e').1 he', hx⟩
          · rw [List.mem_singleton] at he'
            subst he'
            rcases hx with rfl | rfl
            · exact h1 h0
            · exact h2 h0
    · show m.vertIdxList = n.vertIdxList ↔ _
      rw [key hv hv']
      constructor
      · intro hx
        by_cases hl : (st e).anchor.dist2 (st e).endpnt < tol K ^ 2
        · exact Or.inl hl
        · right
          have hl' : ¬ (m.store e).anchor.dist2 (m.store e).endpnt < tol K ^ 2 := by rw [(ha e).1, (ha e).2.1]; exact hl
          refine ⟨fun h0 => (hx _).2 ((hvm' _).2 ⟨h0, e, by simp, hl', Or.inl ?_⟩), fun h0 => (hx _).2 ((hvm' _).2 ⟨h0, e, by simp, hl', Or.inr ?_⟩)⟩
          · rw [(ha e).1]
          · rw [(ha e).2.1]
      · intro hor x
        rw [hvm' x]
        constructor
        · intro hx
          obtain ⟨h0, e', he', hl, hx'⟩ := (hvm x).1 hx
          exact ⟨h0, e', by simp [(hmem e').2 he'], by rw [(ha e').1, (ha e').2.1]; exact ⟨hl, hx'⟩⟩
        · rintro ⟨h0, e', he', hl, hx⟩
          rw [(ha e').1, (ha e').2.1] at hx hl
          rcases List.mem_append.1 he' with he' | he'
          · exact (hvm x).2 ⟨h0, e', (hmem e').1 he', hl, hx⟩
          · rw [List.mem_singleton] at he'
            subst he'
            rcases hor with hor | ⟨h1, h2⟩
            · exact absurd hor hl
            · rcases hx with rfl | rfl
              · exact h1 h0
              · exact h2 h0
    · intro c hcn
      show Bind.bind (PlanarMesh.getCellEdges _ c) _ = _
      rw [PlanarMesh.getCellEdges, if_neg hcn]
      rfl

/-! ### examples -/

/-- two squares side by side: edges 0, 1, 2 of cell 0, edge 3 between the cells, edges 4, 5, 6 of cell 1 -/
def twoCells : EdgeStore ℚ := fun e =>
  let v (x y : ℚ) (i : ℤ) : PVert ℚ := ⟨x, y, i⟩
  match e with
  | 0 => ⟨v 1 1 3, v 0 1 2, 0, -1, none⟩
  | 1 => ⟨v 0 1 2, v 0 0 0, 0, -1, none⟩
  | 2 => ⟨v 0 0 0, v 1 0 1, 0, -1, none⟩
  | 3 => ⟨v 1 0 1, v 1 1 3, 0, 1, none⟩
  | 4 => ⟨v 1 0 1, v 2 0 4, 1, -1, none⟩
  | 5 => ⟨v 2 0 4, v 2 1 5, 1, -1, none⟩
  | 6 => ⟨v 2 1 5, v 1 1 3, 1, -1, none⟩
  | _ => ⟨v 0 0 0, v 0 0 0, -1, -1, none⟩

/-- A mesh of the second cell alone, made from the edges 3, 4, 5, 6, spoils the mesh of both cells: edge 3 has the number 0 afterwards, and function spaces take
for it the functions of edge 0. -/
theorem C127_broken : ∃ m1 m2 : PlanarMesh ℚ, PlanarMesh.init twoCells [0, 1, 2, 3, 4, 5, 6] = .ok m1 ∧
    PlanarMesh.init m1.store [3, 4, 5, 6] = .ok m2 ∧ PlanarMesh.init m2.store [0, 1, 2, 3, 4, 5, 6] ≠ .ok (m1.after m2.store) ∧
    ∀ (deg : ℤ) (space : ℕ → EdgeSpace ℚ) (s : GlobFunSp ℚ), GlobFunSp.init m1 deg space = .ok s →
      (s.after m2.store).cellEdgeSpaces [3] = .ok [space 0] := by
  obtain ⟨m1, h1⟩ := (C34_accepts_iff twoCells [0, 1, 2, 3, 4, 5, 6]).2 (by decide)
  have a1 := alike_init h1
  obtain ⟨m2, h2⟩ := (C34_accepts_iff m1.store [3, 4, 5, 6]).2 (by
    intro e he
    rw [(a1 e).2.2.1, (a1 e).2.2.2]
    revert e
    decide)
  have e1 : m1.edges = [0, 1, 2, 3, 4, 5, 6] := by
    obtain ⟨nd, sub, mem, -⟩ := C34_edges _ _ _ h1
    exact sub.eq_of_length (((List.perm_ext_iff_of_nodup nd (by decide)).2 mem).length_eq)
  have e2 : m2.edges = [3, 4, 5, 6] := by
    obtain ⟨nd, sub, mem, -⟩ := C34_edges _ _ _ h2
    exact sub.eq_of_length (((List.perm_ext_iff_of_nodup nd (by decide)).2 mem).length_eq)
  refine ⟨m1, m2, h1, h2, ?_, fun deg space s hs => ?_⟩
  · rw [Ne, C127_iff h1 h2, e1, e2]
    intro h
    have := h 3 3 rfl (by decide)
    exact absurd this (by decide)
  · exact (C127_spaces h2 hs (k := 0) (e := 3) (by rw [e2]; rfl)).1 0 (by rw [e1]; rfl)

/-- no common edges: the meshes do not disturb each other -/
example : ∃ m1 m2 : PlanarMesh ℚ, PlanarMesh.init twoCells [0, 1, 2] = .ok m1 ∧ PlanarMesh.init m1.store [3, 4, 5, 6] = .ok m2 ∧
    PlanarMesh.init m2.store [0, 1, 2] = .ok (m1.after m2.store) := by
  obtain ⟨m1, h1⟩ := (C34_accepts_iff twoCells [0, 1, 2]).2 (by decide)
  have a1 := alike_init h1
  obtain ⟨m2, h2⟩ := (C34_accepts_iff m1.store [3, 4, 5, 6]).2 (by
    intro e he
    rw [(a1 e).2.2.1, (a1 e).2.2.2]
    revert e
    decide)
  refine ⟨m1, m2, h1, h2, (C127_iff h1 h2).2 fun k e he he' => ?_⟩
  have i1 := ((C34_edges _ _ _ h1).2.2.1 e).1 (List.mem_of_getElem? he)
  have i2 := ((C34_edges _ _ _ h2).2.2.1 e).1 he'
  simp only [List.mem_cons, List.not_mem_nil, or_false] at i1 i2
  omega

/-- a mesh of the first cell with the edge 4 of the second cell added later: the second cell is the negative cell of edge 3 and is known, the vertex 4 is not -/
example : ∃ m m' n : PlanarMesh ℚ, PlanarMesh.init twoCells [0, 1, 2, 3] = .ok m ∧ m.addTo 4 = .ok m' ∧
    PlanarMesh.init m.store (m.edges ++ [4]) = .ok n ∧ m'.cellIdxList = n.cellIdxList ∧ m'.vertIdxList ≠ n.vertIdxList := by
  obtain ⟨m, h⟩ := (C34_accepts_iff twoCells [0, 1, 2, 3]).2 (by decide)
  obtain ⟨-, -, hmem, -⟩ := C34_edges _ _ _ h
  obtain ⟨-, -, -, -, hvm, hcm⟩ := C34_index_lists _ _ _ h
  obtain ⟨m', n, h1, h2, -, -, -, -, h3, h4, -⟩ := (C127_add h 4).2.2 (by decide) (by rw [hmem]; decide)
  refine ⟨m, m', n, h, h1, h2, h3.2 ⟨fun _ => (hcm _).2 ⟨by decide, 3, by decide, Or.inr rfl⟩, fun h0 => absurd h0 (by decide)⟩, fun hx => ?_⟩
  rcases h4.1 hx with hl | ⟨-, hl⟩
  · exact absurd hl (by unfold tol; decide +kernel)
  · obtain ⟨-, e, he, -, hx⟩ := (hvm _).1 (hl (by decide))
    revert e
    decide

end PFEM
