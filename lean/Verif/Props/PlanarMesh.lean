import Mathlib.Algebra.Order.Field.Rat
import Mathlib.Algebra.Field.Rat
import Verif.Lemmas.PlanarMesh

/-!
C34: bookkeeping of the planar mesh, for every store of edges and every list of edge objects (with repetitions).
C35: the boundary flags.  `GlobalFunctionSpace.fun_is_on_boundary` is treated with the function space.
-/

set_option linter.unusedSectionVars false

namespace PFEM

variable {K : Type} [Field K] [LinearOrder K]

/-- The constructor succeeds exactly when every edge borders at least one cell; otherwise it raises `ValueError`. -/
theorem C34_accepts_iff (st : EdgeStore K) (es : List ℕ) :
    (∃ m, PlanarMesh.init st es = .ok m) ↔ ∀ e ∈ es, 0 ≤ (st e).pos ∨ 0 ≤ (st e).neg := by
  have key : (∃ m, PlanarMesh.init st es = .ok m) ↔ ∃ r, PlanarMesh.addEdges st es ([], 0) = .ok r := by
    constructor
    · rintro ⟨m, hm⟩
      obtain ⟨r, hr, -⟩ := PlanarMesh.init_spec st es m hm
      exact ⟨r, hr⟩
    · rintro ⟨r, hr⟩
      unfold PlanarMesh.init
      rw [hr]
      exact ⟨_, rfl⟩
  rw [key, PlanarMesh.addEdges_ok_iff]
  refine forall₂_congr fun e _ => ?_
  rw [not_and_or, not_lt, not_lt, or_comm]

theorem C34_rejects (st : EdgeStore K) (es : List ℕ) (x : PyErr) (h : PlanarMesh.init st es = .error x) :
    x = .valueError := by
  unfold PlanarMesh.init at h
  cases hr : PlanarMesh.addEdges st es ([], 0) with
  | ok r => rw [hr] at h; simp [bind, Except.bind] at h
  | error y =>
    rw [hr] at h
    simp only [bind, Except.bind, Except.error.injEq] at h
    rw [← h]
    exact PlanarMesh.addEdges_error _ _ _ _ hr

/-- The edges of the mesh are the given objects, each once, in the order of the input; edge number `k` carries
`idx = k`; apart from `idx` no edge is changed, and edges outside the mesh are not touched at all. -/
theorem C34_edges (st : EdgeStore K) (es : List ℕ) (m : PlanarMesh K) (h : PlanarMesh.init st es = .ok m) :
    m.edges.Nodup ∧ m.edges.Sublist es ∧ (∀ e, e ∈ m.edges ↔ e ∈ es) ∧ m.numEdges = m.edges.length ∧
      (∀ (k e : ℕ), m.edges[k]? = some e → m.store e = { st e with idx := some k }) ∧
      (∀ e, e ∉ m.edges → m.store e = st e) := by
  obtain ⟨r, hr, h1, h2, h3, -⟩ := PlanarMesh.init_spec st es m h
  obtain ⟨a, b, c, new, d1, d2⟩ := PlanarMesh.addEdges_spec st es _ r hr (by simp) (by simp)
  rw [h2, h3, h1]
  refine ⟨a, ?_, fun e => by simpa using c e, b, ?_, ?_⟩
  · rw [d1]; simpa using d2
  · intro k e hk
    obtain ⟨hk', rfl⟩ := List.getElem?_eq_some_iff.1 hk
    rw [PlanarMesh.setIdx_getElem _ _ _ a k hk', Nat.zero_add]
  · intro e he
    exact PlanarMesh.setIdx_notMem _ _ _ _ he

/-- The vertex list is strictly increasing and holds exactly the nonnegative indices of end points of edges that are
not loops; the cell list is strictly increasing and holds exactly the nonnegative cell indices of the edges. -/
theorem C34_index_lists (st : EdgeStore K) (es : List ℕ) (m : PlanarMesh K) (h : PlanarMesh.init st es = .ok m) :
    m.vertIdxList.Pairwise (· < ·) ∧ m.cellIdxList.Pairwise (· < ·) ∧
      m.numVerts = m.vertIdxList.length ∧ m.numCells = m.cellIdxList.length ∧
      (∀ v, v ∈ m.vertIdxList ↔ 0 ≤ v ∧ ∃ e ∈ es, ¬ (st e).anchor.dist2 (st e).endpnt < tol K ^ 2 ∧
        (v = (st e).anchor.idx ∨ v = (st e).endpnt.idx)) ∧
      (∀ c, c ∈ m.cellIdxList ↔ 0 ≤ c ∧ ∃ e ∈ es, c = (st e).pos ∨ c = (st e).neg) := by
  obtain ⟨r, hr, h1, h2, h3, h4, h5, h6, h7⟩ := PlanarMesh.init_spec st es m h
  obtain ⟨a, b, c, -⟩ := PlanarMesh.addEdges_spec st es _ r hr (by simp) (by simp)
  have hmem : ∀ e, e ∈ r.1 ↔ e ∈ es := fun e => by simpa using c e
  obtain ⟨v1, v2⟩ := PlanarMesh.vertFold_spec (PlanarMesh.setIdx st 0 r.1) r.1 [] (by simp)
  obtain ⟨c1, c2⟩ := PlanarMesh.cellFold_spec (PlanarMesh.setIdx st 0 r.1) r.1 [] (by simp)
  obtain ⟨v3, v4⟩ := PlanarMesh.sort_spec _ v1
  obtain ⟨c3, c4⟩ := PlanarMesh.sort_spec _ c1
  refine ⟨h5 ▸ v3, h4 ▸ c3, h6, h7, fun v => ?_, fun c => ?_⟩
  · rw [h5]
    unfold PlanarMesh.buildVertList
    rw [v4, v2]
    simp only [List.not_mem_nil, false_or, hmem]
    refine and_congr_right fun _ => exists_congr fun e => and_congr_right fun _ => ?_
    obtain ⟨f1, f2, -, -⟩ := PlanarMesh.setIdx_fields st 0 r.1 e
    simp [EdgeRec.isLoop, f1, f2]
  · rw [h4]
    unfold PlanarMesh.buildCellList
    rw [c4, c2]
    simp only [List.not_mem_nil, false_or, hmem]
    refine and_congr_right fun _ => exists_congr fun e => and_congr_right fun _ => ?_
    obtain ⟨-, -, f3, f4⟩ := PlanarMesh.setIdx_fields st 0 r.1 e
    rw [f3, f4]

/-- `get_cell(c)` collects exactly the edges of the mesh that border `c`, once each and in mesh order, and at least
one; unknown cell indices, in particular negative ones, raise `IndexError`. -/
theorem C34_get_cell (st : EdgeStore K) (es : List ℕ) (m : PlanarMesh K) (h : PlanarMesh.init st es = .ok m) (c : ℤ) :
    ((0 ≤ c ∧ ∃ e ∈ es, c = (st e).pos ∨ c = (st e).neg) →
      ∃ l, m.getCellEdges c = .ok l ∧ l ≠ [] ∧ l.Sublist m.edges ∧
        ∀ e, e ∈ l ↔ e ∈ es ∧ (c = (st e).pos ∨ c = (st e).neg)) ∧
    (¬(0 ≤ c ∧ ∃ e ∈ es, c = (st e).pos ∨ c = (st e).neg) → m.getCellEdges c = .error .indexError) := by
  obtain ⟨-, -, -, -, -, hc⟩ := C34_index_lists st es m h
  obtain ⟨-, -, hmem, -, -, -⟩ := C34_edges st es m h
  have hf : ∀ e, (m.store e).pos = (st e).pos ∧ (m.store e).neg = (st e).neg := by
    obtain ⟨r, hr, h1, -⟩ := PlanarMesh.init_spec st es m h
    intro e
    rw [h1]
    exact (PlanarMesh.setIdx_fields st 0 r.1 e).2.2
  constructor
  · intro hh
    have hin := (hc c).2 hh
    have hl : ∀ e, e ∈ m.edges.filter (fun e => (m.store e).borders c) ↔ e ∈ es ∧ (c = (st e).pos ∨ c = (st e).neg) := by
      intro e
      simp [EdgeRec.borders, hmem, (hf e).1, (hf e).2]
    refine ⟨_, by unfold PlanarMesh.getCellEdges; rw [if_pos hin], ?_, List.filter_sublist, hl⟩
    obtain ⟨-, e, he, hb⟩ := hh
    exact List.ne_nil_of_mem ((hl e).2 ⟨he, hb⟩)
  · intro hh
    unfold PlanarMesh.getCellEdges
    rw [if_neg (fun hin => hh ((hc c).1 hin))]

/-- The absolute index of a cell is its position in the cell list; it is a bijection between the cells and
`0, …, num_cells - 1`; other indices raise `ValueError`. -/
theorem C34_abs_cell_idx (st : EdgeStore K) (es : List ℕ) (m : PlanarMesh K) (h : PlanarMesh.init st es = .ok m) :
    (∀ c ∈ m.cellIdxList, ∃ k, m.getAbsCellIdx c = .ok k ∧ m.cellIdxList[k]? = some c) ∧
    (∀ k c, m.cellIdxList[k]? = some c → m.getAbsCellIdx c = .ok k) ∧
    (∀ c, c ∉ m.cellIdxList → m.getAbsCellIdx c = .error .valueError) := by
  obtain ⟨-, hp, -⟩ := C34_index_lists st es m h
  have hn : m.cellIdxList.Nodup := hp.imp (fun h => ne_of_lt h)
  refine ⟨fun c hc => ⟨_, by unfold PlanarMesh.getAbsCellIdx pyIndexOf; rw [if_pos hc], ?_⟩, ?_, ?_⟩
  · exact List.getElem?_idxOf hc
  · intro k c hk
    obtain ⟨hk', rfl⟩ := List.getElem?_eq_some_iff.1 hk
    unfold PlanarMesh.getAbsCellIdx pyIndexOf
    rw [if_pos (List.getElem_mem hk'), hn.idxOf_getElem]
  · intro c hc
    unfold PlanarMesh.getAbsCellIdx pyIndexOf
    rw [if_neg hc]

/-- Edge number `k` is flagged as a boundary edge exactly if one of its cell indices is negative. -/
theorem C35_edge (st : EdgeStore K) (es : List ℕ) (m : PlanarMesh K) (h : PlanarMesh.init st es = .ok m)
    (k e : ℕ) (hk : m.edges[k]? = some e) :
    ∃ b, m.edgeIsOnBoundary k = .ok b ∧ (b = true ↔ (st e).pos < 0 ∨ (st e).neg < 0) ∧
      (b = (m.store e).onMeshBoundary) := by
  obtain ⟨-, -, -, -, he, -⟩ := C34_edges st es m h
  refine ⟨decide ((m.store e).pos < 0 ∨ (m.store e).neg < 0), ?_, ?_, rfl⟩
  · simp [PlanarMesh.edgeIsOnBoundary, pyGetZ, hk, bind, Except.bind]
  · rw [he k e hk]; simp

/-- Since every edge of a mesh borders a cell, a boundary edge borders exactly one. -/
theorem C35_boundary_edge_one_cell (st : EdgeStore K) (es : List ℕ) (m : PlanarMesh K)
    (h : PlanarMesh.init st es = .ok m) (k e : ℕ) (hk : m.edges[k]? = some e)
    (hb : m.edgeIsOnBoundary k = .ok true) :
    ((st e).pos < 0 ∧ 0 ≤ (st e).neg) ∨ ((st e).neg < 0 ∧ 0 ≤ (st e).pos) := by
  obtain ⟨b, h1, h2, -⟩ := C35_edge st es m h k e hk
  rw [h1] at hb
  cases hb
  have hacc := (C34_accepts_iff st es).1 ⟨m, h⟩
  obtain ⟨-, -, hmem, -⟩ := C34_edges st es m h
  have := hacc e ((hmem e).1 (List.mem_of_getElem? hk))
  rcases h2.1 rfl with h | h <;> omega

/-- Indices `≥ num_edges` are rejected; indices `-num_edges ≤ k < 0` are taken from the end of the list. -/
theorem C35_edge_index_range (m : PlanarMesh K) (k : ℤ) :
    ((m.edges.length : ℤ) ≤ k ∨ k < -(m.edges.length : ℤ) → m.edgeIsOnBoundary k = .error .indexError) ∧
    (-(m.edges.length : ℤ) ≤ k → k < 0 → m.edgeIsOnBoundary k = m.edgeIsOnBoundary (k + m.edges.length)) := by
  constructor
  · intro h
    unfold PlanarMesh.edgeIsOnBoundary pyGetZ
    rcases h with h | h
    · rw [if_pos (by omega), List.getElem?_eq_none (by omega)]
      rfl
    · rw [if_neg (by omega), if_neg (by omega)]
      rfl
  · intro h1 h2
    unfold PlanarMesh.edgeIsOnBoundary pyGetZ
    rw [if_neg (by omega), if_pos (by omega), if_pos (by omega)]

/-- A vertex index is flagged exactly if it is an end point of a boundary edge. -/
theorem C35_vert (st : EdgeStore K) (es : List ℕ) (m : PlanarMesh K) (h : PlanarMesh.init st es = .ok m) (v : ℤ) :
    m.vertIsOnBoundary v = true ↔
      ∃ e ∈ es, (v = (st e).anchor.idx ∨ v = (st e).endpnt.idx) ∧ ((st e).pos < 0 ∨ (st e).neg < 0) := by
  obtain ⟨-, -, hmem, -⟩ := C34_edges st es m h
  obtain ⟨r, hr, h1, -⟩ := PlanarMesh.init_spec st es m h
  have hf := fun e => PlanarMesh.setIdx_fields st 0 r.1 e
  unfold PlanarMesh.vertIsOnBoundary
  rw [List.any_eq_true]
  refine exists_congr fun e => ?_
  rw [hmem, h1]
  obtain ⟨f1, f2, f3, f4⟩ := hf e
  simp [f1, f2, f3, f4]

section examples

/-- A square cell with a boundary of four edges, one of them given twice, plus a loop around a disk cell 7. -/
def exStore : EdgeStore ℚ := fun k =>
  match k with
  | 10 => ⟨⟨0, 0, 3⟩, ⟨1, 0, 4⟩, 2, -1, none⟩
  | 11 => ⟨⟨1, 0, 4⟩, ⟨1, 1, 9⟩, 2, -1, none⟩
  | 12 => ⟨⟨1, 1, 9⟩, ⟨0, 1, 5⟩, 2, -1, none⟩
  | 13 => ⟨⟨0, 0, 3⟩, ⟨0, 1, 5⟩, -1, 2, none⟩
  | 14 => ⟨⟨1/2, 1/2, 6⟩, ⟨1/2, 1/2, 6⟩, 7, 2, none⟩
  | _ => ⟨⟨0, 0, 3⟩, ⟨1, 0, 4⟩, -1, -1, none⟩

example : ((PlanarMesh.init exStore [12, 10, 11, 12, 13, 14]).toOption.map fun m =>
    (m.edges, m.vertIdxList, m.cellIdxList)) = some ([12, 10, 11, 13, 14], [3, 4, 5, 9], [2, 7]) := by
  decide +kernel
example : ((PlanarMesh.init exStore [12, 10, 11, 12, 13, 14]).toOption.map fun m =>
    ((m.store 13).idx, m.vertIsOnBoundary 6, m.vertIsOnBoundary 9)) = some (some 3, false, true) := by
  decide +kernel
example : ((PlanarMesh.init exStore [12, 10, 11, 12, 13, 14]).toOption.bind fun m => (m.getCellEdges 7).toOption) =
    some [14] := by decide +kernel
example : ((PlanarMesh.init exStore [12, 10, 11, 12, 13, 14]).toOption.bind fun m => (m.edgeIsOnBoundary 4).toOption) =
    some false := by decide +kernel
example : PlanarMesh.init exStore [10, 99] = .error .valueError := rfl

end examples

end PFEM
