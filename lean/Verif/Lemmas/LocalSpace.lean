import Mathlib.Data.List.GetD
import Mathlib.Data.List.Nodup
import Verif.Props.Numbering
import Verif.Props.CellTopo

/-!
Helper lemmas: closed form of the local basis of a cell.
-/

set_option linter.unusedSectionVars false
set_option linter.unusedVariables false

namespace PFEM

variable {K : Type} [Field K] [LinearOrder K]

/-- `ord` enumerates the elements of a list without repetition (a Python `set`) -/
def EnumOk (ord : List ℤ → List ℤ) : Prop := ∀ l, (ord l).Nodup ∧ ∀ v, v ∈ ord l ↔ v ∈ l

/-- `perm` only reorders the edges of a cell -/
def PermOk (perm : CellTopo → List ℕ) : Prop := ∀ k, (perm k).Perm k.getEdges

/-- the edge spaces belong to their edges and have two vertex functions, or none on a closed edge -/
def SpaceOk (st : EdgeStore K) (space : ℕ → EdgeSpace K) (edges : List ℕ) : Prop :=
  ∀ e ∈ edges, (space e).edge = e ∧ (space e).vertTraces.length = if (st e).isLoop then 0 else 2

/-- the functions of a cell, in the order of `get_basis` -/
def localFuns (ord : List ℤ → List ℤ) (st : EdgeStore K) (space : ℕ → EdgeSpace K) (p : ℕ) (edges : List ℕ) (a : ℕ) :
    List GFun :=
  (ord (LocSpace.vertIdxs st edges)).map GFun.vert ++
  (edges.flatMap fun e => (List.range (space e).edgeTraces.length).map fun k => GFun.edge ((st e).idx.getD 0) k) ++
  (List.range (p * (p - 1) / 2)).map (GFun.bubb a)

/-- the local function, before numbering -/
def GFun.loc (st : EdgeStore K) (space : ℕ → EdgeSpace K) (edges : List ℕ) (g : GFun) : LocFun K :=
  ⟨g.key, edges.map fun e => g.traceOn st space e, match g with | .bubb _ k => some k | _ => none⟩

/-- the local function, numbered -/
def GFun.locNum (m : PlanarMesh K) (p : ℕ) (space : ℕ → EdgeSpace K) (edges : List ℕ) (b : GFun → Bool) (g : GFun) :
    LocFun K :=
  { g.loc m.store space edges with
    key := { g.key with globIdx := some (GlobFunSp.number m p space g), onBoundary := some (b g) } }

theorem pyIndexOf_iff {α : Type} [DecidableEq α] (l : List α) (hnd : l.Nodup) (x : α) (hx : x ∈ l) :
    ∃ pos, pyIndexOf l x = .ok pos ∧ ∀ i (hi : i < l.length), pos = i ↔ l[i] = x := by
  refine ⟨l.idxOf x, by rw [pyIndexOf, if_pos hx], fun i hi => ?_⟩
  constructor
  · rintro rfl; exact List.getElem_idxOf hi
  · rintro rfl; exact hnd.idxOf_getElem i hi

namespace LocSpace

theorem vertTraceOn_eq (st : EdgeStore K) (space : ℕ → EdgeSpace K) (v : ℤ) (e : ℕ) (hs : SpaceOk st space [e]) :
    vertTraceOn st v (space e) 0 none (space e).vertTraces = .ok ((GFun.vert v).traceOn st space e) := by
  obtain ⟨h1, h2⟩ := hs e (by simp)
  simp only [GFun.traceOn]
  by_cases hl : (st e).isLoop = true
  · rw [if_pos hl] at h2 ⊢
    rw [List.length_eq_zero_iff.1 h2]
    rfl
  · rw [if_neg hl] at h2 ⊢
    obtain ⟨a, b, hab⟩ := List.length_eq_two.1 h2
    rw [hab]
    have hk : (space e).vertKeys st = [GlobalKey.ofVert (st e).anchor.idx, GlobalKey.ofVert (st e).endpnt.idx] := by
      unfold EdgeSpace.vertKeys
      rw [h1, if_neg hl]
    simp only [vertTraceOn, hk, List.getElem?_cons_zero, List.getElem?_cons_succ, GlobalKey.ofVert, zero_add]
    congr 1
    by_cases c1 : v = (st e).endpnt.idx
    · rw [if_pos c1, if_pos c1.symm]
    · rw [if_neg c1, if_neg (fun h => c1 h.symm)]
      by_cases c2 : v = (st e).anchor.idx
      · rw [if_pos c2, if_pos c2.symm]
      · rw [if_neg c2, if_neg (fun h => c2 h.symm)]

theorem vertTraces_eq (st : EdgeStore K) (space : ℕ → EdgeSpace K) (v : ℤ) (edges : List ℕ)
    (hs : SpaceOk st space edges) :
    vertTraces st v (edges.map space) = .ok (edges.map fun e => (GFun.vert v).traceOn st space e) := by
  induction edges with
  | nil => rfl
  | cons e es ih =>
    rw [List.map_cons, vertTraces, vertTraceOn_eq st space v e (fun x hx => hs x (by simp at hx; simp [hx])),
      ih (fun x hx => hs x (by simp [hx]))]
    rfl

theorem vertFunLoop_eq (st : EdgeStore K) (space : ℕ → EdgeSpace K) (edges : List ℕ) (hs : SpaceOk st space edges)
    (vs : List ℤ) :
    vertFunLoop st (edges.map space) vs = .ok (vs.map fun v => (GFun.vert v).loc st space edges) := by
  induction vs with
  | nil => rfl
  | cons v vs ih =>
    rw [vertFunLoop, vertTraces_eq st space _ _ hs, ih]
    rfl

theorem edgeFuns_eq (st : EdgeStore K) (space : ℕ → EdgeSpace K) (edges l : List ℕ) (hs : SpaceOk st space edges)
    (hnd : edges.Nodup) (hidx : ∀ e ∈ edges, ∃ n, (st e).idx = some n)
    (hinj : ∀ e ∈ edges, ∀ e' ∈ edges, (st e).idx = (st e').idx → e = e') (hl : l ⊆ edges) :
    edgeFuns st edges (l.map space) = .ok ((l.flatMap fun e => (List.range (space e).edgeTraces.length).map fun k =>
      GFun.edge ((st e).idx.getD 0) k).map (GFun.loc st space edges)) := by
  induction l with
  | nil => rfl
  | cons e es ih =>
    have he : e ∈ edges := hl (by simp)
    obtain ⟨n, hn⟩ := hidx e he
    have hmem : (st e).idx ∈ edges.map fun e => (st e).idx := List.mem_map.2 ⟨e, he, rfl⟩
    have hnd' : (edges.map fun e => (st e).idx).Nodup := hnd.map_on (fun x hx y hy hxy => hinj x hx y hy hxy)
    obtain ⟨pos, hp1, hp2⟩ := pyIndexOf_iff _ hnd' _ hmem
    rw [List.map_cons, edgeFuns, (hs e he).1, hp1, ih (fun x hx => hl (by simp [hx]))]
    simp only [bind, Except.bind, List.flatMap_cons, List.map_append]
    congr 2
    apply List.ext_getElem
    · simp [EdgeSpace.edgeKeys, EdgeSpace.numEdgeFuns]
    · intro k h1 h2
      simp only [List.length_map, List.length_range] at h2
      simp only [List.getElem_zipWith, List.getElem_map, List.getElem_range, EdgeSpace.edgeKeys, EdgeSpace.edgeIdx,
        (hs e he).1, hn, Option.getD_some, GFun.loc, GFun.key, GlobalKey.ofEdge, LocFun.mk.injEq, true_and]
      refine ⟨?_, trivial⟩
      apply List.ext_getElem
      · simp
      · intro i hi1 hi2
        simp only [List.length_map] at hi2
        rw [List.getElem_set, List.getElem_map, GFun.traceOn]
        have hpos : pos = i ↔ (st edges[i]).idx = some n := by
          rw [hp2 i (by simpa using hi2), List.getElem_map, hn]
        by_cases hc : pos = i
        · rw [if_pos hc, if_pos (hpos.1 hc)]
          have heq : edges[i] = e := hinj _ (List.getElem_mem hi2) _ he ((hpos.1 hc).trans hn.symm)
          rw [heq, List.getElem?_eq_getElem h2]
        · rw [if_neg hc, if_neg (fun h => hc (hpos.2 h)), List.getElem_replicate]

theorem bubbFuns_eq (st : EdgeStore K) (space : ℕ → EdgeSpace K) (edges : List ℕ) (p a : ℕ) (hp : 1 ≤ p) :
    bubbFuns p edges.length = ((List.range (p * (p - 1) / 2)).map (GFun.bubb a)).map (GFun.loc st space edges) := by
  unfold bubbFuns
  split
  · obtain rfl : p = 1 := by omega
    rfl
  · rw [List.map_map]
    apply List.map_congr_left
    intro k _
    simp [GFun.loc, GFun.key, GlobalKey.ofBubb, GFun.traceOn]

theorem basis_eq (ord : List ℤ → List ℤ) (st : EdgeStore K) (space : ℕ → EdgeSpace K)
    (edges : List ℕ) (hs : SpaceOk st space edges) (hnd : edges.Nodup) (hidx : ∀ e ∈ edges, ∃ n, (st e).idx = some n)
    (hinj : ∀ e ∈ edges, ∀ e' ∈ edges, (st e).idx = (st e').idx → e = e') (p a : ℕ) (hp : 1 ≤ p) :
    basis ord st edges (edges.map space) p =
      .ok ((localFuns ord st space p edges a).map (GFun.loc st space edges)) := by
  unfold basis vertFuns
  rw [if_neg (by omega), vertFunLoop_eq st space edges hs, edgeFuns_eq st space edges edges hs hnd hidx hinj (fun _ h => h),
    bubbFuns_eq st space edges p a hp]
  simp only [bind, Except.bind, localFuns, List.map_append, List.map_map]
  rfl

end LocSpace

namespace GlobFunSp

/-- what one knows about a mesh cell inside a space -/
theorem cell_edges (st : EdgeStore K) (es : List ℕ) (m : PlanarMesh K) (hm : PlanarMesh.init st es = .ok m)
    (c : ℤ) (k : CellTopo) (hk : m.getCell c = .ok k) :
    k.getEdges.Nodup ∧ c ∈ m.cellIdxList ∧
      (∀ e, e ∈ k.getEdges ↔ e ∈ m.edges ∧ (c = (m.store e).pos ∨ c = (m.store e).neg)) := by
  unfold PlanarMesh.getCell at hk
  by_cases hc : c ∈ m.cellIdxList
  · unfold PlanarMesh.getCellEdges at hk
    rw [if_pos hc] at hk
    simp only [bind, Except.bind] at hk
    unfold CellTopo.make at hk
    have hlt := Nat.lt_succ_self (m.edges.filter fun e => (m.store e).borders c).length
    cases hi : CellTopo.init m.store ((m.edges.filter fun e => (m.store e).borders c).length + 1) c
        (m.edges.filter fun e => (m.store e).borders c) with
    | none => exact absurd hi (C29_terminates _ _ _ _ hlt)
    | some r =>
      rw [hi] at hk
      simp only at hk
      subst hk
      obtain ⟨h1, h2, -⟩ := C29_contours m.store c _ _ k hi hlt
      refine ⟨h1.nodup_iff.2 h2, hc, fun e => ?_⟩
      rw [h1.mem_iff, List.mem_filter]
      simp [EdgeRec.borders]
  · unfold PlanarMesh.getCellEdges at hk
    rw [if_neg hc] at hk
    simp [bind, Except.bind] at hk

theorem idx_spec (st : EdgeStore K) (es : List ℕ) (m : PlanarMesh K) (hm : PlanarMesh.init st es = .ok m) :
    (∀ e ∈ m.edges, ∃ n, (m.store e).idx = some n ∧ m.edges[n]? = some e) ∧
    (∀ e ∈ m.edges, ∀ e' ∈ m.edges, (m.store e).idx = (m.store e').idx → e = e') := by
  obtain ⟨h1, h2, h3, h4, h5, h6⟩ := C34_edges st es m hm
  have key : ∀ e ∈ m.edges, ∃ n, (m.store e).idx = some n ∧ m.edges[n]? = some e := by
    intro e he
    obtain ⟨n, hn⟩ := List.mem_iff_getElem?.1 he
    exact ⟨n, by rw [h5 n e hn], hn⟩
  refine ⟨key, fun e he e' he' h => ?_⟩
  obtain ⟨n, hn, hn'⟩ := key e he
  obtain ⟨n', hk, hk'⟩ := key e' he'
  rw [hn, hk] at h
  simp only [Option.some.injEq] at h
  subst h
  rw [hn'] at hk'
  exact Option.some.inj hk'

theorem cellEdgeSpaces_eq (s : GlobFunSp K) (space : ℕ → EdgeSpace K) (hsp : s.edgeSpaces = s.mesh.edges.map space)
    (edges : List ℕ) (h : ∀ e ∈ edges, ∃ n, (s.mesh.store e).idx = some n ∧ s.mesh.edges[n]? = some e) :
    s.cellEdgeSpaces edges = .ok (edges.map space) := by
  induction edges with
  | nil => rfl
  | cons e es ih =>
    obtain ⟨n, h1, h2⟩ := h e (by simp)
    rw [cellEdgeSpaces, h1, ih (fun x hx => h x (by simp [hx])), hsp]
    simp [pyGetZ, h2, bind, Except.bind]

/-- boundary flag of a function -/
def flag (m : PlanarMesh K) : GFun → Bool
  | .bubb _ _ => false
  | .vert v => m.vertIsOnBoundary v
  | .edge e _ => (m.store (m.edges.getD e 0)).onMeshBoundary

theorem flag_eq (s : GlobFunSp K) (p : ℕ) (dim : ℕ → ℕ) (g : GFun) (hg : g.Exists s.mesh p dim) (key : GlobalKey)
    (h1 : key.funType = g.key.funType) (h2 : key.vertIdx = g.key.vertIdx) (h3 : key.edgeIdx = g.key.edgeIdx) :
    s.funIsOnBoundary key = .ok (flag s.mesh g) := by
  unfold funIsOnBoundary
  rw [h1, h2, h3]
  cases g with
  | bubb c k => rfl
  | vert v => rfl
  | edge e k =>
    obtain ⟨he, -⟩ := hg
    simp only [GFun.key, PlanarMesh.edgeIsOnBoundary, pyGetZ, Int.natCast_nonneg, if_true, Int.toNat_natCast,
      List.getElem?_eq_getElem he, bind, Except.bind, flag, List.getD_eq_getElem _ _ he]
    rfl

theorem numberLoop_eq (s : GlobFunSp K) (p : ℕ) (space : ℕ → EdgeSpace K) (dim : ℕ → ℕ) (edges : List ℕ) (a : ℕ)
    (gs : List GFun)
    (h : ∀ g ∈ gs, g.Exists s.mesh p dim ∧ s.getGlobalIdx g.key a = .ok (number s.mesh p space g : ℕ)) :
    s.numberLoop a (gs.map (GFun.loc s.mesh.store space edges)) =
      .ok (gs.map (GFun.locNum s.mesh p space edges (flag s.mesh))) := by
  induction gs with
  | nil => rfl
  | cons g gs ih =>
    obtain ⟨h1, h2⟩ := h g (by simp)
    have h2' : s.getGlobalIdx (GFun.loc s.mesh.store space edges g).key a = .ok (number s.mesh p space g : ℕ) := h2
    rw [List.map_cons, numberLoop, h2', ih (fun x hx => h x (by simp [hx]))]
    simp only [bind, Except.bind, (show ∀ (k : GlobalKey) (n : ℕ), k.setGlobIdx n =
      .ok { k with globIdx := some n } from fun k n => by simp [GlobalKey.setGlobIdx])]
    rw [flag_eq s p dim g h1 { (GFun.loc s.mesh.store space edges g).key with
      globIdx := some (number s.mesh p space g) } rfl rfl rfl]
    rfl

theorem localFuns_mem (ord : List ℤ → List ℤ) (hord : EnumOk ord) (st : EdgeStore K) (space : ℕ → EdgeSpace K) (p : ℕ)
    (edges : List ℕ) (hidx : ∀ e ∈ edges, ∃ n, (st e).idx = some n) (a : ℕ) (g : GFun) :
    g ∈ localFuns ord st space p edges a ↔ g.OnCell st p space edges a := by
  unfold localFuns GFun.OnCell
  simp only [List.mem_append, List.mem_map, List.mem_flatMap, List.mem_range]
  cases g with
  | bubb c k =>
    simp only [reduceCtorEq, and_false, exists_false, false_or, GFun.bubb.injEq]
    constructor
    · rintro ⟨k', h, rfl, rfl⟩; exact ⟨rfl, h⟩
    · rintro ⟨rfl, h⟩; exact ⟨k, h, rfl, rfl⟩
  | vert v =>
    simp only [reduceCtorEq, and_false, exists_false, or_false, GFun.vert.injEq, exists_eq_right]
    rw [(hord _).2, LocSpace.vertIdxs, List.mem_flatMap]
    refine exists_congr fun e => ?_
    split <;> simp_all
  | edge n k =>
    simp only [reduceCtorEq, and_false, exists_false, false_or, or_false, GFun.edge.injEq]
    refine exists_congr fun e => ?_
    constructor
    · rintro ⟨he, k', hk, h1, rfl⟩
      obtain ⟨n', hn⟩ := hidx e he
      refine ⟨he, ?_, hk⟩
      rw [hn] at h1 ⊢
      simpa using h1
    · rintro ⟨he, h1, h2⟩
      exact ⟨he, k, h2, by rw [h1]; rfl, rfl⟩

theorem localFuns_nodup (ord : List ℤ → List ℤ) (hord : EnumOk ord) (st : EdgeStore K) (space : ℕ → EdgeSpace K) (p : ℕ)
    (edges : List ℕ) (hnd : edges.Nodup) (hidx : ∀ e ∈ edges, ∃ n, (st e).idx = some n)
    (hinj : ∀ e ∈ edges, ∀ e' ∈ edges, (st e).idx = (st e').idx → e = e') (a : ℕ) :
    (localFuns ord st space p edges a).Nodup := by
  unfold localFuns
  rw [List.nodup_append', List.nodup_append']
  refine ⟨⟨(hord _).1.map (fun x y h => by simpa using h), ?_, ?_⟩, (List.nodup_range).map (fun x y h => by simpa using h), ?_⟩
  · rw [List.nodup_flatMap]
    refine ⟨fun e _ => (List.nodup_range).map (fun x y h => by simpa using h), ?_⟩
    refine (List.Pairwise.imp_of_mem ?_ hnd)
    intro e e' he he' hne
    simp only [Function.onFun]
    rw [List.disjoint_left]
    intro g hg hg'
    obtain ⟨k, -, rfl⟩ := List.mem_map.1 hg
    obtain ⟨k', -, h⟩ := List.mem_map.1 hg'
    obtain ⟨n, hn⟩ := hidx e he
    obtain ⟨n', hn'⟩ := hidx e' he'
    simp only [hn, hn', Option.getD_some, GFun.edge.injEq] at h
    exact hne (hinj e he e' he' (by rw [hn, hn', h.1]))
  · rw [List.disjoint_left]
    intro g hg hg'
    obtain ⟨v, -, rfl⟩ := List.mem_map.1 hg
    obtain ⟨e, -, h⟩ := List.mem_flatMap.1 hg'
    obtain ⟨k, -, h⟩ := List.mem_map.1 h
    cases h
  · rw [List.disjoint_left]
    intro g hg hg'
    obtain ⟨v, -, rfl⟩ := List.mem_map.1 hg'
    rcases List.mem_append.1 hg with h | h
    · obtain ⟨v, -, h⟩ := List.mem_map.1 h; cases h
    · obtain ⟨e, -, h⟩ := List.mem_flatMap.1 h
      obtain ⟨k, -, h⟩ := List.mem_map.1 h
      cases h

/-- functions of a cell exist in the space and can be referred to from the cell -/
theorem onCell_exists (st : EdgeStore K) (es : List ℕ) (m : PlanarMesh K) (hm : PlanarMesh.init st es = .ok m)
    (hv : ∀ e ∈ es, 0 ≤ (st e).anchor.idx ∧ 0 ≤ (st e).endpnt.idx) (p : ℕ) (space : ℕ → EdgeSpace K)
    (edges : List ℕ) (hsub : edges ⊆ m.edges) (a : ℕ) (ha : a < m.cellIdxList.length) (g : GFun)
    (hg : g.OnCell m.store p space edges a) : g.Exists m p (dimOf m space) ∧ g.from a := by
  obtain ⟨hi1, hi2⟩ := idx_spec st es m hm
  obtain ⟨-, -, hmem, -, he5, -⟩ := C34_edges st es m hm
  have hst : ∀ e ∈ m.edges, (m.store e).anchor = (st e).anchor ∧ (m.store e).endpnt = (st e).endpnt := by
    intro e he
    obtain ⟨n, -, hn⟩ := hi1 e he
    rw [he5 n e hn]; exact ⟨rfl, rfl⟩
  cases g with
  | bubb c k => obtain ⟨rfl, h⟩ := hg; exact ⟨⟨ha, h⟩, rfl⟩
  | vert v =>
    obtain ⟨e, he, hl, hve⟩ := hg
    refine ⟨?_, trivial⟩
    obtain ⟨-, -, -, -, hvl, -⟩ := C34_index_lists st es m hm
    have he' := hsub he
    obtain ⟨h1, h2⟩ := hst e he'
    have hes := (hmem e).1 he'
    obtain ⟨hv1, hv2⟩ := hv e hes
    refine (hvl v).2 ⟨?_, e, hes, ?_, ?_⟩
    · rw [h1, h2] at hve
      rcases hve with rfl | rfl <;> assumption
    · simpa [EdgeRec.isLoop, h1, h2] using hl
    · rw [← h1, ← h2]; exact hve
  | edge n k =>
    obtain ⟨e, he, hn, hk⟩ := hg
    refine ⟨?_, trivial⟩
    obtain ⟨n', h1, h2⟩ := hi1 e (hsub he)
    rw [hn] at h1
    obtain rfl : n = n' := by simpa using h1
    obtain ⟨hlt, h3⟩ := List.getElem?_eq_some_iff.1 h2
    refine ⟨hlt, ?_⟩
    rw [dimOf, List.getD_eq_getElem _ _ hlt, h3]
    exact hk

/-- The space after any number of calls that only append to `cell_dofs`. -/
def SameBut (s s' : GlobFunSp K) : Prop := ∃ d, d.length = s.cellDofs.length ∧ s' = { s with cellDofs := d }

theorem getGlobalIdx_cellDofs (s : GlobFunSp K) (d : List (List GlobalKey)) (key : GlobalKey) (a : ℕ) :
    ({ s with cellDofs := d } : GlobFunSp K).getGlobalIdx key a = s.getGlobalIdx key a := rfl

/-- closed form of `build_local_function_space` -/
theorem buildLocal_eq (st : EdgeStore K) (es : List ℕ) (m : PlanarMesh K) (hm : PlanarMesh.init st es = .ok m)
    (hv : ∀ e ∈ es, 0 ≤ (st e).anchor.idx ∧ 0 ≤ (st e).endpnt.idx) (deg : ℤ) (space : ℕ → EdgeSpace K)
    (hsp : SpaceOk m.store space m.edges) (s0 s : GlobFunSp K) (h : GlobFunSp.init m deg space = .ok s0) (hs : SameBut s0 s)
    (ord : List ℤ → List ℤ) (hord : EnumOk ord) (perm : CellTopo → List ℕ) (hperm : PermOk perm)
    (a : ℕ) (c : ℤ) (hc : m.cellIdxList[a]? = some c) (k : CellTopo) (hk : m.getCell c = .ok k) :
    s.buildLocal ord perm c =
      .ok ({ s with cellDofs := s.cellDofs.modify a (· ++ ((localFuns ord m.store space deg.toNat (perm k) a).map
            (GFun.locNum m deg.toNat space (perm k) (flag m))).map LocFun.key) },
        (localFuns ord m.store space deg.toNat (perm k) a).map (GFun.locNum m deg.toNat space (perm k) (flag m))) := by
  obtain ⟨h0, h1, h2, h3, h4, h5, h6, h7, h8, h9⟩ := init_spec m deg space s0 h
  obtain ⟨d, -, rfl⟩ := hs
  obtain ⟨hi1, hi2⟩ := idx_spec st es m hm
  obtain ⟨hk1, hk2, hk3⟩ := cell_edges st es m hm c k hk
  obtain ⟨-, habs, -⟩ := C34_abs_cell_idx st es m hm
  obtain ⟨-, -, hnv, hnc, -⟩ := C34_index_lists st es m hm
  have hnd : (perm k).Nodup := (hperm k).nodup_iff.2 hk1
  have hsub : perm k ⊆ m.edges := fun e he => ((hk3 e).1 ((hperm k).mem_iff.1 he)).1
  unfold buildLocal
  simp only [h1]
  rw [habs a c hc, hk]
  simp only [bind, Except.bind]
  rw [cellEdgeSpaces_eq _ space (by simp [h3]) (perm k) (by simpa [h1] using fun e he => hi1 e (hsub he))]
  simp only
  rw [LocSpace.basis_eq ord m.store space (perm k) (fun e he => hsp e (hsub he)) hnd
    (fun e he => (hi1 e (hsub he)).imp fun n hn => hn.1)
    (fun e he e' he' => hi2 e (hsub he) e' (hsub he')) s0.deg a (by omega)]
  simp only [h2]
  have ha : a < m.cellIdxList.length := (List.getElem?_eq_some_iff.1 hc).1
  have := numberLoop_eq ({ s0 with cellDofs := d } : GlobFunSp K) deg.toNat space (dimOf m space) (perm k) a
    (localFuns ord m.store space deg.toNat (perm k) a) ?_
  · simp only [h1, h2] at this
    rw [this]
  · intro g hg
    rw [localFuns_mem ord hord m.store space deg.toNat (perm k)
      (fun e he => (hi1 e (hsub he)).imp fun n hn => hn.1)] at hg
    obtain ⟨e1, e2⟩ := onCell_exists st es m hm hv deg.toNat space (perm k) hsub a ha g hg
    show GFun.Exists s0.mesh _ _ _ ∧ s0.getGlobalIdx _ _ = .ok (number s0.mesh _ _ _ : ℕ)
    rw [h1]
    refine ⟨e1, ?_⟩
    exact (getGlobalIdx_number m hnv hnc deg space s0 h g e1 a e2).1

end GlobFunSp

/-- A mesh built from the edges `es` with vertex indices set, a global space of degree `deg` on it with its edge spaces,
and the two enumerations that the model leaves open. -/
structure Setup (K : Type) [Field K] [LinearOrder K] where
  st : EdgeStore K
  es : List ℕ
  m : PlanarMesh K
  deg : ℤ
  space : ℕ → EdgeSpace K
  s0 : GlobFunSp K
  ord : List ℤ → List ℤ
  perm : CellTopo → List ℕ
  hm : PlanarMesh.init st es = .ok m
  hv : ∀ e ∈ es, 0 ≤ (st e).anchor.idx ∧ 0 ≤ (st e).endpnt.idx
  hsp : SpaceOk m.store space m.edges
  hs : GlobFunSp.init m deg space = .ok s0
  hord : EnumOk ord
  hperm : PermOk perm

namespace Setup

variable (S : Setup K)

/-- degree -/
def p : ℕ := S.deg.toNat

/-- the functions on the cell at position `a` -/
def funs (a : ℕ) (k : CellTopo) : List GFun := localFuns S.ord S.m.store S.space S.p (S.perm k) a

/-- the local basis on it -/
def locBasis (a : ℕ) (k : CellTopo) : List (LocFun K) :=
  (S.funs a k).map (GFun.locNum S.m S.p S.space (S.perm k) (GlobFunSp.flag S.m))

theorem build (s : GlobFunSp K) (hs : GlobFunSp.SameBut S.s0 s) (a : ℕ) (c : ℤ) (hc : S.m.cellIdxList[a]? = some c)
    (k : CellTopo) (hk : S.m.getCell c = .ok k) :
    s.buildLocal S.ord S.perm c = .ok ({ s with cellDofs := s.cellDofs.modify a (· ++ (S.locBasis a k).map LocFun.key) },
      S.locBasis a k) :=
  GlobFunSp.buildLocal_eq S.st S.es S.m S.hm S.hv S.deg S.space S.hsp S.s0 s S.hs hs S.ord S.hord S.perm S.hperm a c hc
    k hk

theorem edges_sub (c : ℤ) (k : CellTopo) (hk : S.m.getCell c = .ok k) : S.perm k ⊆ S.m.edges := fun e he =>
  (((GlobFunSp.cell_edges S.st S.es S.m S.hm c k hk).2.2 e).1 ((S.hperm k).mem_iff.1 he)).1

theorem mem_funs (a : ℕ) (c : ℤ) (k : CellTopo) (hk : S.m.getCell c = .ok k) (g : GFun) :
    g ∈ S.funs a k ↔ g.OnCell S.m.store S.p S.space (S.perm k) a :=
  GlobFunSp.localFuns_mem S.ord S.hord _ _ _ _ (fun e he =>
    ((GlobFunSp.idx_spec S.st S.es S.m S.hm).1 e (S.edges_sub c k hk he)).imp fun n hn => hn.1) a g

theorem nodup_funs (a : ℕ) (c : ℤ) (k : CellTopo) (hk : S.m.getCell c = .ok k) : (S.funs a k).Nodup :=
  GlobFunSp.localFuns_nodup S.ord S.hord _ _ _ _
    ((S.hperm k).nodup_iff.2 (GlobFunSp.cell_edges S.st S.es S.m S.hm c k hk).1)
    (fun e he => ((GlobFunSp.idx_spec S.st S.es S.m S.hm).1 e (S.edges_sub c k hk he)).imp fun n hn => hn.1)
    (fun e he e' he' => (GlobFunSp.idx_spec S.st S.es S.m S.hm).2 e (S.edges_sub c k hk he) e' (S.edges_sub c k hk he')) a

theorem exists_of_mem (a : ℕ) (c : ℤ) (hc : S.m.cellIdxList[a]? = some c) (k : CellTopo) (hk : S.m.getCell c = .ok k)
    (g : GFun) (hg : g ∈ S.funs a k) : g.Exists S.m S.p (dimOf S.m S.space) ∧ g.from a :=
  GlobFunSp.onCell_exists S.st S.es S.m S.hm S.hv S.p S.space (S.perm k) (S.edges_sub c k hk) a
    (List.getElem?_eq_some_iff.1 hc).1 g ((S.mem_funs a c k hk g).1 hg)

/-- the number of a function -/
def num (g : GFun) : ℕ := GlobFunSp.number S.m S.p S.space g

theorem num_lt (g : GFun) (hg : g.Exists S.m S.p (dimOf S.m S.space)) : S.num g < S.s0.numFuns := by
  obtain ⟨-, -, hnv, hnc, -⟩ := C34_index_lists S.st S.es S.m S.hm
  cases g with
  | bubb c k => exact (GlobFunSp.getGlobalIdx_number S.m hnv hnc S.deg S.space S.s0 S.hs _ hg c rfl).2
  | vert v => exact (GlobFunSp.getGlobalIdx_number S.m hnv hnc S.deg S.space S.s0 S.hs _ hg 0 trivial).2
  | edge e k => exact (GlobFunSp.getGlobalIdx_number S.m hnv hnc S.deg S.space S.s0 S.hs _ hg 0 trivial).2

theorem num_inj (g g' : GFun) (hg : g.Exists S.m S.p (dimOf S.m S.space)) (hg' : g'.Exists S.m S.p (dimOf S.m S.space))
    (h : S.num g = S.num g') : g = g' := by
  obtain ⟨-, -, hnv, hnc, -⟩ := C34_index_lists S.st S.es S.m S.hm
  have hf : ∀ g : GFun, ∃ c, g.from c := by
    intro g; cases g with
    | bubb c k => exact ⟨c, rfl⟩
    | vert v => exact ⟨0, trivial⟩
    | edge e k => exact ⟨0, trivial⟩
  obtain ⟨c, hc⟩ := hf g
  obtain ⟨c', hc'⟩ := hf g'
  refine C38_injective S.st S.es S.m S.hm S.deg S.space S.s0 S.hs g g' hg hg' c c' hc hc' ?_
  rw [(GlobFunSp.getGlobalIdx_number S.m hnv hnc S.deg S.space S.s0 S.hs g hg c hc).1,
    (GlobFunSp.getGlobalIdx_number S.m hnv hnc S.deg S.space S.s0 S.hs g' hg' c' hc').1]
  rw [num, num] at h
  rw [← p, h]

end Setup
end PFEM
