import Mathlib.Data.Set.Card
import Mathlib.Algebra.BigOperators.Group.List.Basic
import Verif.Lemmas.LocalSpace
import Verif.Props.MultiIndex

/-!
C55: local and global dimension agree, local keys are distinct.  C58: discrete functions are single valued on shared
edges.
-/

set_option linter.unusedSectionVars false

namespace PFEM

variable {K : Type} [Field K] [LinearOrder K]

/-- a key without its number and boundary flag -/
def GlobalKey.bare (k : GlobalKey) : GlobalKey := { k with globIdx := none, onBoundary := none }

theorem GFun.key_inj (g g' : GFun) (a : ℕ) (h : g.from a) (h' : g'.from a) (e : g.key = g'.key) : g = g' := by
  cases g <;> cases g' <;> simp_all [GFun.key, GFun.from]

/-- Building the local space succeeds for every cell of the mesh, whatever was built before, and changes nothing but
the list of keys of this cell, which grows by the keys of the basis. -/
theorem C55_succeeds (S : Setup K) (s : GlobFunSp K) (hs : GlobFunSp.SameBut S.s0 s) (a : ℕ) (c : ℤ)
    (hc : S.m.cellIdxList[a]? = some c) (k : CellTopo) (hk : S.m.getCell c = .ok k) :
    ∃ s' fs, s.buildLocal S.ord S.perm c = .ok (s', fs) ∧ GlobFunSp.SameBut S.s0 s' ∧
      ∀ b, s'.cellDofs[b]? = if b = a then (s.cellDofs[b]?).map (· ++ fs.map LocFun.key) else s.cellDofs[b]? := by
  refine ⟨_, _, S.build s hs a c hc k hk, ?_, ?_⟩
  · obtain ⟨d, hd, rfl⟩ := hs
    exact ⟨_, by simp [hd], rfl⟩
  · intro b
    simp only [List.getElem?_modify]
    by_cases h : b = a
    · rw [if_pos h]; simp [h]
    · rw [if_neg h]
      simp only [if_neg (fun h' : a = b => h h'.symm)]
      exact Option.map_id_apply

/-- The basis of a cell consists of exactly the functions living on it, each once: its keys are distinct, its numbers
are distinct and valid, and every key carries the number that the global space gives to the function. -/
theorem C55_keys (S : Setup K) (s : GlobFunSp K) (hs : GlobFunSp.SameBut S.s0 s) (a : ℕ) (c : ℤ)
    (hc : S.m.cellIdxList[a]? = some c) (k : CellTopo) (hk : S.m.getCell c = .ok k) (s' : GlobFunSp K)
    (fs : List (LocFun K)) (h : s.buildLocal S.ord S.perm c = .ok (s', fs)) :
    (fs.map fun f => f.key.bare).Nodup ∧ (fs.map fun f => f.key.globIdx).Nodup ∧
    (∀ g : GFun, g.from a → ((∃ f ∈ fs, f.key.bare = g.key) ↔ g.OnCell S.m.store S.p S.space (S.perm k) a)) ∧
    (∀ f ∈ fs, ∃ i < S.s0.numFuns, f.key.globIdx = some i ∧ S.s0.getGlobalIdx f.key.bare a = .ok (i : ℕ)) := by
  rw [S.build s hs a c hc k hk] at h
  simp only [Except.ok.injEq, Prod.mk.injEq] at h
  obtain ⟨-, rfl⟩ := h
  have hbare : ∀ g : GFun, (GFun.locNum S.m S.p S.space (S.perm k) (GlobFunSp.flag S.m) g).key.bare = g.key := by
    intro g; cases g <;> rfl
  have hglob : ∀ g : GFun, (GFun.locNum S.m S.p S.space (S.perm k) (GlobFunSp.flag S.m) g).key.globIdx = some (S.num g) :=
    fun g => rfl
  have hnd := S.nodup_funs a c k hk
  have hex := S.exists_of_mem a c hc k hk
  refine ⟨?_, ?_, ?_, ?_⟩
  · unfold Setup.locBasis
    rw [List.map_map]
    refine hnd.map_on fun g hg g' hg' e => ?_
    simp only [Function.comp, hbare] at e
    exact GFun.key_inj g g' a (hex g hg).2 (hex g' hg').2 e
  · unfold Setup.locBasis
    rw [List.map_map]
    refine hnd.map_on fun g hg g' hg' e => ?_
    simp only [Function.comp, hglob, Option.some.injEq] at e
    exact S.num_inj g g' (hex g hg).1 (hex g' hg').1 e
  · intro g hga
    rw [← S.mem_funs a c k hk]
    constructor
    · rintro ⟨f, hf, e⟩
      obtain ⟨g', hg', rfl⟩ := List.mem_map.1 hf
      rw [hbare] at e
      rw [← GFun.key_inj g' g a (hex g' hg').2 hga e]
      exact hg'
    · intro hg
      exact ⟨_, List.mem_map.2 ⟨g, hg, rfl⟩, hbare g⟩
  · intro f hf
    obtain ⟨g, hg, rfl⟩ := List.mem_map.1 hf
    obtain ⟨-, -, hnv, hnc, -⟩ := C34_index_lists S.st S.es S.m S.hm
    obtain ⟨h1, h2⟩ := hex g hg
    refine ⟨S.num g, S.num_lt g h1, hglob g, ?_⟩
    rw [hbare]
    exact (GlobFunSp.getGlobalIdx_number S.m hnv hnc S.deg S.space S.s0 S.hs g h1 a h2).1

/-- Each cell has exactly `p(p-1)/2` bubble functions, as many as the global space reserves, one for each monomial of
degree at most `p - 2`. -/
theorem C55_bubbles (S : Setup K) (s : GlobFunSp K) (hs : GlobFunSp.SameBut S.s0 s) (a : ℕ) (c : ℤ)
    (hc : S.m.cellIdxList[a]? = some c) (k : CellTopo) (hk : S.m.getCell c = .ok k) (s' : GlobFunSp K)
    (fs : List (LocFun K)) (h : s.buildLocal S.ord S.perm c = .ok (s', fs)) :
    fs.filterMap LocFun.lap = List.range (S.p * (S.p - 1) / 2) ∧
    S.s0.numBubbFuns = S.m.numCells * (fs.filterMap LocFun.lap).length ∧
    (∀ f ∈ fs, f.key.funType = .bubb ↔ f.lap.isSome = true) ∧
    (∀ al : MultiIndex, al.idx ∈ fs.filterMap LocFun.lap ↔ al.x + al.y + 2 ≤ S.p) := by
  have key : fs.filterMap LocFun.lap = List.range (S.p * (S.p - 1) / 2) ∧
      (∀ f ∈ fs, f.key.funType = .bubb ↔ f.lap.isSome = true) := by
    rw [S.build s hs a c hc k hk] at h
    simp only [Except.ok.injEq, Prod.mk.injEq] at h
    obtain ⟨-, rfl⟩ := h
    constructor
    · unfold Setup.locBasis Setup.funs localFuns
      rw [List.filterMap_map, List.filterMap_append, List.filterMap_append]
      have h1 : ∀ l : List ℤ, (l.map GFun.vert).filterMap
          (LocFun.lap ∘ GFun.locNum S.m S.p S.space (S.perm k) (GlobFunSp.flag S.m)) = [] := by
        intro l
        rw [List.filterMap_eq_nil_iff]
        intro g hg
        obtain ⟨v, -, rfl⟩ := List.mem_map.1 hg
        rfl
      have h2 : (((S.perm k).flatMap fun e => (List.range (S.space e).edgeTraces.length).map fun j =>
          GFun.edge ((S.m.store e).idx.getD 0) j)).filterMap
          (LocFun.lap ∘ GFun.locNum S.m S.p S.space (S.perm k) (GlobFunSp.flag S.m)) = [] := by
        rw [List.filterMap_eq_nil_iff]
        intro g hg
        obtain ⟨e, -, he⟩ := List.mem_flatMap.1 hg
        obtain ⟨v, -, rfl⟩ := List.mem_map.1 he
        rfl
      rw [h1, h2, List.filterMap_map]
      simp only [List.nil_append]
      have h3 : ((LocFun.lap ∘ GFun.locNum S.m S.p S.space (S.perm k) (GlobFunSp.flag S.m)) ∘ GFun.bubb a) =
          fun j => some j := rfl
      rw [h3]
      exact List.filterMap_some
    · intro f hf
      obtain ⟨g, -, rfl⟩ := List.mem_map.1 hf
      cases g <;> simp [GFun.locNum, GFun.loc, GFun.key]
  obtain ⟨h1, h2, h3, h4, h5, h6, h7, -⟩ := GlobFunSp.init_spec S.m S.deg S.space S.s0 S.hs
  refine ⟨key.1, ?_, key.2, fun al => ?_⟩
  · rw [key.1, List.length_range, h7, h3]; rfl
  · rw [key.1, List.mem_range]
    have hp : 1 ≤ S.p := by unfold Setup.p; omega
    obtain ⟨q, hq⟩ : ∃ q, S.p = q + 1 := ⟨S.p - 1, by omega⟩
    rw [hq]
    have hcomm : (q + 1) * (q + 1 - 1) / 2 = (MultiIndex.mk q 0).idx := by
      simp only [MultiIndex.idx, MultiIndex.order, Nat.add_sub_cancel, Nat.add_zero, Nat.zero_add]
      rw [Nat.mul_comm]
    rw [hcomm, C02_graded]
    simp only [GradedLT]
    omega

/-- Every function of the global space occurs in the basis of some cell: no row of the system is empty. -/
theorem C55_covers (S : Setup K) (hcells : ∀ c ∈ S.m.cellIdxList, ∃ k, S.m.getCell c = .ok k) (g : GFun)
    (hg : g.Exists S.m S.p (dimOf S.m S.space)) :
    ∃ (a : ℕ) (c : ℤ) (k : CellTopo), S.m.cellIdxList[a]? = some c ∧ S.m.getCell c = .ok k ∧
      g.OnCell S.m.store S.p S.space (S.perm k) a := by
  obtain ⟨-, -, -, -, hvl, hcl⟩ := C34_index_lists S.st S.es S.m S.hm
  obtain ⟨-, -, hmem, -, he5, -⟩ := C34_edges S.st S.es S.m S.hm
  obtain ⟨hi1, -⟩ := GlobFunSp.idx_spec S.st S.es S.m S.hm
  have hst : ∀ e ∈ S.m.edges, ∃ n, S.m.store e = { S.st e with idx := some n } ∧ S.m.edges[n]? = some e := by
    intro e he
    obtain ⟨n, -, hn⟩ := hi1 e he
    exact ⟨n, he5 n e hn, hn⟩
  have hcell : ∀ e ∈ S.m.edges, ∃ (a : ℕ) (c : ℤ) (k : CellTopo), S.m.cellIdxList[a]? = some c ∧ S.m.getCell c = .ok k ∧
      e ∈ S.perm k := by
    intro e he
    have hes := (hmem e).1 he
    obtain ⟨c, hc0, hc⟩ : ∃ c : ℤ, 0 ≤ c ∧ (c = (S.st e).pos ∨ c = (S.st e).neg) := by
      rcases (C34_accepts_iff S.st S.es).1 ⟨_, S.hm⟩ e hes with h | h
      · exact ⟨_, h, Or.inl rfl⟩
      · exact ⟨_, h, Or.inr rfl⟩
    have hcm := (hcl c).2 ⟨hc0, e, hes, hc⟩
    obtain ⟨a, ha⟩ := List.mem_iff_getElem?.1 hcm
    obtain ⟨k, hk⟩ := hcells c hcm
    refine ⟨a, c, k, ha, hk, (S.hperm k).mem_iff.2 (((GlobFunSp.cell_edges S.st S.es S.m S.hm c k hk).2.2 e).2 ⟨he, ?_⟩)⟩
    obtain ⟨n, hn, -⟩ := hst e he
    rw [hn]; exact hc
  cases g with
  | bubb b j =>
    obtain ⟨h1, h2⟩ := hg
    obtain ⟨k, hk⟩ := hcells _ (List.getElem_mem h1)
    exact ⟨b, _, k, List.getElem?_eq_getElem h1, hk, rfl, h2⟩
  | vert v =>
    obtain ⟨h0, e, he, hl, hve⟩ := (hvl v).1 hg
    have he' := (hmem e).2 he
    obtain ⟨a, c, k, h1, h2, h3⟩ := hcell e he'
    obtain ⟨n, hn, -⟩ := hst e he'
    refine ⟨a, c, k, h1, h2, e, h3, ?_, ?_⟩
    · rw [hn]; simpa [EdgeRec.isLoop] using hl
    · rw [hn]; exact hve
  | edge n j =>
    obtain ⟨h1, h2⟩ := hg
    have he := List.getElem_mem h1
    obtain ⟨a, c, k, h3, h4, h5⟩ := hcell _ he
    refine ⟨a, c, k, h3, h4, S.m.edges[n], h5, ?_, ?_⟩
    · rw [he5 n _ (List.getElem?_eq_getElem h1)]
    · simpa [dimOf, h1] using h2

/-- Basis functions of two cells that carry the same global number have the same trace polynomial on every edge the
two cells share. -/
theorem C58_traces (S : Setup K) (s t s' t' : GlobFunSp K) (hs : GlobFunSp.SameBut S.s0 s) (ht : GlobFunSp.SameBut S.s0 t)
    (a b : ℕ) (c d : ℤ) (hc : S.m.cellIdxList[a]? = some c) (hd : S.m.cellIdxList[b]? = some d)
    (k l : CellTopo) (hk : S.m.getCell c = .ok k) (hl : S.m.getCell d = .ok l) (fs gs : List (LocFun K))
    (h : s.buildLocal S.ord S.perm c = .ok (s', fs)) (h' : t.buildLocal S.ord S.perm d = .ok (t', gs))
    (f g : LocFun K) (hf : f ∈ fs) (hg : g ∈ gs) (hfg : f.key.globIdx = g.key.globIdx) (i j e : ℕ)
    (hi : (S.perm k)[i]? = some e) (hj : (S.perm l)[j]? = some e) :
    f.traces[i]? = g.traces[j]? ∧ (f.traces[i]?).isSome = true := by
  rw [S.build s hs a c hc k hk] at h
  rw [S.build t ht b d hd l hl] at h'
  simp only [Except.ok.injEq, Prod.mk.injEq] at h h'
  obtain ⟨-, rfl⟩ := h
  obtain ⟨-, rfl⟩ := h'
  obtain ⟨x, hx, rfl⟩ := List.mem_map.1 hf
  obtain ⟨y, hy, rfl⟩ := List.mem_map.1 hg
  have e1 : S.num x = S.num y := by simpa [GFun.locNum, Setup.num] using hfg
  have hxy := S.num_inj x y (S.exists_of_mem a c hc k hk x hx).1 (S.exists_of_mem b d hd l hl y hy).1 e1
  subst hxy
  simp only [GFun.locNum, GFun.loc, List.getElem?_map, hi, hj, Option.map_some]
  exact ⟨trivial, rfl⟩

/-- the value at `(x, y)` of the discrete function with coefficients `u`, taken from a cell with basis `fs` on its
`i`-th edge -/
def edgeValue (u : ℕ → K) (fs : List (LocFun K)) (i : ℕ) (x y : K) : K :=
  (fs.map fun f => u (f.key.globIdx.getD 0) * match f.traces.getD i none with
    | some p => Poly.eval p x y
    | none => 0).sum

theorem sum_filter_some {α : Type} (l : List α) (F : α → K) (P : α → Bool) (h : ∀ a ∈ l, P a = false → F a = 0) :
    (l.map F).sum = ((l.filter P).map F).sum := by
  induction l with
  | nil => rfl
  | cons a l ih =>
    rw [List.map_cons, List.sum_cons, ih (fun b hb => h b (by simp [hb]))]
    by_cases hp : P a = true
    · rw [List.filter_cons_of_pos hp, List.map_cons, List.sum_cons]
    · rw [List.filter_cons_of_neg hp, h a (by simp) (by simpa using hp), zero_add]

/-- A discrete function takes the same values on an edge from both sides, for every coefficient vector. -/
theorem C58_single_valued (S : Setup K) (s t s' t' : GlobFunSp K) (hs : GlobFunSp.SameBut S.s0 s)
    (ht : GlobFunSp.SameBut S.s0 t) (a b : ℕ) (c d : ℤ) (hc : S.m.cellIdxList[a]? = some c)
    (hd : S.m.cellIdxList[b]? = some d) (k l : CellTopo) (hk : S.m.getCell c = .ok k) (hl : S.m.getCell d = .ok l)
    (fs gs : List (LocFun K)) (h : s.buildLocal S.ord S.perm c = .ok (s', fs))
    (h' : t.buildLocal S.ord S.perm d = .ok (t', gs)) (i j e : ℕ) (hi : (S.perm k)[i]? = some e)
    (hj : (S.perm l)[j]? = some e) (u : ℕ → K) (x y : K) : edgeValue u fs i x y = edgeValue u gs j x y := by
  rw [S.build s hs a c hc k hk] at h
  rw [S.build t ht b d hd l hl] at h'
  simp only [Except.ok.injEq, Prod.mk.injEq] at h h'
  obtain ⟨-, rfl⟩ := h
  obtain ⟨-, rfl⟩ := h'
  have key : ∀ (a : ℕ) (k : CellTopo) (i : ℕ), (S.perm k)[i]? = some e →
      edgeValue u (S.locBasis a k) i x y = ((S.funs a k).map fun g => u (S.num g) *
        match g.traceOn S.m.store S.space e with
        | some p => Poly.eval p x y
        | none => 0).sum := by
    intro a k i hi
    unfold edgeValue Setup.locBasis
    rw [List.map_map]
    congr 1
    apply List.map_congr_left
    intro g _
    simp only [Function.comp, GFun.locNum, GFun.loc, Option.getD_some, List.getD_eq_getElem?_getD, List.getElem?_map, hi,
      Option.map_some]
    rfl
  rw [key a k i hi, key b l j hj]
  have hz : ∀ g : GFun, (g.traceOn S.m.store S.space e).isSome = false → (u (S.num g) *
      match g.traceOn S.m.store S.space e with
      | some p => Poly.eval p x y
      | none => 0) = 0 := by
    intro g hg
    cases ht : g.traceOn S.m.store S.space e with
    | none => simp
    | some p => rw [ht] at hg; simp at hg
  rw [sum_filter_some (S.funs a k) _ (fun g => (g.traceOn S.m.store S.space e).isSome) (fun g _ => hz g),
    sum_filter_some (S.funs b l) _ (fun g => (g.traceOn S.m.store S.space e).isSome) (fun g _ => hz g)]
  apply List.Perm.sum_eq
  apply List.Perm.map
  rw [List.perm_ext_iff_of_nodup ((S.nodup_funs a c k hk).filter _) ((S.nodup_funs b d l hl).filter _)]
  intro g
  rw [List.mem_filter, List.mem_filter, S.mem_funs a c k hk, S.mem_funs b d l hl]
  have hon : ∀ (a : ℕ) (k : CellTopo) (i : ℕ), (S.perm k)[i]? = some e →
      (g.traceOn S.m.store S.space e).isSome = true → g.OnCell S.m.store S.p S.space (S.perm k) a := by
    intro a k i hi hg
    have he := List.mem_of_getElem? hi
    cases g with
    | bubb _ _ => simp [GFun.traceOn] at hg
    | vert v =>
      refine ⟨e, he, ?_⟩
      simp only [GFun.traceOn] at hg
      by_cases h1 : (S.m.store e).isLoop = true
      · simp [h1] at hg
      · refine ⟨h1, ?_⟩
        by_cases h2 : v = (S.m.store e).endpnt.idx
        · exact Or.inr h2
        · by_cases h3 : v = (S.m.store e).anchor.idx
          · exact Or.inl h3
          · simp [h1, h2, h3] at hg
    | edge n j =>
      refine ⟨e, he, ?_⟩
      simp only [GFun.traceOn] at hg
      by_cases h1 : (S.m.store e).idx = some n
      · refine ⟨h1, ?_⟩
        rw [if_pos h1] at hg
        simpa using hg
      · simp [h1] at hg
  constructor
  · rintro ⟨-, hg⟩; exact ⟨hon b l j hj hg, hg⟩
  · rintro ⟨-, hg⟩; exact ⟨hon a k i hi hg, hg⟩

section examples

def exSpace2 : ℕ → EdgeSpace ℚ := fun k => ⟨k, List.replicate (k % 2) [⟨⟨1, 0⟩, 1⟩], [[⟨⟨0, 0⟩, 1⟩], [⟨⟨0, 1⟩, 1⟩]]⟩

theorem Py.eq_get {α : Type} (x : Py α) (h : x.toOption.isSome = true) : x = .ok (x.toOption.get h) := by
  cases x with
  | error e => simp [Except.toOption] at h
  | ok a => rfl

def exMesh2 : PlanarMesh ℚ := (PlanarMesh.init exStore2 [0, 1, 2, 3, 4, 5, 6]).toOption.get (by decide +kernel)

def exGfs2 : GlobFunSp ℚ := (GlobFunSp.init exMesh2 2 exSpace2).toOption.get (by decide +kernel)

/-- two squares side by side -/
def exSetup : Setup ℚ where
  st := exStore2
  es := [0, 1, 2, 3, 4, 5, 6]
  m := exMesh2
  deg := 2
  space := exSpace2
  s0 := exGfs2
  ord := List.dedup
  perm := CellTopo.getEdges
  hm := Py.eq_get _ _
  hv := by decide
  hsp := by unfold SpaceOk; decide +kernel
  hs := Py.eq_get _ _
  hord := fun l => ⟨List.nodup_dedup l, fun v => List.mem_dedup⟩
  hperm := fun _ => List.Perm.refl _

/-- both cells can be built; the first one has 4 vertex functions, 2 edge functions and 1 bubble -/
example : exSetup.m.cellIdxList = [0, 1] := by decide +kernel
example : ∀ c ∈ exSetup.m.cellIdxList, (exSetup.m.getCell c).toOption.isSome = true := by decide +kernel
example : ((exGfs2.buildLocal exSetup.ord exSetup.perm 0).toOption.map fun r =>
    (r.2.map fun f => f.key.globIdx)) = some [some 3, some 6, some 7, some 2, some 8, some 9, some 0] := by decide +kernel

end examples

end PFEM
