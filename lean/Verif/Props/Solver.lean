import Mathlib.Algebra.Order.Field.Basic
import Mathlib.Tactic.Positivity
import Verif.Lemmas.Solver
import Verif.Props.LocalSpace

/-!
C40-C45: assembly of the linear system, boundary conditions, repeated assembly, solution queries, evaluation of
discrete functions on cells.

C43 does not hold in full: the matrices are the same after every history (`C43_matrices_partial`), but the per-cell key
lists of the space double (`C43_dofs_double`).  C44 does not hold: `get_solution` before `solve` raises
`AttributeError` (`C44_before_solve`).
-/

set_option linter.unusedSectionVars false

namespace PFEM

open Finset

variable {K : Type} [Field K] [LinearOrder K]

/-- States of the function space that a user can reach from the state `s`: any sequence of assemblies (by any number of
solvers) and direct calls of `build_local_function_space`. -/
inductive Setup.Reach (S : Setup K) (s : GlobFunSp K) : GlobFunSp K → Prop
  | refl : S.Reach s s
  | assembled {t : GlobFunSp K} {F : WeakForm K} {interior : Bool} {soln : Option (List K)} {R : Solver K} :
      S.Reach s t → Solver.assemble S.ord S.perm F interior t soln = .ok R → S.Reach s R.space
  | built {t t' : GlobFunSp K} {c : ℤ} {fs : List (LocFun K)} :
      S.Reach s t → t.buildLocal S.ord S.perm c = .ok (t', fs) → S.Reach s t'

/-- States that can be reached from the fresh space -/
def Setup.Hist (S : Setup K) (s : GlobFunSp K) : Prop := S.Reach S.s0 s

/-- is the function supported on the mesh boundary? -/
def GFun.OnBoundary (S : Setup K) : GFun → Prop
  | .bubb _ _ => False
  | .vert v => ∃ e ∈ S.es, (v = (S.st e).anchor.idx ∨ v = (S.st e).endpnt.idx) ∧ ((S.st e).pos < 0 ∨ (S.st e).neg < 0)
  | .edge n _ => ∃ e, S.m.edges[n]? = some e ∧ ((S.st e).pos < 0 ∨ (S.st e).neg < 0)

/-- `i` is the number of a boundary function -/
def Setup.BoundaryNumber (S : Setup K) (i : ℕ) : Prop :=
  ∃ (g : GFun) (c : ℕ), g.Exists S.m S.p (dimOf S.m S.space) ∧ g.from c ∧ S.s0.getGlobalIdx g.key c = .ok (i : ℕ) ∧
    g.OnBoundary S

namespace Setup

variable (S : Setup K)

theorem numCells_eq : S.m.numCells = S.m.cellIdxList.length := (C34_index_lists S.st S.es S.m S.hm).2.2.2.1

theorem mesh_eq (s : GlobFunSp K) (hs : GlobFunSp.SameBut S.s0 s) : s.mesh = S.m := by
  obtain ⟨d, -, h⟩ := hs
  rw [h]
  exact (GlobFunSp.init_spec S.m S.deg S.space S.s0 S.hs).2.1

theorem loop_range (hc : S.CellsOk) (F : WeakForm K) (interior : Bool) (s : GlobFunSp K) (hs : GlobFunSp.SameBut S.s0 s)
    (acc : Solver.Accum K) (h : Solver.cellLoop S.ord S.perm F interior (List.range s.mesh.numCells)
      ⟨s, [], [], List.replicate s.mesh.numCells none⟩ = .ok acc) :
    acc = ⟨{ s with cellDofs := ((List.range S.m.numCells).foldl (fun d a => d.modify a
        (· ++ (S.basisAt a).map LocFun.key)) s.cellDofs) },
      (List.range S.m.numCells).flatMap (fun a => Solver.cellTriplets F a (S.basisAt a)),
      (List.range S.m.numCells).flatMap (fun a => Solver.cellRhs F a (S.basisAt a)),
      if interior then (List.range S.m.numCells).foldl (fun l a => l.set a (some (S.basisAt a)))
        (List.replicate S.m.numCells none) else List.replicate S.m.numCells none⟩ := by
  rw [S.mesh_eq s hs] at h
  rw [S.loop hc F interior _ ⟨s, [], [], List.replicate S.m.numCells none⟩ hs
    (fun a ha => by rw [← S.numCells_eq]; exact List.mem_range.1 ha)] at h
  simp only [List.nil_append, Except.ok.injEq] at h
  exact h.symm

/-- each cell has a number of copies, at least `N`, of its keys -/
def Copies (N : ℕ) (s : GlobFunSp K) : Prop := GlobFunSp.SameBut S.s0 s ∧
    ∀ a < S.m.numCells, ∃ n ≥ N, s.cellDofs[a]? = some (List.replicate n ((S.basisAt a).map LocFun.key)).flatten

theorem reach_spec (hc : S.CellsOk) (N : ℕ) (s t : GlobFunSp K) (hs : S.Copies N s) (h : S.Reach s t) : S.Copies N t := by
  induction h with
  | refl => exact hs
  | @assembled s F interior soln R _ hR ih =>
    obtain ⟨acc, h1, h2, -⟩ := Solver.assemble_spec S.ord S.perm F interior s soln R hR
    have := S.loop_range hc F interior s ih.1 acc h1
    rw [h2, this]
    constructor
    · obtain ⟨⟨d, hd, he⟩, -⟩ := ih
      rw [he]
      refine ⟨_, ?_, rfl⟩
      have hlen : ∀ (as : List ℕ) (d : List (List GlobalKey)), (as.foldl (fun d a => d.modify a
          (· ++ (S.basisAt a).map LocFun.key)) d).length = d.length := by
        intro as
        induction as with
        | nil => intro d; rfl
        | cons a as ih => intro d; rw [List.foldl_cons, ih]; simp
      rw [hlen]; exact hd
    · intro a ha
      obtain ⟨n, hN, hn⟩ := ih.2 a ha
      refine ⟨n + 1, by omega, ?_⟩
      simp only
      rw [Setup.foldl_modify (fun a x => x ++ (S.basisAt a).map LocFun.key) _ List.nodup_range,
        if_pos (List.mem_range.2 ha), hn, List.replicate_succ']
      simp
  | @built s s' c fs _ hb ih =>
    have hcm : c ∈ S.m.cellIdxList := by
      by_contra hcon
      unfold GlobFunSp.buildLocal at hb
      rw [S.mesh_eq s ih.1, (C34_abs_cell_idx S.st S.es S.m S.hm).2.2 c hcon] at hb
      simp [bind, Except.bind] at hb
    obtain ⟨a, ha⟩ := List.mem_iff_getElem?.1 hcm
    obtain ⟨halt, hac⟩ := List.getElem?_eq_some_iff.1 ha
    have hk := S.cellAt_spec hc a halt
    rw [hac] at hk
    rw [S.build s ih.1 a c ha _ hk] at hb
    simp only [Except.ok.injEq, Prod.mk.injEq] at hb
    obtain ⟨rfl, -⟩ := hb
    constructor
    · obtain ⟨⟨d, hd, he⟩, -⟩ := ih
      rw [he]
      exact ⟨_, by simpa using hd, rfl⟩
    · intro b hb
      obtain ⟨n, hN, hn⟩ := ih.2 b hb
      by_cases hab : a = b
      · subst hab
        refine ⟨n + 1, by omega, ?_⟩
        rw [List.replicate_succ']
        simp [hn, basisAt]
      · exact ⟨n, hN, by simp [hab, hn]⟩

/-- what every reachable state looks like -/
theorem hist_spec (hc : S.CellsOk) (s : GlobFunSp K) (h : S.Hist s) : S.Copies 0 s := by
  refine S.reach_spec hc 0 S.s0 s ⟨⟨S.s0.cellDofs, rfl, rfl⟩, fun a ha => ⟨0, le_refl _, ?_⟩⟩ h
  rw [(GlobFunSp.init_spec S.m S.deg S.space S.s0 S.hs).2.2.2.2.2.2.2.2.2]
  simp [ha]

/-- the rows that the boundary condition touches after a loop over all cells -/
theorem bset_iff (hc : S.CellsOk) (d : List (List GlobalKey))
    (hd : ∀ a < S.m.numCells, ∃ n, d[a]? = some (List.replicate n ((S.basisAt a).map LocFun.key)).flatten ∧ 1 ≤ n)
    (i : ℕ) :
    Solver.bset ((List.range S.m.numCells).flatMap fun a => d.getD a []) i ↔ S.BoundaryNumber i := by
  obtain ⟨-, -, hnv, hnc, -⟩ := C34_index_lists S.st S.es S.m S.hm
  have hmem : ∀ key, key ∈ ((List.range S.m.numCells).flatMap fun a => d.getD a []) ↔
      ∃ a < S.m.numCells, ∃ g ∈ S.funs a (S.cellAt a), key =
        (GFun.locNum S.m S.p S.space (S.perm (S.cellAt a)) (GlobFunSp.flag S.m) g).key := by
    intro key
    rw [List.mem_flatMap]
    simp only [List.mem_range]
    refine exists_congr fun a => and_congr_right fun ha => ?_
    obtain ⟨n, hn, hn1⟩ := hd a ha
    rw [List.getD_eq_getElem?_getD, hn, Option.getD_some, List.mem_flatten]
    constructor
    · rintro ⟨l, hl, hkey⟩
      rw [(List.mem_replicate.1 hl).2, basisAt, locBasis, List.map_map] at hkey
      obtain ⟨g, hg, rfl⟩ := List.mem_map.1 hkey
      exact ⟨g, hg, rfl⟩
    · rintro ⟨g, hg, rfl⟩
      refine ⟨_, List.mem_replicate.2 ⟨by omega, rfl⟩, ?_⟩
      rw [basisAt, locBasis, List.map_map]
      exact List.mem_map.2 ⟨g, hg, rfl⟩
  have hflag : ∀ g : GFun, g.Exists S.m S.p (dimOf S.m S.space) → (GlobFunSp.flag S.m g = true ↔ g.OnBoundary S) := by
    intro g hg
    cases g with
    | bubb c k => simp [GlobFunSp.flag, GFun.OnBoundary]
    | vert v => exact C35_vert S.st S.es S.m S.hm v
    | edge n k =>
      obtain ⟨h1, -⟩ := hg
      obtain ⟨b, -, hb1, hb2⟩ := C35_edge S.st S.es S.m S.hm n _ (List.getElem?_eq_getElem h1)
      simp only [GlobFunSp.flag, GFun.OnBoundary, List.getD_eq_getElem _ _ h1]
      rw [← hb2, hb1]
      simp [h1]
  unfold Solver.bset BoundaryNumber
  constructor
  · rintro ⟨key, hkey, hb, hi⟩
    obtain ⟨a, ha, g, hg, rfl⟩ := (hmem key).1 hkey
    have halt : a < S.m.cellIdxList.length := by rw [← hnc]; exact ha
    obtain ⟨h1, h2⟩ := S.exists_of_mem a _ (List.getElem?_eq_getElem halt) _ (S.cellAt_spec hc a halt) g hg
    refine ⟨g, a, h1, h2, ?_, ?_⟩
    · rw [(GlobFunSp.getGlobalIdx_number S.m hnv hnc S.deg S.space S.s0 S.hs g h1 a h2).1]
      simp only [GFun.locNum, Option.getD_some] at hi
      rw [← hi]; rfl
    · rw [← hflag g h1]
      simpa [GFun.locNum] using hb
  · rintro ⟨g, c, h1, h2, h3, h4⟩
    obtain ⟨a, c', k, ha, hk, hon⟩ := C55_covers S hc g h1
    obtain ⟨halt, hac⟩ := List.getElem?_eq_some_iff.1 ha
    have hk' := S.cellAt_spec hc a halt
    rw [hac, hk] at hk'
    obtain rfl : k = S.cellAt a := by simpa using hk'
    refine ⟨_, (hmem _).2 ⟨a, by rw [hnc]; exact halt, g, (S.mem_funs a c' _ hk g).2 hon, rfl⟩, ?_, ?_⟩
    · simp only [GFun.locNum]
      rw [(hflag g h1).2 h4]
    · rw [(GlobFunSp.getGlobalIdx_number S.m hnv hnc S.deg S.space S.s0 S.hs g h1 c h2).1] at h3
      simp only [Except.ok.injEq, Nat.cast_inj] at h3
      simp only [GFun.locNum, Option.getD_some]
      exact h3

open Classical in
/-- everything about an assembled solver -/
theorem assembled_spec (hc : S.CellsOk) (F : WeakForm K) (interior : Bool) (s : GlobFunSp K) (hs : S.Hist s)
    (soln : Option (List K)) (R : Solver K) (h : Solver.assemble S.ord S.perm F interior s soln = .ok R) :
    (∀ i j, R.stiffMat i j = ((List.range S.m.numCells).map fun a =>
      Solver.csr Triplet.h1 (Solver.cellTriplets F a (S.basisAt a)) i j).sum) ∧
    (∀ i j, R.massMat i j = ((List.range S.m.numCells).map fun a =>
      Solver.csr Triplet.l2 (Solver.cellTriplets F a (S.basisAt a)) i j).sum) ∧
    (∀ i j, R.globMat i j = if S.BoundaryNumber i then
        (if j = i then ((((List.range S.m.numCells).flatMap fun a => Solver.cellTriplets F a (S.basisAt a)).filter
          fun t => decide (t.row = i ∧ t.col = i)).length : K) else 0)
      else ((List.range S.m.numCells).map fun a =>
        Solver.csr Triplet.a (Solver.cellTriplets F a (S.basisAt a)) i j).sum) ∧
    (∀ i, R.globRhs i = if S.BoundaryNumber i then 0 else ((List.range S.m.numCells).map fun a =>
      Solver.csrRhs (Solver.cellRhs F a (S.basisAt a)) i).sum) ∧
    R.numFuns = S.s0.numFuns ∧
    (∀ a < S.m.numCells, R.locSpaces[a]? = some (if interior then some (S.basisAt a) else none)) ∧
    (∀ a < S.m.numCells, R.space.cellDofs[a]? = (s.cellDofs[a]?).map (· ++ (S.basisAt a).map LocFun.key)) ∧
    R.soln = soln := by
  obtain ⟨acc, h1, h2, h3, h4, h5, h6, h7, h8, h9, h10, h11, -⟩ :=
    Solver.assemble_spec S.ord S.perm F interior s soln R h
  obtain ⟨hsame, hdofs⟩ := S.hist_spec hc s hs
  have hacc := S.loop_range hc F interior s hsame acc h1
  have hdofs' : ∀ a < S.m.numCells, R.space.cellDofs[a]? = (s.cellDofs[a]?).map (· ++ (S.basisAt a).map LocFun.key) := by
    intro a ha
    rw [h2, hacc]
    simp only
    rw [Setup.foldl_modify (fun a x => x ++ (S.basisAt a).map LocFun.key) _ List.nodup_range,
      if_pos (List.mem_range.2 ha)]
  have hB : ∀ i, Solver.bset ((List.range acc.space.mesh.numCells).flatMap fun a => acc.space.cellDofs.getD a []) i ↔
      S.BoundaryNumber i := by
    intro i
    have hm : acc.space.mesh = S.m := by rw [hacc]; exact S.mesh_eq s hsame
    rw [hm]
    refine S.bset_iff hc _ (fun a ha => ?_) i
    obtain ⟨n, -, hn⟩ := hdofs a ha
    refine ⟨n + 1, ?_, by omega⟩
    rw [← h2, hdofs' a ha, hn, List.replicate_succ']
    simp
  have htr : acc.triplets = (List.range S.m.numCells).flatMap (fun a => Solver.cellTriplets F a (S.basisAt a)) := by
    rw [hacc]
  have hrh : acc.rhs = (List.range S.m.numCells).flatMap (fun a => Solver.cellRhs F a (S.basisAt a)) := by rw [hacc]
  refine ⟨?_, ?_, ?_, ?_, ?_, ?_, hdofs', h5⟩
  · intro i j
    rw [h10, h6, Solver.csr_bc _ _ (fun t => (Solver.bcT_row _ t).2.2.1), htr, Solver.csr_flatMap]
  · intro i j
    rw [h11, h6, Solver.csr_bc _ _ (fun t => (Solver.bcT_row _ t).2.2.2), htr, Solver.csr_flatMap]
  · intro i j
    rw [h8, h6]
    by_cases hb : S.BoundaryNumber i
    · rw [if_pos hb, Solver.csr_bc_row _ _ _ _ ((hB i).2 hb), htr]
    · rw [if_neg hb, Solver.csr_bc_free _ _ _ _ (fun h => hb ((hB i).1 h)), htr, Solver.csr_flatMap]
  · intro i
    rw [h9, h7, Solver.csrRhs_bc, hrh, Solver.csrRhs_flatMap]
    by_cases hb : S.BoundaryNumber i
    · rw [if_pos hb, if_pos ((hB i).2 hb)]
    · rw [if_neg hb, if_neg (fun h => hb ((hB i).1 h))]
  · rw [h3, hacc]
    obtain ⟨d, -, he⟩ := hsame
    rw [he]
  · intro a ha
    rw [h4, hacc]
    cases interior with
    | false => simp [ha]
    | true =>
      simp only [if_true]
      rw [Setup.foldl_set (fun a => some (S.basisAt a)) _ _ _ (by simpa using ha), if_pos (List.mem_range.2 ha)]

end Setup

/-- the value the weak form gives to the functions at positions `r` and `q` of a basis: it is evaluated once for each
unordered pair, with the earlier function first -/
def pairValue (V : LocFun K → LocFun K → K) (fs : List (LocFun K)) (r q : Fin fs.length) : K :=
  if r ≤ q then V fs[r] fs[q] else V fs[q] fs[r]

/-- C40: stiffness and mass matrix are symmetric, whatever the space, its state, and the values of the form. -/
theorem C40_symmetric (ord : List ℤ → List ℤ) (perm : CellTopo → List ℕ) (F : WeakForm K) (interior : Bool)
    (s : GlobFunSp K) (soln : Option (List K)) (R : Solver K) (h : Solver.assemble ord perm F interior s soln = .ok R)
    (i j : ℕ) : R.stiffMat i j = R.stiffMat j i ∧ R.massMat i j = R.massMat j i := by
  obtain ⟨acc, h1, h2, h3, h4, h5, h6, h7, h8, h9, h10, h11, -⟩ := Solver.assemble_spec ord perm F interior s soln R h
  obtain ⟨n, hn, hsym⟩ := Solver.cellLoop_triplets ord perm F interior _ _ acc h1
  simp only [List.nil_append] at hn
  rw [h10, h11, h6, hn]
  simp only [Solver.csr_bc _ _ (fun t => (Solver.bcT_row _ t).2.2.1), Solver.csr_bc _ _ (fun t => (Solver.bcT_row _ t).2.2.2)]
  exact ⟨hsym _ (fun a => F.h1 a) (fun a v w r c => rfl) i j, hsym _ (fun a => F.l2 a) (fun a v w r c => rfl) i j⟩

/-- C40: the system matrix is symmetric on the numbers that no boundary key carries. -/
theorem C40_system (ord : List ℤ → List ℤ) (perm : CellTopo → List ℕ) (F : WeakForm K) (interior : Bool)
    (s : GlobFunSp K) (soln : Option (List K)) (R : Solver K) (h : Solver.assemble ord perm F interior s soln = .ok R)
    (i j : ℕ) (hfree : ∀ dofs ∈ R.space.cellDofs, ∀ key ∈ dofs, key.onBoundary = some true →
      key.globIdx.getD 0 ≠ i ∧ key.globIdx.getD 0 ≠ j) : R.globMat i j = R.globMat j i := by
  obtain ⟨acc, h1, h2, h3, h4, h5, h6, h7, h8, h9, h10, h11, -⟩ := Solver.assemble_spec ord perm F interior s soln R h
  obtain ⟨n, hn, hsym⟩ := Solver.cellLoop_triplets ord perm F interior _ _ acc h1
  simp only [List.nil_append] at hn
  have hB : ∀ x, x = i ∨ x = j → ¬ Solver.bset ((List.range acc.space.mesh.numCells).flatMap fun a =>
      acc.space.cellDofs.getD a []) x := by
    rintro x hx ⟨key, hkey, hb, hi⟩
    obtain ⟨a, -, hka⟩ := List.mem_flatMap.1 hkey
    by_cases ha : a < acc.space.cellDofs.length
    · rw [List.getD_eq_getElem _ _ ha] at hka
      obtain ⟨e1, e2⟩ := hfree _ (by rw [h2]; exact List.getElem_mem ha) key hka hb
      rcases hx with rfl | rfl
      · exact e1 hi
      · exact e2 hi
    · rw [List.getD_eq_default _ _ (by omega)] at hka
      simp at hka
  rw [h8, h6, Solver.csr_bc_free _ _ _ _ (hB i (Or.inl rfl)), Solver.csr_bc_free _ _ _ _ (hB j (Or.inr rfl)), hn]
  exact hsym _ (fun a v w => F.eval (F.h1 a v w) (F.l2 a v w)) (fun a v w r c => rfl) i j

/-- C41: after every history, every entry of the matrices is the sum over the cells and over the pairs of functions of
the cell that carry the two numbers of the local values; so are the rows and right-hand sides of functions that are
not on the boundary. `B a` is the basis that a fresh space builds for the cell at position `a`. -/
theorem C41_entries (S : Setup K) (hc : S.CellsOk) (F : WeakForm K) (interior : Bool) (s : GlobFunSp K) (hs : S.Hist s)
    (soln : Option (List K)) (R : Solver K) (h : Solver.assemble S.ord S.perm F interior s soln = .ok R) :
    ∃ B : ℕ → List (LocFun K), (∀ a c, S.m.cellIdxList[a]? = some c → ∃ s', S.s0.buildLocal S.ord S.perm c = .ok (s', B a)) ∧
      (∀ i j, R.stiffMat i j = ∑ a ∈ range S.m.cellIdxList.length, ∑ r : Fin (B a).length, ∑ q : Fin (B a).length,
        if (B a)[r].glob = i ∧ (B a)[q].glob = j then pairValue (F.h1 a) (B a) r q else 0) ∧
      (∀ i j, R.massMat i j = ∑ a ∈ range S.m.cellIdxList.length, ∑ r : Fin (B a).length, ∑ q : Fin (B a).length,
        if (B a)[r].glob = i ∧ (B a)[q].glob = j then pairValue (F.l2 a) (B a) r q else 0) ∧
      (∀ i j, ¬ S.BoundaryNumber i → R.globMat i j =
        ∑ a ∈ range S.m.cellIdxList.length, ∑ r : Fin (B a).length, ∑ q : Fin (B a).length,
        if (B a)[r].glob = i ∧ (B a)[q].glob = j then
          pairValue (fun v w => F.diffusion * F.h1 a v w + F.reaction * F.l2 a v w) (B a) r q else 0) ∧
      (∀ i, ¬ S.BoundaryNumber i → R.globRhs i = ∑ a ∈ range S.m.cellIdxList.length,
        ((B a).map fun v => if v.glob = i then F.rhs a v else 0).sum) := by
  obtain ⟨h1, h2, h3, h4, -⟩ := S.assembled_spec hc F interior s hs soln R h
  have hsum : ∀ f : ℕ → K, ((List.range S.m.numCells).map f).sum = ∑ a ∈ range S.m.cellIdxList.length, f a := by
    intro f
    rw [S.numCells_eq]
    generalize S.m.cellIdxList.length = n
    induction n with
    | zero => rfl
    | succ n ih => rw [List.range_succ, List.map_append, List.sum_append, ih, Finset.sum_range_succ]; simp
  refine ⟨S.basisAt, ?_, ?_, ?_, ?_, ?_⟩
  · intro a c ha
    obtain ⟨halt, hac⟩ := List.getElem?_eq_some_iff.1 ha
    have hk := S.cellAt_spec hc a halt
    rw [hac] at hk
    exact ⟨_, S.build S.s0 ⟨_, rfl, rfl⟩ a c ha _ hk⟩
  · intro i j
    rw [h1, hsum]
    exact Finset.sum_congr rfl fun a _ => Solver.csr_cell F a _ (F.h1 a) (fun v w r c => rfl) _ i j
  · intro i j
    rw [h2, hsum]
    exact Finset.sum_congr rfl fun a _ => Solver.csr_cell F a _ (F.l2 a) (fun v w r c => rfl) _ i j
  · intro i j hb
    rw [h3, if_neg hb, hsum]
    exact Finset.sum_congr rfl fun a _ => Solver.csr_cell F a _
      (fun v w => F.diffusion * F.h1 a v w + F.reaction * F.l2 a v w) (fun v w r c => rfl) _ i j
  · intro i hb
    rw [h4, if_neg hb, hsum]
    exact Finset.sum_congr rfl fun a _ => Solver.csrRhs_cell F a _ i

/-- C41: if the inner product is symmetric, the pairs may be taken in any order. -/
theorem C41_symmetric_form (V : LocFun K → LocFun K → K) (hV : ∀ v w, V v w = V w v) (fs : List (LocFun K))
    (r q : Fin fs.length) : pairValue V fs r q = V fs[r] fs[q] := by
  unfold pairValue
  split
  · rfl
  · exact hV _ _

theorem checkIdx_ok (n : ℕ) (l : List ℕ) (hne : l ≠ []) (h : ∀ x ∈ l, x < n) : Solver.checkIdx n l = .ok () := by
  unfold Solver.checkIdx
  cases hm : l.max? with
  | none => exact absurd (List.max?_eq_none_iff.1 hm) hne
  | some y =>
    have := h y (List.max?_eq_some_iff.1 hm).1
    simp only
    rw [if_neg (by omega)]

theorem cellTriplets_diag (F : WeakForm K) (a : ℕ) (fs : List (LocFun K)) (v : LocFun K) (hv : v ∈ fs) :
    ∃ t ∈ Solver.cellTriplets F a fs, t.row = v.glob ∧ t.col = v.glob := by
  induction fs with
  | nil => simp at hv
  | cons w ws ih =>
    rw [Solver.cellTriplets]
    rcases List.mem_cons.1 hv with rfl | hv
    · exact ⟨⟨v.glob, v.glob, F.eval (F.h1 a v v) (F.l2 a v v), F.h1 a v v, F.l2 a v v⟩,
        by simp [Solver.matrixValues], rfl, rfl⟩
    · obtain ⟨t, ht, h⟩ := ih hv
      exact ⟨t, by simp [ht], h⟩

theorem cellTriplets_mem (F : WeakForm K) (a : ℕ) (fs : List (LocFun K)) (t : Triplet K)
    (ht : t ∈ Solver.cellTriplets F a fs) : (∃ v ∈ fs, t.row = v.glob) ∧ (∃ v ∈ fs, t.col = v.glob) := by
  induction fs with
  | nil => simp [Solver.cellTriplets] at ht
  | cons w ws ih =>
    rw [Solver.cellTriplets, List.mem_append, List.mem_append, List.mem_flatMap] at ht
    rcases ht with (ht | ⟨v, hv, ht⟩) | ht
    · simp only [Solver.matrixValues, Bool.false_eq_true, if_false, List.mem_singleton] at ht
      subst ht
      exact ⟨⟨w, by simp, rfl⟩, ⟨w, by simp, rfl⟩⟩
    · simp only [Solver.matrixValues, if_true, List.mem_cons, List.not_mem_nil, or_false] at ht
      rcases ht with rfl | rfl
      · exact ⟨⟨w, by simp, rfl⟩, ⟨v, by simp [hv], rfl⟩⟩
      · exact ⟨⟨v, by simp [hv], rfl⟩, ⟨w, by simp, rfl⟩⟩
    · obtain ⟨⟨v, hv, h1⟩, w', hw, h2⟩ := ih ht
      exact ⟨⟨v, by simp [hv], h1⟩, ⟨w', by simp [hw], h2⟩⟩

namespace Setup

variable (S : Setup K)

/-- every function is in the basis of some cell, under its number -/
theorem fun_on_cell (hc : S.CellsOk) (g : GFun) (hg : g.Exists S.m S.p (dimOf S.m S.space)) :
    ∃ a < S.m.numCells, ∃ f ∈ S.basisAt a, f.glob = S.num g := by
  obtain ⟨a, c', k, ha, hk, hon⟩ := C55_covers S hc g hg
  obtain ⟨halt, hac⟩ := List.getElem?_eq_some_iff.1 ha
  have hk' := S.cellAt_spec hc a halt
  rw [hac, hk] at hk'
  obtain rfl : k = S.cellAt a := by simpa using hk'
  exact ⟨a, by rw [S.numCells_eq]; exact halt, _, List.mem_map.2 ⟨g, (S.mem_funs a c' _ hk g).2 hon, rfl⟩, rfl⟩

/-- all local functions have numbers below the dimension -/
theorem glob_lt (hc : S.CellsOk) (a : ℕ) (ha : a < S.m.numCells) (f : LocFun K) (hf : f ∈ S.basisAt a) :
    f.glob < S.s0.numFuns := by
  have halt : a < S.m.cellIdxList.length := by rw [← S.numCells_eq]; exact ha
  obtain ⟨g, hg, rfl⟩ := List.mem_map.1 hf
  exact S.num_lt g (S.exists_of_mem a _ (List.getElem?_eq_getElem halt) _ (S.cellAt_spec hc a halt) g hg).1

theorem boundary_num (i : ℕ) (h : S.BoundaryNumber i) :
    ∃ g : GFun, g.Exists S.m S.p (dimOf S.m S.space) ∧ S.num g = i := by
  obtain ⟨-, -, hnv, hnc, -⟩ := C34_index_lists S.st S.es S.m S.hm
  obtain ⟨g, c, h1, h2, h3, h4⟩ := h
  rw [(GlobFunSp.getGlobalIdx_number S.m hnv hnc S.deg S.space S.s0 S.hs g h1 c h2).1] at h3
  simp only [Except.ok.injEq, Nat.cast_inj] at h3
  exact ⟨g, h1, h3⟩

end Setup

theorem assemble_ok (ord : List ℤ → List ℤ) (perm : CellTopo → List ℕ) (F : WeakForm K) (interior : Bool)
    (s : GlobFunSp K) (soln : Option (List K)) (acc : Solver.Accum K)
    (h : Solver.cellLoop ord perm F interior (List.range s.mesh.numCells)
      ⟨s, [], [], List.replicate s.mesh.numCells none⟩ = .ok acc) (h1 : acc.triplets ≠ []) (h2 : acc.rhs ≠ [])
    (h3 : ∀ t ∈ acc.triplets, t.row < acc.space.numFuns ∧ t.col < acc.space.numFuns)
    (h4 : ∀ r ∈ acc.rhs, r.1 < acc.space.numFuns) : ∃ R, Solver.assemble ord perm F interior s soln = .ok R := by
  unfold Solver.assemble
  rw [h]
  simp only [bind, Except.bind]
  rw [Solver.imposeBc_eq]
  simp only
  rw [checkIdx_ok, checkIdx_ok, checkIdx_ok]
  · exact ⟨_, rfl⟩
  · simpa using h1
  · intro x hx
    obtain ⟨_, ht, rfl⟩ := List.mem_map.1 hx
    obtain ⟨t, ht', rfl⟩ := List.mem_map.1 ht
    rw [(Solver.bcT_row _ t).2.1]; exact (h3 t ht').2
  · simpa using h1
  · intro x hx
    obtain ⟨_, ht, rfl⟩ := List.mem_map.1 hx
    obtain ⟨t, ht', rfl⟩ := List.mem_map.1 ht
    rw [(Solver.bcT_row _ t).1]; exact (h3 t ht').1
  · simpa using h2
  · intro x hx
    obtain ⟨_, ht, rfl⟩ := List.mem_map.1 hx
    obtain ⟨t, ht', rfl⟩ := List.mem_map.1 ht
    rw [Solver.bcR_fst]; exact h4 t ht'

theorem assemble_empty (ord : List ℤ → List ℤ) (perm : CellTopo → List ℕ) (F : WeakForm K) (interior : Bool)
    (s : GlobFunSp K) (soln : Option (List K)) (acc : Solver.Accum K)
    (h : Solver.cellLoop ord perm F interior (List.range s.mesh.numCells)
      ⟨s, [], [], List.replicate s.mesh.numCells none⟩ = .ok acc) (h2 : acc.rhs = []) :
    Solver.assemble ord perm F interior s soln = .error .valueError := by
  unfold Solver.assemble
  rw [h]
  simp only [bind, Except.bind]
  rw [Solver.imposeBc_eq, h2]
  rfl

/-- Assembly succeeds after every history, provided there is at least one function; otherwise it raises `ValueError`. -/
theorem C41_succeeds (S : Setup K) (hc : S.CellsOk) (F : WeakForm K) (interior : Bool) (s : GlobFunSp K) (hs : S.Hist s)
    (soln : Option (List K)) :
    (0 < S.s0.numFuns → ∃ R, Solver.assemble S.ord S.perm F interior s soln = .ok R) ∧
    (S.s0.numFuns = 0 → Solver.assemble S.ord S.perm F interior s soln = .error .valueError) := by
  obtain ⟨hsame, -⟩ := S.hist_spec hc s hs
  have hnum : s.numFuns = S.s0.numFuns := by obtain ⟨d, -, he⟩ := hsame; rw [he]
  have hloop := S.loop hc F interior (List.range S.m.numCells) ⟨s, [], [], List.replicate S.m.numCells none⟩ hsame
    (fun a ha => by rw [← S.numCells_eq]; exact List.mem_range.1 ha)
  rw [← S.mesh_eq s hsame] at hloop
  have hm := S.mesh_eq s hsame
  constructor
  · intro h0
    obtain ⟨g, hg, -⟩ := C38_surjective S.st S.es S.m S.hm S.deg S.space S.s0 S.hs 0 h0
    obtain ⟨a, ha, f, hf, -⟩ := S.fun_on_cell hc g hg
    obtain ⟨t, ht, -⟩ := cellTriplets_diag F a _ f hf
    refine assemble_ok S.ord S.perm F interior s soln _ hloop ?_ ?_ ?_ ?_
    · simp only [hm, List.nil_append]
      exact List.ne_nil_of_mem (List.mem_flatMap.2 ⟨a, List.mem_range.2 ha, ht⟩)
    · simp only [hm, List.nil_append]
      exact List.ne_nil_of_mem (List.mem_flatMap.2 ⟨a, List.mem_range.2 ha, List.mem_map.2 ⟨f, hf, rfl⟩⟩)
    · simp only [hm, List.nil_append, hnum]
      intro t ht
      obtain ⟨b, hb, ht⟩ := List.mem_flatMap.1 ht
      obtain ⟨⟨v, hv, h1⟩, w, hw, h2⟩ := cellTriplets_mem F b _ t ht
      rw [h1, h2]
      exact ⟨S.glob_lt hc b (List.mem_range.1 hb) v hv, S.glob_lt hc b (List.mem_range.1 hb) w hw⟩
    · simp only [hm, List.nil_append, hnum]
      intro r hr
      obtain ⟨b, hb, hr⟩ := List.mem_flatMap.1 hr
      obtain ⟨v, hv, rfl⟩ := List.mem_map.1 hr
      exact S.glob_lt hc b (List.mem_range.1 hb) v hv
  · intro h0
    refine assemble_empty S.ord S.perm F interior s soln _ hloop ?_
    simp only [hm, List.nil_append, List.flatMap_eq_nil_iff]
    intro a ha
    rw [Solver.cellRhs, List.map_eq_nil_iff]
    by_contra hne
    obtain ⟨f, hf⟩ := List.exists_mem_of_ne_nil _ hne
    have := S.glob_lt hc a (List.mem_range.1 ha) f hf
    omega

/-- C42: the row of a boundary function is a positive multiple of the identity row with zero right-hand side. -/
theorem C42_boundary_rows [IsStrictOrderedRing K] (S : Setup K) (hc : S.CellsOk) (F : WeakForm K) (interior : Bool)
    (s : GlobFunSp K) (hs : S.Hist s) (soln : Option (List K)) (R : Solver K)
    (h : Solver.assemble S.ord S.perm F interior s soln = .ok R) (i : ℕ) (hi : S.BoundaryNumber i) :
    0 < R.globMat i i ∧ (∀ j, j ≠ i → R.globMat i j = 0) ∧ R.globRhs i = 0 := by
  obtain ⟨-, -, h3, h4, -⟩ := S.assembled_spec hc F interior s hs soln R h
  refine ⟨?_, fun j hj => by rw [h3, if_pos hi, if_neg hj], by rw [h4, if_pos hi]⟩
  rw [h3, if_pos hi, if_pos rfl, Nat.cast_pos, List.length_pos_iff_exists_mem]
  obtain ⟨g, hg, hgi⟩ := S.boundary_num i hi
  obtain ⟨a, ha, f, hf, hfg⟩ := S.fun_on_cell hc g hg
  obtain ⟨t, ht, h1, h2⟩ := cellTriplets_diag F a _ f hf
  refine ⟨t, List.mem_filter.2 ⟨List.mem_flatMap.2 ⟨a, List.mem_range.2 ha, ht⟩, ?_⟩⟩
  rw [h1, h2, hfg, hgi]; simp

/-- C42: hence every solution of the assembled system vanishes in all boundary functions. -/
theorem C42_solution_vanishes [IsStrictOrderedRing K] (S : Setup K) (hc : S.CellsOk) (F : WeakForm K) (interior : Bool)
    (s : GlobFunSp K) (hs : S.Hist s) (soln : Option (List K)) (R : Solver K)
    (h : Solver.assemble S.ord S.perm F interior s soln = .ok R) (x : ℕ → K)
    (hx : ∀ i < R.numFuns, ∑ j ∈ range R.numFuns, R.globMat i j * x j = R.globRhs i) (i : ℕ)
    (hi : S.BoundaryNumber i) : x i = 0 := by
  obtain ⟨h1, h2, h3⟩ := C42_boundary_rows S hc F interior s hs soln R h i hi
  obtain ⟨-, -, -, -, h5, -⟩ := S.assembled_spec hc F interior s hs soln R h
  have hlt : i < R.numFuns := by
    obtain ⟨g, hg, hgi⟩ := S.boundary_num i hi
    rw [h5, ← hgi]; exact S.num_lt g hg
  have := hx i hlt
  rw [Finset.sum_eq_single i (fun j _ hj => by rw [h2 j hj, zero_mul])
    (fun hn => absurd (Finset.mem_range.2 hlt) hn), h3] at this
  exact (mul_eq_zero.1 this).resolve_left h1.ne'

/-- C43, the matrix part (missing from C43: the per-cell lists, see `C43_dofs_double`): after any two histories of the
function space, assembling the same form gives the same matrices and right-hand side. -/
theorem C43_matrices_partial (S : Setup K) (hc : S.CellsOk) (F : WeakForm K) (interior interior' : Bool)
    (s s' : GlobFunSp K) (hs : S.Hist s) (hs' : S.Hist s') (soln soln' : Option (List K)) (R R' : Solver K)
    (h : Solver.assemble S.ord S.perm F interior s soln = .ok R)
    (h' : Solver.assemble S.ord S.perm F interior' s' soln' = .ok R') :
    R.stiffMat = R'.stiffMat ∧ R.massMat = R'.massMat ∧ R.globMat = R'.globMat ∧ R.globRhs = R'.globRhs ∧
      R.numFuns = R'.numFuns := by
  obtain ⟨h1, h2, h3, h4, h5, -⟩ := S.assembled_spec hc F interior s hs soln R h
  obtain ⟨g1, g2, g3, g4, g5, -⟩ := S.assembled_spec hc F interior' s' hs' soln' R' h'
  refine ⟨?_, ?_, ?_, ?_, by rw [h5, g5]⟩
  · funext i j; rw [h1, g1]
  · funext i j; rw [h2, g2]
  · funext i j; rw [h3, g3]
  · funext i; rw [h4, g4]

/-- C43 fails for the per-cell lists: the second assembly appends the keys of every cell once more. -/
theorem C43_dofs_double (S : Setup K) (hc : S.CellsOk) (F F' : WeakForm K) (interior interior' : Bool)
    (soln soln' : Option (List K)) (R R' : Solver K)
    (h : Solver.assemble S.ord S.perm F interior S.s0 soln = .ok R)
    (h' : Solver.assemble S.ord S.perm F' interior' R.space soln' = .ok R') (a : ℕ) (c : ℤ)
    (ha : S.m.cellIdxList[a]? = some c) (s' : GlobFunSp K) (fs : List (LocFun K))
    (hb : S.s0.buildLocal S.ord S.perm c = .ok (s', fs)) :
    R.space.cellDofs[a]? = some (fs.map LocFun.key) ∧
    R'.space.cellDofs[a]? = some (fs.map LocFun.key ++ fs.map LocFun.key) := by
  obtain ⟨halt, hac⟩ := List.getElem?_eq_some_iff.1 ha
  have hk := S.cellAt_spec hc a halt
  rw [hac] at hk
  rw [S.build S.s0 ⟨_, rfl, rfl⟩ a c ha _ hk] at hb
  simp only [Except.ok.injEq, Prod.mk.injEq] at hb
  obtain ⟨-, rfl⟩ := hb
  have hlt : a < S.m.numCells := by rw [S.numCells_eq]; exact halt
  obtain ⟨-, -, -, -, -, -, h7, -⟩ := S.assembled_spec hc F interior S.s0 .refl soln R h
  obtain ⟨-, -, -, -, -, -, g7, -⟩ := S.assembled_spec hc F' interior' R.space (.assembled .refl h) soln' R' h'
  rw [g7 a hlt, h7 a hlt, (GlobFunSp.init_spec S.m S.deg S.space S.s0 S.hs).2.2.2.2.2.2.2.2.2]
  simp [hlt, Setup.basisAt]

/-- C44 fails: a solver that has just been built raises `AttributeError` on `get_solution`, whatever its data. -/
theorem C44_before_solve (ord : List ℤ → List ℤ) (perm : CellTopo → List ℕ) (F : WeakForm K) (interior : Bool)
    (s : GlobFunSp K) (R : Solver K) (h : Solver.init ord perm F interior s = .ok R) :
    R.getSolution = .error .attributeError := by
  obtain ⟨acc, -, -, -, -, h5, -⟩ := Solver.assemble_spec ord perm F interior s none R h
  unfold Solver.getSolution
  rw [h5]

/-- C44, the part that holds (missing: queries before `solve`): after `solve` the solution of the assembled system is
returned. -/
theorem C44_after_solve_partial (spsolve : (ℕ → ℕ → K) → (ℕ → K) → ℕ → List K) (R : Solver K) :
    (R.solve spsolve).getSolution = .ok (spsolve R.globMat R.globRhs R.numFuns) := rfl

/-- Assembling again keeps the old solution: until the next `solve`, `get_solution` returns the solution of the old
system. -/
theorem C44_stale_after_assemble (spsolve : (ℕ → ℕ → K) → (ℕ → K) → ℕ → List K) (ord : List ℤ → List ℤ)
    (perm : CellTopo → List ℕ) (F : WeakForm K) (interior : Bool) (R R' : Solver K)
    (h : Solver.assemble ord perm F interior R.space (R.solve spsolve).soln = .ok R') :
    R'.getSolution = .ok (spsolve R.globMat R.globRhs R.numFuns) := by
  obtain ⟨acc, -, -, -, -, h5, -⟩ := Solver.assemble_spec ord perm F interior R.space _ R' h
  unfold Solver.getSolution
  rw [h5]
  rfl

/-- C44, the dimension check, for any function space (also a broken one): if a local function of some cell carries a
number that is not below `num_funs`, assembly raises `ValueError`. -/
theorem C44_dimension_check (ord : List ℤ → List ℤ) (perm : CellTopo → List ℕ) (F : WeakForm K) (interior : Bool)
    (s : GlobFunSp K) (soln : Option (List K)) (acc : Solver.Accum K)
    (h : Solver.cellLoop ord perm F interior (List.range s.mesh.numCells)
      ⟨s, [], [], List.replicate s.mesh.numCells none⟩ = .ok acc)
    (hbad : (∃ t ∈ acc.triplets, acc.space.numFuns ≤ t.row ∨ acc.space.numFuns ≤ t.col) ∨
      ∃ r ∈ acc.rhs, acc.space.numFuns ≤ r.1) : Solver.assemble ord perm F interior s soln = .error .valueError := by
  have hck : ∀ n l, Solver.checkIdx n l = .ok () ∨ Solver.checkIdx n l = .error .valueError := by
    intro n l
    unfold Solver.checkIdx
    cases l.max? with
    | none => exact Or.inr rfl
    | some y =>
      simp only
      split
      · exact Or.inr rfl
      · exact Or.inl rfl
  have hcases : (∃ R, Solver.assemble ord perm F interior s soln = .ok R) ∨
      Solver.assemble ord perm F interior s soln = .error .valueError := by
    unfold Solver.assemble
    rw [h]
    simp only [bind, Except.bind]
    rw [Solver.imposeBc_eq]
    simp only
    rcases hck acc.space.numFuns (List.map Prod.fst (List.map (Solver.bcR (Solver.bset ((List.range
        acc.space.mesh.numCells).flatMap fun a => acc.space.cellDofs.getD a []))) acc.rhs)) with e | e
    · rw [e]
      simp only
      rcases hck acc.space.numFuns (List.map Triplet.row (List.map (Solver.bcT (Solver.bset ((List.range
        acc.space.mesh.numCells).flatMap fun a => acc.space.cellDofs.getD a []))) acc.triplets)) with e | e
      · rw [e]
        simp only
        rcases hck acc.space.numFuns (List.map Triplet.col (List.map (Solver.bcT (Solver.bset ((List.range
          acc.space.mesh.numCells).flatMap fun a => acc.space.cellDofs.getD a []))) acc.triplets)) with e | e
        · rw [e]; exact Or.inl ⟨_, rfl⟩
        · rw [e]; exact Or.inr rfl
      · rw [e]; exact Or.inr rfl
    · rw [e]; exact Or.inr rfl
  refine hcases.resolve_left ?_
  rintro ⟨R, hR⟩
  obtain ⟨acc', h1, -, h3, -, -, -, -, -, -, -, -, h12, h13⟩ := Solver.assemble_spec ord perm F interior s soln R hR
  rw [h] at h1
  obtain rfl : acc = acc' := by simpa using h1
  rcases hbad with ⟨t, ht, hb⟩ | ⟨r, hr, hb⟩
  · have := h12 t ht
    rcases hb with hb | hb <;> omega
  · have := h13 r hr
    omega

theorem comboLoop_eq {M : Type} [AddCommGroup M] [Module K M] (val : LocFun K → M) (u : ℕ → K) (post : List K)
    (fs : List (LocFun K)) (pre : List K) (w : M) :
    Solver.comboLoop val (pre ++ fs.map (fun f => u f.glob) ++ post) pre.length w fs =
      .ok (w + (fs.map fun f => if |u f.glob| < 1 / 10 ^ 4 then 0 else u f.glob • val f).sum) := by
  induction fs generalizing pre w with
  | nil => simp [Solver.comboLoop]
  | cons f fs ih =>
    have hget : (pre ++ (f :: fs).map (fun f => u f.glob) ++ post)[pre.length]? = some (u f.glob) := by simp
    rw [Solver.comboLoop, hget]
    simp only
    have := ih (pre ++ [u f.glob]) (if |u f.glob| < 1 / 10 ^ 4 then w else w + u f.glob • val f)
    simp only [List.append_assoc, List.nil_append, List.length_append, List.length_singleton, List.cons_append] at this
    simp only [List.map_cons, List.append_assoc, List.cons_append]
    rw [this]
    split
    · simp
    · simp [add_assoc]

theorem mapM_ok {α β : Type} (l : List α) (f : α → Py β) (g : α → β) (h : ∀ a ∈ l, f a = .ok (g a)) :
    l.mapM f = .ok (l.map g) := by
  induction l with
  | nil => rfl
  | cons a l ih =>
    rw [List.mapM_cons, h a (by simp), ih (fun b hb => h b (by simp [hb]))]
    rfl

/-- C45: on every cell of the mesh, in every state reached after the assembly, the combination is the sum over the basis
of the cell of coefficient times function, where functions whose coefficient is below `1e-4` in magnitude are left out;
`fs` is the basis that the fresh space builds for the cell. -/
theorem C45_combo {M : Type} [AddCommGroup M] [Module K M] (val : LocFun K → M) (S : Setup K) (hc : S.CellsOk)
    (F : WeakForm K) (s : GlobFunSp K) (hs : S.Hist s) (soln : Option (List K)) (R : Solver K)
    (h : Solver.assemble S.ord S.perm F true s soln = .ok R) (t : GlobFunSp K) (ht : S.Reach R.space t)
    (a : ℕ) (c : ℤ) (ha : S.m.cellIdxList[a]? = some c) (s' : GlobFunSp K) (fs : List (LocFun K))
    (hb : S.s0.buildLocal S.ord S.perm c = .ok (s', fs)) (u : List K) (hu : S.s0.numFuns ≤ u.length) :
    Solver.linearCombo val { R with space := t } c u =
      .ok (fs.map fun f => if |u.getD f.glob 0| < 1 / 10 ^ 4 then 0 else u.getD f.glob 0 • val f).sum := by
  obtain ⟨halt, hac⟩ := List.getElem?_eq_some_iff.1 ha
  have hk := S.cellAt_spec hc a halt
  rw [hac] at hk
  rw [S.build S.s0 ⟨_, rfl, rfl⟩ a c ha _ hk] at hb
  simp only [Except.ok.injEq, Prod.mk.injEq] at hb
  obtain ⟨-, rfl⟩ := hb
  have hlt : a < S.m.numCells := by rw [S.numCells_eq]; exact halt
  obtain ⟨-, -, -, -, -, h6, h7, -⟩ := S.assembled_spec hc F true s hs soln R h
  have hR : S.Copies 1 R.space := by
    obtain ⟨g1, g2⟩ := S.hist_spec hc s hs
    refine ⟨(S.hist_spec hc R.space (.assembled hs h)).1, fun b hb => ?_⟩
    obtain ⟨n, -, hn⟩ := g2 b hb
    refine ⟨n + 1, by omega, ?_⟩
    rw [h7 b hb, hn, List.replicate_succ']
    simp
  obtain ⟨t1, t2⟩ := S.reach_spec hc 1 _ _ hR ht
  obtain ⟨n, hn1, hn⟩ := t2 a hlt
  have habs : t.mesh.getAbsCellIdx c = .ok a := by
    rw [S.mesh_eq t t1]
    exact ((C34_abs_cell_idx S.st S.es S.m S.hm).2.1 a c ha)
  unfold Solver.linearCombo Solver.getCoef
  simp only [habs, bind, Except.bind]
  have e1 : pyGetZ R.locSpaces (a : ℕ) = .ok (some (S.basisAt a)) := by
    have := h6 a hlt
    obtain ⟨hl, he⟩ := List.getElem?_eq_some_iff.1 this
    simp [pyGetZ, hl, he]
  have e2 : pyGetZ t.cellDofs (a : ℕ) = .ok (List.replicate n ((S.basisAt a).map LocFun.key)).flatten := by
    obtain ⟨hl, he⟩ := List.getElem?_eq_some_iff.1 hn
    simp [pyGetZ, hl, he]
  have e3 : List.mapM (fun key : GlobalKey => pyGetZ u ((key.globIdx.getD 0 : ℕ) : ℤ))
      (List.replicate n ((S.basisAt a).map LocFun.key)).flatten =
      .ok ((List.replicate n ((S.basisAt a).map LocFun.key)).flatten.map fun key => u.getD (key.globIdx.getD 0) 0) := by
    refine mapM_ok _ _ _ fun key hkey => ?_
    obtain ⟨l, hl, hkey⟩ := List.mem_flatten.1 hkey
    rw [(List.mem_replicate.1 hl).2] at hkey
    obtain ⟨f, hf, rfl⟩ := List.mem_map.1 hkey
    have hlt : f.glob < u.length := lt_of_lt_of_le (S.glob_lt hc a hlt f hf) hu
    have hlt' : f.key.globIdx.getD 0 < u.length := hlt
    simp [pyGetZ, hlt']
  rw [e1]
  simp only
  rw [e2]
  simp only
  rw [e3]
  simp only
  obtain ⟨n, rfl⟩ : ∃ k, n = k + 1 := ⟨n - 1, by omega⟩
  have := comboLoop_eq val (fun i => u.getD i 0) ((List.replicate n ((S.basisAt a).map LocFun.key)).flatten.map
    fun key => u.getD (key.globIdx.getD 0) 0) (S.basisAt a) [] (0 : M)
  simp only [List.nil_append, List.length_nil, zero_add] at this
  rw [List.replicate_succ, List.flatten_cons, List.map_append, List.map_map]
  exact this

/-- C45: without interior values the combination cannot be formed (`ValueError`); nor can it on a number that is not a
cell of the mesh. -/
theorem C45_errors {M : Type} [AddCommGroup M] [Module K M] (val : LocFun K → M) (S : Setup K) (hc : S.CellsOk)
    (F : WeakForm K) (s : GlobFunSp K) (hs : S.Hist s) (soln : Option (List K)) (interior : Bool) (R : Solver K)
    (h : Solver.assemble S.ord S.perm F interior s soln = .ok R) (t : GlobFunSp K) (ht : S.Reach R.space t) (c : ℤ)
    (u : List K) :
    (interior = false → c ∈ S.m.cellIdxList → Solver.linearCombo val { R with space := t } c u = .error .valueError) ∧
    (c ∉ S.m.cellIdxList → Solver.linearCombo val { R with space := t } c u = .error .valueError) := by
  obtain ⟨-, -, -, -, -, h6, -⟩ := S.assembled_spec hc F interior s hs soln R h
  have hm : t.mesh = S.m := by
    refine S.mesh_eq t (S.reach_spec hc 0 _ _ (S.hist_spec hc R.space (.assembled hs h)) ht).1
  constructor
  · rintro rfl hmem
    obtain ⟨a, ha⟩ := List.mem_iff_getElem?.1 hmem
    obtain ⟨halt, hac⟩ := List.getElem?_eq_some_iff.1 ha
    have hlt : a < S.m.numCells := by rw [S.numCells_eq]; exact halt
    have habs : t.mesh.getAbsCellIdx c = .ok a := by
      rw [hm]
      exact ((C34_abs_cell_idx S.st S.es S.m S.hm).2.1 a c ha)
    unfold Solver.linearCombo
    have e1 : pyGetZ R.locSpaces (a : ℕ) = .ok none := by
      obtain ⟨hl, he⟩ := List.getElem?_eq_some_iff.1 (h6 a hlt)
      simp [pyGetZ, hl, he]
    simp only [habs, bind, Except.bind]
    rw [e1]
  · intro hn
    unfold Solver.linearCombo
    simp only [hm, (C34_abs_cell_idx S.st S.es S.m S.hm).2.2 c hn, bind, Except.bind]

section examples

/-- a form with values that tell the functions apart -/
def exForm : WeakForm ℚ where
  diffusion := 2
  reaction := 3
  h1 := fun a v w => (a + 1) * (v.glob + 10 * w.glob)
  l2 := fun a v w => a + v.glob * w.glob
  rhs := fun a v => a + v.glob

theorem exSetup_cellsOk : exSetup.CellsOk := by
  have h : ∀ c ∈ exSetup.m.cellIdxList, (exSetup.m.getCell c).toOption.isSome = true := by decide +kernel
  exact fun c hc => ⟨_, Py.eq_get _ (h c hc)⟩

def exSolver : Solver ℚ := (Solver.init exSetup.ord exSetup.perm exForm true exSetup.s0).toOption.get (by decide +kernel)

/-- the hypotheses of C40-C45 are met -/
theorem exSolver_init : Solver.init exSetup.ord exSetup.perm exForm true exSetup.s0 = .ok exSolver := Py.eq_get _ _

example : exSetup.Hist exSolver.space := .assembled .refl exSolver_init

/-- a history with two assemblies -/
example : ∃ R, Solver.assemble exSetup.ord exSetup.perm exForm true exSolver.space none = .ok R :=
  (C41_succeeds exSetup exSetup_cellsOk exForm true exSolver.space (.assembled .refl exSolver_init) none).1
    (by decide +kernel)

/-- there are 11 functions; 0 and 1 are bubbles, 2-7 vertex functions; all vertices are on the boundary -/
example : exSolver.numFuns = 11 ∧ exSolver.globMat 2 2 = 1 ∧ exSolver.globMat 2 0 = 0 ∧ exSolver.globRhs 2 = 0 ∧
    exSolver.globMat 3 3 = 2 ∧ exSolver.stiffMat 0 3 = 3 ∧ exSolver.stiffMat 3 0 = 3 ∧ exSolver.globRhs 1 = 2 := by
  decide +kernel

example : exSetup.BoundaryNumber 2 :=
  ⟨.vert 0, 0, (by decide +kernel : (0 : ℤ) ∈ exSetup.m.vertIdxList), trivial, by decide +kernel, 0, by decide, Or.inl (by decide), by decide⟩

example : ((Solver.linearCombo (fun f => (f.glob : ℚ)) exSolver 0 (List.range 11 |>.map fun (n : ℕ) => (n : ℚ))).toOption) =
    some (3 * 3 + 6 * 6 + 7 * 7 + 2 * 2 + 8 * 8 + 9 * 9 : ℚ) := by decide +kernel

end examples

end PFEM
