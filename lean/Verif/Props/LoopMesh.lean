import Verif.Props.DiscSolve

/-!
Assembly on a mesh that consists of one cell bounded by one closed curve, whatever its shape: the equations of the bubble functions.
-/

namespace PFEM
namespace SolverG

open LocSpaceG Finset Nystrom

/-- number of bubbles -/
noncomputable def numBubbles (S : Setup ℝ) : ℕ := S.p * (S.p - 1) / 2

/-- global number of the bubble function `k` of the only cell -/
noncomputable def bubbleNum (S : Setup ℝ) (k : ℕ) : ℕ := S.num (.bubb 0 k)

/-- what assembly gives on such a mesh, if the local space has the edge functions `es` and the bubble functions `bs` -/
structure LoopSystem (S : Setup ℝ) (B : BilinForm) (bs : List Fn) (R : State) : Prop where
  num : R.numFuns = S.s0.numFuns
  len : bs.length = numBubbles S
  free : ∀ k < numBubbles S, bubbleNum S k < R.numFuns ∧ ¬ S.BoundaryNumber (bubbleNum S k)
  inj : ∀ k < numBubbles S, ∀ l < numBubbles S, bubbleNum S k = bubbleNum S l → k = l
  cover : ∀ i < R.numFuns, ¬ S.BoundaryNumber i → ∃ k < numBubbles S, bubbleNum S k = i
  boundary : ∀ i < R.numFuns, S.BoundaryNumber i → 0 < R.globMat i i ∧ (∀ j, j ≠ i → R.globMat i j = 0) ∧ R.globRhs i = 0
  mat : ∀ k (hk : k < bs.length) l (hl : l < bs.length), ∃ I J,
    R.globMat (bubbleNum S k) (bubbleNum S l) = B.diffusion * I + B.reaction * J ∧
    (bs[k].val.getH1 (.poisson bs[l].val) = .ok I ∨ bs[l].val.getH1 (.poisson bs[k].val) = .ok I) ∧
    (bs[k].val.getL2 (.poisson bs[l].val) = .ok J ∨ bs[l].val.getL2 (.poisson bs[k].val) = .ok J)
  rhs : ∀ k (hk : k < bs.length), B.evalRhs bs[k].val = .ok (R.globRhs (bubbleNum S k))

/-- The local space of the only cell `K` that assembly stores: its functions have all numbers, and those whose numbers are not on the mesh boundary
are the bubble functions `bs`. -/
def State.Stores (R : State) (S : Setup ℝ) (K : CellG) (bs : List Fn) : Prop :=
  ∃ fs : List Fn, R.locSpaces = [some (K, fs)] ∧ (fs.map glob).Perm (List.range R.numFuns) ∧
    ∀ f ∈ fs, ¬ S.BoundaryNumber (glob f) → ∃ k, ∃ hk : k < bs.length, glob f = bubbleNum S k ∧ f.val = bs[k].val

theorem LoopMesh.assembled {S : Setup ℝ} {E : Env} {K : CellG} (h : LoopMesh S E K) {B : BilinForm} {s : GlobFunSp ℝ} (hs : S.Hist s)
    (h0 : 0 < S.s0.numFuns) (soln : Option (List ℝ)) {e : ℕ} (hm : S.m.edges = [e]) {es bs : List Fn}
    (hbas : basis E.gmres K S.ord S.m.store [e] [S.space e] S.p E.evalInt E.evalGrad = .ok (es ++ bs))
    (hel : es.length = (S.space e).edgeTraces.length) (hbl : bs.length = numBubbles S)
    (hprod : ∀ f ∈ es ++ bs, ∀ g ∈ es ++ bs, (∃ I, f.val.getH1 (.poisson g.val) = .ok I) ∧ ∃ J, f.val.getL2 (.poisson g.val) = .ok J)
    (hload : ∀ f ∈ es ++ bs, ∃ J, B.evalRhs f.val = .ok J) :
    ∃ R, assemble E B s soln = .ok R ∧ R.soln = soln ∧ LoopSystem S B bs R ∧ (E.evalInt = true → R.Stores S K bs) := by
  obtain ⟨e', c, k, he, hm', hst, hcl, hk, hp⟩ := h.cell
  obtain rfl : e' = e := by rw [hm] at hm'; simpa using hm'.symm
  have hfit := h.fits
  have hfuns := h.funs he hst hp
  obtain ⟨i0, i1, i2, i3, -⟩ := GlobFunSp.init_spec S.m S.deg S.space S.s0 S.hs
  have hac : S.m.cellIdxList[0]? = some c := by rw [hcl]; rfl
  have habs : S.m.getAbsCellIdx c = .ok 0 := (C34_abs_cell_idx S.st S.es S.m S.hm).2.1 0 c hac
  have hces : S.s0.cellEdgeSpaces [e'] = .ok [S.space e'] := by
    have := GlobFunSp.cellEdgeSpaces_eq S.s0 S.space (by rw [i3, i1]) [e'] (by rw [i1, hm, List.forall_mem_singleton, hst]; exact ⟨0, rfl, rfl⟩)
    exact this
  have hlen : ([e'] : List ℕ).length = K.getEdges.length := by rw [← hp]; exact (hfit.2.2 c k false K hk (h.geo c k false hk)).2
  obtain ⟨z, A, ls, -, -, c3, c4⟩ := C79_refines h.ready hlen hlen hbas
  have hbuild := S.build S.s0 ⟨_, rfl, rfl⟩ 0 c hac k hk
  unfold GlobFunSp.buildLocal at hbuild
  rw [i1, habs, py_ok_bind, hk, py_ok_bind] at hbuild
  obtain ⟨bs', q1, hbuild⟩ := bind_ok hbuild
  obtain ⟨ls0, q2, hbuild⟩ := bind_ok hbuild
  obtain ⟨ls', q3, hbuild⟩ := bind_ok hbuild
  simp only [Except.ok.injEq, Prod.mk.injEq] at hbuild
  obtain ⟨-, rfl⟩ := hbuild
  rw [hp, hces] at q1
  cases q1
  simp only [Int.toNat_natCast] at c3
  have hdeg : S.s0.deg = S.p := i2
  rw [hp, hdeg, c3] at q2
  cases q2
  obtain ⟨fs, d1, d2, d3⟩ := numberLoop_ok (stands_keys c4) q3
  have hbl' : ∃ s', buildLocal E S.s0 c = .ok (s', K, fs) := by
    unfold buildLocal
    rw [i1, habs, py_ok_bind, hk, py_ok_bind, h.geo c k _ hk, py_ok_bind, h.perm, hp, hces, py_ok_bind, h.ord, hdeg, hbas, py_ok_bind, d1, py_ok_bind]
    exact ⟨_, rfl⟩
  obtain ⟨s', hb⟩ := hbl'
  have hglob : fs.map glob = (S.funs 0 k).map S.num := by
    have := congrArg (List.map fun key : GlobalKey => key.globIdx.getD 0) d2
    rw [List.map_map, List.map_map] at this
    rw [show fs.map glob = fs.map ((fun key : GlobalKey => key.globIdx.getD 0) ∘ Fn.key) from rfl, ← this, Setup.locBasis, List.map_map]
    rfl
  have hval : ∀ f ∈ fs, ∃ g ∈ es ++ bs, g.val = f.val := by
    intro f hf
    have : f.val ∈ fs.map Fn.val := List.mem_map_of_mem hf
    rw [d3] at this
    exact List.mem_map.1 this
  obtain ⟨⟨ts, rs⟩, hcv⟩ := cellValues_ok (B := B) (fs := fs)
    (fun f hf g hg => by
      obtain ⟨f', hf', e1⟩ := hval f hf
      obtain ⟨g', hg', e2⟩ := hval g hg
      rw [← e1, ← e2]
      exact hprod f' hf' g' hg') fun f hf => by
      obtain ⟨f', hf', e1⟩ := hval f hf
      rw [← e1]
      exact hload f' hf'
  have hlen1 : S.m.cellIdxList.length = 1 := by rw [hcl]; rfl
  have hat : atCell S E B 0 = .ok (K, fs, ts, rs) := by
    rw [atCell, show pyGetZ S.m.cellIdxList ((0 : ℕ) : ℤ) = .ok c by rw [hcl]; rfl, py_ok_bind, hb, py_ok_bind]
    dsimp only
    rw [hcv, py_ok_bind]
  obtain ⟨R, hR⟩ := assemble_succeeds (B := B) h.cells hfit hs h0 (fun a ha => by
    obtain rfl : a = 0 := by omega
    exact ⟨_, hat⟩) soln
  obtain ⟨f1, f2, f3, f4, f5, f6, f7, f8, -⟩ := entries h.cells hfit hs hR
  obtain ⟨g1, g2, g3⟩ := f1 0 c hac
  obtain ⟨p1, -, -, p4⟩ := parts hat
  rw [hlen1] at f2 f3 f5
  simp only [Finset.sum_range_one] at f2 f3 f5
  set D := dataAt S E B 0 with hD
  have hex : ∀ g ∈ S.funs 0 k, g.Exists S.m S.p (dimOf S.m S.space) ∧ g.from 0 := S.exists_of_mem 0 c hac k hk
  have hnd : ((S.funs 0 k).map S.num).Nodup := (S.nodup_funs 0 c k hk).map_on fun g hg g' hg' e => S.num_inj g g' (hex g hg).1 (hex g' hg').1 e
  have hnd' : (fs.map glob).Nodup := by rw [hglob]; exact hnd
  have hobj : ∀ f ∈ fs, D.obj (glob f) = f.val := by
    intro f hf
    change objOf (fnsAt S E B 0) (glob f) = _
    rw [p1]
    exact objOf_eq hnd' hf
  have hDg : D.funs.map LocFun.glob = fs.map glob := by
    have := congrArg (List.map glob) g3
    rw [p1, List.map_map] at this
    exact this
  obtain ⟨-, -, hnv, hnc, -⟩ := C34_index_lists S.st S.es S.m S.hm
  have hcover : ∀ i < R.numFuns, ∃ g ∈ S.funs 0 k, S.num g = i := by
    intro i hi
    rw [f7] at hi
    obtain ⟨g, hg, hgi⟩ := C38_surjective S.st S.es S.m S.hm S.deg S.space S.s0 S.hs i hi
    obtain ⟨a, ha, l, hl, e1⟩ := S.fun_on_cell h.cells g hg
    obtain ⟨c0, hc0⟩ : ∃ c0, g.from c0 := by cases g <;> simp [GFun.from]
    have hgn := hgi c0 hc0
    rw [(GlobFunSp.getGlobalIdx_number S.m hnv hnc S.deg S.space S.s0 S.hs g hg c0 hc0).1] at hgn
    simp only [Except.ok.injEq, Nat.cast_inj] at hgn
    have hgn : S.num g = i := hgn
    rw [S.numCells_eq, hlen1] at ha
    obtain rfl : a = 0 := by omega
    obtain ⟨g', hg', rfl⟩ := List.mem_map.1 hl
    have hcell := S.cellAt_spec h.cells 0 (by omega)
    rw [(List.getElem?_eq_some_iff.1 hac).2, hk] at hcell
    cases hcell
    exact ⟨g', hg', by rw [← hgn]; exact e1⟩
  have hlf : ∀ f ∈ fs, ∃ l ∈ D.funs, l.glob = glob f := by
    intro f hf
    have : glob f ∈ D.funs.map LocFun.glob := by rw [hDg]; exact List.mem_map_of_mem hf
    obtain ⟨l, hl, e⟩ := List.mem_map.1 this
    exact ⟨l, hl, e⟩
  have hlt : ∀ g ∈ S.funs 0 k, S.num g < R.numFuns := fun g hg => by rw [f7]; exact S.num_lt g (hex g hg).1
  have hmemE : ∀ j < (S.space e').edgeTraces.length, GFun.edge 0 j ∈ S.funs 0 k := fun j hj => by
    rw [hfuns]; exact List.mem_append_left _ (List.mem_map_of_mem (List.mem_range.2 hj))
  have hmemB : ∀ j < numBubbles S, GFun.bubb 0 j ∈ S.funs 0 k := fun j hj => by
    rw [hfuns]; exact List.mem_append_right _ (List.mem_map_of_mem (List.mem_range.2 hj))
  have hcase : ∀ g ∈ S.funs 0 k, (∃ j < (S.space e').edgeTraces.length, g = .edge 0 j) ∨ ∃ j < numBubbles S, g = .bubb 0 j := by
    intro g hg
    rw [hfuns] at hg
    rcases List.mem_append.1 hg with hg | hg
    · obtain ⟨j, hj, rfl⟩ := List.mem_map.1 hg
      exact Or.inl ⟨j, List.mem_range.1 hj, rfl⟩
    · obtain ⟨j, hj, rfl⟩ := List.mem_map.1 hg
      exact Or.inr ⟨j, List.mem_range.1 hj, rfl⟩
  have hbe : ∀ j < (S.space e').edgeTraces.length, S.BoundaryNumber (S.num (.edge 0 j)) := by
    intro j hj
    obtain ⟨e1, he1, -, hbd⟩ := h.edge
    obtain rfl : e1 = e' := by rw [he] at he1; simpa using he1.symm
    have hg := (hex _ (hmemE j hj)).1
    exact ⟨.edge 0 j, 0, hg, trivial, (GlobFunSp.getGlobalIdx_number S.m hnv hnc S.deg S.space S.s0 S.hs _ hg 0 trivial).1, e1, by rw [hm]; rfl, hbd⟩
  have hbb : ∀ j < numBubbles S, ¬ S.BoundaryNumber (S.num (.bubb 0 j)) := by
    rintro j hj ⟨g, c0, hg, hc0, hi, hbd⟩
    rw [(GlobFunSp.getGlobalIdx_number S.m hnv hnc S.deg S.space S.s0 S.hs g hg c0 hc0).1] at hi
    simp only [Except.ok.injEq, Nat.cast_inj] at hi
    rw [S.num_inj g _ hg (hex _ (hmemB j hj)).1 hi] at hbd
    exact hbd
  -- the object with the number of a bubble
  have hfb : ∀ j (hj : j < bs.length), ∃ f ∈ fs, glob f = bubbleNum S j ∧ f.val = bs[j].val := by
    intro j hj
    have hl3 : fs.length = (es ++ bs).length := by simpa using congrArg List.length d3
    have hi : es.length + j < fs.length := by rw [hl3, List.length_append]; omega
    refine ⟨fs[es.length + j], List.getElem_mem hi, ?_, ?_⟩
    · have e1 : (fs.map glob)[es.length + j]'(by simpa using hi) = glob fs[es.length + j] := by simp
      rw [← e1]
      simp only [hglob, hfuns, List.map_append, List.map_map]
      rw [List.getElem_append_right (by simp [hel])]
      simp [hel, bubbleNum]
    · have e1 : (fs.map Fn.val)[es.length + j]'(by simpa using hi) = (fs[es.length + j]).val := by simp
      rw [← e1]
      simp only [d3, List.map_append]
      rw [List.getElem_append_right (by simp)]
      simp
  have hcov : ∀ i < R.numFuns, ¬ S.BoundaryNumber i → ∃ k < numBubbles S, bubbleNum S k = i := by
    intro i hi hbd
    obtain ⟨g, hg, rfl⟩ := hcover i hi
    rcases hcase g hg with ⟨j, hj, rfl⟩ | ⟨j, hj, rfl⟩
    · exact absurd (hbe j hj) hbd
    · exact ⟨j, hj, rfl⟩
  refine ⟨R, hR, f8, ⟨f7, hbl, fun j hj => ⟨hlt _ (hmemB j hj), hbb j hj⟩, fun j hj j' hj' e => ?_, hcov, fun i hi hbd => f6 i hbd, ?_, ?_⟩, ?_⟩
  · have := S.num_inj _ _ (hex _ (hmemB j hj)).1 (hex _ (hmemB j' hj')).1 e
    simpa using this
  · intro i hi j hj
    obtain ⟨f, hf, u1, u2⟩ := hfb i hi
    obtain ⟨f', hf', v1, v2⟩ := hfb j hj
    obtain ⟨l, hl, e1⟩ := hlf f hf
    obtain ⟨l', hl', e2⟩ := hlf f' hf'
    have b1 := g1.h1 l hl l' hl'
    have b2 := g1.l2 l hl l' hl'
    rw [e1, e2, hobj f hf, hobj f' hf', u2, v2, u1, v1] at b1 b2
    refine ⟨_, _, ?_, b1, b2⟩
    rw [f4 _ _ (show ¬ S.BoundaryNumber (bubbleNum S i) from hbb i (by omega)), f2, f3]
  · intro i hi
    obtain ⟨f, hf, u1, u2⟩ := hfb i hi
    obtain ⟨l, hl, e1⟩ := hlf f hf
    have := g1.rhs l hl
    rw [e1, hobj f hf, u2, u1] at this
    rw [f5 _ (show ¬ S.BoundaryNumber (bubbleNum S i) from hbb i (by omega)), ← this]
  · intro hei
    have hfr : ∀ f ∈ fs, glob f < R.numFuns := by
      intro f hf
      have hi : glob f ∈ fs.map glob := List.mem_map_of_mem hf
      rw [hglob] at hi
      obtain ⟨g, hg, e⟩ := List.mem_map.1 hi
      rw [← e]
      exact hlt g hg
    refine ⟨fs, ?_, (List.perm_ext_iff_of_nodup hnd' List.nodup_range).2 fun i => ⟨fun hi => ?_, fun hi => ?_⟩, fun f hf hbd => ?_⟩
    · have hll : R.locSpaces.length = 1 := by
        obtain ⟨-, R', -, -, -, -, -, -, -, -, h9⟩ := assemble_refines h.cells hfit (S.hist_spec h.cells s hs).1 hR
        rw [h9, hlen1, hei]
        simp [List.range_succ]
      have hKK : D.K = K := by
        change ((spAt S E B 0).map Prod.fst).getD _ = K
        rw [p4]
        rfl
      rw [hei, hKK, p1] at g2
      obtain ⟨hl0, e⟩ := List.getElem?_eq_some_iff.1 g2
      obtain ⟨x, hx⟩ := List.length_eq_one_iff.1 hll
      simp only [hx, List.getElem_cons_zero, if_true] at e
      rw [hx, e]
    · obtain ⟨f, hf, rfl⟩ := List.mem_map.1 hi
      exact List.mem_range.2 (hfr f hf)
    · obtain ⟨g, hg, rfl⟩ := hcover i (List.mem_range.1 hi)
      rw [hglob]
      exact List.mem_map_of_mem hg
    · obtain ⟨j, hj, e⟩ := hcov _ (hfr f hf) hbd
      obtain ⟨f', hf', u1, u2⟩ := hfb j (by omega)
      obtain rfl : f' = f := List.inj_on_of_nodup_map hnd' hf' hf (by rw [u1, e])
      exact ⟨j, by omega, u1, u2⟩

/-- sums over all functions -/
theorem LoopSystem.sum {S : Setup ℝ} {B : BilinForm} {bs : List Fn} {R : State} (h : LoopSystem S B bs R) {A : Type} [AddCommMonoid A] (F : ℕ → A)
    (hF : ∀ i < R.numFuns, S.BoundaryNumber i → F i = 0) : ∑ i ∈ range R.numFuns, F i = ∑ k ∈ range (numBubbles S), F (bubbleNum S k) := by
  classical
  rw [← Finset.sum_image (f := F) (g := bubbleNum S) (s := range (numBubbles S)) fun k hk l hl e =>
    h.inj k (mem_range.1 (Finset.mem_coe.1 hk)) l (mem_range.1 (Finset.mem_coe.1 hl)) e]
  refine (Finset.sum_subset (fun i hi => ?_) fun i hi hn => ?_).symm
  · obtain ⟨k, hk, rfl⟩ := Finset.mem_image.1 hi
    exact mem_range.2 (h.free k (mem_range.1 hk)).1
  · refine hF i (mem_range.1 hi) ?_
    by_contra hb
    obtain ⟨k, hk, e⟩ := h.cover i (mem_range.1 hi) hb
    exact hn (Finset.mem_image.2 ⟨k, mem_range.2 hk, e⟩)

end SolverG
end PFEM
