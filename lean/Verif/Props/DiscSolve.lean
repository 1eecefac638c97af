import Verif.Spec.DiscSolve
import Verif.Props.SolverG
import Verif.Props.DiscBasis
import Verif.Lemmas.DiscGalerkin
import Mathlib.LinearAlgebra.FiniteDimensional.Lemmas

/-!
C83: on a mesh that consists of one disc the solver sets up the exact Galerkin system; its solution is unique, it is the best approximation in
the space, and polynomial solutions are reproduced.
-/

namespace PFEM
namespace SolverG

open LocSpaceG Finset Nystrom

/-! ### what follows from the Galerkin equations -/

section galerkin
variable {R : State} {S : Setup ℝ} {B : BilinForm} {x0 y0 r : ℝ} {v : ℕ → Poly2}

theorem Solves.boundary (h : R.Galerkin S B x0 y0 r v) {b x : ℕ → ℝ} (hb : ∀ i < R.numFuns, S.BoundaryNumber i → b i = 0)
    (hx : ∀ i < R.numFuns, ∑ j ∈ range R.numFuns, R.globMat i j * x j = b i) : ∀ i < R.numFuns, S.BoundaryNumber i → x i = 0 := by
  intro i hi hB
  obtain ⟨-, h1, h2, -⟩ := h.boundary i hi hB
  have := hx i hi
  rw [hb i hi hB, Finset.sum_eq_single i (fun j _ hj => by rw [h2 j hj, zero_mul]) fun hn => absurd (mem_range.2 hi) hn] at this
  exact (mul_eq_zero.1 this).resolve_left h1.ne'

/-- the functions that are not on the boundary -/
def Free (R : State) (S : Setup ℝ) (v : ℕ → Poly2) : Set Poly2 := {w | ∃ i < R.numFuns, ¬ S.BoundaryNumber i ∧ w = v i}

theorem combine_mem {x : ℕ → ℝ} (hx : ∀ i < R.numFuns, S.BoundaryNumber i → x i = 0) : R.combine v x ∈ Submodule.span ℝ (Free R S v) := by
  refine Submodule.sum_mem _ fun i hi => ?_
  by_cases hB : S.BoundaryNumber i
  · rw [hx i (mem_range.1 hi) hB, zero_smul]
    exact zero_mem _
  · exact Submodule.smul_mem _ _ (Submodule.subset_span ⟨i, mem_range.1 hi, hB, rfl⟩)

theorem weak_form (hr : 0 < r) (u w : Poly2) : weak B x0 y0 r u w = Poly2.form x0 y0 hr B.diffusion B.reaction u w := by
  rw [Poly2.form_apply]; rfl

/-- the rows of the functions that are not on the boundary -/
theorem row_form (h : R.Galerkin S B x0 y0 r v) (hr : 0 < r) (x : ℕ → ℝ) {i : ℕ} (hi : i < R.numFuns) (hB : ¬ S.BoundaryNumber i) :
    ∑ j ∈ range R.numFuns, R.globMat i j * x j = Poly2.form x0 y0 hr B.diffusion B.reaction (R.combine v x) (v i) := by
  rw [Poly2.form_comm, State.combine, map_sum]
  refine Finset.sum_congr rfl fun j hj => ?_
  rw [h.mat i hi hB j (mem_range.1 hj), weak_form hr, map_smul, smul_eq_mul, mul_comm]

theorem free_vanish (h : R.Galerkin S B x0 y0 r v) : ∀ w ∈ Free R S v, Poly2.VanishOn x0 y0 r w := by
  rintro _ ⟨i, hi, hB, rfl⟩
  exact (h.vanish i hi hB).1

/-- the homogeneous system has only the zero solution -/
theorem homogeneous (h : R.Galerkin S B x0 y0 r v) (hr : 0 < r) (hD : 0 < B.diffusion) (hR : 0 ≤ B.reaction) {x : ℕ → ℝ}
    (hx : ∀ i < R.numFuns, ∑ j ∈ range R.numFuns, R.globMat i j * x j = 0) : ∀ i < R.numFuns, x i = 0 := by
  have hb := Solves.boundary h (b := fun _ => 0) (fun _ _ _ => rfl) hx
  refine h.independent x hb (Poly2.galerkin_unique x0 y0 hr hD hR (free_vanish h) (combine_mem hb) ?_)
  rintro _ ⟨i, hi, hB, rfl⟩
  rw [← row_form h hr x hi hB, hx i hi]

theorem solution_unique (h : R.Galerkin S B x0 y0 r v) (hr : 0 < r) (hD : 0 < B.diffusion) (hR : 0 ≤ B.reaction) {x x' : ℕ → ℝ}
    (hx : R.Solves x) (hx' : R.Solves x') : ∀ i < R.numFuns, x i = x' i := by
  intro i hi
  refine sub_eq_zero.1 (homogeneous h hr hD hR (x := fun j => x j - x' j) (fun k hk => ?_) i hi)
  simp only [mul_sub, Finset.sum_sub_distrib, hx k hk, hx' k hk, sub_self]

theorem solution_exists (h : R.Galerkin S B x0 y0 r v) (hr : 0 < r) (hD : 0 < B.diffusion) (hR : 0 ≤ B.reaction) : ∃ x, R.Solves x := by
  let ext : (Fin R.numFuns → ℝ) → ℕ → ℝ := fun x j => if hj : j < R.numFuns then x ⟨j, hj⟩ else 0
  let L : (Fin R.numFuns → ℝ) →ₗ[ℝ] (Fin R.numFuns → ℝ) := (Matrix.of fun i j : Fin R.numFuns => R.globMat i j).mulVecLin
  have hL : ∀ x (i : Fin R.numFuns), L x i = ∑ j ∈ range R.numFuns, R.globMat i j * ext x j := by
    intro x i
    rw [Finset.sum_range]
    simp only [L, Matrix.mulVecLin_apply, Matrix.mulVec, dotProduct, Matrix.of_apply, ext]
    exact Finset.sum_congr rfl fun j _ => by rw [dif_pos j.2]
  have hinj : Function.Injective L := by
    rw [← LinearMap.ker_eq_bot, LinearMap.ker_eq_bot']
    intro x hx
    funext i
    have := homogeneous h hr hD hR (x := ext x) (fun k hk => by rw [← hL x ⟨k, hk⟩, hx]; rfl) i i.2
    simpa [ext] using this
  obtain ⟨x, hx⟩ := LinearMap.injective_iff_surjective.1 hinj fun i => R.globRhs i
  exact ⟨ext x, fun i hi => by rw [← hL x ⟨i, hi⟩, hx]⟩

/-- Galerkin orthogonality -/
theorem orthogonal (h : R.Galerkin S B x0 y0 r v) (hr : 0 < r) {x : ℕ → ℝ} (hx : R.Solves x) {u : Poly2}
    (hu : Pde B u) :
    ∀ w ∈ Submodule.span ℝ (Free R S v), Poly2.form x0 y0 hr B.diffusion B.reaction (u - R.combine v x) w = 0 := by
  have hle : Submodule.span ℝ (Free R S v) ≤ LinearMap.ker (Poly2.form x0 y0 hr B.diffusion B.reaction (u - R.combine v x)) := by
    refine Submodule.span_le.2 ?_
    rintro _ ⟨i, hi, hB, rfl⟩
    change Poly2.form x0 y0 hr B.diffusion B.reaction (u - R.combine v x) (v i) = 0
    rw [map_sub, LinearMap.sub_apply, Poly2.form_pde x0 y0 hr _ _ u (h.vanish i hi hB).1, ← row_form h hr x hi hB, hx i hi, h.rhs i hi hB]
    rw [sub_eq_zero]
    refine congrArg (fun f : ℝ × ℝ → ℝ => ∫ z in disc x0 y0 r, f z) (funext fun z => ?_)
    rw [← hu]
    simp [Poly2.ev]
  exact fun w hw => hle hw

theorem rhs_boundary (h : R.Galerkin S B x0 y0 r v) : ∀ i < R.numFuns, S.BoundaryNumber i → R.globRhs i = 0 :=
  fun i hi hB => (h.boundary i hi hB).2.2.2

/-- the solution is the best approximation -/
theorem best (h : R.Galerkin S B x0 y0 r v) (hr : 0 < r) (hD : 0 < B.diffusion) (hR : 0 ≤ B.reaction) {x : ℕ → ℝ} (hx : R.Solves x) {u : Poly2}
    (hu : Pde B u) {w : Poly2}
    (hw : Poly2.VanishOn x0 y0 r w) (hd : w.totalDegree ≤ S.p) :
    weak B x0 y0 r (u - R.combine v x) (u - R.combine v x) ≤ weak B x0 y0 r (u - w) (u - w) := by
  obtain ⟨y, hy, rfl⟩ := h.spans w hw hd
  have hb := Solves.boundary h (rhs_boundary h) hx
  have hmem := sub_mem (combine_mem (v := v) hb) (combine_mem (v := v) hy)
  have h0 := orthogonal h hr hx hu _ hmem
  have hn := Poly2.form_nonneg x0 y0 hr hD hR (R.combine v x - R.combine v y)
  have e : u - R.combine v y = (u - R.combine v x) + (R.combine v x - R.combine v y) := by ring
  rw [weak_form hr, weak_form hr, e]
  generalize R.combine v x - R.combine v y = d at *
  generalize u - R.combine v x = f at *
  have hc := Poly2.form_comm x0 y0 hr B.diffusion B.reaction d f
  rw [LinearMap.map_add, LinearMap.map_add, LinearMap.add_apply, LinearMap.add_apply, hc, h0]
  linarith

/-- polynomial solutions are reproduced -/
theorem reproduces (h : R.Galerkin S B x0 y0 r v) (hr : 0 < r) (hD : 0 < B.diffusion) (hR : 0 ≤ B.reaction) {x : ℕ → ℝ} (hx : R.Solves x)
    {u : Poly2} (hu : Pde B u)
    (hv : Poly2.VanishOn x0 y0 r u) (hd : u.totalDegree ≤ S.p) : R.combine v x = u := by
  obtain ⟨y, hy, e⟩ := h.spans u hv hd
  have hb := Solves.boundary h (rhs_boundary h) hx
  have hmem : u - R.combine v x ∈ Submodule.span ℝ (Free R S v) := by
    rw [← e]
    exact sub_mem (combine_mem hy) (combine_mem hb)
  have := Poly2.galerkin_unique x0 y0 hr hD hR (free_vanish h) hmem fun w hw => orthogonal h hr hx hu w (Submodule.subset_span hw)
  exact (sub_eq_zero.1 this).symm

end galerkin

/-! ### the local space of the only cell -/

/-- numbering succeeds for the objects if it succeeds for the functions -/
theorem numberLoop_ok {s : GlobFunSp ℝ} {a : ℕ} {ls ls' : List (LocFun ℝ)} {fs : List Fn} (h : ls.map LocFun.key = fs.map Fn.key)
    (hn : s.numberLoop a ls = .ok ls') :
    ∃ fs', numberLoop s a fs = .ok fs' ∧ ls'.map LocFun.key = fs'.map Fn.key ∧ fs'.map Fn.val = fs.map Fn.val := by
  induction ls generalizing fs ls' with
  | nil =>
    cases hn
    have : fs = [] := by simpa using h.symm
    subst this
    exact ⟨[], rfl, rfl, rfl⟩
  | cons l ls ih =>
    cases fs with
    | nil => simp at h
    | cons f fs =>
      simp only [List.map_cons, List.cons.injEq] at h
      rw [GlobFunSp.numberLoop] at hn
      obtain ⟨i, hi, hn⟩ := bind_ok hn
      obtain ⟨key, hk, hn⟩ := bind_ok hn
      obtain ⟨b, hb, hn⟩ := bind_ok hn
      obtain ⟨rest, hr, hn⟩ := bind_ok hn
      cases hn
      obtain ⟨fs', e1, e2, e3⟩ := ih h.2 hr
      rw [h.1] at hi hk
      refine ⟨{ f with key := { key with onBoundary := some b } } :: fs', ?_, by simp [e2], by simp [e3]⟩
      rw [numberLoop, hi, py_ok_bind, hk, py_ok_bind, hb, py_ok_bind, e1, py_ok_bind]

/-- the local values exist if all inner products and right-hand sides exist -/
theorem pairLoop_ok {B : BilinForm} {f : Fn} {fs : List Fn}
    (h : ∀ g ∈ fs, (∃ x, f.val.getH1 (.poisson g.val) = .ok x) ∧ ∃ x, f.val.getL2 (.poisson g.val) = .ok x) :
    ∃ ts, pairLoop B f fs = .ok ts := by
  induction fs with
  | nil => exact ⟨[], rfl⟩
  | cons g gs ih =>
    obtain ⟨ts, e⟩ := ih fun g hg => h g (by simp [hg])
    obtain ⟨⟨x, hx⟩, y, hy⟩ := h g (by simp)
    rw [pairLoop, matrixValues, hx, py_ok_bind, hy, py_ok_bind, py_ok_bind, e, py_ok_bind]
    exact ⟨_, rfl⟩

theorem cellValues_ok {B : BilinForm} {fs : List Fn}
    (h : ∀ f ∈ fs, ∀ g ∈ fs, (∃ x, f.val.getH1 (.poisson g.val) = .ok x) ∧ ∃ x, f.val.getL2 (.poisson g.val) = .ok x)
    (hr : ∀ f ∈ fs, ∃ x, B.evalRhs f.val = .ok x) : ∃ x, cellValues B fs = .ok x := by
  induction fs with
  | nil => exact ⟨_, rfl⟩
  | cons f fs ih =>
    obtain ⟨⟨ts, rs⟩, e⟩ := ih (fun g hg k hk => h g (by simp [hg]) k (by simp [hk])) fun g hg => hr g (by simp [hg])
    obtain ⟨x, hx⟩ := hr f (by simp)
    obtain ⟨⟨a, ha⟩, b, hb⟩ := h f (by simp) f (by simp)
    obtain ⟨t, ht⟩ := pairLoop_ok (B := B) (f := f) (fs := fs) fun g hg => h f (by simp) g (by simp [hg])
    rw [cellValues, hx, py_ok_bind, matrixValues, ha, py_ok_bind, hb, py_ok_bind, py_ok_bind, ht, py_ok_bind, e, py_ok_bind]
    exact ⟨_, rfl⟩

/-- a list without repetitions can be looked up -/
theorem exists_lookup {ks : List ℕ} (hn : ks.Nodup) {ws : List Poly2} (hl : ks.length = ws.length) : ∃ v : ℕ → Poly2, ks.map v = ws := by
  induction ks generalizing ws with
  | nil => exact ⟨fun _ => 0, by simpa using (List.length_eq_zero_iff.1 hl.symm).symm⟩
  | cons k ks ih =>
    cases ws with
    | nil => simp at hl
    | cons w ws =>
      rw [List.nodup_cons] at hn
      obtain ⟨v, hv⟩ := ih hn.2 (by simpa using hl)
      refine ⟨Function.update v k w, ?_⟩
      rw [List.map_cons, Function.update_self, ← hv]
      congr 1
      exact List.map_congr_left fun j hj => Function.update_of_ne (fun e : j = k => hn.1 (e ▸ hj)) _ _

section mesh
variable {S : Setup ℝ} {E : Env} {K : CellG} {x0 y0 r : ℝ} {n : ℕ} {δ : ℝ}

/-- a cell that is bounded by one closed curve is accepted -/
theorem make_loop (st : EdgeStore ℝ) (e : ℕ) {c : ℤ} (hc : 0 ≤ c) (hb : c = (st e).pos ∨ c = (st e).neg) (hl : (st e).isLoop = true) :
    ∃ k, CellTopo.make st c [e] = .ok k := by
  have hd : (st e).anchor.dist2 (st e).endpnt < tol ℝ ^ 2 := by simpa [EdgeRec.isLoop] using hl
  have ht : (tol ℝ : ℝ) ^ 2 ≤ CellTopo.incTol ℝ ^ 2 := by norm_num [tol, CellTopo.incTol]
  have h1 : (st e).anchor.dist2 (st e).endpnt < CellTopo.incTol ℝ ^ 2 := lt_of_lt_of_le hd ht
  have h2 : (st e).endpnt.dist2 (st e).anchor < CellTopo.incTol ℝ ^ 2 := by
    rw [show (st e).endpnt.dist2 (st e).anchor = (st e).anchor.dist2 (st e).endpnt by simp only [PVert.dist2]; ring]
    exact h1
  obtain ⟨o, ho, hor⟩ : ∃ o : ℤ, (o = 1 ∨ o = -1) ∧ CellTopo.orients st c [e] = .ok [o] := by
    by_cases hp : c = (st e).pos
    · exact ⟨1, Or.inl rfl, by simp [CellTopo.orients, CellTopo.orient, hp, bind, Except.bind]⟩
    · have hn := hb.resolve_left hp
      exact ⟨-1, Or.inr rfl, by simp only [CellTopo.orients, CellTopo.orient, if_neg hp, if_pos hn, bind, Except.bind]⟩
  have hm : CellTopo.incMat st [(e, o)] [(e, o)] = .ok [[1]] := by
    rcases ho with rfl | rfl <;>
      simp [CellTopo.incMat, CellTopo.incRow, CellTopo.startPt, CellTopo.endPt, bind, Except.bind, h1, h2]
  have hinc : CellTopo.incidence st [(e, o)] = .ok [0] := by
    simp only [CellTopo.incidence, hm, bind, Except.bind]
    rfl
  have hcl : CellTopo.contourLoop [0] 1 2 0 [false] [] = some (.ok [[0]]) := by decide
  have hcs : CellTopo.contours c [e] [o] [[0]] = .ok [⟨[e], [o], 1⟩] := by
    rcases ho with rfl | rfl <;>
      simp [CellTopo.contours, Contour.init, Contour.addLoop, Contour.addEdge, bind, Except.bind, not_lt.2 hc]
  refine ⟨⟨c, [o], [⟨[e], [o], 1⟩], 0, 1⟩, ?_⟩
  simp only [CellTopo.make, CellTopo.init, if_neg (not_lt.2 hc), hor, List.zip, List.zipWith, hinc, List.length_cons, List.length_nil,
    List.replicate, hcl, hcs]
  rfl

theorem LoopMesh.cells (h : LoopMesh S E K) : S.CellsOk := by
  obtain ⟨e, he, hl, -⟩ := h.edge
  intro c hc
  obtain ⟨h0, e', he', hb⟩ := ((C34_index_lists S.st S.es S.m S.hm).2.2.2.2.2 c).1 hc
  rw [he, List.mem_singleton] at he'
  subst he'
  obtain ⟨l, g1, g2, g3, g4⟩ := (C34_get_cell S.st S.es S.m S.hm c).1 ⟨h0, e', by rw [he]; simp, hb⟩
  obtain ⟨f1, f2, f3, -, f5, -⟩ := C34_edges S.st S.es S.m S.hm
  have hm : S.m.edges = [e'] := by
    have h1 : e' ∈ S.m.edges := (f3 e').2 (by rw [he]; simp)
    rw [he] at f2
    rcases List.sublist_singleton.1 f2 with h2 | h2
    · rw [h2] at h1; simp at h1
    · exact h2
  have hst := f5 0 e' (by rw [hm]; rfl)
  rw [hm] at g3
  obtain rfl : l = [e'] := (List.sublist_singleton.1 g3).resolve_left g2
  rw [PlanarMesh.getCell, g1, py_ok_bind]
  refine make_loop _ e' h0 ?_ ?_
  · rw [hst]; exact hb
  · rw [hst]; exact hl

/-- the only cell and its only edge -/
theorem LoopMesh.cell (h : LoopMesh S E K) : ∃ e c k, S.es = [e] ∧ S.m.edges = [e] ∧ S.m.store e = { S.st e with idx := some 0 } ∧
    S.m.cellIdxList = [c] ∧ S.m.getCell c = .ok k ∧ S.perm k = [e] := by
  obtain ⟨e, he, -, hb⟩ := h.edge
  obtain ⟨f1, f2, f3, -, f5, -⟩ := C34_edges S.st S.es S.m S.hm
  obtain ⟨-, g2, -, -, -, g6⟩ := C34_index_lists S.st S.es S.m S.hm
  have hacc := (C34_accepts_iff S.st S.es).1 ⟨S.m, S.hm⟩ e (by rw [he]; simp)
  rw [he] at f2 f3 g6
  have hm : S.m.edges = [e] := by
    have h1 : e ∈ S.m.edges := (f3 e).2 (by simp)
    rcases List.sublist_singleton.1 f2 with h2 | h2
    · rw [h2] at h1; simp at h1
    · exact h2
  have hst := f5 0 e (by rw [hm]; rfl)
  obtain ⟨c, hc⟩ : ∃ c, ∀ d, d ∈ S.m.cellIdxList ↔ d = c := by
    rcases hb with hb | hb
    · refine ⟨(S.st e).neg, fun d => ?_⟩
      rw [g6]
      constructor
      · rintro ⟨h0, _, he, hd⟩
        rw [List.mem_singleton.1 he] at hd
        omega
      · rintro rfl
        exact ⟨by omega, e, by simp, Or.inr rfl⟩
    · refine ⟨(S.st e).pos, fun d => ?_⟩
      rw [g6]
      constructor
      · rintro ⟨h0, _, he, hd⟩
        rw [List.mem_singleton.1 he] at hd
        omega
      · rintro rfl
        exact ⟨by omega, e, by simp, Or.inl rfl⟩
  have hcl : S.m.cellIdxList = [c] := by
    have hn : S.m.cellIdxList.Nodup := g2.imp fun h => ne_of_lt h
    exact List.perm_singleton.1 ((List.perm_ext_iff_of_nodup hn (List.nodup_singleton c)).2 fun d => by rw [hc d]; simp)
  obtain ⟨k, hk⟩ := h.cells c (by rw [hcl]; simp)
  obtain ⟨k1, -, k3⟩ := GlobFunSp.cell_edges S.st S.es S.m S.hm c k hk
  refine ⟨e, c, k, he, hm, hst, hcl, hk, ?_⟩
  have hp := S.hperm k
  have : k.getEdges = [e] := by
    refine List.perm_singleton.1 ((List.perm_ext_iff_of_nodup k1 (List.nodup_singleton e)).2 fun d => ?_)
    rw [k3 d, hm]
    constructor
    · exact fun hd => hd.1
    · intro hd
      refine ⟨hd, ?_⟩
      rw [List.mem_singleton.1 hd, hst]
      obtain ⟨h0, d', hd', hcd⟩ := (g6 c).1 ((hc c).2 rfl)
      rw [List.mem_singleton.1 hd'] at hcd
      exact hcd
  rw [this] at hp
  exact List.perm_singleton.1 hp

theorem LoopMesh.fits (h : LoopMesh S E K) : E.Fits S := by
  obtain ⟨e, c, k, -, -, -, hcl, hk, hp⟩ := h.cell
  refine ⟨h.ord, h.perm, fun c' k' b K' hk' hg => ?_⟩
  rw [h.geo c' k' b hk'] at hg
  cases hg
  have hc' := (GlobFunSp.cell_edges S.st S.es S.m S.hm c' k' hk').2.1
  rw [hcl, List.mem_singleton] at hc'
  subst hc'
  rw [hk] at hk'
  cases hk'
  refine ⟨h.ready, ?_⟩
  rw [hp, h.one]
  rfl

/-- the functions of the cell: edge functions, then bubbles -/
theorem LoopMesh.funs (h : LoopMesh S E K) {e : ℕ} {k : CellTopo} (he : S.es = [e]) (hst : S.m.store e = { S.st e with idx := some 0 })
    (hp : S.perm k = [e]) : S.funs 0 k = (List.range (S.space e).edgeTraces.length).map (GFun.edge 0) ++
      (List.range (S.p * (S.p - 1) / 2)).map (GFun.bubb 0) := by
  obtain ⟨e', he', hl, -⟩ := h.edge
  rw [he] at he'
  cases he'
  have hord : S.ord [] = [] := List.eq_nil_iff_forall_not_mem.2 fun v hv => by simpa using ((S.hord []).2 v).1 hv
  have hl' : (S.m.store e).isLoop = true := by rw [hst]; exact hl
  have hi : (S.m.store e).idx = some 0 := by rw [hst]
  simp [Setup.funs, localFuns, hp, LocSpace.vertIdxs, hl', hord, hi]

theorem DiscMesh.loop (h : DiscMesh S E K x0 y0 r n δ) : LoopMesh S E K := by
  obtain ⟨e, he, hl, hb, -⟩ := h.edge
  refine ⟨h.ord, h.perm, ⟨e, he, hl, hb⟩, h.geo, h.disc.ready, ?_⟩
  obtain ⟨c0, e0, d1, d2, -⟩ := h.disc.circle
  simp [CellG.getEdges, d1, d2]

theorem DiscMesh.cells (h : DiscMesh S E K x0 y0 r n δ) : S.CellsOk := h.loop.cells

theorem DiscMesh.fits (h : DiscMesh S E K x0 y0 r n δ) : E.Fits S := h.loop.fits

theorem DiscMesh.space (h : DiscMesh S E K x0 y0 r n δ) : ∃ (c : ℤ) (e : ℕ) (k : CellTopo) (s' : GlobFunSp ℝ) (fs : List Fn) (s : Nystrom.Solver) (v : ℕ → Poly2),
    S.m.edges = [e] ∧ S.m.cellIdxList = [c] ∧ S.m.getCell c = .ok k ∧ buildLocal E S.s0 c = .ok (s', K, fs) ∧
    OnDisc E.gmres K s x0 y0 r n ∧ (∀ f ∈ fs, MadeFor E.gmres K s n δ f.val (v (glob f))) ∧ fs.map glob = (S.funs 0 k).map S.num ∧
    S.funs 0 k = (List.range (S.space e).edgeTraces.length).map (GFun.edge 0) ++ (List.range (S.p * (S.p - 1) / 2)).map (GFun.bubb 0) ∧
    (∀ j < (S.space e).edgeTraces.length, Poly2.lap (v (S.num (.edge 0 j))) = 0) ∧
    ∀ j < S.p * (S.p - 1) / 2, (v (S.num (.bubb 0 j))).totalDegree ≤ S.p ∧ Poly2.VanishOn x0 y0 r (v (S.num (.bubb 0 j))) ∧
      ∃ a b, (MultiIndex.mk a b).idx = j ∧ Poly2.lap (v (S.num (.bubb 0 j))) = Poly2.shifted (x0, y0) (-1 / (Real.pi * r ^ 2) ^ 2) a b := by
  obtain ⟨e, c, k, he, hm, hst, hcl, hk, hp⟩ := h.loop.cell
  obtain ⟨e', he', hl, -, htr⟩ := h.edge
  rw [he] at he'
  cases he'
  have hfit := h.fits
  have hfuns := h.loop.funs he hst hp
  have hord : S.ord [] = [] := List.eq_nil_iff_forall_not_mem.2 fun v hv => by simpa using ((S.hord []).2 v).1 hv
  have hl' : (S.m.store e).isLoop = true := by rw [hst]; exact hl
  obtain ⟨i0, i1, i2, i3, -⟩ := GlobFunSp.init_spec S.m S.deg S.space S.s0 S.hs
  have hp1 : 1 ≤ S.p := by unfold Setup.p; omega
  obtain ⟨s, es, bs, us, vs, b1, b2, b3, b4, b5, b6⟩ := disc_basis h.exact h.finds h.disc h.corners h.radius h.low h.high h.inside hord hl'
    (b := S.space e) (S.hsp e (by rw [hm]; simp)).1 hp1 h.degree htr h.bubbles E.evalInt E.evalGrad
  have hac : S.m.cellIdxList[0]? = some c := by rw [hcl]; rfl
  have habs : S.m.getAbsCellIdx c = .ok 0 := (C34_abs_cell_idx S.st S.es S.m S.hm).2.1 0 c hac
  have hces : S.s0.cellEdgeSpaces [e] = .ok [S.space e] := by
    have := GlobFunSp.cellEdgeSpaces_eq S.s0 S.space (by rw [i3, i1]) [e] (by rw [i1, hm, List.forall_mem_singleton, hst]; exact ⟨0, rfl, rfl⟩)
    exact this
  -- the abstract functions
  have hlen : ([e] : List ℕ).length = K.getEdges.length := by rw [← hp]; exact (hfit.2.2 c k false K hk (h.geo c k false hk)).2
  obtain ⟨z, A, ls, -, -, c3, c4⟩ := C79_refines h.disc.ready hlen hlen b1
  have hbuild := S.build S.s0 ⟨_, rfl, rfl⟩ 0 c hac k hk
  unfold GlobFunSp.buildLocal at hbuild
  rw [i1, habs, py_ok_bind, hk, py_ok_bind] at hbuild
  obtain ⟨bs', q1, hbuild⟩ := bind_ok hbuild
  obtain ⟨ls0, q2, hbuild⟩ := bind_ok hbuild
  obtain ⟨ls', q3, hbuild⟩ := bind_ok hbuild
  simp only [Except.ok.injEq, Prod.mk.injEq] at hbuild
  obtain ⟨-, rfl⟩ := hbuild
  rw [hp, hces] at q1
  cases q1
  simp only [Int.toNat_natCast] at c3
  have hdeg : S.s0.deg = S.p := i2
  rw [hp, hdeg, c3] at q2
  cases q2
  obtain ⟨fs', d1, d2, d3⟩ := numberLoop_ok (stands_keys c4) q3
  have hbl : ∃ s', buildLocal E S.s0 c = .ok (s', K, fs') := by
    unfold buildLocal
    rw [i1, habs, py_ok_bind, hk, py_ok_bind, h.geo c k _ hk, py_ok_bind, h.perm, hp, hces, py_ok_bind, h.ord, hdeg, b1, py_ok_bind, d1, py_ok_bind]
    exact ⟨_, rfl⟩
  obtain ⟨s', hbl⟩ := hbl
  have hglob : fs'.map glob = (S.funs 0 k).map S.num := by
    have := congrArg (List.map fun key : GlobalKey => key.globIdx.getD 0) d2
    rw [List.map_map, List.map_map] at this
    rw [show fs'.map glob = fs'.map ((fun key : GlobalKey => key.globIdx.getD 0) ∘ Fn.key) from rfl, ← this, Setup.locBasis, List.map_map]
    rfl
  have hnd : (fs'.map glob).Nodup := by
    rw [hglob]
    refine (S.nodup_funs 0 c k hk).map_on fun g hg g' hg' e => ?_
    exact S.num_inj g g' (S.exists_of_mem 0 c hac k hk g hg).1 (S.exists_of_mem 0 c hac k hk g' hg').1 e
  have hmade := List.rel_append b5 b6
  have hl3 : fs'.length = (es ++ bs).length := by simpa using congrArg List.length d3
  obtain ⟨v, hv⟩ := exists_lookup hnd (ws := us ++ vs) (by rw [List.length_map, hl3, hmade.length_eq])
  have hv' := hv
  rw [hglob, hfuns, List.map_append, List.map_append, List.map_map, List.map_map, List.map_map, List.map_map] at hv'
  obtain ⟨hu, hvv⟩ := List.append_inj hv' (by simp [b3.length_eq])
  refine ⟨c, e, k, s', fs', s, v, hm, hcl, hk, hbl, b2, ?_, hglob, hfuns, ?_, ?_⟩
  · have e1 : List.Forall₂ (fun F w => MadeFor E.gmres K s n δ F w) (fs'.map Fn.val) (us ++ vs) := by
      rw [d3, List.forall₂_map_left_iff]
      exact hmade
    rw [← hv, List.map_map, List.forall₂_map_left_iff, List.forall₂_map_right_iff, List.forall₂_same] at e1
    exact e1
  · rw [← hu, List.forall₂_map_right_iff] at b3
    intro j hj
    have := (List.forall₂_iff_get.1 b3).2 j hj (by simpa using hj)
    simpa using this.1
  · rw [← hvv, List.forall₂_map_right_iff, List.forall₂_same] at b4
    exact fun j hj => b4 j (List.mem_range.2 hj)

/-- the degree of a bubble -/
theorem bubble_lt {p i j : ℕ} (h : i + j + 2 ≤ p) : (MultiIndex.mk i j).idx < p * (p - 1) / 2 := by
  have h1 := MultiIndex.two_idx ⟨i, j⟩
  simp only [MultiIndex.order] at h1
  obtain ⟨q, rfl⟩ := Nat.exists_eq_add_of_le' (show 2 ≤ p by omega)
  have h2 : q + 2 - 1 = q + 1 := rfl
  rw [h2, Nat.lt_iff_add_one_le, Nat.le_div_iff_mul_le (by norm_num)]
  generalize (MultiIndex.mk i j).idx = k at *
  nlinarith

theorem lap_linear {w : Poly2} (h : w.totalDegree ≤ 1) : Poly2.lap w = 0 := by
  have e : ∀ l, MvPolynomial.pderiv l (MvPolynomial.pderiv l w) = 0 := by
    intro l
    have h1 : (MvPolynomial.pderiv l w).totalDegree = 0 := Nat.le_zero.1 (Poly2.degree_pderiv l h)
    rw [MvPolynomial.totalDegree_eq_zero_iff_eq_C.1 h1, MvPolynomial.pderiv_C]
  rw [Poly2.lap, e, e, add_zero]

/-- C83: assembly succeeds and sets up the exact Galerkin system -/
theorem DiscMesh.galerkin (h : DiscMesh S E K x0 y0 r n δ) {B : BilinForm} (hB : LoadExact B n δ) {s : GlobFunSp ℝ} (hs : S.Hist s)
    (h0 : 0 < S.s0.numFuns) (soln : Option (List ℝ)) :
    ∃ R, assemble E B s soln = .ok R ∧ R.soln = soln ∧ ∃ v, R.Galerkin S B x0 y0 r v ∧
      (E.evalInt = true → ∃ z fs, R.locSpaces = [some (K, fs)] ∧ (fs.map glob).Perm (List.range R.numFuns) ∧ OnDisc E.gmres K z x0 y0 r n ∧
        ∀ f ∈ fs, MadeFor E.gmres K z n δ f.val (v (glob f))) := by
  have hr0 : 0 < r := lt_of_lt_of_le (by norm_num) h.radius
  obtain ⟨c, e, k, s', fs, z, v, hm, hcl, hk, hb, hon, hmade, hglob, hfuns, hedge, hbub⟩ := h.space
  have hfit := h.fits
  obtain ⟨ε, q, l1, l2, l3, l4, l5⟩ := hB
  have hload : ∀ f ∈ fs, B.evalRhs f.val = .ok (Poly2.mass x0 y0 r (Poly.toMv B.rhsPoly) (v (glob f))) := fun f hf =>
    (hmade f hf).load hon l1 l2 l3 l4 l5 B.diffusion B.reaction
  obtain ⟨⟨ts, rs⟩, hcv⟩ := cellValues_ok (B := B) (fs := fs)
    (fun f hf g hg => have := (hmade f hf).products hon h.lattice (hmade g hg); ⟨⟨_, this.1⟩, _, this.2⟩) fun f hf => ⟨_, hload f hf⟩
  have hlen : S.m.cellIdxList.length = 1 := by rw [hcl]; rfl
  have hat : atCell S E B 0 = .ok (K, fs, ts, rs) := by
    rw [atCell, show pyGetZ S.m.cellIdxList ((0 : ℕ) : ℤ) = .ok c by rw [hcl]; rfl, py_ok_bind, hb, py_ok_bind]
    dsimp only
    rw [hcv, py_ok_bind]
  obtain ⟨R, hR⟩ := assemble_succeeds (B := B) h.cells hfit hs h0 (fun a ha => by
    obtain rfl : a = 0 := by omega
    exact ⟨_, hat⟩) soln
  obtain ⟨f1, f2, f3, f4, f5, f6, f7, f8, -⟩ := entries h.cells hfit hs hR
  have hac : S.m.cellIdxList[0]? = some c := by rw [hcl]; rfl
  obtain ⟨g1, g2, g3⟩ := f1 0 c hac
  obtain ⟨p1, -, -, p4⟩ := parts hat
  rw [hlen] at f2 f3 f5
  simp only [Finset.sum_range_one] at f2 f3 f5
  set D := dataAt S E B 0 with hD
  -- numbers
  have hex : ∀ g ∈ S.funs 0 k, g.Exists S.m S.p (dimOf S.m S.space) ∧ g.from 0 := S.exists_of_mem 0 c hac k hk
  have hnd : ((S.funs 0 k).map S.num).Nodup := (S.nodup_funs 0 c k hk).map_on fun g hg g' hg' e => S.num_inj g g' (hex g hg).1 (hex g' hg').1 e
  have hnd' : (fs.map glob).Nodup := by rw [hglob]; exact hnd
  have hobj : ∀ f ∈ fs, D.obj (glob f) = f.val := by
    intro f hf
    change objOf (fnsAt S E B 0) (glob f) = _
    rw [p1]
    exact objOf_eq hnd' hf
  have hDg : D.funs.map LocFun.glob = fs.map glob := by
    have := congrArg (List.map glob) g3
    rw [p1, List.map_map] at this
    exact this
  obtain ⟨-, -, hnv, hnc, -⟩ := C34_index_lists S.st S.es S.m S.hm
  have hcover : ∀ i < R.numFuns, ∃ g ∈ S.funs 0 k, S.num g = i := by
    intro i hi
    rw [f7] at hi
    obtain ⟨g, hg, hgi⟩ := C38_surjective S.st S.es S.m S.hm S.deg S.space S.s0 S.hs i hi
    obtain ⟨a, ha, l, hl, e1⟩ := S.fun_on_cell h.cells g hg
    obtain ⟨c0, hc0⟩ : ∃ c0, g.from c0 := by cases g <;> simp [GFun.from]
    have hgn := hgi c0 hc0
    rw [(GlobFunSp.getGlobalIdx_number S.m hnv hnc S.deg S.space S.s0 S.hs g hg c0 hc0).1] at hgn
    simp only [Except.ok.injEq, Nat.cast_inj] at hgn
    have hgn : S.num g = i := hgn
    rw [S.numCells_eq, hlen] at ha
    obtain rfl : a = 0 := by omega
    obtain ⟨g', hg', rfl⟩ := List.mem_map.1 hl
    have hcell := S.cellAt_spec h.cells 0 (by omega)
    rw [(List.getElem?_eq_some_iff.1 hac).2, hk] at hcell
    cases hcell
    exact ⟨g', hg', by rw [← hgn]; exact e1⟩
  have hfn : ∀ i < R.numFuns, ∃ f ∈ fs, glob f = i := by
    intro i hi
    obtain ⟨g, hg, rfl⟩ := hcover i hi
    have : S.num g ∈ fs.map glob := by rw [hglob]; exact List.mem_map_of_mem hg
    obtain ⟨f, hf, e⟩ := List.mem_map.1 this
    exact ⟨f, hf, e⟩
  have hlf : ∀ f ∈ fs, ∃ l ∈ D.funs, l.glob = glob f := by
    intro f hf
    have : glob f ∈ D.funs.map LocFun.glob := by rw [hDg]; exact List.mem_map_of_mem hf
    obtain ⟨l, hl, e⟩ := List.mem_map.1 this
    exact ⟨l, hl, e⟩
  have hlt : ∀ g ∈ S.funs 0 k, S.num g < R.numFuns := fun g hg => by rw [f7]; exact S.num_lt g (hex g hg).1
  have hH : ∀ i < R.numFuns, ∀ j < R.numFuns, D.H i j = Poly2.energy x0 y0 r (v i) (v j) ∧ D.L i j = Poly2.mass x0 y0 r (v i) (v j) := by
    intro i hi j hj
    obtain ⟨f, hf, rfl⟩ := hfn i hi
    obtain ⟨f', hf', rfl⟩ := hfn j hj
    obtain ⟨l, hl, e1⟩ := hlf f hf
    obtain ⟨l', hl', e2⟩ := hlf f' hf'
    have a1 := (hmade f hf).products hon h.lattice (hmade f' hf')
    have a2 := (hmade f' hf').products hon h.lattice (hmade f hf)
    have b1 := g1.h1 l hl l' hl'
    have b2 := g1.l2 l hl l' hl'
    rw [e1, e2, hobj f hf, hobj f' hf', a1.1, a2.1, Poly2.energy_comm x0 y0 r (v (glob f'))] at b1
    rw [e1, e2, hobj f hf, hobj f' hf', a1.2, a2.2, Poly2.mass_comm x0 y0 r (v (glob f'))] at b2
    simp only [Except.ok.injEq, or_self] at b1 b2
    exact ⟨b1.symm, b2.symm⟩
  -- boundary
  have hmemE : ∀ j < (S.space e).edgeTraces.length, GFun.edge 0 j ∈ S.funs 0 k := fun j hj => by
    rw [hfuns]; exact List.mem_append_left _ (List.mem_map_of_mem (List.mem_range.2 hj))
  have hmemB : ∀ j < S.p * (S.p - 1) / 2, GFun.bubb 0 j ∈ S.funs 0 k := fun j hj => by
    rw [hfuns]; exact List.mem_append_right _ (List.mem_map_of_mem (List.mem_range.2 hj))
  have hcase : ∀ g ∈ S.funs 0 k, (∃ j < (S.space e).edgeTraces.length, g = .edge 0 j) ∨ ∃ j < S.p * (S.p - 1) / 2, g = .bubb 0 j := by
    intro g hg
    rw [hfuns] at hg
    rcases List.mem_append.1 hg with hg | hg
    · obtain ⟨j, hj, rfl⟩ := List.mem_map.1 hg
      exact Or.inl ⟨j, List.mem_range.1 hj, rfl⟩
    · obtain ⟨j, hj, rfl⟩ := List.mem_map.1 hg
      exact Or.inr ⟨j, List.mem_range.1 hj, rfl⟩
  have hbe : ∀ j < (S.space e).edgeTraces.length, S.BoundaryNumber (S.num (.edge 0 j)) := by
    intro j hj
    obtain ⟨e', he', -, hbd, -⟩ := h.edge
    have : e' = e := by
      have := (C34_edges S.st S.es S.m S.hm).2.2.1 e'
      rw [hm, he'] at this
      simpa using this
    subst this
    have hg := (hex _ (hmemE j hj)).1
    exact ⟨.edge 0 j, 0, hg, trivial, (GlobFunSp.getGlobalIdx_number S.m hnv hnc S.deg S.space S.s0 S.hs _ hg 0 trivial).1, e', by rw [hm]; rfl, hbd⟩
  have hbb : ∀ j < S.p * (S.p - 1) / 2, ¬ S.BoundaryNumber (S.num (.bubb 0 j)) := by
    rintro j hj ⟨g, c0, hg, hc0, hi, hbd⟩
    rw [(GlobFunSp.getGlobalIdx_number S.m hnv hnc S.deg S.space S.s0 S.hs g hg c0 hc0).1] at hi
    simp only [Except.ok.injEq, Nat.cast_inj] at hi
    rw [S.num_inj g _ hg (hex _ (hmemB j hj)).1 hi] at hbd
    exact hbd
  have hbinj : ∀ j < S.p * (S.p - 1) / 2, ∀ j' < S.p * (S.p - 1) / 2, S.num (.bubb 0 j) = S.num (.bubb 0 j') → j = j' := by
    intro j hj j' hj' e
    have := S.num_inj _ _ (hex _ (hmemB j hj)).1 (hex _ (hmemB j' hj')).1 e
    simpa using this
  -- sums over all functions
  have hsum : ∀ F : ℕ → Poly2, (∀ i < R.numFuns, S.BoundaryNumber i → F i = 0) →
      ∑ i ∈ range R.numFuns, F i = ∑ j ∈ range (S.p * (S.p - 1) / 2), F (S.num (.bubb 0 j)) := by
    intro F hF
    have e1 : range R.numFuns = ((S.funs 0 k).map S.num).toFinset := by
      ext i
      rw [List.mem_toFinset, mem_range]
      constructor
      · intro hi
        obtain ⟨g, hg, rfl⟩ := hcover i hi
        exact List.mem_map_of_mem hg
      · intro hi
        obtain ⟨g, hg, rfl⟩ := List.mem_map.1 hi
        exact hlt g hg
    rw [e1, List.sum_toFinset F hnd, hfuns, List.map_append, List.map_append, List.sum_append, List.map_map, List.map_map, List.map_map, List.map_map]
    rw [List.sum_eq_zero (l := List.map _ (List.range (S.space e).edgeTraces.length)), zero_add]
    · rw [← List.sum_toFinset _ List.nodup_range, List.toFinset_range]
      rfl
    · intro w hw
      obtain ⟨j, hj, rfl⟩ := List.mem_map.1 hw
      have hj := List.mem_range.1 hj
      exact hF _ (hlt _ (hmemE j hj)) (hbe j hj)
  set κ : ℝ := -1 / (Real.pi * r ^ 2) ^ 2 with hκ
  have hκ0 : κ ≠ 0 := by
    have := Real.pi_pos
    rw [hκ]
    positivity
  clear_value κ
  refine ⟨R, hR, f8, v, ⟨f7, fun i hi j hj => by rw [f2, (hH i hi j hj).1], fun i hi j hj => by rw [f3, (hH i hi j hj).2], ?_, ?_, ?_, ?_, ?_, ?_⟩, ?_⟩
  · intro i hi hbd j hj
    rw [f4 i j hbd, f2, f3, (hH i hi j hj).1, (hH i hi j hj).2, weak]
  · intro i hi hbd
    obtain ⟨f, hf, rfl⟩ := hfn i hi
    obtain ⟨l, hl, e1⟩ := hlf f hf
    have := g1.rhs l hl
    rw [e1, hobj f hf, hload f hf] at this
    simp only [Except.ok.injEq] at this
    rw [f5 _ hbd, ← this]
    simp only [Poly2.mass, Poly.eval_mv]
  · intro i hi hbd
    refine ⟨?_, f6 i hbd⟩
    obtain ⟨g, hg, rfl⟩ := hcover i hi
    rcases hcase g hg with ⟨j, hj, rfl⟩ | ⟨j, hj, rfl⟩
    · exact hedge j hj
    · exact absurd hbd (hbb j hj)
  · intro i hi hbd
    obtain ⟨g, hg, rfl⟩ := hcover i hi
    rcases hcase g hg with ⟨j, hj, rfl⟩ | ⟨j, hj, rfl⟩
    · exact absurd (hbe j hj) hbd
    · exact ⟨(hbub j hj).2.1, (hbub j hj).1⟩
  · intro y hy h1 i hi
    by_cases hbd : S.BoundaryNumber i
    · exact hy i hi hbd
    rw [State.combine, hsum _ fun i hi hbd => by rw [hy i hi hbd, zero_smul]] at h1
    have h2 := congrArg Poly2.lapL h1
    rw [map_sum, map_zero] at h2
    have hch : ∀ j, ∃ ab : ℕ × ℕ, j < S.p * (S.p - 1) / 2 → (MultiIndex.mk ab.1 ab.2).idx = j ∧
        Poly2.lap (v (S.num (.bubb 0 j))) = Poly2.shifted (x0, y0) κ ab.1 ab.2 := by
      intro j
      by_cases hj : j < S.p * (S.p - 1) / 2
      · obtain ⟨-, -, a, b, e1, e2⟩ := hbub j hj
        exact ⟨(a, b), fun _ => ⟨e1, e2⟩⟩
      · exact ⟨(0, 0), fun hj' => absurd hj' hj⟩
    choose ab hab using hch
    have h3 := Poly2.shifted_independent (x0, y0) hκ0 (range (S.p * (S.p - 1) / 2)) (fun j => (ab j).1) (fun j => (ab j).2)
      (fun j hj j' hj' e1 e2 => by
        rw [← (hab j (mem_range.1 hj)).1, ← (hab j' (mem_range.1 hj')).1, e1, e2]) (fun j => y (S.num (.bubb 0 j))) (by
        rw [← h2]
        refine Finset.sum_congr rfl fun j hj => ?_
        rw [map_smul]
        exact congrArg _ (hab j (mem_range.1 hj)).2.symm)
    obtain ⟨g, hg, rfl⟩ := hcover i hi
    rcases hcase g hg with ⟨j, hj, rfl⟩ | ⟨j, hj, rfl⟩
    · exact absurd (hbe j hj) hbd
    · exact h3 j (mem_range.2 hj)
  · intro w hw hd
    have hmem : w ∈ Submodule.span ℝ (Set.range fun j : Fin (S.p * (S.p - 1) / 2) => v (S.num (.bubb 0 (j : ℕ)))) := by
      by_cases hp2 : 2 ≤ S.p
      · obtain ⟨d, hd2⟩ := Nat.exists_eq_add_of_le' hp2
        refine Poly2.mem_span_bubbles x0 y0 hr0 (x0, y0) hκ0 (d := d) ?_ ?_ hw (by omega)
        · rintro _ ⟨j, rfl⟩
          exact (hbub j j.2).2.1
        · intro i j hij
          have hlt := bubble_lt (p := S.p) (i := i) (j := j) (by omega)
          refine ⟨_, ⟨⟨_, hlt⟩, rfl⟩, ?_⟩
          obtain ⟨-, -, a, b, e1, e2⟩ := hbub _ hlt
          have := MultiIndex.idx_inj e1
          simp only [MultiIndex.mk.injEq] at this
          rw [e2, this.1, this.2]
      · have : w = 0 := Poly2.dirichlet_unique x0 y0 hr0 hw (fun θ => by simp [Poly2.ev]) (by
          rw [lap_linear (by omega), lap_linear (by simp)])
        rw [this]
        exact zero_mem _
    obtain ⟨y, hy⟩ := Submodule.mem_span_range_iff_exists_fun ℝ |>.1 hmem
    have hpick : ∀ j : Fin (S.p * (S.p - 1) / 2), (∑ l : Fin (S.p * (S.p - 1) / 2), if S.num (.bubb 0 (l : ℕ)) = S.num (.bubb 0 (j : ℕ)) then y l else 0) = y j := by
      intro j
      rw [Finset.sum_eq_single j]
      · rw [if_pos rfl]
      · intro l _ hl
        rw [if_neg fun e => hl (Fin.ext (hbinj l l.2 j j.2 e))]
      · exact fun hn => absurd (Finset.mem_univ j) hn
    have hzero : ∀ i < R.numFuns, S.BoundaryNumber i → (∑ l : Fin (S.p * (S.p - 1) / 2), if S.num (.bubb 0 (l : ℕ)) = i then y l else 0) = 0 := by
      intro i hi hbd
      refine Finset.sum_eq_zero fun l _ => ?_
      rw [if_neg]
      rintro rfl
      exact hbb l l.2 hbd
    refine ⟨fun i => ∑ l : Fin (S.p * (S.p - 1) / 2), if S.num (.bubb 0 (l : ℕ)) = i then y l else 0, hzero, ?_⟩
    rw [State.combine, hsum _ fun i hi hbd => by rw [hzero i hi hbd, zero_smul], Finset.sum_range, ← hy]
    exact Finset.sum_congr rfl fun j _ => by rw [hpick]
  · intro hei
    refine ⟨z, fs, ?_, (List.perm_ext_iff_of_nodup hnd' List.nodup_range).2 fun i => ⟨fun hi => ?_, fun hi => ?_⟩, hon, hmade⟩
    · have hll : R.locSpaces.length = 1 := by
        obtain ⟨-, R', -, -, -, -, -, -, -, -, h9⟩ := assemble_refines h.cells hfit (S.hist_spec h.cells s hs).1 hR
        rw [h9, hlen, hei]
        simp [List.range_succ]
      have hKK : D.K = K := by
        change ((spAt S E B 0).map Prod.fst).getD _ = K
        rw [p4]
        rfl
      rw [hei, hKK, p1] at g2
      obtain ⟨hl0, e⟩ := List.getElem?_eq_some_iff.1 g2
      obtain ⟨x, hx⟩ := List.length_eq_one_iff.1 hll
      simp only [hx, List.getElem_cons_zero, if_true] at e
      rw [hx, e]
    · rw [hglob] at hi
      obtain ⟨g, hg, e⟩ := List.mem_map.1 hi
      rw [← e]
      exact List.mem_range.2 (hlt g hg)
    · obtain ⟨f, hf, e⟩ := hfn i (List.mem_range.1 hi)
      exact List.mem_map.2 ⟨f, hf, e⟩

end mesh

/-- C83: on a mesh that consists of one disc, with any history of the space, assembly succeeds and the assembled system is the Galerkin system with
exact integrals for functions `v`, of which those that are not on the boundary form a basis of the polynomials of degree at most `p` that vanish on
the circle.  The system has exactly one solution; its coefficients for boundary functions are 0; for every polynomial `u` with
`-D Δu + R u = f` the function with the coefficients of the solution is the best approximation of `u` in the energy norm; and if `u` vanishes on
the circle and has degree at most `p`, it is `u`. -/
theorem C83_disc {S : Setup ℝ} {E : Env} {K : CellG} {x0 y0 r : ℝ} {n : ℕ} {δ : ℝ} (h : DiscMesh S E K x0 y0 r n δ) {B : BilinForm}
    (hB : LoadExact B n δ) (hD : 0 < B.diffusion) (hR : 0 ≤ B.reaction) {s : GlobFunSp ℝ} (hs : S.Hist s) (h0 : 0 < S.s0.numFuns)
    (soln : Option (List ℝ)) :
    ∃ R v, assemble E B s soln = .ok R ∧ R.Galerkin S B x0 y0 r v ∧ (∃ x, R.Solves x) ∧ ∀ x, R.Solves x →
      (∀ x', R.Solves x' → ∀ i < R.numFuns, x i = x' i) ∧ (∀ i < R.numFuns, S.BoundaryNumber i → x i = 0) ∧ ∀ u, Pde B u →
        (∀ w, Poly2.VanishOn x0 y0 r w → w.totalDegree ≤ S.p →
          weak B x0 y0 r (u - R.combine v x) (u - R.combine v x) ≤ weak B x0 y0 r (u - w) (u - w)) ∧
        (Poly2.VanishOn x0 y0 r u → u.totalDegree ≤ S.p → R.combine v x = u) := by
  have hr0 : 0 < r := lt_of_lt_of_le (by norm_num) h.radius
  obtain ⟨R, h1, -, v, h2, -⟩ := h.galerkin hB hs h0 soln
  exact ⟨R, v, h1, h2, solution_exists h2 hr0 hD hR, fun x hx => ⟨fun x' hx' => solution_unique h2 hr0 hD hR hx hx',
    Solves.boundary h2 (rhs_boundary h2) hx, fun u hu => ⟨fun w hw hd => best h2 hr0 hD hR hx hu hw hd, reproduces h2 hr0 hD hR hx hu⟩⟩⟩

/-- C83: with a linear solver that solves solvable systems, `solve` stores the coefficients of the exact solution. -/
theorem C83_solve {S : Setup ℝ} {E : Env} {K : CellG} {x0 y0 r : ℝ} {n : ℕ} {δ : ℝ} (h : DiscMesh S E K x0 y0 r n δ) {B : BilinForm}
    (hB : LoadExact B n δ) (hD : 0 < B.diffusion) (hR : 0 ≤ B.reaction) {s : GlobFunSp ℝ} (hs : S.Hist s) (h0 : 0 < S.s0.numFuns)
    {spsolve : (ℕ → ℕ → ℝ) → (ℕ → ℝ) → ℕ → List ℝ} (hsp : ∀ A b N, (∃ x : ℕ → ℝ, ∀ i < N, ∑ j ∈ range N, A i j * x j = b i) →
      (spsolve A b N).length = N ∧ ∀ i < N, ∑ j ∈ range N, A i j * (spsolve A b N).getD j 0 = b i)
    {u : Poly2} (hu : Pde B u) (hv : Poly2.VanishOn x0 y0 r u) (hd : u.totalDegree ≤ S.p) :
    ∃ R v x, init E B s = .ok R ∧ R.Galerkin S B x0 y0 r v ∧ (solve spsolve R).soln = some x ∧ x.length = R.numFuns ∧
      R.combine v (fun i => x.getD i 0) = u := by
  obtain ⟨R, v, h1, h2, h3, h4⟩ := C83_disc h hB hD hR hs h0 none
  obtain ⟨g1, g2⟩ := hsp R.globMat R.globRhs R.numFuns h3
  exact ⟨R, v, _, h1, h2, rfl, g1, ((h4 _ g2).2.2 u hu).2 hv hd⟩

/-! ### the hypotheses can be met: the unit disc -/

section example_

theorem loop_init : ∃ m, PlanarMesh.init loopStore [0] = .ok m := (C34_accepts_iff _ _).2 (by simp [loopStore])

noncomputable def loopMesh : PlanarMesh ℝ := Classical.choose loop_init

theorem loopMesh_edges : loopMesh.edges = [0] := by
  obtain ⟨f1, f2, f3, -⟩ := C34_edges _ _ _ (Classical.choose_spec loop_init)
  have h1 : 0 ∈ loopMesh.edges := (f3 0).2 (by simp)
  rcases List.sublist_singleton.1 f2 with h2 | h2
  · rw [loopMesh, h2] at h1; simp at h1
  · exact h2

theorem loop_isLoop : (loopStore 0).isLoop = true := by simp [loopStore, EdgeRec.isLoop, PVert.dist2, tol]

theorem loop_gfs : ∃ s, GlobFunSp.init loopMesh 3 (fun _ => loopSpace) = .ok s := by
  unfold GlobFunSp.init
  rw [if_neg (by norm_num)]
  exact ⟨_, rfl⟩

/-- one closed edge with two edge functions, polynomials of degree 3 -/
noncomputable def loopSetup : Setup ℝ where
  st := loopStore
  es := [0]
  m := loopMesh
  deg := 3
  space := fun _ => loopSpace
  s0 := Classical.choose loop_gfs
  ord := List.dedup
  perm := CellTopo.getEdges
  hm := Classical.choose_spec loop_init
  hv := by simp [loopStore]
  hsp := by
    intro e he
    rw [loopMesh_edges, List.mem_singleton] at he
    subst he
    have h := (C34_edges _ _ _ (Classical.choose_spec loop_init)).2.2.2.2.1 0 0 (by rw [← loopMesh, loopMesh_edges]; rfl)
    refine ⟨rfl, ?_⟩
    rw [loopMesh, h]
    simp [loopSpace, loopStore, EdgeRec.isLoop, PVert.dist2, tol]
  hs := Classical.choose_spec loop_gfs
  hord := fun l => ⟨List.nodup_dedup l, fun v => List.mem_dedup⟩
  hperm := fun _ => List.Perm.refl _

noncomputable def loopEnv : Env where
  gmres := someGmres
  geo := fun _ _ => .ok (sampledDiscIn 16)
  ord := List.dedup
  perm := CellTopo.getEdges
  evalInt := true
  evalGrad := false

theorem loop_disc : DiscMesh loopSetup loopEnv (sampledDiscIn 16) 0 0 1 16 (1 / (Real.pi ^ 2 * 8)) := by
  obtain ⟨h1, h2⟩ := sampledDiscIn_ok (n := 16) (by norm_num)
  have hpi := Real.pi_pos
  have hpi4 : Real.pi ^ 2 ≤ 16 := by nlinarith [Real.pi_le_four]
  have hle : (1 : ℝ) / 128 ≤ 1 / (Real.pi ^ 2 * 8) := by
    apply one_div_le_one_div_of_le (by positivity)
    nlinarith
  have he : (1 : ℝ) / ((Real.pi * 1 ^ 2) ^ 2 * (8 : ℕ)) = 1 / (Real.pi ^ 2 * 8) := by norm_num
  have hb := C81_origin (r := 1) one_pos (deg := 3) (D := 8) (by norm_num)
    (fun d hd => by have : d ≤ 1 := by omega
                    interval_cases d <;> decide) (fun d hd => by
      rw [he]
      refine le_trans ?_ hle
      have e2 : Poly.denom (0 + 2) = 192 := by decide
      have e3 : Poly.denom (1 + 2) = 384 := by decide
      have : d = 0 ∨ d = 1 := by omega
      rcases this with rfl | rfl
      · rw [e2]; norm_num
      · rw [e3]; norm_num)
  rw [he] at hb
  refine ⟨rfl, rfl, ⟨0, rfl, loop_isLoop, ?_, by simp [loopSetup, loopSpace]⟩, fun _ _ _ _ => rfl, someGmres_exact, someGmres_finds, h1, h2,
    by norm_num, by norm_num, by norm_num, by simp [sampledDiscIn]; norm_num, by decide, by nlinarith, hb⟩
  exact Or.inr (by simp [loopSetup, loopStore])

theorem loop_num : loopSetup.s0.numFuns = 5 := by
  have h := C38_dimension _ _ _ loopSetup.hm _ _ _ loopSetup.hs
  obtain ⟨e, c, k, -, h1, -, h2, -⟩ := loop_disc.loop.cell
  have hv : loopSetup.m.vertIdxList = [] := List.eq_nil_iff_forall_not_mem.2 fun v hv => by
    obtain ⟨-, e, he, h1, -⟩ := ((C34_index_lists _ _ _ loopSetup.hm).2.2.2.2.1 v).1 hv
    have hl := loop_isLoop
    simp only [EdgeRec.isLoop, decide_eq_true_eq] at hl
    exact h1 hl
  have e0 : dimOf loopSetup.m loopSetup.space 0 = 2 := rfl
  rw [h, h2, hv, h1]
  simp only [List.length_singleton, List.length_nil, List.range_one, List.map_cons, List.map_nil, List.sum_cons, List.sum_nil, e0]
  rfl

/-- `-Δu + u = f` with the solution `u = 1 - x² - y²` -/
noncomputable def loopForm : BilinForm := ⟨1, 1, [⟨⟨0, 0⟩, 5⟩, ⟨⟨2, 0⟩, -1⟩, ⟨⟨0, 2⟩, -1⟩]⟩

theorem loop_load : LoadExact loopForm 16 (1 / (Real.pi ^ 2 * 8)) := by
  have hpi := Real.pi_pos
  have hpi4 : Real.pi ^ 2 ≤ 16 := by nlinarith [Real.pi_le_four]
  have hle : (1 : ℝ) / 128 ≤ 1 / (Real.pi ^ 2 * 8) := by
    apply one_div_le_one_div_of_le (by positivity)
    nlinarith
  have hmem : ∀ m ∈ loopForm.rhsPoly, m = ⟨⟨0, 0⟩, 5⟩ ∨ m = ⟨⟨2, 0⟩, -1⟩ ∨ m = ⟨⟨0, 2⟩, -1⟩ := by
    intro m hm
    simpa [loopForm] using hm
  have hl : Poly.OnLattice 1 loopForm.rhsPoly := by
    intro m hm
    rcases hmem m hm with rfl | rfl | rfl
    · exact ⟨5, by norm_num⟩
    · exact ⟨-1, by norm_num⟩
    · exact ⟨-1, by norm_num⟩
  refine ⟨1, _, hl, by nlinarith, ?_, Poly.antiLaplacian_ok _, antilap_laplacian _ ⟨?_, ?_⟩ 1 hl ?_⟩
  · intro m hm
    rcases hmem m hm with rfl | rfl | rfl <;> norm_num
  · simp only [loopForm, List.pairwise_cons]
    decide
  · intro m hm
    rcases hmem m hm with rfl | rfl | rfl <;> norm_num [tol]
  · intro m hm n hn
    rcases hmem m hm with rfl | rfl | rfl <;> subst hn <;> norm_num [Nat.factorial, Nat.descFactorial]

/-- `1 - x² - y²` -/
noncomputable def loopSol : Poly2 := 1 - MvPolynomial.X 0 ^ 2 - MvPolynomial.X 1 ^ 2

theorem loop_pde : Pde loopForm loopSol ∧ Poly2.VanishOn 0 0 1 loopSol ∧ loopSol.totalDegree ≤ loopSetup.p := by
  refine ⟨fun x y => ?_, fun θ => ?_, ?_⟩
  · have h2 : ∀ i : Fin 2, (MvPolynomial.pderiv i) (2 : Poly2) = 0 := fun i => by
      rw [show (2 : Poly2) = MvPolynomial.C 2 from (map_ofNat _ 2).symm, MvPolynomial.pderiv_C]
    simp [loopForm, loopSol, Poly2.ev, Poly2.lap, Poly.eval, Mono.eval_eq, MvPolynomial.pderiv_X, h2]
    ring
  · have := Real.sin_sq_add_cos_sq θ
    simp [loopSol, Poly2.ev]
    linarith
  · have e : loopSetup.p = 3 := rfl
    rw [e]
    have h : ∀ i : Fin 2, (MvPolynomial.X i ^ 2 : Poly2).totalDegree ≤ 3 := fun i => by
      rw [MvPolynomial.totalDegree_X_pow]; norm_num
    refine (MvPolynomial.totalDegree_sub _ _).trans (max_le ((MvPolynomial.totalDegree_sub _ _).trans (max_le ?_ (h 0))) (h 1))
    simp

/-- C83 applies to a disc with bubbles of degree 3 and two edge functions: the solution of `-Δu + u = 5 - x² - y²` that vanishes on the unit circle,
`1 - x² - y²`, is found. -/
example : ∃ R v x, init loopEnv loopForm loopSetup.s0 = .ok R ∧ R.Galerkin loopSetup loopForm 0 0 1 v ∧ R.Solves x ∧ R.numFuns = 5 ∧
    R.combine v x = loopSol := by
  obtain ⟨R, v, h1, h2, ⟨x, h3⟩, h4⟩ := C83_disc loop_disc loop_load (by norm_num [loopForm]) (by norm_num [loopForm]) Setup.Reach.refl
    (by rw [loop_num]; norm_num) none
  exact ⟨R, v, x, h1, h2, h3, by rw [h2.num, loop_num], ((h4 x h3).2.2 _ loop_pde.1).2 loop_pde.2.1 loop_pde.2.2⟩

/-- The hypotheses of C82 are met by the same disc: the local space is kept and has five functions. -/
example : ∃ R, assemble loopEnv loopForm loopSetup.s0 none = .ok R ∧ loopSetup.CellsOk ∧ loopEnv.Fits loopSetup ∧ loopSetup.Hist loopSetup.s0 ∧
    ∃ D : CellData, D.Valid loopSetup loopEnv loopForm 0 ∧
      R.locSpaces[0]? = some (some (D.K, D.funs.map fun l => ⟨l.key, D.obj l.glob⟩)) ∧ ∀ i j, R.stiffMat i j = D.H i j := by
  obtain ⟨R, v, h1, -⟩ := C83_disc loop_disc loop_load (by norm_num [loopForm]) (by norm_num [loopForm]) Setup.Reach.refl
    (by rw [loop_num]; norm_num) none
  obtain ⟨D, h2, h3, -⟩ := C82_entries loop_disc.cells loop_disc.fits Setup.Reach.refl h1
  obtain ⟨e, c, k, -, -, -, h4, -⟩ := loop_disc.loop.cell
  have h0 : (0 : ℤ) ∈ loopSetup.m.cellIdxList :=
    ((C34_index_lists _ _ _ loopSetup.hm).2.2.2.2.2 0).2 ⟨le_refl _, 0, by simp [loopSetup], Or.inl (by simp [loopSetup, loopStore])⟩
  rw [h4, List.mem_singleton] at h0
  subst h0
  obtain ⟨h5, h6⟩ := h2 0 0 (by rw [h4]; rfl)
  refine ⟨R, h1, loop_disc.cells, loop_disc.fits, Setup.Reach.refl, D 0, h5, h6, fun i j => ?_⟩
  rw [h3, h4]
  simp

end example_

end SolverG
end PFEM
