import Verif.Props.SharedEdges

/-!
Property theorem C121, second part: assembly on a mesh whose cells share edges computes what assembly with copies of the edges computes.
-/

namespace PFEM
open EdgeG

theorem getCell_edges {m : PlanarMesh ℝ} {c : ℤ} {k : CellTopo} (h : m.getCell c = .ok k) :
    (CellRef.ofTopo k).getEdges.Nodup ∧ ∀ γ ∈ (CellRef.ofTopo k).components, γ.edges.length = γ.orients.length := by
  obtain ⟨es, hes, h⟩ := bind_ok h
  unfold CellTopo.make at h
  split at h
  · rename_i r hr
    subst h
    obtain ⟨a1, a2, -, -, -, a6⟩ := C29_contours m.store c es _ k hr (Nat.lt_succ_self _)
    constructor
    · have : (CellRef.ofTopo k).getEdges = k.getEdges := by
        simp [CellRef.getEdges, CellRef.ofTopo, CellTopo.getEdges, List.flatMap_map]
      rw [this]
      exact a1.nodup_iff.2 a2
    · intro γ hγ
      obtain ⟨δ, hδ, rfl⟩ := List.mem_map.1 hγ
      simp [(a6 δ hδ).2.2.1]
  · cases h

theorem newCell_sim {E : SharedSolver.Env} {h g : EdgeHeap} {m : PlanarMesh ℝ} {c : ℤ} {k : CellTopo} (hk : m.getCell c = .ok k)
    (h1 : ∀ i, (h i).SameEdge (g i)) (points : Bool) :
    (SharedSolver.newCell E g k points).map (fun r => r.2.read r.1) = (E.byValue h).geo k points ∧
    ∀ r, SharedSolver.newCell E g k points = .ok r → ∃ h', SharedSolver.newCell E h k points = .ok (h', r.2) := by
  obtain ⟨n1, n2⟩ := getCell_edges hk
  have hr := C121_refines E.inside E.fuel E.quad points h (CellRef.ofTopo k) n1
  unfold SharedSolver.newCell SharedSolver.Env.byValue
  simp only
  rw [← hr]
  rcases parameterize_sim (inside := E.inside) (fuel := E.fuel) (d := E.quad) (points := points) n2 h1 with
    ⟨e1, e2⟩ | ⟨x, e1, e2⟩ | ⟨a, b, K', e1, e2, -, e4⟩
  · rw [e1, e2]
    exact ⟨rfl, by simp⟩
  · rw [e1, e2]
    exact ⟨rfl, by simp⟩
  · rw [e1, e2]
    refine ⟨by simp [Except.map, e4], fun r hr => ?_⟩
    cases hr
    exact ⟨a, rfl⟩

theorem newCell_same {E : SharedSolver.Env} {n p : ℤ} (hd : getQuadDict n p = .ok E.quad) {g : EdgeHeap} {k : CellTopo} {points : Bool}
    {r : EdgeHeap × CellRef} (hs : ∀ i, (g i).Settled) (hr : SharedSolver.newCell E g k points = .ok r) (i : ℕ) : (g i).SameEdge (r.1 i) := by
  unfold SharedSolver.newCell at hr
  split at hr
  · rename_i q hq
    subst hr
    obtain ⟨cs, h1, -⟩ := parameterize_split (h' := r.1) (K' := r.2) hq
    exact sampleContours_same hd hs h1 i
  · cases hr

theorem buildLocal_sim {E : SharedSolver.Env} {n p : ℤ} (hd : getQuadDict n p = .ok E.quad) {h g : EdgeHeap} (hs : ∀ i, (h i).Settled)
    (h1 : ∀ i, (h i).SameEdge (g i)) (s : GlobFunSp ℝ) (c : ℤ) :
    (SharedSolver.buildLocal E g s c).map (fun r => (r.2.1, r.2.2.1.read r.1, r.2.2.2)) = SolverG.buildLocal (E.byValue h) s c ∧
    ∀ r, SharedSolver.buildLocal E g s c = .ok r → ∀ i, (h i).SameEdge (r.1 i) := by
  have hsg : ∀ i, (g i).Settled := fun i => sameEdge_settled (h1 i) (hs i)
  constructor
  · unfold SharedSolver.buildLocal SolverG.buildLocal
    cases s.mesh.getAbsCellIdx c with
    | error x => rfl
    | ok a =>
      simp only [py_ok_bind]
      cases hk : s.mesh.getCell c with
      | error x => rfl
      | ok k =>
        obtain ⟨q1, q2⟩ := newCell_sim (E := E) hk h1 (E.evalInt || E.evalGrad)
        simp only [py_ok_bind]
        rw [show (E.byValue h).evalInt = E.evalInt from rfl, show (E.byValue h).evalGrad = E.evalGrad from rfl, ← q1]
        cases hn : SharedSolver.newCell E g k (E.evalInt || E.evalGrad) with
        | error x => rfl
        | ok r =>
          obtain ⟨h', hh'⟩ := q2 r hn
          have hp : (E.byValue h).perm k = r.2.getEdges := by simp only [SharedSolver.Env.byValue, hh']
          simp only [Except.map, py_ok_bind, hp]
          cases s.cellEdgeSpaces r.2.getEdges with
          | error x => rfl
          | ok bs =>
            simp only [py_ok_bind]
            rw [show (E.byValue h).gmres = E.gmres from rfl, show (E.byValue h).ord = E.ord from rfl]
            cases LocSpaceG.basis E.gmres (r.2.read r.1) E.ord s.mesh.store r.2.getEdges bs s.deg E.evalInt E.evalGrad with
            | error x => rfl
            | ok fs =>
              simp only [py_ok_bind]
              cases SolverG.numberLoop s a fs <;> rfl
  · intro r hr i
    obtain ⟨a, _, hr⟩ := bind_ok hr
    obtain ⟨k, _, hr⟩ := bind_ok hr
    obtain ⟨q, hq, hr⟩ := bind_ok hr
    obtain ⟨bs, _, hr⟩ := bind_ok hr
    obtain ⟨fs, _, hr⟩ := bind_ok hr
    obtain ⟨fs', _, hr⟩ := bind_ok hr
    cases hr
    exact (h1 i).trans (newCell_same hd hsg hq i)

/-- the two loops have accumulated the same -/
structure Agree (h : EdgeHeap) (x : SharedSolver.Accum) (y : SolverG.Accum) : Prop where
  heap : ∀ i, (h i).SameEdge (x.heap i)
  space : x.space = y.space
  triplets : x.triplets = y.triplets
  rhs : x.rhs = y.rhs
  funs : x.locSpaces.map (Option.map Prod.snd) = y.locSpaces.map (Option.map Prod.snd)

theorem cellStep_sim {E : SharedSolver.Env} {n p : ℤ} (hd : getQuadDict n p = .ok E.quad) {h : EdgeHeap} (hs : ∀ i, (h i).Settled) (B : BilinForm)
    {x : SharedSolver.Accum} {y : SolverG.Accum} (hxy : Agree h x y) (a : ℕ) :
    (∃ z, SharedSolver.cellStep E B x a = .error z ∧ SolverG.cellStep (E.byValue h) B y a = .error z) ∨
    ∃ x' y', SharedSolver.cellStep E B x a = .ok x' ∧ SolverG.cellStep (E.byValue h) B y a = .ok y' ∧ Agree h x' y' := by
  obtain ⟨g1, g2, g3, g4, g5⟩ := hxy
  unfold SharedSolver.cellStep SolverG.cellStep
  rw [g2]
  cases pyGetZ y.space.mesh.cellIdxList a with
  | error z => exact .inl ⟨z, rfl, rfl⟩
  | ok c =>
    obtain ⟨q1, q2⟩ := buildLocal_sim hd hs g1 y.space c
    simp only [py_ok_bind]
    rw [← q1]
    cases hb : SharedSolver.buildLocal E x.heap y.space c with
    | error z => exact .inl ⟨z, rfl, rfl⟩
    | ok r =>
      have q3 := q2 r hb
      obtain ⟨g, s, K, fs⟩ := r
      simp only [Except.map, py_ok_bind]
      cases SolverG.cellValues B fs with
      | error z => exact .inl ⟨z, rfl, rfl⟩
      | ok r =>
        obtain ⟨ts, rs⟩ := r
        refine .inr ⟨_, _, rfl, rfl, q3, rfl, by simp only [g3], by simp only [g4], ?_⟩
        simp only [show (E.byValue h).evalInt = E.evalInt from rfl]
        split
        · simp only [List.map_set, g5, Option.map_some]
        · exact g5

theorem cellLoop_sim {E : SharedSolver.Env} {n p : ℤ} (hd : getQuadDict n p = .ok E.quad) {h : EdgeHeap} (hs : ∀ i, (h i).Settled) (B : BilinForm) :
    ∀ (l : List ℕ) {x : SharedSolver.Accum} {y : SolverG.Accum}, Agree h x y →
    (∃ z, SharedSolver.cellLoop E B l x = .error z ∧ SolverG.cellLoop (E.byValue h) B l y = .error z) ∨
    ∃ x' y', SharedSolver.cellLoop E B l x = .ok x' ∧ SolverG.cellLoop (E.byValue h) B l y = .ok y' ∧ Agree h x' y'
  | [], x, y, hxy => .inr ⟨x, y, rfl, rfl, hxy⟩
  | a :: l, x, y, hxy => by
    unfold SharedSolver.cellLoop SolverG.cellLoop
    rcases cellStep_sim hd hs B hxy a with ⟨z, e1, e2⟩ | ⟨x', y', e1, e2, e3⟩
    · exact .inl ⟨z, by rw [e1]; rfl, by rw [e2]; rfl⟩
    · rw [e1, e2]
      exact cellLoop_sim hd hs B l e3

/-- C121: assembly on a mesh whose cells share their edges, after any history of calls on edges and cells, has the outcome of assembly in which every
cell has its own copies of the edges as they were at the beginning: the same exception, or the same space, matrices, right-hand side and local basis
functions. -/
theorem C121_assemble {E : SharedSolver.Env} {n p : ℤ} (hd : getQuadDict n p = .ok E.quad) {h h' : EdgeHeap} {calls : List EdgeCall}
    (hs : ∀ i, (h i).Settled) (hc : EdgeCalls h calls h') (B : BilinForm) (s : GlobFunSp ℝ) :
    (SharedSolver.assemble E B h' s).map SharedSolver.State.result =
      (SolverG.assemble (E.byValue h) B s none).map SolverG.State.result := by
  unfold SharedSolver.assemble SolverG.assemble
  rcases cellLoop_sim hd hs B (List.range s.mesh.numCells) (x := ⟨h', s, [], [], List.replicate s.mesh.numCells none⟩)
    (y := ⟨s, [], [], List.replicate s.mesh.numCells none⟩) ⟨C121_calls hs hc, rfl, rfl, rfl, by simp⟩ with ⟨z, e1, e2⟩ | ⟨x, y, e1, e2, e3⟩
  · rw [e1, e2]; rfl
  · obtain ⟨-, g2, g3, g4, g5⟩ := e3
    rw [e1, e2]
    simp only [py_ok_bind, g2, g3, g4]
    generalize Solver.imposeBc y.space (y.triplets, y.rhs) = w
    obtain ⟨ts, rs⟩ := w
    simp only
    cases Solver.checkIdx y.space.numFuns (rs.map Prod.fst) with
    | error z => rfl
    | ok u =>
      simp only [py_ok_bind]
      cases Solver.checkIdx y.space.numFuns (ts.map Triplet.row) with
      | error z => rfl
      | ok u =>
        simp only [py_ok_bind]
        cases Solver.checkIdx y.space.numFuns (ts.map Triplet.col) with
        | error z => rfl
        | ok u => simp only [py_ok_bind, Except.map, SharedSolver.State.result, SolverG.State.result, g5]

end PFEM
