import Verif.Lemmas.Motion
import Verif.Props.LogTerms
import Verif.Model.LocFun

/-!
Lemmas about the solver of a cell that is turned and shifted.
-/

namespace PFEM
open Nystrom
open ContourG (mapPy npts)

/-! ### traces on other edges of the same sizes -/

/-- two lists of edges with the same numbers of samples -/
abbrev SameSizes (es es' : List EdgeG) : Prop := List.Forall₂ (fun e e' => Trace.edgeNumPts e' = Trace.edgeNumPts e) es es'

/-- the same trace on other edges -/
abbrev Trace.on (es : List EdgeG) (t : Trace) : Trace := { t with edges := es }

namespace Trace

theorem npts_of_num {e e' : EdgeG} (h : edgeNumPts e' = edgeNumPts e) : npts e' = npts e ∧ e'.pts.isSome = e.pts.isSome := by
  unfold edgeNumPts at h
  unfold ContourG.npts
  cases h1 : e.pts <;> cases h2 : e'.pts <;> (rw [h1, h2] at h; simp at h ⊢; try omega)

theorem bare_on {es es' : List EdgeG} (h : SameSizes es es') : bare es' = on es' (bare es) := by
  have h1 : (es'.all fun e => e.pts.isSome) = es.all fun e => e.pts.isSome := all_rel h fun _ _ he => (npts_of_num he).2
  have h2 : (es'.map fun e => npts e - 1) = es.map fun e => npts e - 1 := by
    clear h1
    induction h with
    | nil => rfl
    | cons he _ ih => rw [List.map_cons, List.map_cons, (npts_of_num he).1, ih]
  have h3 : ∀ k, idxLoop k es' = idxLoop k es := by
    clear h1 h2
    induction h with
    | nil => exact fun _ => rfl
    | cons he _ ih => exact fun k => by simp only [idxLoop, (npts_of_num he).1, ih]
  simp only [bare, ready, h1, findSizes, h2, h3, h.length_eq]
  split <;> rfl

theorem edgeBlock_on {t : Trace} {es : List EdgeG} (h : SameSizes t.edges es) (k : ℤ) (v : FloatLike) :
    edgeBlock (on es t) k v = edgeBlock t k v := by
  unfold edgeBlock
  split
  · rfl
  · rcases get_rel h k.toNat with ⟨h1, h2⟩ | ⟨e, e', h1, h2, he⟩
    · simp only [h1, h2]
    · simp only [h1, h2, py_ok_bind, he]

theorem setOnEdge_on {t : Trace} {es : List EdgeG} (h : SameSizes t.edges es) (k : ℤ) (v : FloatLike) :
    setOnEdge (on es t) k v = (on es (setOnEdge t k v).1, (setOnEdge t k v).2) := by
  unfold setOnEdge
  rw [edgeBlock_on h]
  simp only [on]
  split <;> rfl

theorem setWndOnEdge_on {t : Trace} {es : List EdgeG} (h : SameSizes t.edges es) (k : ℤ) (v : FloatLike) :
    setWndOnEdge (on es t) k v = (on es (setWndOnEdge t k v).1, (setWndOnEdge t k v).2) := by
  unfold setWndOnEdge
  rw [edgeBlock_on h]
  simp only [on, derivArray]
  split <;> rfl

theorem setWtdOnEdge_on {t : Trace} {es : List EdgeG} (h : SameSizes t.edges es) (k : ℤ) (v : FloatLike) :
    setWtdOnEdge (on es t) k v = (on es (setWtdOnEdge t k v).1, (setWtdOnEdge t k v).2) := by
  unfold setWtdOnEdge
  rw [edgeBlock_on h]
  simp only [on, derivArray]
  split <;> rfl

theorem setOnEdge_edges (t : Trace) (k : ℤ) (v : FloatLike) : (setOnEdge t k v).1.edges = t.edges := by
  unfold setOnEdge
  split <;> rfl
theorem setWndOnEdge_edges (t : Trace) (k : ℤ) (v : FloatLike) : (setWndOnEdge t k v).1.edges = t.edges := by
  unfold setWndOnEdge
  split <;> rfl
theorem setWtdOnEdge_edges (t : Trace) (k : ℤ) (v : FloatLike) : (setWtdOnEdge t k v).1.edges = t.edges := by
  unfold setWtdOnEdge
  split <;> rfl

theorem edgeLoop_on {set : Trace → ℤ → FloatLike → Trace × Py Unit} {es : List EdgeG}
    (hs : ∀ (t : Trace) (k : ℤ) (v : FloatLike), SameSizes t.edges es → set (on es t) k v = (on es (set t k v).1, (set t k v).2))
    (he : ∀ (t : Trace) (k : ℤ) (v : FloatLike), (set t k v).1.edges = t.edges) (vs : List FloatLike) :
    ∀ (n k : ℕ) (t : Trace), SameSizes t.edges es →
      edgeLoop set vs n k (on es t) = (on es (edgeLoop set vs n k t).1, (edgeLoop set vs n k t).2)
  | 0, _, _, _ => rfl
  | n + 1, k, t, h => by
    simp only [edgeLoop]
    cases Np.get vs k with
    | error e => rfl
    | ok v =>
      simp only
      rw [hs t k v h]
      have h' : SameSizes (set t k v).1.edges es := by rw [he]; exact h
      have hx := he t k v
      generalize set t k v = r at h' ⊢
      obtain ⟨t1, r1⟩ := r
      cases r1 with
      | error e => rfl
      | ok u => exact edgeLoop_on hs he vs n (k + 1) t1 h'

theorem setter_on {set : Trace → ℤ → FloatLike → Trace × Py Unit} {zero : Trace → ℕ → Trace} {full : Trace → TraceArg → Trace × Py Unit}
    {es : List EdgeG}
    (hfull : ∀ t v, full t v = match (do
      let vs ← t.convert v
      let n ← attr t.numPts
      .ok (vs, n) : Py (List FloatLike × ℕ)) with
      | .error er => (t, .error er)
      | .ok (vs, n) => edgeLoop set vs t.numEdges 0 (zero t n))
    (hz : ∀ t n, zero (on es t) n = on es (zero t n)) (hze : ∀ t n, (zero t n).edges = t.edges)
    (hs : ∀ (t : Trace) (k : ℤ) (v : FloatLike), SameSizes t.edges es → set (on es t) k v = (on es (set t k v).1, (set t k v).2))
    (he : ∀ (t : Trace) (k : ℤ) (v : FloatLike), (set t k v).1.edges = t.edges) {t : Trace} (h : SameSizes t.edges es) (v : TraceArg) :
    full (on es t) v = (on es (full t v).1, (full t v).2) := by
  have hc : (on es t).convert v = t.convert v := by
    cases v with
    | list l => rfl
    | one v => cases v <;> rfl
  rw [hfull, hfull, hc]
  simp only
  cases t.convert v with
  | error e => rfl
  | ok vs =>
    cases t.numPts with
    | none => rfl
    | some n =>
      simp only [py_ok_bind, attr, hz]
      exact edgeLoop_on hs he vs _ 0 _ (by rw [hze]; exact h)

theorem setValues_on {t : Trace} {es : List EdgeG} (h : SameSizes t.edges es) (v : TraceArg) :
    setValues (on es t) v = (on es (setValues t v).1, (setValues t v).2) :=
  setter_on (zero := fun t n => { t with values := some (List.replicate n 0) }) (fun _ _ => rfl) (fun _ _ => rfl) (fun _ _ => rfl)
    (fun _ k v h => setOnEdge_on h k v) setOnEdge_edges h v

theorem setWnd_on {t : Trace} {es : List EdgeG} (h : SameSizes t.edges es) (v : TraceArg) :
    setWnd (on es t) v = (on es (setWnd t v).1, (setWnd t v).2) :=
  setter_on (zero := fun t n => { t with wnd := some (List.replicate n 0) }) (fun _ _ => rfl) (fun _ _ => rfl) (fun _ _ => rfl)
    (fun _ k v h => setWndOnEdge_on h k v) setWndOnEdge_edges h v

theorem setWtd_on {t : Trace} {es : List EdgeG} (h : SameSizes t.edges es) (v : TraceArg) :
    setWtd (on es t) v = (on es (setWtd t v).1, (setWtd t v).2) :=
  setter_on (zero := fun t n => { t with wtd := some (List.replicate n 0) }) (fun _ _ => rfl) (fun _ _ => rfl) (fun _ _ => rfl)
    (fun _ k v h => setWtdOnEdge_on h k v) setWtdOnEdge_edges h v

theorem after_on (es : List EdgeG) (r : Trace × Py Unit) : after (on es r.1, r.2) = (after r).map (on es) := by
  obtain ⟨t, r⟩ := r
  cases r <;> rfl

theorem init_on {es es' : List EdgeG} (h : SameSizes es es') (v : TraceArg) :
    init es' (values := some v) = (init es (values := some v)).map (on es') := by
  have hb : SameSizes (bare es).edges es' := by rw [edges_bare]; exact h
  simp only [init, Bool.false_eq_true, if_false]
  rw [bare_on h, setValues_on hb]
  generalize setValues (bare es) v = r
  obtain ⟨t, r⟩ := r
  cases r <;> rfl

end Trace

theorem CellG.MovedBy.sizes {m : Motion} {K K' : CellG} (h : K.MovedBy m K') : SameSizes K.getEdges K'.getEdges :=
  h.edges.imp fun _ _ he => he.edgeNumPts

/-! ### operators -/

/-- the same operators for another cell -/
abbrev Nystrom.Ops.on (K' : CellG) (o : Ops) : Ops := { o with K := K' }

/-- the same logarithmic terms on other edges -/
abbrev Nystrom.LogTerms.on (es : List EdgeG) (g : LogTerms) : LogTerms := { g with lam := g.lam.map (Trace.on es) }

/-- the same solver for another cell -/
abbrev Nystrom.Solver.on (K' : CellG) (s : Solver) : Solver where
  ops := s.ops.on K'
  log := s.log.map (LogTerms.on K'.getEdges)
  diag := s.diag
  strategy := s.strategy
  eta := s.eta.map (List.map (Trace.on K'.getEdges))

theorem mapPy_map {α β γ : Type} (f : β → Py γ) (g : α → β) (l : List α) : mapPy f (l.map g) = mapPy (fun a => f (g a)) l := by
  induction l with
  | nil => rfl
  | cons a l ih => simp only [List.map_cons, mapPy, ih]

section
variable {m : Motion} {K K' : CellG} (h : K.MovedBy m K') (hr : m.r = 1)
include h

theorem build_move (hr : m.r = 1) : build K' = (build K).map (Ops.on K') := by
  unfold build
  rw [h.single hr, h.double (fun c _ e _ => by rw [hr]; exact e.keeps_one)]
  cases singleMat K with
  | error _ => rfl
  | ok S =>
    cases doubleMat K with
    | error _ => rfl
    | ok D => rfl

theorem single_on {o : Ops} (ho : o.K = K) : (o.on K').single = o.single := by
  subst ho
  funext u
  simp only [Ops.single, h.numPts]

theorem double_on {o : Ops} (ho : o.K = K) : (o.on K').double = o.double := by
  subst ho
  funext u
  simp only [Ops.double, h.numPts, h.closest]

theorem neumann_on (hr : m.r = 1) {o : Ops} (ho : o.K = K) : (o.on K').neumann = o.neumann := by
  funext u
  simp only [Ops.neumann, double_on h ho]
  subst ho
  simp only [h.numPts, h.integrate hr]

theorem sn_on (es : List EdgeG) (lam : List Trace) (v : List ℝ) : sn K' (lam.map (Trace.on es)) v = sn K lam v := by
  simp only [sn, mapPy_map, h.integratePreweighted]

theorem st_on (es : List EdgeG) (lam : List Trace) (v : List ℝ) : st K' (lam.map (Trace.on es)) v = st K lam v := by
  simp only [st, mapPy_map, h.integratePreweighted]

theorem augmented_on (hr : m.r = 1) (es : List EdgeG) {o : Ops} (ho : o.K = K) (g : LogTerms) :
    augmented (o.on K') (g.on es) = augmented o g := by
  funext x
  simp only [augmented, double_on h ho]
  subst ho
  simp only [h.numPts, h.numHoles, h.integrate hr, st_on h es]

theorem solveNeumann_on (hr : m.r = 1) (gmres : Gmres) {o : Ops} (ho : o.K = K) (D : List ℝ) :
    solveNeumann gmres (o.on K') D = solveNeumann gmres o D := by
  funext w
  simp only [solveNeumann, single_on h ho, neumann_on h hr ho]
  subst ho
  simp only [h.numPts]

theorem conjugate_on (hr : m.r = 1) (gmres : Gmres) {s : Solver} (hs : s.ops.K = K) (v : List ℝ) :
    conjugate gmres (s.on K') v = conjugate gmres s v := by
  subst hs
  simp only [conjugate, h.wtdFromTrace, h.numHoles, h.numPts, solveNeumann_on h hr gmres rfl, single_on h rfl]
  cases wtdFromTrace s.ops.K v with
  | error _ => rfl
  | ok t =>
    simp only [py_ok_bind]
    by_cases h0 : s.ops.K.numHoles = 0
    · simp only [if_pos h0]
    · simp only [if_neg h0]
      cases s.log with
      | none => rfl
      | some g => simp only [Option.map_some, Trace.attr, py_ok_bind, sn_on h, augmented_on h hr _ rfl]

/-! ### the preconditioner -/

omit h in
theorem diagEdges_rel {l l' : List EdgeG} (hl : List.Forall₂ (EdgeG.MovedBy m) l l') (D : List ℝ) (start : ℕ) :
    diagEdges D start l' = diagEdges D start l := by
  induction hl generalizing D start with
  | nil => rfl
  | @cons e e' _ _ he _ ih =>
    have hc : ∀ s : Sample, (m.sample s).curv * (m.sample s).dxNorm = s.curv * s.dxNorm := by
      intro s
      have := m.pos.ne'
      simp only [Motion.sample]
      field_simp
    simp only [diagEdges, he.sampled, ih]
    cases e.sampled with
    | error _ => rfl
    | ok L =>
      have hm : ∀ h : ℝ, (L.map m.sample).dropLast.map (fun s => 0.5 + 0.5 * s.curv * s.dxNorm * h) =
          L.dropLast.map fun s => 0.5 + 0.5 * s.curv * s.dxNorm * h := by
        intro h
        rw [← List.map_dropLast, List.map_map]
        refine List.map_congr_left fun s _ => ?_
        simp only [Function.comp, mul_assoc (0.5 : ℝ), hc]
      simp only [Except.map, py_ok_bind, List.length_map, hm]

theorem diagonal_on (es : List EdgeG) (g : Option LogTerms) : diagonal K' (g.map (LogTerms.on es)) = diagonal K g := by
  have hc : ∀ {l l' : List ContourG}, List.Forall₂ (ContourG.MovedBy m) l l' → ∀ (D : List ℝ) (j : ℕ),
      diagComps K' D j l' = diagComps K D j l := by
    intro l l' hl
    induction hl with
    | nil => exact fun _ _ => rfl
    | cons hc _ ih => exact fun D j => by simp only [diagComps, h.startIdx, diagEdges_rel hc.edges, ih]
  unfold diagonal
  rw [hc h.components, h.numPts, h.numHoles]
  congr 1
  funext D
  refine foldlM_congr (fun D i _ => ?_) D
  cases g <;> rfl

/-! ### harmonic functions with constant normal derivatives -/

omit h in
theorem setEdges_on {es : List EdgeG} (first n : ℕ) (v : ℝ) {t : Trace} (ht : SameSizes t.edges es) :
    setEdges first n v (Trace.on es t) = (setEdges first n v t).map (Trace.on es) := by
  unfold setEdges
  generalize List.range n = l
  induction l generalizing t with
  | nil => rfl
  | cons k l ih =>
    rw [List.foldlM_cons, List.foldlM_cons, Trace.setOnEdge_on ht, Trace.after_on]
    have he := Trace.setOnEdge_edges t ((first + k : ℕ) : ℤ) (.num v)
    generalize t.setOnEdge ((first + k : ℕ) : ℤ) (.num v) = r at he ⊢
    obtain ⟨t1, r⟩ := r
    cases r with
    | error _ => rfl
    | ok u =>
      simp only [Trace.after, Except.map, py_ok_bind]
      exact ih (by simp only at he; rw [he]; exact ht)

omit h in
theorem setEdges_edges (first n : ℕ) (v : ℝ) {t t1 : Trace} (ht : setEdges first n v t = .ok t1) : t1.edges = t.edges := by
  unfold setEdges at ht
  generalize List.range n = l at ht
  induction l generalizing t with
  | nil => cases ht; rfl
  | cons k l ih =>
    rw [List.foldlM_cons] at ht
    obtain ⟨t2, h2, ht⟩ := bind_ok ht
    rw [ih ht]
    have he := Trace.setOnEdge_edges t ((first + k : ℕ) : ℤ) (.num v)
    unfold Trace.after at h2
    generalize t.setOnEdge ((first + k : ℕ) : ℤ) (.num v) = r at he h2
    obtain ⟨t3, r⟩ := r
    cases r with
    | error _ => cases h2
    | ok u => cases h2; exact he

omit h in
theorem init_edges {es : List EdgeG} {v : TraceArg} {t : Trace} (ht : Trace.init es (values := some v) = .ok t) : t.edges = es := by
  simp only [Trace.init, Bool.false_eq_true, if_false] at ht
  have hx : ∀ {set : Trace → ℤ → FloatLike → Trace × Py Unit} (he : ∀ (t : Trace) (k : ℤ) (v : FloatLike), (set t k v).1.edges = t.edges)
      (vs : List FloatLike) (n k : ℕ) (t : Trace), (Trace.edgeLoop set vs n k t).1.edges = t.edges := by
    intro set he vs n
    induction n with
    | zero => exact fun _ _ => rfl
    | succ n ih =>
      intro k t
      simp only [Trace.edgeLoop]
      cases Np.get vs k with
      | error _ => rfl
      | ok v =>
        simp only
        have := he t k v
        generalize set t k v = r at this ⊢
        obtain ⟨t1, r⟩ := r
        cases r with
        | error _ => exact this
        | ok u => exact (ih _ _).trans this
  have hv : ((Trace.bare es).setValues v).1.edges = es := by
    unfold Trace.setValues
    split
    · exact Trace.edges_bare es
    · exact (hx Trace.setOnEdge_edges _ _ _ _).trans (Trace.edges_bare es)
  generalize (Trace.bare es).setValues v = r at ht hv
  obtain ⟨t1, r⟩ := r
  cases r with
  | error _ => cases ht
  | ok u => cases ht; exact hv

theorem indicatorData_on (hr : m.r = 1) {c0 c0' c c' : ContourG} (h0 : c0.MovedBy m c0') (hc : c.MovedBy m c') (outer : ℝ) (first : ℕ) :
    indicatorData K' c0' c' outer first = indicatorData K c0 c outer first := by
  simp only [indicatorData, Trace.init_on h.sizes, hc.integrate hr, hc.numPts, h.multiplyByDxNorm hr, ← h0.edges.length_eq,
    ← hc.edges.length_eq]
  cases hi : Trace.init K.getEdges (values := some (.one (.num 0))) with
  | error _ => rfl
  | ok t =>
    have ht := init_edges hi
    simp only [Except.map, py_ok_bind]
    congr 1
    funext inner
    split
    · rfl
    · rw [setEdges_on _ _ _ (by rw [ht]; exact h.sizes)]
      cases h1 : setEdges 0 c0.edges.length (-inner / outer) t with
      | error _ => rfl
      | ok t1 =>
        have ht1 := setEdges_edges _ _ _ h1
        simp only [Except.map, py_ok_bind]
        rw [setEdges_on _ _ _ (by rw [ht1, ht]; exact h.sizes)]
        cases h2 : setEdges first c.edges.length 1 t1 with
        | error _ => rfl
        | ok t2 => rfl

theorem indicatorLoop_on (hr : m.r = 1) (solve : List ℝ → Py (List ℝ)) {c0 c0' : ContourG} (h0 : c0.MovedBy m c0') (outer : ℝ)
    {l l' : List ContourG} (hl : List.Forall₂ (ContourG.MovedBy m) l l') (first : ℕ) :
    indicatorLoop K' solve c0' outer first l' = (indicatorLoop K solve c0 outer first l).map (List.map (Trace.on K'.getEdges)) := by
  induction hl generalizing first with
  | nil => rfl
  | @cons c c' _ _ hc _ ih =>
    simp only [indicatorLoop, indicatorData_on h hr h0 hc, Trace.init_on h.sizes, ← hc.edges.length_eq, ih]
    cases indicatorData K c0 c outer first with
    | error _ => rfl
    | ok w =>
      simp only [py_ok_bind]
      cases solve w with
      | error _ => rfl
      | ok eta =>
        simp only [py_ok_bind]
        cases Trace.init K.getEdges (values := some (.one (.arr eta))) with
        | error _ => rfl
        | ok t =>
          simp only [py_ok_bind, Except.map]
          cases indicatorLoop K solve c0 outer (first + c.edges.length) _ <;> rfl

omit h in
theorem forall₂_tail {α β : Type} {R : α → β → Prop} {l : List α} {l' : List β} (h : List.Forall₂ R l l') : List.Forall₂ R l.tail l'.tail := by
  cases h with
  | nil => exact .nil
  | cons _ h => exact h

theorem indicators_on (hr : m.r = 1) (solve : List ℝ → Py (List ℝ)) :
    indicators K' solve = (indicators K solve).map (List.map (Trace.on K'.getEdges)) := by
  unfold indicators
  rcases get_rel h.components 0 with ⟨h1, h2⟩ | ⟨c, c', h1, h2, hc⟩
  · rw [h1, h2]
    rfl
  · rw [h1, h2]
    simp only [py_ok_bind, hc.integrate hr, hc.numPts, ← hc.edges.length_eq]
    cases c.integrate (List.replicate c.numPts 1) with
    | error _ => rfl
    | ok x => exact indicatorLoop_on h hr solve hc x (forall₂_tail h.components) _

/-! ### logarithmic terms -/

theorem even_move (hK : K.Even) : K'.Even := by
  intro c' hc' e' he'
  obtain ⟨c, hc, hm⟩ := forall₂_mem_right h.components hc'
  obtain ⟨e, he, hm⟩ := forall₂_mem_right hm.edges he'
  obtain ⟨n, h1, h2, h3⟩ := hK c hc e he
  exact ⟨n, h1, h2, by rw [hm.cols, List.length_map, h3]⟩

theorem nonempty_move (hK : ∀ c ∈ K.components, c.edges ≠ []) : ∀ c ∈ K'.components, c.edges ≠ [] := by
  intro c' hc'
  obtain ⟨c, hc, hm⟩ := forall₂_mem_right h.components hc'
  have := hm.edges.length_eq
  intro h0
  rw [h0] at this
  exact hK c hc (List.length_eq_zero_iff.1 this)

omit h in
theorem move_sq (m : Motion) (p : Vert) (s : Sample) : sq (m.vert p) (m.sample s).x (m.sample s).y = m.r ^ 2 * sq p s.x s.y := by
  simp only [sq, Motion.vert, Motion.sample]
  linear_combination (m.r ^ 2 * ((s.x - p.x) ^ 2 + (s.y - p.y) ^ 2)) * m.rot

theorem holes_move (hK : K.Holes) : K'.Holes := by
  intro c' hc'
  obtain ⟨c, hc, hm⟩ := forall₂_mem_right h.poles hc'
  obtain ⟨p, hp, hoff⟩ := hK c hc
  refine ⟨m.vert p, by rw [hm, hp]; rfl, ?_⟩
  intro s' hs'
  rw [h.cols] at hs'
  obtain ⟨s, hs, rfl⟩ := List.mem_map.1 hs'
  have h1 := sq_pos (hoff s hs)
  have h2 : 0 < sq (m.vert p) (m.sample s).x (m.sample s).y := by
    rw [move_sq]
    have := m.pos
    positivity
  by_contra hn
  simp only [away, Set.mem_ofPred_eq, not_or, not_not] at hn
  rw [sq, hn.1, hn.2] at h2
  simp at h2

theorem poles_move (hK : K.Holes) : poles K' = (poles K).map m.vert := by
  unfold poles
  have hk : ∀ c ∈ K.components.tail, ∃ p, c.interior = some p := fun c hc => by
    obtain ⟨p, hp, -⟩ := hK c hc
    exact ⟨p, hp⟩
  have := h.poles
  generalize K.components.tail = l at *
  generalize K'.components.tail = l' at *
  clear hK h
  induction this with
  | nil => rfl
  | @cons c c' _ _ hc _ ih =>
    obtain ⟨p, hp⟩ := hk c (by simp)
    simp only [List.map_cons]
    rw [ih fun c hc => hk c (by simp [hc]), hc, hp]
    rfl

theorem lamN_move (hr : m.r = 1) (p : Vert) : lamN K' (m.vert p) = lamN K p := by
  unfold lamN CellG.normalOf
  rw [h.cols, List.map_map]
  refine List.map_congr_left fun s _ => ?_
  simp only [Function.comp, move_sq, hr, one_pow, one_mul]
  simp only [Motion.sample, Motion.vert, hr, one_mul]
  generalize sq p s.x s.y = d
  have := m.rot
  linear_combination (((s.x - p.x) / d * s.nx + (s.y - p.y) / d * s.ny) * s.dxNorm) * m.rot

theorem lamT_move (hr : m.r = 1) (p : Vert) : lamT K' (m.vert p) = lamT K p := by
  unfold lamT CellG.tangentOf
  rw [h.cols, List.map_map]
  refine List.map_congr_left fun s _ => ?_
  simp only [Function.comp, move_sq, hr, one_pow, one_mul]
  simp only [Motion.sample, Motion.vert, hr, one_mul]
  generalize sq p s.x s.y = d
  have := m.rot
  linear_combination (((s.x - p.x) / d * s.tx + (s.y - p.y) / d * s.ty) * s.dxNorm) * m.rot

theorem logDist_move (hr : m.r = 1) (p : Vert) : K'.samplesOf (logDist (m.vert p)) = K.samplesOf (logDist p) := by
  unfold CellG.samplesOf
  rw [h.cols, List.map_map]
  refine List.map_congr_left fun s _ => ?_
  have := move_sq m p s
  rw [hr, one_pow, one_mul, sq, sq] at this
  simp only [Function.comp, logDist, this]

theorem lamOf_move (hr : m.r = 1) (p : Vert) : lamOf K' (m.vert p) = Trace.on K'.getEdges (lamOf K p) := by
  have h1 := lamN_move h hr p
  have h2 := lamT_move h hr p
  unfold lamN at h1
  unfold lamT at h2
  unfold lamOf
  rw [h1, h2, logDist_move h hr]
  simp only [Trace.made, Trace.bare_on h.sizes]

theorem steps_move : steps K' = steps K := by
  unfold steps
  have := h.components
  generalize K.components = l at *
  generalize K'.components = l' at *
  clear h
  induction this with
  | nil => rfl
  | @cons c c' _ _ hc _ ih => simp only [List.flatMap_cons, ih, hc.cols, List.length_map, hc.edges.length_eq, List.map_map, Function.comp_def]

theorem logTermsOf_move (hr : m.r = 1) (hK : K.Holes) {o : Ops} (ho : o.K = K) :
    logTermsOf (o.on K') = (logTermsOf o).on K'.getEdges := by
  subst ho
  have h1 : lamT K' ∘ m.vert = lamT o.K := funext (lamT_move h hr)
  simp only [logTermsOf, LogTerms.on, poles_move h hK, List.map_map, h.numPts, h.numHoles, Function.comp_def, lamOf_move h hr,
    lamT_move h hr, lamN_move h hr, logDist_move h hr, steps_move h]

theorem init_move (hr : m.r = 1) (hK : K.Ready) (hev : K.Even) (hne : ∀ c ∈ K.components, c.edges ≠ []) (hh : K.Holes) (gmres : Gmres)
    (strategy precondType : String) :
    init gmres K' strategy precondType = (init gmres K strategy precondType).map (Solver.on K') := by
  unfold init
  rw [build_move h hr]
  cases ho : build K with
  | error _ => rfl
  | ok o =>
    have hoK := (build_shape hK ho).1
    have ho' : build K' = .ok (o.on K') := by rw [build_move h hr, ho]; rfl
    have hg := logTerms_eq hK hev hne hh ho
    have hg' := logTerms_eq (h.ready hK) (even_move h hev) (nonempty_move h hne) (holes_move h hh) ho'
    rw [logTermsOf_move h hr hh hoK] at hg'
    simp only [Except.map, py_ok_bind, h.numHoles, hg, hg']
    by_cases hn : 0 < K.numHoles
    · simp only [if_pos hn, py_ok_bind]
      by_cases hp : precondType = "jacobi"
      · simp only [if_pos hp]
        have hd := diagonal_on h K'.getEdges (some (logTermsOf o))
        simp only [Option.map_some] at hd
        rw [hd]
        cases diagonal K (some (logTermsOf o)) with
        | error _ => rfl
        | ok D =>
          simp only [py_ok_bind, solveNeumann_on h hr gmres hoK, indicators_on h hr]
          by_cases hs : strategy = "direct" ∨ strategy = "fft"
          · simp only [if_pos hs]
            by_cases hf : 0 < K.numHoles ∧ strategy = "fft"
            · simp only [if_pos hf]
              cases indicators K (solveNeumann gmres o D) <;> rfl
            · simp only [if_neg hf]
              rfl
          · simp only [if_neg hs]
      · simp only [if_neg hp]
    · simp only [if_neg hn, py_ok_bind]
      by_cases hp : precondType = "jacobi"
      · simp only [if_pos hp]
        have hd := diagonal_on h K'.getEdges none
        simp only [Option.map_none] at hd
        rw [hd]
        cases diagonal K none with
        | error _ => rfl
        | ok D =>
          have hf : ¬(0 < K.numHoles ∧ strategy = "fft") := fun hf => hn hf.1
          simp only [py_ok_bind, if_neg hf]
          by_cases hs : strategy = "direct" ∨ strategy = "fft"
          · simp only [if_pos hs]
            rfl
          · simp only [if_neg hs]
      · simp only [if_neg hp]

end

end PFEM
