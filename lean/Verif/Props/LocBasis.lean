import Verif.Spec.LocSpace
import Verif.Props.PoissonInit
import Verif.Props.TraceInput
import Verif.Props.Augmented

/-!
Property theorems C79: the basis of a local Poisson space consists of the functions it is documented to consist of.
-/

namespace PFEM
open Nystrom Antilap Poly

namespace LocSpaceG

/-- the state of the trace while the functions on the edges are being set -/
structure Holding (K : CellG) (gs : List (ℝ → ℝ → ℝ)) (t : Trace) : Prop where
  good : t.Good
  edges : t.edges = K.getEdges
  len : gs.length = K.getEdges.length
  funcs : ∃ fs, t.funcs = some fs ∧ fs.map PyFn.run = gs.map .ok
  values : t.values = some (List.zipWith (fun e g => e.cols.map fun s => g s.x s.y) K.getEdges gs).flatten

theorem sampled_lens {es : List EdgeG} {gs : List (ℝ → ℝ → ℝ)} (h : gs.length = es.length) :
    ((List.zipWith (fun (e : EdgeG) g => e.cols.map fun s => g s.x s.y) es gs).flatten).length = (es.map fun e => e.cols.length).sum := by
  induction es generalizing gs with
  | nil => simp
  | cons e es ih =>
    cases gs with
    | nil => cases h
    | cons g gs => simp [ih (by simpa using h)]

theorem zeroTrace_ok {x : Ctx} (h : x.K.Ready) :
    ∃ t, zeroTrace x = .ok t ∧ Holding x.K (List.replicate x.K.getEdges.length fun _ _ => 0) t := by
  have hb := Trace.good_bare (getEdges_sampled h)
  have he : (Trace.bare x.K.getEdges).edges = x.K.getEdges := Trace.edges_bare _
  have hn : (Trace.bare x.K.getEdges).numEdges = x.K.getEdges.length := by rw [hb.numEdges, he]
  have hc := Trace.C46_functions hb (List.replicate x.K.getEdges.length (.call 2 fun _ _ => 0))
    (List.replicate x.K.getEdges.length fun _ _ => 0) (by simp [PyFn.run]) (by simp [he])
  have h1 : (Trace.bare x.K.getEdges).setFuncs (.one (.call 2 fun _ _ => 0)) =
      (Trace.bare x.K.getEdges).setFuncs (.list (List.replicate x.K.getEdges.length (.call 2 fun _ _ => 0))) := by
    simp only [Trace.setFuncs, PyFn.isR2R, hn]
    simp
  refine ⟨((Trace.bare x.K.getEdges).setFuncs (.list (List.replicate x.K.getEdges.length (.call 2 fun _ _ => 0)))).1, ?_, ?_⟩
  · simp only [zeroTrace, Trace.init, Bool.false_eq_true, if_false, h1, hc, Except.map]
  · rw [hc]
    refine ⟨?_, he, by simp, ⟨_, rfl, by simp [PyFn.run]⟩, by rw [he]⟩
    refine Trace.good_of ⟨hb.sampled, hb.numEdges, hb.numPts, hb.idx⟩ ?_ hb.wnd hb.wtd
    intro a ha
    cases ha
    rw [sampled_lens (by simp [he])]
    rfl

theorem setPoly_ok {K : CellG} {gs : List (ℝ → ℝ → ℝ)} {t : Trace} (h : Holding K gs t) {j : ℕ} (hj : j < K.getEdges.length) (p : Poly ℝ) :
    ∃ u, Trace.after (t.setPolyOnEdge (j : ℤ) (.poly p.eval)) = .ok u ∧ Holding K (gs.set j p.eval) u := by
  obtain ⟨fs, hf, hfs⟩ := h.funcs
  have hc := (Trace.C62_polys_partial h.good hf hfs (by rw [h.edges, h.len]) j (by rw [h.edges]; exact hj) p.eval
    (List.replicate t.edges.length fun _ _ => 0) (by simp)).1
  refine ⟨_, by rw [Trace.after, hc]; rfl, ?_⟩
  refine ⟨?_, h.edges, by simp [h.len], ⟨_, rfl, ?_⟩, by rw [h.edges]⟩
  · refine Trace.good_of ⟨h.good.sampled, h.good.numEdges, h.good.numPts, h.good.idx⟩ ?_ h.good.wnd h.good.wtd
    intro a ha
    cases ha
    rw [sampled_lens (by simp [h.edges, h.len])]
    rfl
  · rw [List.map_set, List.map_set, hfs]
    rfl

theorem setPoly_out {K : CellG} {gs : List (ℝ → ℝ → ℝ)} {t : Trace} (h : Holding K gs t) {j : ℕ} (hj : ¬ j < K.getEdges.length) (p : Poly ℝ) :
    Trace.after (t.setPolyOnEdge (j : ℤ) (.poly p.eval)) = .error .valueError := by
  have : (j : ℤ) < 0 ∨ (j : ℤ) ≥ (t.numEdges : ℤ) := by rw [h.good.numEdges, h.edges]; omega
  simp only [Trace.after, Trace.setPolyOnEdge, if_pos this, Except.map]

theorem vertOn_refines (st : EdgeStore ℝ) (v : ℤ) (b : EdgeSpace ℝ) {K : CellG} {j : ℕ} (hj : j < K.getEdges.length) :
    ∀ (ps : List (Poly ℝ)) (k : ℕ) (cur : Option (Poly ℝ)) (gs : List (ℝ → ℝ → ℝ)) (t u : Trace), Holding K gs t → gs[j]? = some (polyOr0 cur) →
      vertOn st v b j k t ps = .ok u → ∃ r, LocSpace.vertTraceOn st v b k cur ps = .ok r ∧ Holding K (gs.set j (polyOr0 r)) u
  | [], k, cur, gs, t, u, ht, hg, h => by
    cases h
    refine ⟨cur, rfl, ?_⟩
    obtain ⟨hl, he⟩ := List.getElem?_eq_some_iff.1 hg
    rw [← he, List.set_getElem_self]
    exact ht
  | p :: ps, k, cur, gs, t, u, ht, hg, h => by
    have hjl : j < gs.length := by rw [ht.len]; exact hj
    unfold vertOn at h
    unfold LocSpace.vertTraceOn
    split at h
    · cases h
    · rename_i key hk
      simp only [hk]
      split_ifs at h ⊢ with hv
      · obtain ⟨w, hw, hH⟩ := setPoly_ok ht hj p
        rw [hw, py_ok_bind] at h
        obtain ⟨r, hr, hu⟩ := vertOn_refines st v b hj ps (k + 1) (some p) _ w u hH (by simp [hjl, polyOr0]) h
        refine ⟨r, hr, ?_⟩
        simpa using hu
      · exact vertOn_refines st v b hj ps (k + 1) cur gs t u ht hg h

theorem vertTrace_refines (st : EdgeStore ℝ) (v : ℤ) {K : CellG} :
    ∀ (bs : List (EdgeSpace ℝ)) (gs0 : List (ℝ → ℝ → ℝ)) (t u : Trace), gs0.length + bs.length = K.getEdges.length →
      Holding K (gs0 ++ List.replicate bs.length fun _ _ => 0) t → vertTrace st v gs0.length t bs = .ok u →
      ∃ r, LocSpace.vertTraces st v bs = .ok r ∧ r.length = bs.length ∧ Holding K (gs0 ++ r.map polyOr0) u
  | [], gs0, t, u, _, ht, h => by
    cases h
    exact ⟨[], rfl, rfl, ht⟩
  | b :: bs, gs0, t, u, hl, ht, h => by
    unfold vertTrace at h
    obtain ⟨w, hw, h⟩ := bind_ok h
    have hj : gs0.length < K.getEdges.length := by rw [← hl]; simp
    obtain ⟨r, hr, hH⟩ := vertOn_refines st v b hj b.vertTraces 0 none _ t w ht (by simp [polyOr0]) hw
    have e : (gs0 ++ List.replicate (b :: bs).length fun _ _ => (0 : ℝ)).set gs0.length (polyOr0 r) =
        (gs0 ++ [polyOr0 r]) ++ List.replicate bs.length fun _ _ => 0 := by
      simp [List.replicate_succ]
    rw [e] at hH
    obtain ⟨rs, hrs, hlen, hu⟩ := vertTrace_refines st v bs (gs0 ++ [polyOr0 r]) w u (by simp at hl ⊢; omega) hH (by simpa using h)
    refine ⟨r :: rs, ?_, by simp [hlen], by simpa using hu⟩
    unfold LocSpace.vertTraces
    rw [hr, py_ok_bind, hrs, py_ok_bind]

theorem bare_sum (es : List EdgeG) : (Trace.bare es).sizes.sum = (es.map fun e => e.cols.length).sum := by
  rw [Trace.sizes, Trace.edges_bare]

theorem edgewise_eq (K : CellG) (ts : List (Option (Poly ℝ))) :
    (List.zipWith (fun e g => e.cols.map fun s => g s.x s.y) K.getEdges (ts.map polyOr0)).flatten = K.edgewise ts := by
  rw [CellG.edgewise, List.zipWith_map_right]

theorem build_cell {K : CellG} {o : Ops} (h : Nystrom.build K = .ok o) : o.K = K := by
  unfold Nystrom.build at h
  obtain ⟨S, -, h⟩ := bind_ok h
  obtain ⟨D, -, h⟩ := bind_ok h
  cases h
  rfl

theorem alP_nil : alP ([] : Poly ℝ) = [] := rfl

/-- a harmonic function made from a trace -/
theorem harmonic_stands {x : Ctx} (h : x.K.Ready) {ts : List (Option (Poly ℝ))} {t : Trace} (ht : Holding x.K (ts.map polyOr0) t) {f : LocPoisson}
    (hf : LocPoisson.init x.gmres (some x.nyst) [] (.trace t) x.evalInt x.evalGrad = .ok f) (key : GlobalKey) :
    Fn.Stands x.K x.centroid x.area ⟨key, ts, none⟩ ⟨key, f⟩ := by
  have hv : (LocPoisson.TraceOr.trace t).Gives x.K (x.K.edgewise ts) := by
    refine ⟨by rw [ht.values, edgewise_eq], ?_⟩
    rw [← edgewise_eq, sampled_lens ht.len, ← bare_sum, getEdges_sizes h]
  obtain ⟨r, -, hc, hp, -⟩ := poissonInit_parts h rfl hv hf
  exact ⟨rfl, hc, C75_trace h hv hf, by simpa using ht.len, fun _ => ⟨_, hp, alP_nil⟩, nofun⟩

theorem edgewise_zero {K : CellG} (h : K.Ready) : K.edgewise (List.replicate K.getEdges.length none) = List.replicate K.numPts 0 := by
  rw [← getEdges_sizes h, CellG.edgewise, bare_sum]
  have : ∀ es : List EdgeG, (List.zipWith (fun e t => e.cols.map fun s => polyOr0 t s.x s.y) es (List.replicate es.length none)).flatten =
      List.replicate (es.map fun e => e.cols.length).sum (0 : ℝ) := by
    intro es
    induction es with
    | nil => rfl
    | cons e es ih =>
      simp only [List.length_cons, List.replicate_succ, List.zipWith_cons_cons, List.flatten_cons, ih, List.map_cons, List.sum_cons,
        List.replicate_add]
      simp only [polyOr0, List.map_const']
  exact this _

theorem bubb_stands {x : Ctx} (h : x.K.Ready) {k : ℕ} {f : Fn} (hf : bubbFun x k = .ok f) :
    Fn.Stands x.K x.centroid x.area ⟨.ofBubb (k : ℤ), List.replicate x.K.getEdges.length none, some k⟩ f := by
  unfold bubbFun at hf
  obtain ⟨m, hm, hf⟩ := bind_ok hf
  obtain ⟨v, hv, hf⟩ := bind_ok hf
  cases hf
  have hg : (LocPoisson.TraceOr.value (.num 0)).Gives x.K (List.replicate x.K.numPts 0) := rfl
  obtain ⟨r, -, hc, hp, -⟩ := poissonInit_parts h rfl hg hv
  refine ⟨rfl, hc, ?_, by simp, nofun, ?_⟩
  · rw [edgewise_zero h]
    exact C75_trace h hg hv
  · intro k' hk
    cases hk
    exact ⟨_, m, hp, hm, antiLaplacian_ok m⟩

theorem mapPy_forall {α β γ : Type} {f : α → Py β} {g : α → γ} {R : γ → β → Prop} (hR : ∀ a b, f a = .ok b → R (g a) b) :
    ∀ {l : List α} {r : List β}, ContourG.mapPy f l = .ok r → List.Forall₂ R (l.map g) r
  | [], r, h => by cases h; exact .nil
  | a :: l, r, h => by
    unfold ContourG.mapPy at h
    obtain ⟨b, hb, h⟩ := bind_ok h
    obtain ⟨bs, hbs, h⟩ := bind_ok h
    cases h
    exact .cons (hR a b hb) (mapPy_forall hR hbs)

theorem bubbs_stand {x : Ctx} (h : x.K.Ready) {deg : ℕ} {fs : List Fn} (hf : bubbFuns x deg = .ok fs) :
    List.Forall₂ (Fn.Stands x.K x.centroid x.area) (LocSpace.bubbFuns deg x.K.getEdges.length) fs := by
  unfold bubbFuns at hf
  unfold LocSpace.bubbFuns
  split_ifs at hf ⊢ with hd
  · cases hf; exact .nil
  · exact mapPy_forall (fun k f hk => bubb_stands h hk) hf

theorem verts_stand {x : Ctx} (h : x.K.Ready) (st : EdgeStore ℝ) {bs : List (EdgeSpace ℝ)} (hb : bs.length = x.K.getEdges.length) :
    ∀ {vs : List ℤ} {fs : List Fn}, ContourG.mapPy (vertFun x st bs) vs = .ok fs →
      ∃ ls, LocSpace.vertFunLoop st bs vs = .ok ls ∧ List.Forall₂ (Fn.Stands x.K x.centroid x.area) ls fs
  | [], fs, hf => by cases hf; exact ⟨[], rfl, .nil⟩
  | v :: vs, fs, hf => by
    unfold ContourG.mapPy at hf
    obtain ⟨f, hv, hf⟩ := bind_ok hf
    obtain ⟨rest, hrest, hf⟩ := bind_ok hf
    cases hf
    obtain ⟨ls, hls, hst⟩ := verts_stand h st hb hrest
    unfold vertFun at hv
    obtain ⟨t0, ht0, hH0⟩ := zeroTrace_ok h
    rw [ht0, py_ok_bind] at hv
    obtain ⟨t, ht, hv⟩ := bind_ok hv
    obtain ⟨g, hg, hv⟩ := bind_ok hv
    cases hv
    obtain ⟨ts, hts, -, hH⟩ := vertTrace_refines st v bs [] t0 t (by simpa using hb) (by simpa [hb] using hH0) ht
    refine ⟨⟨.ofVert v, ts, none⟩ :: ls, ?_, .cons (harmonic_stands h (by simpa using hH) hg _) hst⟩
    unfold LocSpace.vertFunLoop
    rw [hts, py_ok_bind, hls, py_ok_bind]

theorem edgeFun_stands {x : Ctx} (h : x.K.Ready) {pos : ℕ} {key : GlobalKey} {p : Poly ℝ} {f : Fn} (hf : edgeFun x pos key p = .ok f) :
    Fn.Stands x.K x.centroid x.area ⟨key, (List.replicate x.K.getEdges.length none).set pos (some p), none⟩ f := by
  unfold edgeFun at hf
  obtain ⟨t0, ht0, hH0⟩ := zeroTrace_ok h
  rw [ht0, py_ok_bind] at hf
  by_cases hp : pos < x.K.getEdges.length
  · obtain ⟨u, hu, hH⟩ := setPoly_ok hH0 hp p
    rw [hu, py_ok_bind] at hf
    obtain ⟨g, hg, hf⟩ := bind_ok hf
    cases hf
    refine harmonic_stands h ?_ hg key
    rw [List.map_set, List.map_replicate]
    exact hH
  · rw [setPoly_out hH0 hp, py_error_bind] at hf
    cases hf

theorem edgeOn_stand {x : Ctx} (h : x.K.Ready) (pos : ℕ) : ∀ {l : List (GlobalKey × Poly ℝ)} {fs : List Fn}, edgeOn x pos l = .ok fs →
    List.Forall₂ (Fn.Stands x.K x.centroid x.area)
      (l.map fun a => ⟨a.1, (List.replicate x.K.getEdges.length none).set pos (some a.2), none⟩) fs
  | [], fs, hf => by cases hf; exact .nil
  | (key, p) :: l, fs, hf => by
    unfold edgeOn at hf
    obtain ⟨f, h1, hf⟩ := bind_ok hf
    obtain ⟨rest, h2, hf⟩ := bind_ok hf
    cases hf
    exact .cons (edgeFun_stands h h1) (edgeOn_stand h pos h2)

theorem edges_stand {x : Ctx} (h : x.K.Ready) (st : EdgeStore ℝ) {edges : List ℕ} (he : edges.length = x.K.getEdges.length) :
    ∀ {bs : List (EdgeSpace ℝ)} {fs : List Fn}, edgeFuns x st edges bs = .ok fs →
      ∃ ls, LocSpace.edgeFuns st edges bs = .ok ls ∧ List.Forall₂ (Fn.Stands x.K x.centroid x.area) ls fs
  | [], fs, hf => by cases hf; exact ⟨[], rfl, .nil⟩
  | b :: bs, fs, hf => by
    unfold edgeFuns at hf
    obtain ⟨pos, hpos, hf⟩ := bind_ok hf
    obtain ⟨f1, h1, hf⟩ := bind_ok hf
    obtain ⟨f2, h2, hf⟩ := bind_ok hf
    cases hf
    obtain ⟨ls, hls, hst⟩ := edges_stand h st he h2
    have h3 := edgeOn_stand h pos h1
    refine ⟨_, ?_, List.rel_append h3 hst⟩
    unfold LocSpace.edgeFuns
    rw [hpos, py_ok_bind, hls, py_ok_bind, he]
    simp only [List.zip, List.map_zipWith]

end LocSpaceG

open LocSpaceG

/-- C79: the basis consists of exactly the functions of the abstract basis, in the same order: same keys, boundary values sampled from the trace
polynomials of the edge spaces, Laplacian zero or the centred monomial of the right number.  Whatever GMRES returns. -/
theorem C79_refines {gmres : Gmres} {K : CellG} (h : K.Ready) {ord : List ℤ → List ℤ} {st : EdgeStore ℝ} {edges : List ℕ}
    {bs : List (EdgeSpace ℝ)} {deg : ℤ} {ei eg : Bool} (he : edges.length = K.getEdges.length) (hb : bs.length = K.getEdges.length)
    {fs : List Fn} (hf : LocSpaceG.basis gmres K ord st edges bs deg ei eg = .ok fs) :
    ∃ c a ls, centroid K = .ok c ∧ area K = .ok a ∧ LocSpace.basis ord st edges bs deg.toNat = .ok ls ∧
      List.Forall₂ (Fn.Stands K c a) ls fs := by
  unfold LocSpaceG.basis at hf
  split_ifs at hf with hd
  obtain ⟨c, hc, hf⟩ := bind_ok hf
  obtain ⟨a, ha, hf⟩ := bind_ok hf
  obtain ⟨s, hs, hf'⟩ := bind_ok hf
  have hK := build_cell (init_parts hs).1
  subst hK
  obtain ⟨f1, h1, hf⟩ := bind_ok hf'
  obtain ⟨f2, h2, hf⟩ := bind_ok hf
  obtain ⟨f3, h3, hf⟩ := bind_ok hf
  cases hf
  have r1 := bubbs_stand (x := ⟨gmres, s, c, a, ei, eg⟩) h h1
  obtain ⟨l2, hl2, r2⟩ := verts_stand (x := ⟨gmres, s, c, a, ei, eg⟩) h st hb h2
  obtain ⟨l3, hl3, r3⟩ := edges_stand (x := ⟨gmres, s, c, a, ei, eg⟩) h st he h3
  refine ⟨c, a, _, hc, ha, ?_, List.rel_append (List.rel_append r2 r3) r1⟩
  unfold LocSpace.basis LocSpace.vertFuns
  rw [if_neg (by omega), hl2, py_ok_bind, hl3, py_ok_bind, he]
  rfl

end PFEM
