import Verif.Lemmas.NystromSolve
import Verif.Lemmas.Py
import Verif.Spec.Motion

/-!
Lemmas about sampled cells that are turned, scaled and shifted.
-/

namespace PFEM
open Nystrom
open ContourG (mapPy npts)

/-! ### lists of related objects -/

theorem get_rel {α β : Type} {R : α → β → Prop} {l : List α} {l' : List β} (h : List.Forall₂ R l l') (i : ℕ) :
    (Np.get l i = .error .indexError ∧ Np.get l' i = .error .indexError) ∨
      ∃ a a', Np.get l i = .ok a ∧ Np.get l' i = .ok a' ∧ R a a' := by
  induction h generalizing i with
  | nil => exact .inl ⟨rfl, rfl⟩
  | cons hab _ ih =>
    cases i with
    | zero => exact .inr ⟨_, _, rfl, rfl, hab⟩
    | succ i => exact ih i

theorem get_map {α β : Type} (f : α → β) (l : List α) (i : ℕ) : Np.get (l.map f) i = (Np.get l i).map f := by
  unfold Np.get
  rw [List.getElem?_map]
  cases l[i]? <;> rfl

theorem blockLoop_rel {α α' β : Type} {R : α → α' → Prop} {f : α → ℕ → ℕ → Py (List β)} {f' : α' → ℕ → ℕ → Py (List β)} {l : List α}
    {l' : List α'} (h : List.Forall₂ R l l') (hf : ∀ a a' j j', R a a' → f' a' j j' = f a j j') (idx : List ℕ) (i : ℕ) (acc : List β) :
    Np.blockLoop f' idx i acc l' = Np.blockLoop f idx i acc l := by
  induction h generalizing i acc with
  | nil => rfl
  | cons hab _ ih => simp only [Np.blockLoop, hf _ _ _ _ hab, ih]

theorem all_rel {α α' : Type} {R : α → α' → Prop} {p : α → Bool} {p' : α' → Bool} {l : List α} {l' : List α'} (h : List.Forall₂ R l l')
    (hp : ∀ a a', R a a' → p' a' = p a) : l'.all p' = l.all p := by
  induction h with
  | nil => rfl
  | cons hab _ ih => rw [List.all_cons, List.all_cons, hp _ _ hab, ih]

theorem foldlM_congr {α β : Type} {f g : β → α → Py β} {l : List α} (h : ∀ b, ∀ a ∈ l, f b a = g b a) (b : β) :
    l.foldlM f b = l.foldlM g b := by
  induction l generalizing b with
  | nil => rfl
  | cons a l ih =>
    rw [List.foldlM_cons, List.foldlM_cons, h b a (by simp)]
    congr 1
    funext c
    exact ih (fun b a ha => h b a (by simp [ha])) c

theorem forall₂_mem_right {α β : Type} {R : α → β → Prop} {l : List α} {l' : List β} (h : List.Forall₂ R l l') {b : β} (hb : b ∈ l') :
    ∃ a ∈ l, R a b := by
  induction h with
  | nil => cases hb
  | cons hab _ ih =>
    rcases List.mem_cons.1 hb with rfl | hb
    · exact ⟨_, by simp, hab⟩
    · obtain ⟨a, ha, h⟩ := ih hb
      exact ⟨a, by simp [ha], h⟩

/-! ### edges -/

namespace EdgeG.MovedBy
variable {m : Motion} {e e' : EdgeG} (h : e.MovedBy m e')
include h

theorem npts : ContourG.npts e' = ContourG.npts e := by
  unfold ContourG.npts
  rw [h.pts]
  cases e.pts <;> simp

theorem isSome : e'.pts.isSome = e.pts.isSome := by rw [h.pts]; cases e.pts <;> rfl

theorem cols : e'.cols = e.cols.map m.sample := by
  unfold EdgeG.cols
  rw [h.pts]
  cases e.pts <;> simp [List.map_dropLast]

theorem sampled : e'.sampled = e.sampled.map (List.map m.sample) := by
  unfold EdgeG.sampled
  rw [h.pts]
  cases e.pts <;> rfl

theorem jStart : Nystrom.jStart e' = Nystrom.jStart e := by unfold Nystrom.jStart; rw [h.quadType]

theorem edgeNumPts : Trace.edgeNumPts e' = Trace.edgeNumPts e := by
  unfold Trace.edgeNumPts
  rw [h.pts]
  cases e.pts <;> simp

end EdgeG.MovedBy

/-! ### blocks -/

theorem move_dist2 (m : Motion) (s t : Sample) : dist2 (m.sample s) (m.sample t) = m.r ^ 2 * dist2 s t := by
  simp only [dist2, Motion.sample]
  linear_combination (m.r ^ 2 * ((s.x - t.x) * (s.x - t.x) + (s.y - t.y) * (s.y - t.y))) * m.rot

theorem move_normal (m : Motion) (s t : Sample) :
    ((m.sample s).x - (m.sample t).x) * (m.sample t).nx + ((m.sample s).y - (m.sample t).y) * (m.sample t).ny =
      m.r * ((s.x - t.x) * t.nx + (s.y - t.y) * t.ny) := by
  simp only [Motion.sample]
  linear_combination (m.r * ((s.x - t.x) * t.nx + (s.y - t.y) * t.ny)) * m.rot

theorem singleSame_move {m : Motion} (hr : m.r = 1) (n j0 : ℕ) (h : ℝ) (l : List Sample) (wgt sn : List ℝ) :
    singleSame n j0 h (l.map m.sample) wgt sn = singleSame n j0 h l wgt sn := by
  unfold singleSame
  refine foldlM_congr (fun B p _ => ?_) _
  have hd : ∀ s : Sample, (m.sample s).dxNorm = s.dxNorm := fun s => by simp [Motion.sample, hr]
  unfold singleSameStep
  simp only [get_map]
  congr 1
  funext a
  cases h1 : Np.get l p.1 with
  | error e => rfl
  | ok s =>
    cases h2 : Np.get l p.2 with
    | error e => rfl
    | ok t => simp only [Except.map, py_ok_bind, hd, move_dist2, hr, one_pow, one_mul]

theorem singleDistinct_move {m : Motion} (hr : m.r = 1) (ne nf : ℕ) (h : ℝ) (le lf : List Sample) (j0 : ℕ) :
    singleDistinct ne nf h (le.map m.sample) (lf.map m.sample) j0 = singleDistinct ne nf h le lf j0 := by
  unfold singleDistinct
  refine foldlM_congr (fun B p _ => ?_) _
  unfold singleDistinctStep
  simp only [get_map]
  cases h1 : Np.get le p.1 with
  | error e => rfl
  | ok s =>
    cases h2 : Np.get lf p.2 with
    | error e => rfl
    | ok t => simp only [Except.map, py_ok_bind, move_dist2, hr, one_pow, one_mul]

theorem doubleSame_move {m : Motion} (n : ℕ) (h : ℝ) (l : List Sample) (j0 : ℕ)
    (hthr : ∀ s ∈ l, ∀ t ∈ l, m.r ^ 2 * dist2 s t < 1 / 10 ^ 12 ↔ dist2 s t < 1 / 10 ^ 12) :
    doubleSame n h (l.map m.sample) j0 = doubleSame n h l j0 := by
  unfold doubleSame
  refine foldlM_congr (fun B p _ => ?_) _
  unfold doubleSameStep
  simp only [get_map]
  have hr := m.pos.ne'
  have mem : ∀ {i : ℕ} {s : Sample}, Np.get l i = .ok s → s ∈ l := by
    intro i s hs
    unfold Np.get at hs
    split at hs
    · cases hs
      exact List.mem_of_getElem? ‹_›
    · cases hs
  cases h1 : Np.get l p.1 with
  | error e => rfl
  | ok s =>
    cases h2 : Np.get l p.2 with
    | error e => rfl
    | ok t =>
      simp only [Except.map, py_ok_bind, move_dist2, move_normal, hthr s (mem h1) t (mem h2)]
      have hc : (m.sample t).curv = t.curv / m.r := rfl
      have hd : (m.sample t).dxNorm = m.r * t.dxNorm := rfl
      rw [hc, hd]
      by_cases hx : dist2 s t < 1 / 10 ^ 12
      · simp only [if_pos hx, Mat.set, Mat.get]
        by_cases hb : p.1 < B.rows ∧ p.2 < B.cols
        · simp only [if_pos hb, py_ok_bind, Except.ok.injEq, Mat.mk.injEq, true_and]
          funext a b
          by_cases hab : a = p.1 ∧ b = p.2
          · simp only [if_pos hab, if_true]
            field_simp
          · simp only [if_neg hab]
        · simp only [if_neg hb, py_error_bind]
      · simp only [if_neg hx, Mat.set, Mat.get]
        have h0 : dist2 s t ≠ 0 := by
          intro h0
          rw [h0] at hx
          norm_num at hx
        by_cases hb : p.1 < B.rows ∧ p.2 < B.cols
        · simp only [if_pos hb, py_ok_bind, Except.ok.injEq, Mat.mk.injEq, true_and]
          funext a b
          by_cases hab : a = p.1 ∧ b = p.2
          · simp only [if_pos hab, if_true]
            generalize dist2 s t = d at *
            field_simp
          · simp only [if_neg hab]
        · simp only [if_neg hb, py_error_bind]

theorem doubleDistinct_move {m : Motion} (ne nf : ℕ) (h : ℝ) (le lf : List Sample) (j0 : ℕ) :
    doubleDistinct ne nf h (le.map m.sample) (lf.map m.sample) j0 = doubleDistinct ne nf h le lf j0 := by
  unfold doubleDistinct
  refine foldlM_congr (fun B p _ => ?_) _
  unfold doubleDistinctStep
  simp only [get_map]
  have hr := m.pos.ne'
  cases h1 : Np.get le p.1 with
  | error e => rfl
  | ok s =>
    cases h2 : Np.get lf p.2 with
    | error e => rfl
    | ok t =>
      simp only [Except.map, py_ok_bind, move_dist2, move_normal]
      have hd : (m.sample t).dxNorm = m.r * t.dxNorm := rfl
      rw [hd]
      generalize dist2 s t = d
      by_cases h0 : d = 0
      · simp [h0]
      · have h1 : m.r ^ 2 * d ≠ 0 := by positivity
        rw [if_neg h0, if_neg h1]
        congr 1
        field_simp

/-! ### the matrices -/

theorem EdgeG.keeps_one (e : EdgeG) : e.Keeps 1 := fun L _ s _ t _ => by rw [one_pow, one_mul]

theorem EdgeG.Keeps.dist2 {r : ℝ} {e : EdgeG} (h : e.Keeps r) {L : List Sample} (hL : e.pts = some L) :
    ∀ s ∈ L, ∀ t ∈ L, r ^ 2 * dist2 s t < 1 / 10 ^ 12 ↔ dist2 s t < 1 / 10 ^ 12 := by
  intro s hs t ht
  have := h L hL s hs t ht
  rw [pow_two (s.x - t.x), pow_two (s.y - t.y)] at this
  exact this

theorem singleEdge_move {m : Motion} (hr : m.r = 1) (same : Bool) {e e' f f' : EdgeG} (he : e.MovedBy m e') (hf : f.MovedBy m f')
    (qm : Quad) : singleEdge same e' f' qm = singleEdge same e f qm := by
  unfold singleEdge
  rw [he.sampled, hf.sampled, he.npts, hf.npts, hf.jStart]
  cases e.sampled with
  | error _ => rfl
  | ok le =>
    cases f.sampled with
    | error _ => rfl
    | ok lf => simp only [Except.map, py_ok_bind, singleSame_move hr, singleDistinct_move hr]

theorem doubleEdge_move {m : Motion} (same : Bool) {e e' f f' : EdgeG} (he : e.MovedBy m e') (hf : f.MovedBy m f') (hk : e.Keeps m.r) :
    doubleEdge same e' f' = doubleEdge same e f := by
  unfold doubleEdge
  rw [he.sampled, hf.sampled, he.npts, hf.npts, hf.jStart]
  cases hp : e.pts with
  | none => simp [EdgeG.sampled, hp, Except.map, bind, Except.bind]
  | some le =>
    have hs : e.sampled = .ok le := by simp [EdgeG.sampled, hp]
    rw [hs]
    cases f.sampled with
    | error _ => rfl
    | ok lf => simp only [Except.map, py_ok_bind, doubleSame_move _ _ _ _ (hk.dist2 hp), doubleDistinct_move]

theorem edgeRow_move {m : Motion} {c c' : ContourG} (hc : c.MovedBy m c') (kk1 kk2 : ℕ) {b b' : ℕ → EdgeG → Py Mat}
    (hb : ∀ ell f f', f.MovedBy m f' → b' ell f' = b ell f) (B : Mat) : edgeRow c' kk1 kk2 b' B = edgeRow c kk1 kk2 b B := by
  unfold edgeRow
  rw [← hc.edges.length_eq, hc.vertIdx]
  refine foldlM_congr (fun B ell _ => ?_) B
  congr 1
  funext ll1
  congr 1
  funext ll2
  rcases get_rel hc.edges ell with ⟨h1, h2⟩ | ⟨f, f', h1, h2, hf⟩
  · rw [h1, h2]
    rfl
  · rw [h1, h2]
    simp only [py_ok_bind, hb ell f f' hf]

theorem singleComp_move {m : Motion} (hr : m.r = 1) (same : Bool) {c c' d d' : ContourG} (hc : c.MovedBy m c') (hd : d.MovedBy m d') :
    singleComp same c' d' = singleComp same c d := by
  unfold singleComp
  rw [← hc.edges.length_eq, hc.vertIdx, hc.numPts, hd.numPts]
  refine foldlM_congr (fun B k _ => ?_) _
  congr 1
  funext kk1
  congr 1
  funext kk2
  rcases get_rel hc.edges k with ⟨h1, h2⟩ | ⟨e, e', h1, h2, he⟩
  · rw [h1, h2]
    rfl
  · rw [h1, h2]
    simp only [py_ok_bind, he.npts]
    congr 1
    funext qm
    refine edgeRow_move hd kk1 kk2 ?_ B
    intro ell f f' hf
    exact singleEdge_move hr (same && (k == ell)) he hf qm

theorem doubleComp_move {m : Motion} (same : Bool) {c c' d d' : ContourG} (hc : c.MovedBy m c') (hd : d.MovedBy m d')
    (hk : ∀ e ∈ c.edges, e.Keeps m.r) : doubleComp same c' d' = doubleComp same c d := by
  unfold doubleComp
  rw [← hc.edges.length_eq, hc.vertIdx, hc.numPts, hd.numPts]
  refine foldlM_congr (fun B k _ => ?_) _
  congr 1
  funext kk1
  congr 1
  funext kk2
  rcases get_rel hc.edges k with ⟨h1, h2⟩ | ⟨e, e', h1, h2, he⟩
  · rw [h1, h2]
    rfl
  · rw [h1, h2]
    simp only [py_ok_bind]
    have hm : e ∈ c.edges := by
      unfold Np.get at h1
      split at h1
      · cases h1
        exact List.mem_of_getElem? ‹_›
      · cases h1
    refine edgeRow_move hd kk1 kk2 ?_ B
    intro ell f f' hf
    exact doubleEdge_move (same && (k == ell)) he hf (hk e hm)

theorem buildMat_move {m : Motion} {K K' : CellG} (h : K.MovedBy m K') {b : Bool → ContourG → ContourG → Py Mat}
    (hb : ∀ same, ∀ c ∈ K.components, ∀ c' d d', c.MovedBy m c' → d.MovedBy m d' → b same c' d' = b same c d) :
    buildMat K' b = buildMat K b := by
  unfold buildMat
  rw [← h.components.length_eq, h.startIdx, h.numPts]
  refine foldlM_congr (fun M i _ => ?_) _
  congr 1
  funext ii1
  congr 1
  funext ii2
  refine foldlM_congr (fun M j _ => ?_) M
  congr 1
  funext jj1
  congr 1
  funext jj2
  rcases get_rel h.components i with ⟨h1, h2⟩ | ⟨c, c', h1, h2, hc⟩
  · rw [h1, h2]
    rfl
  · rw [h1, h2]
    have hm : c ∈ K.components := by
      unfold Np.get at h1
      split at h1
      · cases h1
        exact List.mem_of_getElem? ‹_›
      · cases h1
    rcases get_rel h.components j with ⟨h3, h4⟩ | ⟨d, d', h3, h4, hd⟩
    · rw [h3, h4]
      rfl
    · rw [h3, h4]
      simp only [py_ok_bind, hb _ c hm c' d d' hc hd]

/-! ### cells -/

namespace ContourG.MovedBy
variable {m : Motion} {c c' : ContourG} (h : c.MovedBy m c')
include h

theorem isParameterized : c'.isParameterized = c.isParameterized := all_rel h.edges fun _ _ he => he.isSome

theorem guard : c'.guard = c.guard := by unfold ContourG.guard; rw [h.isParameterized]

theorem cols : c'.cols = c.cols.map m.sample := by
  unfold ContourG.cols
  have := h.edges
  generalize c.edges = l at *
  generalize c'.edges = l' at *
  induction this with
  | nil => rfl
  | cons he _ ih => rw [List.flatMap_cons, List.flatMap_cons, he.cols, ih, List.map_append]

theorem multiplyByDxNorm (hr : m.r = 1) (v : List ℝ) : c'.multiplyByDxNorm v = c.multiplyByDxNorm v := by
  unfold ContourG.multiplyByDxNorm
  rw [h.guard, h.numPts, h.vertIdx]
  congr 1
  funext _
  split
  · rfl
  · refine blockLoop_rel h.edges (fun e e' j j' he => ?_) _ _ _
    unfold EdgeG.multiplyByDxNorm
    rw [he.sampled]
    cases e.sampled with
    | error _ => rfl
    | ok l =>
      have : (fun s => (m.sample s).dxNorm) = Sample.dxNorm := by
        funext s
        simp [Motion.sample, hr]
      simp only [Except.map, py_ok_bind, List.length_map, List.map_map, Function.comp_def, this]

theorem integratePreweighted (w : List ℝ) : c'.integratePreweighted w = c.integratePreweighted w := by
  unfold ContourG.integratePreweighted
  rw [h.guard, h.numPts, h.vertIdx]
  congr 1
  funext _
  split
  · rfl
  · congr 1
    refine blockLoop_rel h.edges (fun e e' j j' he => ?_) _ _ _
    rw [he.npts]

theorem integrate (hr : m.r = 1) (v : List ℝ) : c'.integrate v = c.integrate v := by
  unfold ContourG.integrate
  simp only [h.guard, h.multiplyByDxNorm hr, h.integratePreweighted]

theorem ready (hc : c.Ready) : c'.Ready := by
  refine ⟨?_, ?_, ?_⟩
  · intro e' he'
    obtain ⟨e, he, hm⟩ := forall₂_mem_right h.edges he'
    obtain ⟨L, hL, h2⟩ := hc.sampled e he
    exact ⟨L.map m.sample, by rw [hm.pts, hL]; rfl, by simpa using h2⟩
  · rw [h.numPts, hc.numPts, h.cols, List.length_map]
  · rw [h.vertIdx, hc.vertIdx, h.edges.length_eq]
    congr 2
    have := h.edges
    generalize c.edges = l at *
    generalize c'.edges = l' at *
    clear hc h
    induction this with
    | nil => rfl
    | cons he _ ih => rw [List.map_cons, List.map_cons, he.cols, List.length_map, ih]

end ContourG.MovedBy

namespace CellG.MovedBy
variable {m : Motion} {K K' : CellG} (h : K.MovedBy m K')
include h

theorem isParameterized : K'.isParameterized = K.isParameterized := all_rel h.components fun _ _ hc => hc.isParameterized

theorem guard : K'.guard = K.guard := by unfold CellG.guard; rw [h.isParameterized]

theorem numHoles : K'.numHoles = K.numHoles := by unfold CellG.numHoles; rw [h.components.length_eq]

theorem cols : K'.cols = K.cols.map m.sample := by
  unfold CellG.cols
  have := h.components
  generalize K.components = l at *
  generalize K'.components = l' at *
  induction this with
  | nil => rfl
  | cons hc _ ih => rw [List.flatMap_cons, List.flatMap_cons, hc.cols, ih, List.map_append]

theorem multiplyByDxNorm (hr : m.r = 1) (v : List ℝ) : K'.multiplyByDxNorm v = K.multiplyByDxNorm v := by
  unfold CellG.multiplyByDxNorm
  rw [h.guard, h.numPts, h.startIdx]
  congr 1
  funext _
  split
  · rfl
  · refine blockLoop_rel h.components (fun c c' j j' hc => ?_) _ _ _
    exact hc.multiplyByDxNorm hr _

theorem integratePreweighted (w : List ℝ) : K'.integratePreweighted w = K.integratePreweighted w := by
  unfold CellG.integratePreweighted
  rw [h.guard, h.numPts, h.startIdx]
  congr 1
  funext _
  split
  · rfl
  · congr 1
    refine blockLoop_rel h.components (fun c c' j j' hc => ?_) _ _ _
    rw [hc.numPts, hc.edges.length_eq]

theorem integrate (hr : m.r = 1) (v : List ℝ) : K'.integrate v = K.integrate v := by
  unfold CellG.integrate
  simp only [h.guard, h.multiplyByDxNorm hr, h.integratePreweighted]

theorem wtdFromTrace (v : List ℝ) : PFEM.wtdFromTrace K' v = PFEM.wtdFromTrace K v := by
  unfold PFEM.wtdFromTrace
  rw [h.numPts, h.startIdx]
  refine blockLoop_rel h.components (fun c c' j j' hc => ?_) _ _ _
  rw [hc.edges.length_eq]

theorem ready (hK : K.Ready) : K'.Ready := by
  refine ⟨?_, ?_, ?_⟩
  · intro c' hc'
    obtain ⟨c, hc, hm⟩ := forall₂_mem_right h.components hc'
    exact hm.ready (hK.ready c hc)
  · rw [h.numPts, hK.numPts, h.cols, List.length_map]
  · rw [h.startIdx, hK.startIdx, h.components.length_eq]
    congr 2
    have := h.components
    generalize K.components = l at *
    generalize K'.components = l' at *
    clear hK h
    induction this with
    | nil => rfl
    | cons hc _ ih => rw [List.map_cons, List.map_cons, hc.numPts, ih]

theorem edges : List.Forall₂ (EdgeG.MovedBy m) K.getEdges K'.getEdges := by
  unfold CellG.getEdges
  have := h.components
  generalize K.components = l at *
  generalize K'.components = l' at *
  clear h
  induction this with
  | nil => exact .nil
  | cons hc _ ih =>
    rw [List.flatMap_cons, List.flatMap_cons]
    exact List.rel_append hc.edges ih

theorem single (hr : m.r = 1) : singleMat K' = singleMat K := buildMat_move h fun same _ _ _ _ _ hc hd => singleComp_move hr same hc hd

theorem double (hk : ∀ c ∈ K.components, ∀ e ∈ c.edges, e.Keeps m.r) : doubleMat K' = doubleMat K :=
  buildMat_move h fun same c hcm _ _ _ hc hd => doubleComp_move same hc hd (hk c hcm)

end CellG.MovedBy

end PFEM
