import Verif.Lemmas.EdgeGeom

/-!
How the transformations change the attributes of an edge other than the samples, and on what the samples depend.
-/

namespace PFEM
namespace EdgeG

/-- the samples after a call, or its exception -/
def ptsOf (r : Py EdgeG) : Py (Option (List Sample)) := r.map EdgeG.pts

theorem note_fields (w op) (e : EdgeG) : (note w op e).curve = e.curve ∧ (note w op e).opts = e.opts ∧
    (note w op e).quadType = e.quadType ∧ (note w op e).tBounds = e.tBounds ∧ (note w op e).anchor = e.anchor ∧
    (note w op e).endpnt = e.endpnt ∧ (note w op e).isLoop = e.isLoop ∧
    (note w op e).diary = if w then e.diary ++ [op] else e.diary := by
  unfold note; cases w <;> simp

/-- attributes that no transformation changes -/
structure SameBase (e e' : EdgeG) : Prop where
  curve : e'.curve = e.curve
  opts : e'.opts = e.opts
  quadType : e'.quadType = e.quadType
  tBounds : e'.tBounds = e.tBounds

theorem SameBase.refl (e : EdgeG) : SameBase e e := ⟨rfl, rfl, rfl, rfl⟩
theorem SameBase.trans {e f g : EdgeG} (h : SameBase e f) (k : SameBase f g) : SameBase e g :=
  ⟨k.1.trans h.1, k.2.trans h.2, k.3.trans h.3, k.4.trans h.4⟩
theorem SameBase.note (w op) (e : EdgeG) : SameBase e (note w op e) :=
  ⟨(note_fields w op e).1, (note_fields w op e).2.1, (note_fields w op e).2.2.1, (note_fields w op e).2.2.2.1⟩

theorem orthogonal_fields {e e' : EdgeG} {A w} (h : e.orthogonal A w = .ok e') :
    SameBase e e' ∧ e'.diary = (if w then e.diary ++ [.orthogonal A] else e.diary) ∧ e'.anchor = e.anchor ∧
      e'.endpnt = e.endpnt ∧ e'.pts.isSome = e.pts.isSome := by
  unfold orthogonal at h
  split at h
  · cases h
  · cases h
    cases w <;> exact ⟨⟨rfl, rfl, rfl, rfl⟩, rfl, rfl, rfl, by simp [mapPts, note]⟩

theorem dilate_fields {e e' : EdgeG} {al w} (h : e.dilate al w = .ok e') :
    SameBase e e' ∧ e'.diary = (if w then e.diary ++ [.dilate al] else e.diary) ∧ e'.anchor = e.anchor ∧
      e'.endpnt = e.endpnt ∧ e'.pts.isSome = e.pts.isSome := by
  unfold dilate at h
  split at h
  · cases h
  · cases h
    cases w <;> exact ⟨⟨rfl, rfl, rfl, rfl⟩, rfl, rfl, rfl, by simp [mapPts, note]⟩

theorem translate_fields (e : EdgeG) (a w) :
    SameBase e (e.translate a w) ∧
      (e.translate a w).diary = (if w then e.diary ++ [.translate a] else e.diary) ∧
      (e.translate a w).anchor = e.anchor ∧ (e.translate a w).endpnt = e.endpnt ∧
      (e.translate a w).pts.isSome = e.pts.isSome := by
  cases w <;> exact ⟨⟨rfl, rfl, rfl, rfl⟩, rfl, rfl, rfl, by simp [translate, mapPts, note]⟩

/-- the shared form of `rotate`, `reflectX`, `reflectY` -/
theorem orthIf_fields {e e' : EdgeG} {A w op}
    (h : (if (note w op e).pts.isSome then orthogonal (note w op e) A false else .ok (note w op e)) = .ok e') :
    SameBase e e' ∧ e'.diary = (if w then e.diary ++ [op] else e.diary) ∧ e'.anchor = e.anchor ∧
      e'.endpnt = e.endpnt ∧ e'.pts.isSome = e.pts.isSome := by
  obtain ⟨-, -, -, -, n5, n6, -, n8⟩ := note_fields w op e
  split at h
  · obtain ⟨h1, h2, h3, h4, h5⟩ := orthogonal_fields h
    refine ⟨(SameBase.note w op e).trans h1, ?_, h3.trans n5, h4.trans n6, by rw [h5, note_pts]⟩
    rw [h2]; simpa using n8
  · cases h
    exact ⟨SameBase.note w op e, n8, n5, n6, by rw [note_pts]⟩

theorem beq_far {a b : Vert} (h : ¬ Real.sqrt ((a.x - b.x) ^ 2 + (a.y - b.y) ^ 2) < TOL) : a.beq b = false := by
  have : tol ℝ = TOL := by unfold tol TOL; norm_num
  simp only [Vert.beq, Vert.sub, Vert.norm, Vert.mk', this]
  exact decide_eq_false h

theorem joinPoints_fields {e e' : EdgeG} {a b w} (h : e.joinPoints a b w = .ok e') :
    SameBase e e' ∧ e'.pts.isSome = e.pts.isSome ∧
    (e.pts.isSome = true → e'.diary = [.joinPoints a b] ∧ e'.anchor = a ∧ e'.endpnt = b) ∧
    (e.pts.isSome = false → e'.diary = (if w then e.diary ++ [.joinPoints a b] else e.diary)) := by
  unfold joinPoints at h
  dsimp only at h
  split at h
  · cases h
  rename_i hab
  obtain ⟨-, -, -, -, n5, n6, -, n8⟩ := note_fields w (.joinPoints a b) e
  have nb := SameBase.note w (.joinPoints a b) e
  have np := note_pts w (.joinPoints a b) e
  split at h
  · rename_i hp
    cases h
    rw [np] at hp
    exact ⟨nb, by rw [np], by simp [hp], fun _ => n8⟩
  · cases h
  · rename_i hp
    rw [np] at hp
    split at h
    · cases h
    obtain ⟨e2, r2, h⟩ := bind_ok h
    obtain ⟨e3, r3, h⟩ := bind_ok h
    cases h
    obtain ⟨b2, -, -, -, s2⟩ := orthIf_fields (op := .rotate _) (w := false) r2
    obtain ⟨b3, -, -, -, s3⟩ := dilate_fields r3
    obtain ⟨b1, -, -, -, s1⟩ := translate_fields (note w (.joinPoints a b) e) (Vert.mk' (-_) (-_)) false
    obtain ⟨b4, -, -, -, s4⟩ := translate_fields e3 a false
    have s : (setVerts (e3.translate a false) a b).pts.isSome = e.pts.isSome := by
      show (e3.translate a false).pts.isSome = _
      rw [s4, s3, s2, s1, np]
    refine ⟨?_, s, ?_, by simp [hp]⟩
    · have := ((nb.trans b1).trans b2).trans (b3.trans b4)
      exact ⟨this.1, this.2, this.3, this.4⟩
    · intro _
      refine ⟨?_, rfl, rfl⟩
      simp only [setVerts, beq_far hab]; rfl

/-- is the entry a `join_points`? -/
def _root_.PFEM.EdgeOp.isJoin : EdgeOp → Bool
  | .joinPoints _ _ => true
  | _ => false

theorem apply_fields {e e' : EdgeG} {op w} (h : e.apply op w = .ok e') :
    SameBase e e' ∧ e'.pts.isSome = e.pts.isSome ∧
    (op.isJoin = false → e'.diary = (if w then e.diary ++ [op] else e.diary) ∧ e'.anchor = e.anchor ∧
      e'.endpnt = e.endpnt) ∧
    (∀ a b, op = .joinPoints a b →
      (e.pts.isSome = true → e'.diary = [.joinPoints a b] ∧ e'.anchor = a ∧ e'.endpnt = b) ∧
      (e.pts.isSome = false → e'.diary = (if w then e.diary ++ [op] else e.diary))) := by
  cases op with
  | joinPoints a b =>
    obtain ⟨h1, h2, h3, h4⟩ := joinPoints_fields h
    refine ⟨h1, h2, by simp [EdgeOp.isJoin], ?_⟩
    intro a' b' h5; cases h5; exact ⟨h3, h4⟩
  | rotate th =>
    obtain ⟨h1, h2, h3, h4, h5⟩ := orthIf_fields (op := .rotate th) h
    exact ⟨h1, h5, fun _ => ⟨h2, h3, h4⟩, by rintro _ _ ⟨⟩⟩
  | reflectX =>
    obtain ⟨h1, h2, h3, h4, h5⟩ := orthIf_fields (op := .reflectX) h
    exact ⟨h1, h5, fun _ => ⟨h2, h3, h4⟩, by rintro _ _ ⟨⟩⟩
  | reflectY =>
    obtain ⟨h1, h2, h3, h4, h5⟩ := orthIf_fields (op := .reflectY) h
    exact ⟨h1, h5, fun _ => ⟨h2, h3, h4⟩, by rintro _ _ ⟨⟩⟩
  | translate a =>
    cases h
    obtain ⟨h1, h2, h3, h4, h5⟩ := translate_fields e a w
    exact ⟨h1, h5, fun _ => ⟨h2, h3, h4⟩, by rintro _ _ ⟨⟩⟩
  | dilate al =>
    obtain ⟨h1, h2, h3, h4, h5⟩ := dilate_fields h
    exact ⟨h1, h5, fun _ => ⟨h2, h3, h4⟩, by rintro _ _ ⟨⟩⟩
  | orthogonal A =>
    obtain ⟨h1, h2, h3, h4, h5⟩ := orthogonal_fields h
    exact ⟨h1, h5, fun _ => ⟨h2, h3, h4⟩, by rintro _ _ ⟨⟩⟩

/-! ### the samples after a transformation depend only on the samples before it -/

theorem ptsOf_bind (r : Py EdgeG) (f : EdgeG → Py EdgeG) (g : Option (List Sample) → Py (Option (List Sample)))
    (h : ∀ e, ptsOf (f e) = g e.pts) : ptsOf (r >>= f) = ptsOf r >>= g := by
  cases r with
  | error _ => rfl
  | ok e => exact h e

theorem orthogonal_ptsOf (e : EdgeG) (A w) : ptsOf (e.orthogonal A w) =
    if A.orthDefect > TOL then .error .edgeTransformation else .ok (e.pts.map fun l => l.map (orthSample A)) := by
  unfold orthogonal ptsOf
  split
  · rfl
  · simp [Except.map, mapPts, note_pts]

theorem dilate_ptsOf {e e' : EdgeG} (h : e.pts = e'.pts) (al w w') : ptsOf (e.dilate al w) = ptsOf (e'.dilate al w') := by
  unfold dilate ptsOf
  split
  · rfl
  · simp [Except.map, mapPts, note_pts, h]

theorem orthIf_ptsOf {e e' : EdgeG} (h : e.pts = e'.pts) (A w w' op op') :
    ptsOf (if (note w op e).pts.isSome then orthogonal (note w op e) A false else .ok (note w op e)) =
    ptsOf (if (note w' op' e').pts.isSome then orthogonal (note w' op' e') A false else .ok (note w' op' e')) := by
  rw [note_pts, note_pts, h]
  split
  · rw [orthogonal_ptsOf, orthogonal_ptsOf, note_pts, note_pts, h]
  · simp [ptsOf, Except.map, note_pts, h]

theorem translate_ptsEq {e e' : EdgeG} (h : e.pts = e'.pts) (a w w') :
    (e.translate a w).pts = (e'.translate a w').pts := by
  simp [translate, mapPts, note_pts, h]

theorem ptsOf_bind_congr {r r' : Py EdgeG} {f f' : EdgeG → Py EdgeG} (hr : ptsOf r = ptsOf r')
    (h : ∀ e e', e.pts = e'.pts → ptsOf (f e) = ptsOf (f' e')) : ptsOf (r >>= f) = ptsOf (r' >>= f') := by
  cases r with
  | error x =>
    cases r' with
    | error y => simpa [ptsOf, Except.map, bind, Except.bind] using hr
    | ok y => simp [ptsOf, Except.map] at hr
  | ok x =>
    cases r' with
    | error y => simp [ptsOf, Except.map] at hr
    | ok y => exact h x y (by simpa [ptsOf, Except.map] using hr)

theorem joinPoints_ptsOf {e e' : EdgeG} (h : e.pts = e'.pts) (a b w w') :
    ptsOf (e.joinPoints a b w) = ptsOf (e'.joinPoints a b w') := by
  unfold joinPoints
  dsimp only
  split
  · rfl
  · have h1 : (note w (.joinPoints a b) e).pts = e'.pts := by rw [note_pts, h]
    have h2 : (note w' (.joinPoints a b) e').pts = e'.pts := note_pts _ _ _
    rw [h1, h2]
    cases h3 : e'.pts with
    | none => simp [ptsOf, Except.map, h1, h2]
    | some l =>
      cases l with
      | nil => rfl
      | cons s rest =>
        dsimp only
        split
        · rfl
        · refine ptsOf_bind_congr (orthIf_ptsOf (translate_ptsEq (by rw [h1, h2]) _ _ _) _ _ _ _ _) ?_
          intro x x' hx
          refine ptsOf_bind_congr (dilate_ptsOf hx _ _ _) ?_
          intro y y' hy
          simp only [ptsOf, Except.map]
          congr 1
          exact translate_ptsEq hy a false false

theorem apply_ptsOf {e e' : EdgeG} (h : e.pts = e'.pts) (op w w') : ptsOf (e.apply op w) = ptsOf (e'.apply op w') := by
  cases op with
  | joinPoints a b => exact joinPoints_ptsOf h a b w w'
  | rotate th => exact orthIf_ptsOf h _ _ _ _ _
  | reflectX => exact orthIf_ptsOf h _ _ _ _ _
  | reflectY => exact orthIf_ptsOf h _ _ _ _ _
  | translate a => simp only [apply, ptsOf, Except.map]; rw [translate_ptsEq h]
  | dilate al => exact dilate_ptsOf h _ _ _
  | orthogonal A =>
    show ptsOf (e.orthogonal A w) = ptsOf (e'.orthogonal A w')
    rw [orthogonal_ptsOf, orthogonal_ptsOf, h]

theorem runDiary_ptsOf : ∀ (l : List EdgeOp) {e e' : EdgeG}, e.pts = e'.pts →
    ptsOf (runDiary l e) = ptsOf (runDiary l e')
  | [], e, e', h => by simp [runDiary, ptsOf, Except.map, h]
  | op :: l, e, e', h => by
    unfold runDiary
    exact ptsOf_bind_congr (apply_ptsOf h op false false) fun x x' hx => runDiary_ptsOf l hx

theorem runDiary_append : ∀ (l m : List EdgeOp) (e : EdgeG),
    runDiary (l ++ m) e = (runDiary l e >>= fun e' => runDiary m e')
  | [], m, e => rfl
  | op :: l, m, e => by
    simp only [List.cons_append, runDiary]
    cases h : e.apply op false with
    | error x => rfl
    | ok e' => exact runDiary_append l m e'

theorem runDiary_fields : ∀ (l : List EdgeOp) {e e' : EdgeG}, runDiary l e = .ok e' → e.pts.isSome = true →
    SameBase e e' ∧ e'.pts.isSome = true ∧
    e'.diary = match (l.filter EdgeOp.isJoin).getLast? with
      | some j => [j]
      | none => e.diary
  | [], e, e', h, hp => by cases h; exact ⟨.refl e, hp, rfl⟩
  | op :: l, e, e', h, hp => by
    obtain ⟨e1, h1, h2⟩ := bind_ok h
    obtain ⟨a1, a2, a3, a4⟩ := apply_fields h1
    obtain ⟨b1, b2, b3⟩ := runDiary_fields l h2 (by rw [a2, hp])
    refine ⟨a1.trans b1, b2, ?_⟩
    rw [b3]
    cases op with
    | joinPoints a b =>
      have := ((a4 a b rfl).1 hp).1
      rw [List.filter_cons_of_pos (by rfl)]
      cases hl : (l.filter EdgeOp.isJoin).getLast? with
      | none =>
        rw [List.getLast?_eq_none_iff] at hl
        rw [hl]; simpa using this
      | some j => simp [List.getLast?_cons, hl]
    | _ =>
      rw [List.filter_cons_of_neg (by simp [EdgeOp.isJoin])]
      rw [(a3 rfl).1]; simp

end EdgeG
end PFEM
