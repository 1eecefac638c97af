import Verif.Props.PlotGlobal

/-!
Property theorems C96 (plots of meshes) and C97 (saving figures).
-/

namespace PFEM
open Plot

/-! ### arrows -/

theorem roll1_getElem {α : Type} (l : List α) (k : ℕ) (hk : k + 1 < l.length) : (roll1 l)[k]? = l[k + 1]? := by
  cases l with
  | nil => simp at hk
  | cons a l =>
    simp only [List.length_cons] at hk
    rw [roll1, List.getElem?_append_left (by omega), List.getElem?_cons_succ]

/-- C96 (in part): with `show_orientation` there is one arrow from each sampled point of an edge to the next, and no arrow
from the last one. -/
theorem C96_arrows_partial {e : EdgeG} {l : List Sample} (h : e.pts = some l) :
    ∃ A, edgeArrows e = .ok A ∧ A.length = l.length - 1 ∧
      ∀ k s s', l[k]? = some s → l[k + 1]? = some s' → A[k]? = some ((s.x, s.y), (s'.x - s.x, s'.y - s.y)) := by
  refine ⟨arrows (l.map fun s => (s.x, s.y)), by simp [edgeArrows, EdgeG.getSampledPoints, h, py_ok_bind], ?_, ?_⟩
  · cases l with
    | nil => rfl
    | cons a l => simp [arrows, roll1]
  · intro k s s' hs hs'
    have hk : k + 1 < l.length := (List.getElem?_eq_some_iff.1 hs').1
    have hr : (roll1 (l.map fun s => (s.x, s.y)))[k]? = some (s'.x, s'.y) := by
      rw [roll1_getElem _ _ (by simpa using hk)]; simp [hs']
    have hlr : (roll1 (l.map fun s => (s.x, s.y))).length = l.length := by
      cases l with
      | nil => rfl
      | cons a l => simp [roll1]
    rw [arrows, List.zip, List.getElem?_zipWith, List.getElem?_dropLast, List.getElem?_dropLast]
    simp only [List.length_map, List.length_zipWith, hlr, min_self, show k < l.length - 1 by omega, if_true, List.getElem?_map, hs,
      Option.map_some, List.getElem?_zipWith, hr]

/-! ### limits -/

theorem limitLoop_ok : ∀ (es : List EdgeG), (∀ e ∈ es, ∃ l, e.pts = some l ∧ l ≠ []) → ∀ (X Y : Set ℝ) s,
    RangeSoFar X (s.1, s.2.1) → RangeSoFar Y (s.2.2.1, s.2.2.2) → ∃ s', limitLoop s es = .ok s' ∧
      RangeSoFar (X ∪ Prod.fst '' sampledPoints es) (s'.1, s'.2.1) ∧
      RangeSoFar (Y ∪ Prod.snd '' sampledPoints es) (s'.2.2.1, s'.2.2.2)
  | [], _, X, Y, s, hx, hy => ⟨s, rfl, by simpa [sampledPoints] using hx, by simpa [sampledPoints] using hy⟩
  | e :: es, h, X, Y, s, hx, hy => by
    obtain ⟨l, hl, hne⟩ := h e (by simp)
    obtain ⟨a, ha, a'⟩ := least_entry (l := (l.map fun s => (s.x, s.y)).map Prod.fst) (by simpa using hne)
    obtain ⟨b, hb, b'⟩ := greatest_entry (l := (l.map fun s => (s.x, s.y)).map Prod.fst) (by simpa using hne)
    obtain ⟨c, hc, c'⟩ := least_entry (l := (l.map fun s => (s.x, s.y)).map Prod.snd) (by simpa using hne)
    obtain ⟨d, hd, d'⟩ := greatest_entry (l := (l.map fun s => (s.x, s.y)).map Prod.snd) (by simpa using hne)
    obtain ⟨s', hs', h1, h2⟩ := limitLoop_ok es (fun e he => h e (by simp [he])) _ _
      (min s.1 (a : EReal), max s.2.1 (b : EReal), min s.2.2.1 (c : EReal), max s.2.2.2 (d : EReal))
      (Or.inr (hx.extend a' b')) (Or.inr (hy.extend c' d'))
    have hsp : sampledPoints (e :: es) = {p | ∃ s ∈ l, p = (s.x, s.y)} ∪ sampledPoints es := by
      ext p; simp [sampledPoints, or_and_right, exists_or, hl]
    refine ⟨s', ?_, ?_, ?_⟩
    · simp only [limitLoop, edgeX, hl, py_ok_bind, ha, hb, hc, hd, hs']
    · convert h1 using 1
      rw [hsp, Set.image_union, ← Set.union_assoc]
      congr 2
      ext x; simp [eq_comm]
    · convert h2 using 1
      rw [hsp, Set.image_union, ← Set.union_assoc]
      congr 2
      ext x; simp [eq_comm]

/-- C96 (in part): the limits of the axes are those of the smallest box that holds all sampled points, extended on each
side by `pad` times its extent; so all sampled points are within the limits. -/
theorem C96_limits_partial {es : List EdgeG} (hne : es ≠ []) (h : ∀ e ∈ es, ∃ l, e.pts = some l ∧ l ≠ []) {pad : ℝ} (hp : 0 ≤ pad) :
    ∃ x0 x1 y0 y1, IsLeast (Prod.fst '' sampledPoints es) x0 ∧ IsGreatest (Prod.fst '' sampledPoints es) x1 ∧
      IsLeast (Prod.snd '' sampledPoints es) y0 ∧ IsGreatest (Prod.snd '' sampledPoints es) y1 ∧
      axisLimits es pad = .ok (some (x0 - pad * (x1 - x0), x1 + pad * (x1 - x0), y0 - pad * (y1 - y0), y1 + pad * (y1 - y0))) ∧
      ∀ p ∈ sampledPoints es, x0 - pad * (x1 - x0) ≤ p.1 ∧ p.1 ≤ x1 + pad * (x1 - x0) ∧
        y0 - pad * (y1 - y0) ≤ p.2 ∧ p.2 ≤ y1 + pad * (y1 - y0) := by
  obtain ⟨s, hs, h1, h2⟩ := limitLoop_ok es h ∅ ∅ (⊤, ⊥, ⊤, ⊥) (Or.inl ⟨rfl, rfl⟩) (Or.inl ⟨rfl, rfl⟩)
  obtain ⟨e, he⟩ := List.exists_mem_of_ne_nil es hne
  obtain ⟨l, hl, hl0⟩ := h e he
  obtain ⟨p, hpl⟩ := List.exists_mem_of_ne_nil l hl0
  have hmem : (p.x, p.y) ∈ sampledPoints es := ⟨e, he, l, hl, p, hpl, rfl⟩
  rw [Set.empty_union] at h1 h2
  rcases h1 with ⟨h0, -⟩ | ⟨x0, x1, hx, a1, a2⟩
  · exact absurd (Set.mem_image_of_mem Prod.fst hmem) (by rw [h0]; simp)
  rcases h2 with ⟨h0, -⟩ | ⟨y0, y1, hy, b1, b2⟩
  · exact absurd (Set.mem_image_of_mem Prod.snd hmem) (by rw [h0]; simp)
  obtain ⟨s1, s2, s3, s4⟩ := s
  simp only [Prod.mk.injEq] at hx hy
  obtain ⟨rfl, rfl⟩ := hx
  obtain ⟨rfl, rfl⟩ := hy
  refine ⟨x0, x1, y0, y1, a1, a2, b1, b2, ?_, fun q hq => ?_⟩
  · simp only [axisLimits, hs, py_ok_bind, if_neg hne, EReal.toReal_coe]
    split_ifs with h0
    · rfl
    · have : pad = 0 := le_antisymm (not_lt.1 h0) hp
      subst this; simp
  · have c1 := a1.2 (Set.mem_image_of_mem Prod.fst hq)
    have c2 := a2.2 (Set.mem_image_of_mem Prod.fst hq)
    have d1 := b1.2 (Set.mem_image_of_mem Prod.snd hq)
    have d2 := b2.2 (Set.mem_image_of_mem Prod.snd hq)
    have e1 : 0 ≤ pad * (x1 - x0) := mul_nonneg hp (by linarith)
    have e2 : 0 ≤ pad * (y1 - y0) := mul_nonneg hp (by linarith)
    exact ⟨by linarith, by linarith, by linarith, by linarith⟩

/-- C96 (in part): width and height of the figure are in the same ratio as the limits of the axes, so the plot is not
distorted, if the limits of the second axis differ. -/
theorem C96_size_partial {x0 x1 y0 y1 h : ℝ} (hy : y0 < y1) :
    ∃ w, figureSize (x0, x1, y0, y1) h = some (w, h) ∧ w * (y1 - y0) = h * (x1 - x0) := by
  have : y1 - y0 ≠ 0 := by linarith
  refine ⟨h * (x1 - x0) / (y1 - y0), by simp [figureSize, this], ?_⟩
  field_simp

/-- C96 is violated: a plot of horizontal edges has no finite size. -/
theorem C96_violated {es : List EdgeG} (hne : es ≠ []) (h : ∀ e ∈ es, ∃ l, e.pts = some l ∧ l ≠ []) {c : ℝ}
    (hc : ∀ p ∈ sampledPoints es, p.2 = c) {pad : ℝ} (hp : 0 ≤ pad) :
    ∃ L, axisLimits es pad = .ok (some L) ∧ ∀ h, figureSize L h = none := by
  obtain ⟨x0, x1, y0, y1, -, -, ⟨⟨p, hp0, rfl⟩, -⟩, ⟨⟨q, hq0, rfl⟩, -⟩, hL, -⟩ := C96_limits_partial hne h hp
  refine ⟨_, hL, fun h => ?_⟩
  simp [figureSize, hc p hp0, hc q hq0]

/-- the hypotheses are met: a segment from `(0, 1)` to `(2, 1)` -/
example : ∃ e : EdgeG, (∃ l, e.pts = some l ∧ l ≠ []) ∧ sampledPoints [e] = {(0, 1), (2, 1)} ∧
    ∃ L, axisLimits [e] (1 / 10) = .ok (some L) ∧ figureSize L 4 = none := by
  let e : EdgeG := { unitCircle "trap" [] with pts := some [⟨0, 1, 1, 0, 0, -1, 1, 0⟩, ⟨2, 1, 1, 0, 0, -1, 1, 0⟩] }
  have h1 : ∃ l, e.pts = some l ∧ l ≠ [] := ⟨_, rfl, by simp⟩
  have h2 : sampledPoints [e] = {(0, 1), (2, 1)} := by
    ext p; simp [sampledPoints, e]
  obtain ⟨L, hL, h⟩ := C96_violated (es := [e]) (by simp) (by simpa using h1) (c := 1) (by simp [h2]) (pad := 1 / 10) (by norm_num)
  exact ⟨e, h1, h2, L, hL, h 4⟩

/-- C96: edges that have been sampled are drawn as they are, whatever `n` is, unless `reparameterize` is given; all other
edges are sampled with the rules for `n`. -/
theorem C96_sampling {es es' : List EdgeG} {n : ℤ} {b : Bool} (h : meshPlot es n b = .ok es') :
    ∃ d, getQuadDict n 7 = .ok d ∧ List.Forall₂ (fun e e' =>
      ((b = false ∧ e.pts ≠ none) → e' = e) ∧ ((b = true ∨ e.pts = none) → e.parameterize d = .ok e')) es es' := by
  obtain ⟨d, hd, h'⟩ := bind_ok h
  clear h
  rename' h' => h
  refine ⟨d, hd, ?_⟩
  induction es generalizing es' with
  | nil => simp only [sampleAll, Except.ok.injEq] at h; subst h; exact .nil
  | cons e es ih =>
    have key : ∃ e1, (if (b || e.pts.isNone) = true then e.parameterize d else .ok e) = .ok e1 ∧
        (do let es ← sampleAll d b es; Except.ok (e1 :: es)) = Except.ok es' := by
      simp only [sampleAll] at h
      by_cases hc : (b || e.pts.isNone) = true
      · simp only [if_pos hc] at h ⊢
        exact bind_ok h
      · simp only [if_neg hc, py_ok_bind] at h ⊢
        exact ⟨e, rfl, h⟩
    obtain ⟨e1, h1, h⟩ := key
    obtain ⟨es1, h2, h⟩ := bind_ok h
    cases h
    refine .cons ⟨fun ⟨hb, hn⟩ => ?_, fun hb => ?_⟩ (ih h2)
    · rw [if_neg (by cases hp : e.pts <;> simp_all)] at h1
      exact (Except.ok.inj h1).symm
    · rw [if_pos (by rcases hb with rfl | hb <;> simp [*])] at h1
      exact h1

/-! ### saving -/

/-- C97: the directory part of a path: nothing without a slash, else what precedes the last slash, without slashes at its
end - or the slashes, if there is nothing else. -/
theorem C97_dirname {b : List Char} (hb : '/' ∉ b) :
    dirname b = [] ∧
    (∀ d c, c ≠ '/' → ∀ k, dirname (d ++ c :: List.replicate (k + 1) '/' ++ b) = d ++ [c]) ∧
    ∀ k, dirname (List.replicate (k + 1) '/' ++ b) = List.replicate (k + 1) '/' := by
  have h0 : ∀ l : List Char, (l ++ b).reverse.dropWhile (· ≠ '/') = l.reverse.dropWhile (· ≠ '/') := by
    intro l
    rw [List.reverse_append, List.dropWhile_append_of_pos]
    intro a ha
    simp only [List.mem_reverse] at ha
    simpa using fun h : a = '/' => hb (h ▸ ha)
  refine ⟨?_, fun d c hc k => ?_, fun k => ?_⟩
  · have := h0 []
    simp only [List.nil_append, List.reverse_nil, List.dropWhile_nil] at this
    simp only [dirname, this]; rfl
  · have e : (d ++ c :: List.replicate (k + 1) '/').reverse = List.replicate (k + 1) '/' ++ c :: d.reverse := by
      simp [List.reverse_append]
    have e1 : (List.replicate (k + 1) '/' ++ c :: d.reverse).dropWhile (· ≠ '/') = List.replicate (k + 1) '/' ++ c :: d.reverse := by
      simp [List.replicate_succ]
    have e2 : (List.replicate (k + 1) '/' ++ c :: d.reverse).dropWhile (· = '/') = c :: d.reverse := by
      rw [List.dropWhile_append_of_pos (by simp)]
      simp [hc]
    simp only [dirname, h0, e, e1]
    rw [if_neg]
    · rw [List.reverse_reverse, e2]; simp
    · simp [hc]
  · have e1 : (List.replicate (k + 1) '/').dropWhile (· ≠ '/') = List.replicate (k + 1) '/' := by simp [List.replicate_succ]
    simp only [dirname, h0, List.reverse_replicate, e1]
    simp

/-- C97 (in part): a figure with a directory in its name is saved once, under its name, after the directory has been made
if it was missing.  Missing: names without a directory (`C97_violated`). -/
theorem C97_save_partial {pathExists : List Char → Bool} {f : List Char} (h : dirname f ≠ []) :
    saveFigure pathExists f = .ok ((if pathExists (dirname f) then [] else [.makedirs (dirname f)]) ++ [.save f]) := by
  cases hp : pathExists (dirname f) <;> simp [saveFigure, hp, h]

/-- C97 is violated: a figure cannot be saved under a name without directory (`os.path.exists("")` is `False`). -/
theorem C97_violated {pathExists : List Char → Bool} (h0 : pathExists [] = false) {f : List Char} (hf : '/' ∉ f) :
    saveFigure pathExists f = .error .fileNotFound := by
  simp [saveFigure, (C97_dirname hf).1, h0]

example : dirname "out/fig/mesh.pdf".toList = "out/fig".toList ∧ dirname "/mesh.pdf".toList = "/".toList ∧
    saveFigure (fun _ => false) "mesh.pdf".toList = .error .fileNotFound := by decide

end PFEM
