import Mathlib.Tactic.IntervalCases
import Verif.Lemmas.Masks
import Verif.Props.OuterBoundary

/-!
Property theorems C88 (mask of the triangles at the boundary) and C89 (mask of the triangles in holes).
-/

namespace PFEM
open ContourG (mapPy)

theorem cell_cols_paths (K : CellG) : K.cols.map (fun s => (s.x, s.y)) = K.components.flatMap ContourG.path := by
  simp only [CellG.cols, List.map_flatMap]; rfl

/-- success of `_build_triangulation` and what it stores -/
theorem build_ok {K : CellG} (h : K.Ready) {c : ContourG} {cs : List ContourG} (hK : K.components = c :: cs) (test : PathTest)
    {delaunay : List ℝ → List ℝ → Py (List (ℕ × ℕ × ℕ))} {ts : List (ℕ × ℕ × ℕ)} (ht : K.Triangulable delaunay ts) :
    ∃ R, K.buildTriangulation test delaunay = .ok R ∧
      R.tri = ⟨K.cloud.map Prod.fst, K.cloud.map Prod.snd, ts⟩ ∧
      List.Forall₂ (fun t b => b = true ↔ ∃ p, K.Corner t p ∧ ∃ d ∈ K.components, (∃ q ∈ d.path, q.1 = p.1) ∧
        (∃ q ∈ d.path, q.2 = p.2)) ts R.boundaryMask ∧
      List.Forall₂ (fun t b => b = false ↔ ∀ p q, K.Side t p q → K.ParallelSide p q ∨ K.Within test (midPoint p q))
        ts R.holeMask := by
  have hc := h.ready c (by simp [hK])
  have hcs : ∀ d ∈ cs, d.Ready := fun d hd => h.ready d (by simp [hK, hd])
  have hcl1 : K.cloud.map Prod.fst = K.interior.map Prod.fst ++ K.cols.map Sample.x := by
    simp [CellG.cloud, Function.comp_def]
  have hcl2 : K.cloud.map Prod.snd = K.interior.map Prod.snd ++ K.cols.map Sample.y := by
    simp [CellG.cloud, Function.comp_def]
  have e1 : c.cols.map Sample.x = c.path.map Prod.fst := by simp [ContourG.path, Function.comp_def]
  have e2 : c.cols.map Sample.y = c.path.map Prod.snd := by simp [ContourG.path, Function.comp_def]
  have e3 : (cs.map fun d => (d.cols.map Sample.x, d.cols.map Sample.y)).map Prod.fst =
      (cs.map ContourG.path).map (List.map Prod.fst) := by simp [ContourG.path, Function.comp_def]
  have e4 : (cs.map fun d => (d.cols.map Sample.x, d.cols.map Sample.y)).map Prod.snd =
      (cs.map ContourG.path).map (List.map Prod.snd) := by simp [ContourG.path, Function.comp_def]
  have hhs : mapPy ContourG.getSampledPoints cs = .ok (cs.map fun d => (d.cols.map Sample.x, d.cols.map Sample.y)) :=
    mapPy_ok fun d hd => (hcs d hd).getSampledPoints
  set r : ℝ := 1 / 10 ^ 6 with hr
  have hr0 : 0 < r := by rw [hr]; positivity
  have hb : ∀ t ∈ ts, ∃ b, Masks.cornerLoop ⟨K.cloud.map Prod.fst, K.cloud.map Prod.snd, ts⟩ (c.path.map Prod.fst)
      (c.path.map Prod.snd) ((cs.map ContourG.path).map (List.map Prod.fst)) ((cs.map ContourG.path).map (List.map Prod.snd))
      false [t.1, t.2.1, t.2.2] = .ok b ∧ (b = true ↔ ∃ p, K.Corner t p ∧ ∃ d ∈ K.components, (∃ q ∈ d.path, q.1 = p.1) ∧
        (∃ q ∈ d.path, q.2 = p.2)) := by
    intro t htm
    have hb := ht.2 t htm
    obtain ⟨b, hb, hi⟩ := Masks.cornerLoop_ok K.cloud ts (c.path.map Prod.fst)
      (c.path.map Prod.snd) ((cs.map ContourG.path).map (List.map Prod.fst)) ((cs.map ContourG.path).map (List.map Prod.snd))
      [t.1, t.2.1, t.2.2] false (by simp; exact hb)
    refine ⟨b, hb, hi.trans ?_⟩
    simp only [Bool.false_eq_true, false_or, Masks.pointOnBoundary_iff]
    constructor
    · rintro ⟨a, ha, p, hp, Q, hQ, h⟩
      refine ⟨p, ⟨a, ha, hp⟩, ?_⟩
      rcases List.mem_cons.1 hQ with rfl | hQ
      · exact ⟨c, by simp [hK], h⟩
      · obtain ⟨d, hd, rfl⟩ := List.mem_map.1 hQ
        exact ⟨d, by simp [hK, hd], h⟩
    · rintro ⟨p, ⟨a, ha, hp⟩, d, hd, h⟩
      refine ⟨a, ha, p, hp, d.path, ?_, h⟩
      rw [hK] at hd
      rcases List.mem_cons.1 hd with rfl | hd
      · simp
      · exact List.mem_cons_of_mem _ (List.mem_map_of_mem hd)
  have hs : ∀ t ∈ ts, ∃ b, Masks.sideLoop test ⟨K.cloud.map Prod.fst, K.cloud.map Prod.snd, ts⟩ (c.path.map Prod.fst)
      (c.path.map Prod.snd) ((cs.map ContourG.path).map (List.map Prod.fst)) ((cs.map ContourG.path).map (List.map Prod.snd))
      r false (Masks.sides t) = .ok b ∧
        (b = false ↔ ∀ p q, K.Side t p q → K.ParallelSide p q ∨ K.Within test (midPoint p q)) := by
    intro t htm
    have hb := ht.2 t htm
    obtain ⟨b, hb, hi⟩ := Masks.sideLoop_ok test K.cloud ts c.path (cs.map ContourG.path) hr0 (Masks.sides t) false
      (by simp [Masks.sides]; exact ⟨⟨hb.1, hb.2.1⟩, hb.2, ⟨hb.2.2, hb.1⟩⟩)
    refine ⟨b, hb, hi.trans ?_⟩
    have hG : ∀ p q, Masks.Good test r c.path (cs.map ContourG.path) p q ↔ K.ParallelSide p q ∨ K.Within test (midPoint p q) := by
      intro p q
      have h1 : (∃ Q ∈ c.path :: cs.map ContourG.path, Masks.Para r p q Q) ↔ K.ParallelSide p q := by
        constructor
        · rintro ⟨Q, hQ, h⟩
          rcases List.mem_cons.1 hQ with rfl | hQ
          · exact ⟨c, by simp [hK], h⟩
          · obtain ⟨d, hd, rfl⟩ := List.mem_map.1 hQ
            exact ⟨d, by simp [hK, hd], h⟩
        · rintro ⟨d, hd, h⟩
          refine ⟨d.path, ?_, h⟩
          rw [hK] at hd
          rcases List.mem_cons.1 hd with rfl | hd
          · simp
          · exact List.mem_cons_of_mem _ (List.mem_map_of_mem hd)
      have h2 : (test c.path (midPoint p q) r && (cs.map ContourG.path).all fun P => !test P (midPoint p q) r) = true ↔
          K.Within test (midPoint p q) := by
        simp only [Bool.and_eq_true, List.all_eq_true, List.forall_mem_map, Bool.not_eq_true']
        constructor
        · rintro ⟨h1, h2⟩; exact ⟨c, cs, hK, h1, h2⟩
        · rintro ⟨c', cs', hK', h1, h2⟩
          rw [hK] at hK'; cases hK'; exact ⟨h1, h2⟩
      rw [Masks.Good, h1, h2]
    simp only [true_and, hG]
    constructor
    · rintro h p q ⟨a, b, hab, hp, hq⟩; exact h (a, b) hab p q hp hq
    · intro h s hs p q hp hq; exact h p q ⟨s.1, s.2, hs, hp, hq⟩
  choose! fb hfb hfb' using hb
  choose! fs hfs hfs' using hs
  refine ⟨⟨⟨K.cloud.map Prod.fst, K.cloud.map Prod.snd, ts⟩, ts.map fs, ts.map fb⟩, ?_, rfl, ?_, ?_⟩
  · have hd := ht.1
    rw [hcl1, hcl2] at hd
    have hH : Masks.holeMask test ⟨K.cloud.map Prod.fst, K.cloud.map Prod.snd, ts⟩ (c.cols.map Sample.x)
        (c.cols.map Sample.y) ((cs.map fun d => (d.cols.map Sample.x, d.cols.map Sample.y)).map Prod.fst)
        ((cs.map fun d => (d.cols.map Sample.x, d.cols.map Sample.y)).map Prod.snd) (1 / 10 ^ 6) = .ok (ts.map fs) := by
      rw [e1, e2, e3, e4]; exact mapPy_ok hfs
    have hB : Masks.boundaryMask ⟨K.cloud.map Prod.fst, K.cloud.map Prod.snd, ts⟩ (c.cols.map Sample.x)
        (c.cols.map Sample.y) ((cs.map fun d => (d.cols.map Sample.x, d.cols.map Sample.y)).map Prod.fst)
        ((cs.map fun d => (d.cols.map Sample.x, d.cols.map Sample.y)).map Prod.snd) = .ok (ts.map fb) := by
      rw [e1, e2, e3, e4]; exact mapPy_ok hfb
    rw [hcl1, hcl2] at hH hB
    have h0 : Np.get K.components 0 = .ok c := by rw [hK]; rfl
    have hdr : K.components.drop 1 = cs := by rw [hK]; rfl
    simp only [CellG.buildTriangulation, h.getBoundaryPoints, py_ok_bind, hd, h0, hdr, hc.getSampledPoints, hhs, hH, hB,
      hcl1, hcl2]
  · rw [List.forall₂_map_right_iff]
    exact List.forall₂_same.2 hfb'
  · rw [List.forall₂_map_right_iff]
    exact List.forall₂_same.2 hfs'

/-- C88 (in part): the triangulated points are the interior points followed by the sampled points of the boundary; every
triangle with a corner among the sampled points is masked; a triangle is left only if no corner has both coordinates among
the coordinates of the samples of one contour.  Missing: that only triangles with a corner on the boundary are masked
(`C88_violated`). -/
theorem C88_boundary_partial {K : CellG} (h : K.Ready) {c : ContourG} {cs : List ContourG} (hK : K.components = c :: cs)
    (test : PathTest) {delaunay : List ℝ → List ℝ → Py (List (ℕ × ℕ × ℕ))} {ts : List (ℕ × ℕ × ℕ)}
    (ht : K.Triangulable delaunay ts) :
    ∃ R, K.buildTriangulation test delaunay = .ok R ∧ R.tri = ⟨K.cloud.map Prod.fst, K.cloud.map Prod.snd, ts⟩ ∧
      R.boundaryMask.length = ts.length ∧ ∀ (k : ℕ) t b, ts[k]? = some t → R.boundaryMask[k]? = some b →
        ((∃ a ∈ [t.1, t.2.1, t.2.2], K.interior.length ≤ a) → b = true) ∧
        (b = true → ∃ p, K.Corner t p ∧ ∃ d ∈ K.components, (∃ q ∈ d.path, q.1 = p.1) ∧ (∃ q ∈ d.path, q.2 = p.2)) := by
  obtain ⟨R, hR, hT, hB, -⟩ := build_ok h hK test ht
  refine ⟨R, hR, hT, hB.length_eq.symm, fun k t b hk hb => ?_⟩
  obtain ⟨hk', rfl⟩ := List.getElem?_eq_some_iff.1 hk
  obtain ⟨hb', rfl⟩ := List.getElem?_eq_some_iff.1 hb
  have hi := (List.forall₂_iff_get.1 hB).2 k hk' hb'
  simp only [List.get_eq_getElem] at hi
  refine ⟨fun ⟨a, ha, hlt⟩ => hi.2 ?_, hi.1⟩
  have hlen : a < K.cloud.length := by
    have := ht.2 _ (List.getElem_mem hk')
    simp only [List.mem_cons, List.not_mem_nil, or_false] at ha
    rcases ha with rfl | rfl | rfl <;> tauto
  have hp : K.cloud[a]? = some K.cloud[a] := List.getElem?_eq_getElem hlen
  refine ⟨_, ⟨a, ha, hp⟩, ?_⟩
  have hm : K.cloud[a] ∈ K.components.flatMap ContourG.path := by
    rw [← cell_cols_paths]
    have e : K.cloud[a]? = (K.cols.map fun s => (s.x, s.y))[a - K.interior.length]? := by
      rw [CellG.cloud, List.getElem?_append_right hlt]
    rw [hp] at e
    exact List.mem_of_getElem? e.symm
  obtain ⟨d, hd, hq⟩ := List.mem_flatMap.1 hm
  exact ⟨d, hd, ⟨_, hq, rfl⟩, ⟨_, hq, rfl⟩⟩

/-- C88 fails for every cell with an interior point whose two coordinates occur, separately, among the coordinates of the
samples of one contour: all triangles at this point are masked. -/
theorem C88_coordinates {K : CellG} (h : K.Ready) {c : ContourG} {cs : List ContourG} (hK : K.components = c :: cs)
    (test : PathTest) {delaunay : List ℝ → List ℝ → Py (List (ℕ × ℕ × ℕ))} {ts : List (ℕ × ℕ × ℕ)}
    (ht : K.Triangulable delaunay ts) {a : ℕ} {p q q' : ℝ × ℝ} (ha : K.interior[a]? = some p) {d : ContourG}
    (hd : d ∈ K.components) (hq : q ∈ d.path) (hq' : q' ∈ d.path) (h1 : q.1 = p.1) (h2 : q'.2 = p.2) :
    ∃ R, K.buildTriangulation test delaunay = .ok R ∧ ∀ (k : ℕ) t, ts[k]? = some t → a ∈ [t.1, t.2.1, t.2.2] →
      R.boundaryMask[k]? = some true := by
  obtain ⟨R, hR, -, hB, -⟩ := build_ok h hK test ht
  refine ⟨R, hR, fun k t hk hat => ?_⟩
  obtain ⟨hk', rfl⟩ := List.getElem?_eq_some_iff.1 hk
  have hb' : k < R.boundaryMask.length := hB.length_eq ▸ hk'
  have hi := (List.forall₂_iff_get.1 hB).2 k hk' hb'
  simp only [List.get_eq_getElem] at hi
  rw [List.getElem?_eq_getElem hb']
  refine congrArg some (hi.2 ⟨p, ⟨a, hat, ?_⟩, d, hd, ⟨q, hq, h1⟩, ⟨q', hq', h2⟩⟩)
  rw [CellG.cloud, List.getElem?_append_left (List.getElem?_eq_some_iff.1 ha).1, ha]

/-- C89 (in part): a triangle is kept exactly if each of its sides is parallel to and as long as a side of a boundary
polygon, or has its midpoint inside the cell.  So a triangle whose sides are boundary sides or have their midpoints inside
is kept, and one with a side whose midpoint is not inside is removed unless that side is parallel to and as long as a
boundary side.  Missing: that it is removed in that case, too (`C89_violated`). -/
theorem C89_holes_partial {K : CellG} (h : K.Ready) {c : ContourG} {cs : List ContourG} (hK : K.components = c :: cs)
    (test : PathTest) {delaunay : List ℝ → List ℝ → Py (List (ℕ × ℕ × ℕ))} {ts : List (ℕ × ℕ × ℕ)}
    (ht : K.Triangulable delaunay ts) :
    ∃ R, K.buildTriangulation test delaunay = .ok R ∧ R.holeMask.length = ts.length ∧
      ∀ (k : ℕ) t b, ts[k]? = some t → R.holeMask[k]? = some b →
        (b = false ↔ ∀ p q, K.Side t p q → K.ParallelSide p q ∨ K.Within test (midPoint p q)) ∧
        ((∀ p q, K.Side t p q → K.BoundarySide p q ∨ K.Within test (midPoint p q)) → b = false) ∧
        (∀ p q, K.Side t p q → ¬K.Within test (midPoint p q) → ¬K.ParallelSide p q → b = true) := by
  obtain ⟨R, hR, -, -, hH⟩ := build_ok h hK test ht
  refine ⟨R, hR, hH.length_eq.symm, fun k t b hk hb => ?_⟩
  obtain ⟨hk', rfl⟩ := List.getElem?_eq_some_iff.1 hk
  obtain ⟨hb', rfl⟩ := List.getElem?_eq_some_iff.1 hb
  have hi := (List.forall₂_iff_get.1 hH).2 k hk' hb'
  simp only [List.get_eq_getElem] at hi
  refine ⟨hi, fun hg => hi.2 fun p q hs => (hg p q hs).imp_left ?_, fun p q hs h1 h2 => ?_⟩
  · rintro ⟨d, hd, h | h⟩
    · exact ⟨d, hd, _, _, h, Or.inl (by simp [SameVector])⟩
    · exact ⟨d, hd, _, _, h, Or.inr (by simp [SameVector])⟩
  · by_contra hb
    rcases hi.1 (by simpa using hb) p q hs with h | h
    · exact h2 h
    · exact h1 h

/-! ### cells that show the faults -/

/-- a contour with one edge, sampled at the given points (tangents and speeds are not used here) -/
noncomputable def pointContour (P : List (ℝ × ℝ)) : ContourG :=
  { edges := [{ unitCircle "trap" [] with pts := some ((P ++ [(0, 0)]).map fun p : ℝ × ℝ => ⟨p.1, p.2, 1, 0, 0, -1, 1, 0⟩) }]
    orients := [1], numPts := P.length, vertIdx := [0, P.length], closest := [] }

theorem pointContour_ready {P : List (ℝ × ℝ)} (hP : P ≠ []) : (pointContour P).Ready := by
  refine ⟨?_, ?_, ?_⟩
  · intro e he
    simp only [pointContour, List.mem_singleton] at he
    subst he
    refine ⟨_, rfl, ?_⟩
    have := List.length_pos_iff.2 hP
    simp; omega
  · simp [pointContour, ContourG.cols, EdgeG.cols]
  · simp [pointContour, EdgeG.cols, List.range_succ, blockStart]

theorem pointContour_path (P : List (ℝ × ℝ)) : (pointContour P).path = P := by
  simp [pointContour, ContourG.path, ContourG.cols, EdgeG.cols, Function.comp_def]

/-- the cell with these contours -/
noncomputable def pointCell (Ps : List (List (ℝ × ℝ))) (I : List (ℝ × ℝ)) : CellG :=
  { components := Ps.map pointContour, numPts := (Ps.map List.length).sum
    startIdx := (List.range (Ps.length + 1)).map (blockStart (Ps.map List.length)), interior := I }

theorem pointCell_ready {Ps : List (List (ℝ × ℝ))} (h : ∀ P ∈ Ps, P ≠ []) (I : List (ℝ × ℝ)) : (pointCell Ps I).Ready := by
  refine ⟨?_, ?_, ?_⟩
  · intro c hc
    obtain ⟨P, hP, rfl⟩ := List.mem_map.1 hc
    exact pointContour_ready (h P hP)
  · have e : ∀ P, (pointContour P).cols.length = P.length := fun P => by
      have := congrArg List.length (pointContour_path P); rwa [ContourG.path, List.length_map] at this
    simp [pointCell, CellG.cols, List.length_flatMap, Function.comp_def, e]
  · simp [pointCell, Function.comp_def, pointContour]

theorem pointCell_cloud (Ps : List (List (ℝ × ℝ))) (I : List (ℝ × ℝ)) : (pointCell Ps I).cloud = I ++ Ps.flatten := by
  rw [CellG.cloud, cell_cols_paths]
  simp [pointCell, List.flatMap, Function.comp_def, pointContour_path]

/-- the square with corners `(±1, ±1)`, sampled at its corners and at the midpoints of its sides -/
def midSquare : List (ℝ × ℝ) := [(-1, -1), (0, -1), (1, -1), (1, 0), (1, 1), (0, 1), (-1, 1), (-1, 0)]

/-- C88 is violated: the triangle with the corners `(0, 0)`, `(1/2, 0)`, `(0, 1/2)` inside the square is masked as a
triangle at the boundary. -/
theorem C88_violated : ∃ K : CellG, K.Ready ∧ ∃ t, (∀ p, K.Corner t p → ∀ d ∈ K.components, p ∉ d.path) ∧
    (∃ p q r, K.Corner t p ∧ K.Corner t q ∧ K.Corner t r ∧ p ≠ q ∧ q ≠ r ∧ r ≠ p) ∧
    ∀ test, ∃ R, K.buildTriangulation test (fun _ _ => .ok [t]) = .ok R ∧ R.boundaryMask = [true] := by
  set K := pointCell [midSquare] [(0, 0), (1 / 2, 0), (0, 1 / 2)] with hKdef
  have hr : K.Ready := pointCell_ready (by simp [midSquare]) _
  have hcl : K.cloud = [(0, 0), (1 / 2, 0), (0, 1 / 2)] ++ midSquare := by rw [hKdef, pointCell_cloud]; simp
  have hcomp : K.components = [pointContour midSquare] := rfl
  refine ⟨K, hr, (0, 1, 2), ?_, ⟨(0, 0), (1 / 2, 0), (0, 1 / 2), ⟨0, by simp, by simp [hcl]⟩, ⟨1, by simp, by simp [hcl]⟩,
    ⟨2, by simp, by simp [hcl]⟩, by norm_num, by norm_num, by norm_num⟩, fun test => ?_⟩
  · rintro p ⟨a, ha, hp⟩ d hd
    rw [hcomp, List.mem_singleton] at hd
    subst hd
    rw [pointContour_path]
    rw [hcl] at hp
    simp only [List.mem_cons, List.not_mem_nil, or_false] at ha
    rcases ha with rfl | rfl | rfl <;> (simp at hp; subst hp; norm_num [midSquare])
  · have ht : K.Triangulable (fun _ _ => .ok [(0, 1, 2)]) [(0, 1, 2)] := by
      refine ⟨rfl, ?_⟩
      rw [hcl]; simp [midSquare]
    obtain ⟨R, hR, h⟩ := C88_coordinates hr hcomp test ht (a := 0) (p := (0, 0)) (q := (0, -1)) (q' := (1, 0)) rfl
      (d := pointContour midSquare) (by simp [hcomp]) (by rw [pointContour_path]; simp [midSquare])
      (by rw [pointContour_path]; simp [midSquare]) rfl rfl
    obtain ⟨R', hR', -, hl, -⟩ := C88_boundary_partial hr hcomp test ht
    rw [hR] at hR'; cases hR'
    refine ⟨R, hR, ?_⟩
    have h0 := h 0 _ rfl (by simp)
    match hm : R.boundaryMask, hl, h0 with
    | [b], _, h0 => simpa using h0

/-- the hypotheses of `C88_boundary_partial` hold for the square with its three interior points and a triangle at the
boundary -/
example : ∃ K : CellG, K.Ready ∧ K.components = [pointContour midSquare] ∧ ∃ ts, K.Triangulable (fun _ _ => .ok ts) ts ∧
    ∃ t ∈ ts, ∃ a ∈ [t.1, t.2.1, t.2.2], K.interior.length ≤ a := by
  refine ⟨pointCell [midSquare] [(0, 0), (1 / 2, 0), (0, 1 / 2)], pointCell_ready (by simp [midSquare]) _, rfl,
    [(0, 1, 2), (0, 3, 4)], ⟨rfl, ?_⟩, (0, 3, 4), by simp, 3, by simp, by simp [pointCell]⟩
  rw [pointCell_cloud]; simp [midSquare]

/-- a square with one corner cut off: the cut is the side from `(3, -4)` to `(4, -3)` -/
def cutSquare : List (ℝ × ℝ) := [(-4, -4), (3, -4), (4, -3), (4, 4), (-4, 4)]
/-- a square hole -/
noncomputable def squareHole : List (ℝ × ℝ) := [(-1 / 2, -1 / 2), (-1 / 2, 1 / 2), (1 / 2, 1 / 2), (1 / 2, -1 / 2)]

/-- C89 is violated: one half of a square hole is kept, because its diagonal is parallel to and as long as a side of the
outer polygon. -/
theorem C89_violated : ∃ K : CellG, K.Ready ∧ ∃ c h, K.components = [c, h] ∧ ∃ t p q, K.Side t p q ∧ ¬K.BoundarySide p q ∧
    ∀ test : PathTest, test h.path (midPoint p q) (1 / 10 ^ 6) = true →
      ¬K.Within test (midPoint p q) ∧
      ∃ R, K.buildTriangulation test (fun _ _ => .ok [t]) = .ok R ∧ R.holeMask = [false] := by
  set K := pointCell [cutSquare, squareHole] [] with hKdef
  have hr : K.Ready := pointCell_ready (by simp [cutSquare, squareHole]) _
  have hcl : K.cloud = cutSquare ++ squareHole := by rw [hKdef, pointCell_cloud]; simp
  have hcomp : K.components = [pointContour cutSquare, pointContour squareHole] := rfl
  have hp7 : K.cloud[7]? = some ((1 / 2, 1 / 2) : ℝ × ℝ) := by rw [hcl]; rfl
  have hp5 : K.cloud[5]? = some ((-1 / 2, -1 / 2) : ℝ × ℝ) := by rw [hcl]; rfl
  have hp6 : K.cloud[6]? = some ((-1 / 2, 1 / 2) : ℝ × ℝ) := by rw [hcl]; rfl
  have seg : ∀ (P : List (ℝ × ℝ)) p q, Segment P p q ↔ ∃ i < P.length, P[i]? = some p ∧ P[(i + 1) % P.length]? = some q := by
    intro P p q
    constructor
    · rintro ⟨i, h1, h2⟩; exact ⟨i, (List.getElem?_eq_some_iff.1 h1).1, h1, h2⟩
    · rintro ⟨i, -, h⟩; exact ⟨i, h⟩
  refine ⟨K, hr, _, _, hcomp, (5, 6, 7), (1 / 2, 1 / 2), (-1 / 2, -1 / 2), ⟨7, 5, by simp, hp7, hp5⟩, ?_, fun test htest => ⟨?_, ?_⟩⟩
  · rintro ⟨d, hd, h⟩
    rw [hcomp] at hd
    simp only [List.mem_cons, List.not_mem_nil, or_false] at hd
    rcases hd with rfl | rfl
    · rw [pointContour_path] at h
      rcases h with ⟨i, h1, -⟩ | ⟨i, h1, -⟩ <;>
        (have := List.mem_of_getElem? h1
         norm_num [cutSquare] at this)
    · rw [pointContour_path, seg, seg] at h
      rcases h with ⟨i, hi, h1, h2⟩ | ⟨i, hi, h1, h2⟩ <;>
        (simp only [squareHole, List.length_cons, List.length_nil] at hi h1 h2
         interval_cases i <;> first | (norm_num at h1; done) | norm_num at h2)
  · rintro ⟨c, cs, h1, -, h2⟩
    rw [hcomp] at h1; cases h1
    have := h2 _ (List.mem_singleton.2 rfl)
    rw [htest] at this; cases this
  · have ht : K.Triangulable (fun _ _ => .ok [(5, 6, 7)]) [(5, 6, 7)] := by
      refine ⟨rfl, ?_⟩
      rw [hcl]; simp [cutSquare, squareHole]
    obtain ⟨R, hR, hl, h⟩ := C89_holes_partial hr hcomp test ht
    refine ⟨R, hR, ?_⟩
    match hm : R.holeMask, hl with
    | [b], _ =>
      obtain ⟨h, -, -⟩ := h 0 _ b rfl (by rw [hm]; rfl)
      rw [h.2]
      rintro p q ⟨a, a', haa, h1, h2⟩
      simp only [List.mem_cons, Prod.mk.injEq, List.not_mem_nil, or_false] at haa
      left
      rcases haa with ⟨rfl, rfl⟩ | ⟨rfl, rfl⟩ | ⟨rfl, rfl⟩
      · rw [hp5] at h1; rw [hp6] at h2; cases h1; cases h2
        refine ⟨pointContour squareHole, by rw [hcomp]; simp, (-1 / 2, -1 / 2), (-1 / 2, 1 / 2), ?_, Or.inl (by norm_num [SameVector])⟩
        rw [pointContour_path]; exact ⟨0, rfl, rfl⟩
      · rw [hp6] at h1; rw [hp7] at h2; cases h1; cases h2
        refine ⟨pointContour squareHole, by rw [hcomp]; simp, (-1 / 2, 1 / 2), (1 / 2, 1 / 2), ?_, Or.inl (by norm_num [SameVector])⟩
        rw [pointContour_path]; exact ⟨1, rfl, rfl⟩
      · rw [hp7] at h1; rw [hp5] at h2; cases h1; cases h2
        refine ⟨pointContour cutSquare, by rw [hcomp]; simp, (3, -4), (4, -3), ?_, Or.inr (by norm_num [SameVector])⟩
        rw [pointContour_path]; exact ⟨1, rfl, rfl⟩

end PFEM
