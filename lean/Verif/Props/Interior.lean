import Verif.Props.CellBoundary
import Verif.Lemmas.Np

/-!
Property theorems C32 (search for a point inside a contour).
-/

namespace PFEM
open EdgeG

/-! ### lists of results -/

theorem mapPy_ok {α β : Type} {f : α → Py β} {g : α → β} : ∀ {l : List α}, (∀ a ∈ l, f a = .ok (g a)) →
    ContourG.mapPy f l = .ok (l.map g)
  | [], _ => rfl
  | a :: l, h => by
    simp only [ContourG.mapPy, h a (by simp), bind, Except.bind, mapPy_ok fun b hb => h b (List.mem_cons_of_mem _ hb),
      List.map_cons]

/-! ### distance -/

theorem distLoop_spec (x y : ℝ) : ∀ (l : List EdgeG) (d0 : WithTop ℝ), (∀ e ∈ l, ∃ L, e.pts = some L ∧ L ≠ []) →
    ∃ d, ContourG.distLoop x y d0 l = .ok d ∧ d ≤ d0 ∧
      (∀ e ∈ l, ∀ L, e.pts = some L → ∀ s ∈ L, d ≤ (((s.x - x) ^ 2 + (s.y - y) ^ 2 : ℝ) : WithTop ℝ)) ∧
      (d = d0 ∨ ∃ e ∈ l, ∃ L, e.pts = some L ∧ ∃ s ∈ L, d = (((s.x - x) ^ 2 + (s.y - y) ^ 2 : ℝ) : WithTop ℝ))
  | [], d0, _ => ⟨d0, rfl, le_rfl, by simp, Or.inl rfl⟩
  | e :: l, d0, h => by
    obtain ⟨L, hL, hne⟩ := h e (by simp)
    obtain ⟨m, hm, hm1, hm2⟩ := np_min (l := L.map fun s => (s.x - x) ^ 2 + (s.y - y) ^ 2) (by simpa using hne)
    obtain ⟨d, h1, h2, h3, h4⟩ := distLoop_spec x y l (min d0 (m : WithTop ℝ)) fun e he => h e (by simp [he])
    refine ⟨d, ?_, h2.trans (min_le_left _ _), ?_, ?_⟩
    · simp only [ContourG.distLoop, EdgeG.sampled, hL, bind, Except.bind, hm]
      exact h1
    · intro e' he' L' hL' s hs
      rcases List.mem_cons.1 he' with rfl | he'
      · rw [hL] at hL'
        cases hL'
        refine (h2.trans (min_le_right _ _)).trans ?_
        exact WithTop.coe_le_coe.2 (hm2 _ (List.mem_map.2 ⟨s, hs, rfl⟩))
      · exact h3 e' he' L' hL' s hs
    · rcases h4 with h4 | ⟨e', he', L', hL', s, hs, h4⟩
      · rcases min_cases d0 (m : WithTop ℝ) with ⟨h5, -⟩ | ⟨h5, -⟩
        · left; rw [h4, h5]
        · right
          obtain ⟨s, hs, hs'⟩ := List.mem_map.1 hm1
          exact ⟨e, by simp, L, hL, s, hs, by rw [h4, h5, hs']⟩
      · right
        exact ⟨e', by simp [he'], L', hL', s, hs, h4⟩

/-- the Euclidean distance of a point from a sample -/
noncomputable def sampleDist (x y : ℝ) (s : Sample) : ℝ := Real.sqrt ((s.x - x) ^ 2 + (s.y - y) ^ 2)

/-- all samples of a contour, the last ones of the edges included -/
def ContourG.samples (c : ContourG) : List Sample := c.edges.flatMap fun e => e.pts.getD []

/-- `r` is the least distance of the point from the samples -/
def IsDist (l : List Sample) (x y r : ℝ) : Prop :=
  (∀ s ∈ l, r ≤ sampleDist x y s) ∧ ∃ s ∈ l, r = sampleDist x y s

/-- `get_distance_to_boundary` of a sampled contour with at least one edge is the least distance from its samples -/
theorem distance_spec {c : ContourG} (h : c.Sampled) (hne : c.edges ≠ []) (x y : ℝ) :
    ∃ r : ℝ, c.distance x y = .ok (r : WithTop ℝ) ∧ IsDist c.samples x y r ∧ 0 ≤ r := by
  obtain ⟨d, h1, -, h3, h4⟩ := distLoop_spec x y c.edges ⊤ fun e he => by
    obtain ⟨L, hL, h2⟩ := h e he
    exact ⟨L, hL, by intro h; simp [h] at h2⟩
  have hd : ∃ e ∈ c.edges, ∃ L, e.pts = some L ∧ ∃ s ∈ L, d = (((s.x - x) ^ 2 + (s.y - y) ^ 2 : ℝ) : WithTop ℝ) := by
    rcases h4 with h4 | h4
    · obtain ⟨e, es, he⟩ := List.exists_cons_of_ne_nil hne
      obtain ⟨L, hL, h2⟩ := h e (by simp [he])
      match L, h2 with
      | s :: L, _ =>
        have := h3 e (by simp [he]) _ hL s (by simp)
        rw [h4, top_le_iff] at this
        exact absurd this (WithTop.coe_ne_top)
    · exact h4
  obtain ⟨e, he, L, hL, s, hs, hd⟩ := hd
  refine ⟨Real.sqrt ((s.x - x) ^ 2 + (s.y - y) ^ 2), ?_, ⟨?_, s, ?_, rfl⟩, Real.sqrt_nonneg _⟩
  · simp only [ContourG.distance, sampled_guard h, bind, Except.bind, h1, hd]
    rfl
  · intro s' hs'
    simp only [ContourG.samples, List.mem_flatMap] at hs'
    obtain ⟨e', he', hs'⟩ := hs'
    obtain ⟨L', hL', -⟩ := h e' he'
    rw [hL', Option.getD_some] at hs'
    have := h3 e' he' L' hL' s' hs'
    rw [hd, WithTop.coe_le_coe] at this
    exact Real.sqrt_le_sqrt this
  · simp only [ContourG.samples, List.mem_flatMap]
    exact ⟨e, he, by simpa [hL] using hs⟩

/-! ### C32 -/

theorem inInterior_eq {c : ContourG} (h : c.Ready) (inside : InsideTest) (p : ℝ × ℝ) :
    c.isInInterior inside p = .ok (inside (c.cols.map fun s => (s.x, s.y)) p) := by
  simp only [ContourG.isInInterior, h.getSampledPoints, bind, Except.bind]
  rw [List.zip_map']

/-- the number written for a grid point -/
noncomputable def distVal (inside : InsideTest) (c : ContourG) (p : ℝ × ℝ) : WithTop ℝ :=
  if inside (c.cols.map fun s => (s.x, s.y)) p then
    (match c.distance p.1 p.2 with | .ok d => d | .error _ => 0) else 0

theorem distEntry_eq {c : ContourG} (h : c.Ready) (hne : c.edges ≠ []) (inside : InsideTest) (p : ℝ × ℝ) :
    ContourG.distEntry inside c p = .ok (distVal inside c p) := by
  obtain ⟨r, hr, -⟩ := distance_spec h.sampled hne p.1 p.2
  simp only [ContourG.distEntry, inInterior_eq h, bind, Except.bind, distVal, hr]
  split <;> rfl

/-- one pass of the loop -/
theorem pass_spec {c : ContourG} (h : c.Ready) (hne : c.edges ≠ []) (inside : InsideTest) (box : ℝ × ℝ × ℝ × ℝ) {m : ℕ}
    (hm : 0 < m) : ∃ k, k < m * m ∧
      ContourG.mapPy (fun k => ContourG.distEntry inside c (ContourG.gridPt box m k)) (List.range (m * m)) =
        .ok ((List.range (m * m)).map fun k => distVal inside c (ContourG.gridPt box m k)) ∧
      Np.argmax ((List.range (m * m)).map fun k => distVal inside c (ContourG.gridPt box m k)) = .ok k ∧
      ((List.range (m * m)).map fun k => distVal inside c (ContourG.gridPt box m k)).getD k 0 =
        distVal inside c (ContourG.gridPt box m k) ∧
      ∀ j < m * m, distVal inside c (ContourG.gridPt box m j) ≤ distVal inside c (ContourG.gridPt box m k) := by
  have hmm : 0 < m * m := Nat.mul_pos hm hm
  have hl : (List.range (m * m)).map (fun k => distVal inside c (ContourG.gridPt box m k)) ≠ [] := by
    simp; omega
  obtain ⟨k, w, h1, h2, h3⟩ := argmax_spec hl
  have hk : k < m * m := by
    by_contra hge
    rw [List.getElem?_eq_none (by simpa using hge)] at h2
    cases h2
  have hw : w = distVal inside c (ContourG.gridPt box m k) := by
    rw [List.getElem?_map, List.getElem?_range hk] at h2
    simpa using h2.symm
  refine ⟨k, hk, mapPy_ok fun k _ => distEntry_eq h hne inside _, h1, ?_, ?_⟩
  · rw [List.getD_eq_getElem?_getD, h2, hw]; rfl
  · intro j hj
    rw [← hw]
    exact h3 _ (List.mem_map.2 ⟨j, List.mem_range.2 hj, rfl⟩)

/-- a point that the search may return: inside, and at a distance of at least `tol` from all samples -/
def GoodPoint (inside : InsideTest) (c : ContourG) (tol : ℝ) (v : Vert) : Prop :=
  inside (c.cols.map fun s => (s.x, s.y)) (v.x, v.y) = true ∧ ∀ s ∈ c.samples, tol ≤ sampleDist v.x v.y s

theorem good_of_dist {c : ContourG} (h : c.Ready) (hne : c.edges ≠ []) {inside : InsideTest} {tol : ℝ} (ht : 0 < tol)
    {p : ℝ × ℝ} (hd : ¬ distVal inside c p < (tol : WithTop ℝ)) : GoodPoint inside c tol (Vert.mk' p.1 p.2) := by
  obtain ⟨r, hr, hr1, -⟩ := distance_spec h.sampled hne p.1 p.2
  unfold distVal at hd
  split at hd
  · next hi =>
    rw [hr] at hd
    simp only [not_lt, WithTop.coe_le_coe] at hd
    exact ⟨hi, fun s hs => hd.trans (hr1.1 s hs)⟩
  · exact absurd (by exact_mod_cast ht) hd

/-- the grids of the search: with fuel `8 - i` at the start of pass `i` it ends, and what it returns -/
theorem searchLoop_spec {c : ContourG} (h : c.Ready) (hne : c.edges ≠ []) (inside : InsideTest) (box : ℝ × ℝ × ℝ × ℝ)
    {tol : ℝ} (ht : 0 < tol) : ∀ (i fuel : ℕ) (d : WithTop ℝ) (pt : Option Vert), i ≤ 6 → 8 ≤ fuel + i →
    (¬ d < tol → ∃ v, pt = some v ∧ GoodPoint inside c tol v) →
    (∃ v, ContourG.searchLoop inside c box tol fuel (8 * 2 ^ i + 1) d pt = some (.ok (some v)) ∧ GoodPoint inside c tol v) ∨
    ContourG.searchLoop inside c box tol fuel (8 * 2 ^ i + 1) d pt = some (.error .interiorPoint) := by
  intro i
  induction hj : 6 - i generalizing i with
  | zero =>
    intro fuel d pt hi hf hg
    obtain rfl : i = 6 := by omega
    obtain ⟨fuel, rfl⟩ : ∃ f, fuel = f + 1 := ⟨fuel - 1, by omega⟩
    by_cases hd : d < tol
    · right
      obtain ⟨k, -, h1, h2, -⟩ := pass_spec h hne inside box (m := 8 * 2 ^ 6 + 1) (by norm_num)
      unfold ContourG.searchLoop
      rw [if_pos hd, h1]
      simp only [h2]
      rw [if_pos (by norm_num)]
    · left
      obtain ⟨v, rfl, hv⟩ := hg hd
      exact ⟨v, by unfold ContourG.searchLoop; rw [if_neg hd], hv⟩
  | succ j ih =>
    intro fuel d pt hi hf hg
    obtain ⟨fuel, rfl⟩ : ∃ f, fuel = f + 1 := ⟨fuel - 1, by omega⟩
    by_cases hd : d < tol
    · obtain ⟨k, -, h1, h2, h3, -⟩ := pass_spec h hne inside box (m := 8 * 2 ^ i + 1) (by omega)
      have hm : 4 * ((8 * 2 ^ i + 1) / 2) + 1 = 8 * 2 ^ (i + 1) + 1 := by rw [pow_succ]; omega
      unfold ContourG.searchLoop
      rw [if_pos hd, h1]
      simp only [h2, hm, h3]
      rw [if_neg]
      · refine ih (i + 1) (by omega) fuel _ _ (by omega) (by omega) fun hn => ⟨_, rfl, ?_⟩
        exact good_of_dist h hne ht hn
      · have : 2 ^ (i + 1) ≤ 2 ^ 6 := Nat.pow_le_pow_right (by norm_num) (by omega)
        have h64 : 8 * 2 ^ (i + 1) + 1 ≤ 513 := by omega
        have := Nat.mul_le_mul h64 h64
        omega
    · left
      obtain ⟨v, rfl, hv⟩ := hg hd
      exact ⟨v, by unfold ContourG.searchLoop; rw [if_neg hd], hv⟩

/-- C32: for every sampled contour whose sample points are not all the same, the search ends after at most seven grids.  It
either sets `interior_point` to a point inside the contour whose distance from every sample is at least the tolerance, one
hundredth of the smaller side of the bounding box, or it raises `InteriorPointError`. -/
theorem C32_search {c : ContourG} (h : c.Ready) (hne : c.edges ≠ []) (inside : InsideTest)
    (hd : ∃ s ∈ c.cols, ∃ s' ∈ c.cols, s.x ≠ s'.x ∨ s.y ≠ s'.y) :
    ∃ x0 x1 y0 y1, getBoundingBox (c.cols.map Sample.x) (c.cols.map Sample.y) = .ok (x0, x1, y0, y1) ∧
      0 < 0.01 * min (x1 - x0) (y1 - y0) ∧ ∀ fuel ≥ 8,
      (∃ v, c.findInteriorPoint inside fuel = some (.ok { c with interior := some v }) ∧
        GoodPoint inside c (0.01 * min (x1 - x0) (y1 - y0)) v) ∨
      c.findInteriorPoint inside fuel = some (.error .interiorPoint) := by
  obtain ⟨s, hs, s', hs', hss⟩ := hd
  have hnx : c.cols.map Sample.x ≠ [] := by intro h; rw [List.map_eq_nil_iff] at h; rw [h] at hs; cases hs
  have hny : c.cols.map Sample.y ≠ [] := by intro h; rw [List.map_eq_nil_iff] at h; rw [h] at hs; cases hs
  obtain ⟨a, -, ha⟩ := np_min hnx
  obtain ⟨b, -, hb⟩ := np_max hnx
  obtain ⟨a', -, ha'⟩ := np_min hny
  obtain ⟨b', -, hb'⟩ := np_max hny
  have hx := List.mem_map_of_mem (f := Sample.x) hs
  have hx' := List.mem_map_of_mem (f := Sample.x) hs'
  have hy := List.mem_map_of_mem (f := Sample.y) hs
  have hy' := List.mem_map_of_mem (f := Sample.y) hs'
  obtain ⟨x0, x1, y0, y1, hbox, h1, h2⟩ := C56_positive (tol := 1 / 10 ^ 12) (by positivity) ha hb ha' hb' (by
    rcases hss with hss | hss
    · left
      rcases lt_or_gt_of_ne hss with hl | hl
      · exact (ha.2 _ hx).trans_lt (hl.trans_le (hb.2 _ hx'))
      · exact (ha.2 _ hx').trans_lt (hl.trans_le (hb.2 _ hx))
    · right
      rcases lt_or_gt_of_ne hss with hl | hl
      · exact (ha'.2 _ hy).trans_lt (hl.trans_le (hb'.2 _ hy'))
      · exact (ha'.2 _ hy').trans_lt (hl.trans_le (hb'.2 _ hy)))
  have ht : 0 < 0.01 * min (x1 - x0) (y1 - y0) := mul_pos (by norm_num) (lt_min (by linarith) (by linarith))
  refine ⟨x0, x1, y0, y1, hbox, ht, fun fuel hf => ?_⟩
  have hs := searchLoop_spec h hne inside (x0, x1, y0, y1) ht 0 fuel 0 c.interior (by omega) (by omega)
    (fun hn => absurd (by exact_mod_cast ht) hn)
  simp only [ContourG.findInteriorPoint, h.guard, h.getSampledPoints, bind, Except.bind, hbox]
  norm_num only [pow_zero, mul_one] at hs ⊢
  rcases hs with ⟨v, hs, hv⟩ | hs
  · left; exact ⟨v, by rw [hs], hv⟩
  · right; rw [hs]

/-- C32: an unsampled contour is refused. -/
theorem C32_unsampled {c : ContourG} (inside : InsideTest) (fuel : ℕ) (h : ∃ e ∈ c.edges, e.pts = none) :
    c.findInteriorPoint inside fuel = some (.error .notParameterized) := by
  obtain ⟨e, he, hp⟩ := h
  have : c.isParameterized = false := by
    rw [ContourG.isParameterized, List.all_eq_false]
    exact ⟨e, he, by simp [hp]⟩
  simp [ContourG.findInteriorPoint, ContourG.guard, this, bind, Except.bind]

end PFEM
