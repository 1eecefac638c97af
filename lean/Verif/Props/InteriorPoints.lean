import Verif.Props.OuterBoundary

/-!
Property theorems C31 (interior points of a cell), and examples for C32.
-/

namespace PFEM
open EdgeG

/-! ### distance from the boundary of a cell -/

/-- all samples of a cell, the last ones of the edges included -/
def CellG.samples (K : CellG) : List Sample := K.components.flatMap ContourG.samples

theorem cell_distLoop {x y : ℝ} : ∀ (l : List ContourG) (d0 : WithTop ℝ), (∀ c ∈ l, c.Ready) → (∀ c ∈ l, c.edges ≠ []) →
    ∃ d, CellG.distLoop x y d0 l = .ok d ∧ d ≤ d0 ∧ (∀ s ∈ l.flatMap ContourG.samples, d ≤ (sampleDist x y s : WithTop ℝ)) ∧
      (d = d0 ∨ ∃ s ∈ l.flatMap ContourG.samples, d = (sampleDist x y s : WithTop ℝ))
  | [], d0, _, _ => ⟨d0, rfl, le_rfl, by simp, Or.inl rfl⟩
  | c :: l, d0, hr, hne => by
    obtain ⟨r, hd, ⟨h1, s0, hs0, h2⟩, -⟩ := distance_spec (hr c (by simp)).sampled (hne c (by simp)) x y
    obtain ⟨d, e1, e2, e3, e4⟩ := cell_distLoop (x := x) (y := y) l (min d0 (r : WithTop ℝ)) (fun c hc => hr c (by simp [hc]))
      fun c hc => hne c (by simp [hc])
    refine ⟨d, by simp only [CellG.distLoop, hd, bind, Except.bind, e1], e2.trans (min_le_left _ _), ?_, ?_⟩
    · intro s hs
      rw [List.flatMap_cons, List.mem_append] at hs
      rcases hs with hs | hs
      · exact (e2.trans (min_le_right _ _)).trans (WithTop.coe_le_coe.2 (h1 s hs))
      · exact e3 s hs
    · rcases e4 with e4 | ⟨s, hs, e4⟩
      · rcases min_cases d0 (r : WithTop ℝ) with ⟨h5, -⟩ | ⟨h5, -⟩
        · left; rw [e4, h5]
        · right; exact ⟨s0, by simp [hs0], by rw [e4, h5, h2]⟩
      · right; exact ⟨s, by rw [List.flatMap_cons, List.mem_append]; exact Or.inr hs, e4⟩

/-- `get_distance_to_boundary` of a sampled cell is the least distance from its samples -/
theorem cell_distance {K : CellG} (h : K.Ready) (hK : K.components ≠ []) (hne : ∀ c ∈ K.components, c.edges ≠ []) (x y : ℝ) :
    ∃ r : ℝ, K.distance x y = .ok (r : WithTop ℝ) ∧ IsDist K.samples x y r := by
  obtain ⟨d, h1, -, h3, h4⟩ := cell_distLoop (x := x) (y := y) K.components ⊤ h.ready hne
  have : ∃ s ∈ K.samples, d = (sampleDist x y s : WithTop ℝ) := by
    rcases h4 with h4 | h4
    · obtain ⟨c, cs, hc⟩ := List.exists_cons_of_ne_nil hK
      obtain ⟨r, -, ⟨-, s, hs, -⟩, -⟩ := distance_spec (h.ready c (by simp [hc])).sampled (hne c (by simp [hc])) x y
      have := h3 s (by rw [hc]; simp [hs])
      rw [h4, top_le_iff] at this
      exact absurd this WithTop.coe_ne_top
    · exact h4
  obtain ⟨s, hs, rfl⟩ := this
  refine ⟨sampleDist x y s, by simp only [CellG.distance, h.guard, bind, Except.bind, h1], ?_, s, hs, rfl⟩
  intro s' hs'
  exact WithTop.coe_le_coe.1 (h3 s' hs')

/-! ### the mask -/

/-- the matrix with `R` rows and `C` columns and entries `f i j` -/
def mat {α : Type} (R C : ℕ) (f : ℕ → ℕ → α) : List (List α) :=
  (List.range R).map fun i => (List.range C).map (f i)

theorem mat_row {α : Type} {R C : ℕ} (f : ℕ → ℕ → α) {i : ℕ} (hi : i < R) :
    Np.get (mat R C f) i = .ok ((List.range C).map (f i)) := by
  simp [Np.get, mat, hi]

theorem row_get {α : Type} {C : ℕ} (f : ℕ → α) {j : ℕ} (hj : j < C) : Np.get ((List.range C).map f) j = .ok (f j) := by
  simp [Np.get, hj]

theorem mat_set {α : Type} {R C : ℕ} (f : ℕ → ℕ → α) {i j : ℕ} (v : α) :
    (mat R C f).set i (((List.range C).map (f i)).set j v) = mat R C fun i' j' => if i' = i ∧ j' = j then v else f i' j' := by
  refine List.ext_getElem (by simp [mat]) fun a h1 h2 => ?_
  rw [List.getElem_set]
  split
  · next ha =>
    subst ha
    simp only [mat, List.getElem_map, List.getElem_range]
    refine List.ext_getElem (by simp) fun b h1 h2 => ?_
    rw [List.getElem_set]
    by_cases hb : j = b
    · simp [hb]
    · simp [hb, Ne.symm hb]
  · next ha =>
    simp only [mat, List.getElem_map, List.getElem_range]
    have : ∀ b, ¬ (a = i ∧ b = j) := fun b h => ha h.1.symm
    simp [this]

theorem mat_map {α β : Type} {R C : ℕ} (f : ℕ → ℕ → α) (g : α → β) :
    (mat R C f).map (fun r => r.map g) = mat R C fun i j => g (f i j) := by
  simp [mat, Function.comp_def]

/-- the loop over pairs of indices inside the matrix -/
theorem nearLoop_ok {K : CellG} {R C : ℕ} {p : ℕ → ℕ → ℝ × ℝ} {md : ℝ} {D : ℕ → ℕ → Bool}
    (hD : ∀ i j, ∃ r : ℝ, K.distance (p i j).1 (p i j).2 = .ok (r : WithTop ℝ) ∧ (D i j = true ↔ r < md)) :
    ∀ (idx : List (ℕ × ℕ)) (f : ℕ → ℕ → Bool), (∀ q ∈ idx, q.1 < R ∧ q.2 < C) →
    K.nearLoop (mat R C p) md (mat R C f) idx = .ok (mat R C fun i j => f i j && !(decide ((i, j) ∈ idx) && D i j))
  | [], f, _ => by simp [CellG.nearLoop]
  | (i, j) :: idx, f, h => by
    obtain ⟨hi, hj⟩ := h (i, j) (by simp)
    have ih := nearLoop_ok (R := R) (C := C) hD idx
    have h' : ∀ q ∈ idx, q.1 < R ∧ q.2 < C := fun q hq => h q (by simp [hq])
    obtain ⟨r, h1, h2⟩ := hD i j
    simp only [CellG.nearLoop, mat_row _ hi, row_get _ hj, bind, Except.bind]
    by_cases hf : f i j = true
    · rw [if_pos hf]
      simp only [h1]
      by_cases hd : r < md
      · rw [if_pos (WithTop.coe_lt_coe.2 hd), mat_set, ih _ h']
        congr 1
        congr 1
        funext a b
        by_cases hab : a = i ∧ b = j
        · obtain ⟨rfl, rfl⟩ := hab
          simp [h2.2 hd]
        · have : ¬ ((a, b) = (i, j)) := fun h => hab (by simpa using h)
          simp [hab]
      · rw [if_neg (fun h => hd (WithTop.coe_lt_coe.1 h)), ih _ h']
        congr 1
        congr 1
        funext a b
        by_cases hab : a = i ∧ b = j
        · obtain ⟨rfl, rfl⟩ := hab
          have : D a b = false := by
            cases hb : D a b
            · rfl
            · exact absurd (h2.1 hb) hd
          simp [this]
        · simp [hab]
    · rw [if_neg hf, ih _ h']
      congr 1
      congr 1
      funext a b
      by_cases hab : a = i ∧ b = j
      · obtain ⟨rfl, rfl⟩ := hab
        simp [Bool.eq_false_iff.2 hf]
      · simp [hab]

/-- a pair of indices outside the matrix raises an `IndexError` -/
theorem nearLoop_error {K : CellG} {R C : ℕ} {p : ℕ → ℕ → ℝ × ℝ} {md : ℝ}
    (hD : ∀ i j, ∃ r : ℝ, K.distance (p i j).1 (p i j).2 = .ok (r : WithTop ℝ)) :
    ∀ (idx : List (ℕ × ℕ)) (f : ℕ → ℕ → Bool), (∃ q ∈ idx, ¬ (q.1 < R ∧ q.2 < C)) →
    K.nearLoop (mat R C p) md (mat R C f) idx = .error .indexError
  | [], f, h => by simp at h
  | (i, j) :: idx, f, h => by
    by_cases hij : i < R ∧ j < C
    · have h' : ∃ q ∈ idx, ¬ (q.1 < R ∧ q.2 < C) := by
        obtain ⟨q, hq, h⟩ := h
        rcases List.mem_cons.1 hq with rfl | hq
        · exact absurd hij h
        · exact ⟨q, hq, h⟩
      obtain ⟨r, h1⟩ := hD i j
      simp only [CellG.nearLoop, mat_row _ hij.1, row_get _ hij.2, bind, Except.bind]
      split
      · simp only [h1]
        split
        · rw [mat_set]; exact nearLoop_error hD idx _ h'
        · exact nearLoop_error hD idx _ h'
      · exact nearLoop_error hD idx _ h'
    · by_cases hi : i < R
      · have hj : ¬ j < C := fun hj => hij ⟨hi, hj⟩
        simp only [CellG.nearLoop, mat_row _ hi, bind, Except.bind]
        simp [Np.get, hj]
      · simp only [CellG.nearLoop, bind, Except.bind]
        simp [Np.get, mat, hi]

theorem mat_pick {α : Type} {R C : ℕ} (p : ℕ → ℕ → α) (f : ℕ → ℕ → Bool) (a : α) :
    a ∈ ((((mat R C p).flatten).zip (mat R C f).flatten).filter Prod.snd).map Prod.fst ↔
      ∃ i j, i < R ∧ j < C ∧ a = p i j ∧ f i j = true := by
  have : ((mat R C p).flatten).zip (mat R C f).flatten = (mat R C fun i j => (p i j, f i j)).flatten := by
    have e1 : (mat R C p).flatten = (mat R C fun i j => (p i j, f i j)).flatten.map Prod.fst := by
      rw [List.map_flatten, mat_map]
    have e2 : (mat R C f).flatten = (mat R C fun i j => (p i j, f i j)).flatten.map Prod.snd := by
      rw [List.map_flatten, mat_map]
    rw [e1, e2, List.zip_map']
    simp
  rw [this]
  simp only [List.mem_map, List.mem_filter, List.mem_flatten, mat, List.mem_range]
  constructor
  · rintro ⟨⟨b, v⟩, ⟨⟨row, ⟨i, hi, rfl⟩, hb⟩, hv⟩, rfl⟩
    obtain ⟨j, hj, hb⟩ := List.mem_map.1 hb
    obtain ⟨rfl, rfl⟩ := Prod.mk.inj hb
    exact ⟨i, j, hi, List.mem_range.1 hj, rfl, hv⟩
  · rintro ⟨i, j, hi, hj, rfl, hv⟩
    exact ⟨(p i j, f i j), ⟨⟨_, ⟨i, hi, rfl⟩, List.mem_map.2 ⟨j, List.mem_range.2 hj, rfl⟩⟩, hv⟩, rfl⟩

/-! ### C31 -/

/-- The region of a cell, as seen by the inside test: inside the first contour and inside no other one. -/
def InRegion (inside : InsideTest) (K : CellG) (p : ℝ × ℝ) : Prop :=
  ∃ c cs, K.components = c :: cs ∧ inside c.polygon p = true ∧ ∀ h ∈ cs, inside h.polygon p = false

theorem cell_inInterior {K : CellG} (h : K.Ready) (hK : K.components ≠ []) (inside : InsideTest) :
    ∃ b : ℝ × ℝ → Bool, ∀ p, K.isInInterior inside p = .ok (b p) ∧ (b p = true ↔ InRegion inside K p) := by
  obtain ⟨c, cs, hc⟩ := List.exists_cons_of_ne_nil hK
  have hr := h.ready
  rw [hc] at hr
  refine ⟨fun p => inside c.polygon p && (cs.map fun h => inside h.polygon p).all (!·), fun p => ⟨?_, ?_⟩⟩
  · have h1 : ContourG.mapPy (fun h => ContourG.isInInterior inside h p) cs = .ok (cs.map fun h => inside h.polygon p) :=
      mapPy_ok fun a ha => inInterior_eq (hr a (by simp [ha])) inside p
    simp only [CellG.isInInterior, h.guard, bind, Except.bind, hc, inInterior_eq (hr c (by simp)) inside p, h1]
    rfl
  · simp only [InRegion, hc]
    constructor
    · intro hb
      simp only [List.all_map, Bool.and_eq_true, List.all_eq_true] at hb
      exact ⟨c, cs, rfl, hb.1, fun a ha => by simpa using hb.2 a ha⟩
    · rintro ⟨c', cs', hcs, h1, h2⟩
      obtain ⟨rfl, rfl⟩ := List.cons.inj hcs
      simp only [List.all_map, Bool.and_eq_true, List.all_eq_true]
      exact ⟨h1, fun a ha => by simpa using h2 a ha⟩

/-- The box spanned by the samples of a cell. -/
structure IsBox (l : List Sample) (x0 x1 y0 y1 : ℝ) : Prop where
  xmin : IsLeast {x | ∃ s ∈ l, x = s.x} x0
  xmax : IsGreatest {x | ∃ s ∈ l, x = s.x} x1
  ymin : IsLeast {y | ∃ s ∈ l, y = s.y} y0
  ymax : IsGreatest {y | ∃ s ∈ l, y = s.y} y1

theorem cell_box {K : CellG} (h : K.Ready) (hK : K.cols ≠ []) :
    ∃ x0 x1 y0 y1, K.boundingBox = .ok (x0, x1, y0, y1) ∧ IsBox K.cols x0 x1 y0 y1 := by
  obtain ⟨x0, a1, a2, a3⟩ := np_min (l := K.cols.map Sample.x) (by simpa using hK)
  obtain ⟨x1, b1, b2, b3⟩ := np_max (l := K.cols.map Sample.x) (by simpa using hK)
  obtain ⟨y0, c1, c2, c3⟩ := np_min (l := K.cols.map Sample.y) (by simpa using hK)
  obtain ⟨y1, d1, d2, d3⟩ := np_max (l := K.cols.map Sample.y) (by simpa using hK)
  refine ⟨x0, x1, y0, y1, by simp only [CellG.boundingBox, h.guard, h.getBoundaryPoints, bind, Except.bind, a1, b1, c1, d1], ?_⟩
  have key : ∀ (f : Sample → ℝ) (v : ℝ), v ∈ K.cols.map f ↔ v ∈ {x | ∃ s ∈ K.cols, x = f s} := by
    intro f v; simp [eq_comm]
  refine ⟨⟨(key _ _).1 a2, fun v hv => a3 v ((key _ _).2 hv)⟩, ⟨(key _ _).1 b2, fun v hv => b3 v ((key _ _).2 hv)⟩,
    ⟨(key _ _).1 c2, fun v hv => c3 v ((key _ _).2 hv)⟩, ⟨(key _ _).1 d2, fun v hv => d3 v ((key _ _).2 hv)⟩⟩

/-- point `(i, j)` of the regular grid of `m` by `n` points on a box -/
noncomputable def gridPoint (x0 x1 y0 y1 : ℝ) (m n i j : ℕ) : ℝ × ℝ :=
  (x0 + j * ((x1 - x0) / (m - 1)), y0 + i * ((y1 - y0) / (n - 1)))

/-- C31, where it holds (the full statement is for all positive mesh sizes): for a mesh of as many rows as columns, the
points kept are exactly the points of the regular grid on the bounding box that lie in the outer contour and in no hole, and
whose distance from every sample of the boundary is at least the tolerance. -/
theorem C31_points_partial {K : CellG} (h : K.Ready) (hK : K.components ≠ []) (hne : ∀ c ∈ K.components, c.edges ≠ [])
    (inside : InsideTest) {n : ℕ} (hn : K.meshSize = (n, n)) :
    ∃ x0 x1 y0 y1 K1, IsBox K.cols x0 x1 y0 y1 ∧ K.generateInteriorPoints inside = .ok K1 ∧ K1.components = K.components ∧
      ∀ p, p ∈ K1.interior ↔ (∃ i < n, ∃ j < n, p = gridPoint x0 x1 y0 y1 n n i j) ∧ InRegion inside K p ∧
        ∀ s ∈ K.samples, K.atol ≤ sampleDist p.1 p.2 s ∧ K.rtol * min (x1 - x0) (y1 - y0) ≤ sampleDist p.1 p.2 s := by
  have hcols : K.cols ≠ [] := by
    obtain ⟨c, cs, hc⟩ := List.exists_cons_of_ne_nil hK
    obtain ⟨e, es, he⟩ := List.exists_cons_of_ne_nil (hne c (by simp [hc]))
    obtain ⟨L, hL, h2⟩ := (h.ready c (by simp [hc])).sampled e (by simp [he])
    have := cols_length hL
    intro h0
    rw [CellG.cols, hc, List.flatMap_cons, List.append_eq_nil_iff, ContourG.cols, he, List.flatMap_cons, List.append_eq_nil_iff] at h0
    rw [h0.1.1] at this
    simp at this; omega
  obtain ⟨x0, x1, y0, y1, hbox, hB⟩ := cell_box h hcols
  obtain ⟨b, hb⟩ := cell_inInterior h hK inside
  have hgrid : CellG.grid (x0, x1, y0, y1) n n = mat n n (gridPoint x0 x1 y0 y1 n n) := rfl
  have hmask : ContourG.mapPy (ContourG.mapPy (K.isInInterior inside)) (mat n n (gridPoint x0 x1 y0 y1 n n)) =
      .ok (mat n n fun i j => b (gridPoint x0 x1 y0 y1 n n i j)) := by
    rw [mapPy_ok (g := fun r => r.map b) fun r _ => mapPy_ok fun p _ => (hb p).1, mat_map]
  choose r hr hdist using fun i j => cell_distance h hK hne (gridPoint x0 x1 y0 y1 n n i j).1 (gridPoint x0 x1 y0 y1 n n i j).2
  have hloop := nearLoop_ok (K := K) (R := n) (C := n) (p := gridPoint x0 x1 y0 y1 n n)
    (md := max K.atol (K.rtol * min (x1 - x0) (y1 - y0)))
    (D := fun i j => decide (r i j < max K.atol (K.rtol * min (x1 - x0) (y1 - y0))))
    (fun i j => ⟨r i j, hr i j, by simp⟩)
    ((List.range n).flatMap fun i => (List.range n).map fun j => (i, j)) (fun i j => b (gridPoint x0 x1 y0 y1 n n i j)) (by
      rintro ⟨i, j⟩ hq
      simp only [List.mem_flatMap, List.mem_range, List.mem_map, Prod.mk.injEq] at hq
      obtain ⟨i', hi, j', hj, rfl, rfl⟩ := hq
      exact ⟨hi, hj⟩)
  have hgen : K.generateInteriorPoints inside = .ok { K with interior :=
      (((mat n n (gridPoint x0 x1 y0 y1 n n)).flatten.zip (mat n n fun i j => b (gridPoint x0 x1 y0 y1 n n i j) &&
        !(decide ((i, j) ∈ (List.range n).flatMap fun i => (List.range n).map fun j => (i, j)) &&
          decide (r i j < max K.atol (K.rtol * min (x1 - x0) (y1 - y0))))).flatten).filter Prod.snd).map Prod.fst } := by
    simp only [CellG.generateInteriorPoints, hn, hbox, bind, Except.bind, hgrid, hmask, hloop]
  refine ⟨x0, x1, y0, y1, _, hB, hgen, rfl, fun p => ?_⟩
  rw [mat_pick]
  constructor
  · rintro ⟨i, j, hi, hj, rfl, hf⟩
    simp only [Bool.and_eq_true, Bool.not_eq_true', Bool.and_eq_false_iff, decide_eq_false_iff_not, not_lt] at hf
    obtain ⟨hin, hf⟩ := hf
    refine ⟨⟨i, hi, j, hj, rfl⟩, (hb _).2.1 hin, ?_⟩
    rcases hf with hf | hf
    · exact absurd (by simp [hi, hj]) hf
    · intro s hs
      have := hf.trans ((hdist i j).1 s hs)
      exact ⟨(le_max_left _ _).trans this, (le_max_right _ _).trans this⟩
  · rintro ⟨⟨i, hi, j, hj, rfl⟩, hin, hd⟩
    refine ⟨i, j, hi, hj, rfl, ?_⟩
    simp only [Bool.and_eq_true, Bool.not_eq_true', Bool.and_eq_false_iff, decide_eq_false_iff_not, not_lt]
    refine ⟨(hb _).2.2 hin, Or.inr ?_⟩
    obtain ⟨s, hs, hrs⟩ := (hdist i j).2
    rw [hrs]
    exact max_le (hd s hs).1 (hd s hs).2

/-- C31 fails for every other mesh size: with `rows ≠ cols`, both positive, the grid is indexed the wrong way round and
an `IndexError` is raised. -/
theorem C31_rectangular {K : CellG} (h : K.Ready) (hK : K.components ≠ []) (hne : ∀ c ∈ K.components, c.edges ≠ [])
    (inside : InsideTest) {m n : ℕ} (hn : K.meshSize = (m, n)) (hmn : m ≠ n) (hm : 0 < m) (hn0 : 0 < n) :
    K.generateInteriorPoints inside = .error .indexError := by
  have hcols : K.cols ≠ [] := by
    obtain ⟨c, cs, hc⟩ := List.exists_cons_of_ne_nil hK
    obtain ⟨e, es, he⟩ := List.exists_cons_of_ne_nil (hne c (by simp [hc]))
    obtain ⟨L, hL, h2⟩ := (h.ready c (by simp [hc])).sampled e (by simp [he])
    have := cols_length hL
    intro h0
    rw [CellG.cols, hc, List.flatMap_cons, List.append_eq_nil_iff, ContourG.cols, he, List.flatMap_cons, List.append_eq_nil_iff] at h0
    rw [h0.1.1] at this
    simp at this; omega
  obtain ⟨x0, x1, y0, y1, hbox, hB⟩ := cell_box h hcols
  obtain ⟨b, hb⟩ := cell_inInterior h hK inside
  have hgrid : CellG.grid (x0, x1, y0, y1) m n = mat n m (gridPoint x0 x1 y0 y1 m n) := rfl
  have hmask : ContourG.mapPy (ContourG.mapPy (K.isInInterior inside)) (mat n m (gridPoint x0 x1 y0 y1 m n)) =
      .ok (mat n m fun i j => b (gridPoint x0 x1 y0 y1 m n i j)) := by
    rw [mapPy_ok (g := fun r => r.map b) fun r _ => mapPy_ok fun p _ => (hb p).1, mat_map]
  choose r hr hdist using fun i j => cell_distance h hK hne (gridPoint x0 x1 y0 y1 m n i j).1 (gridPoint x0 x1 y0 y1 m n i j).2
  have hloop := nearLoop_error (K := K) (R := n) (C := m) (p := gridPoint x0 x1 y0 y1 m n)
    (md := max K.atol (K.rtol * min (x1 - x0) (y1 - y0))) (fun i j => ⟨r i j, hr i j⟩)
    ((List.range m).flatMap fun i => (List.range n).map fun j => (i, j)) (fun i j => b (gridPoint x0 x1 y0 y1 m n i j)) (by
      refine ⟨(m - 1, n - 1), ?_, ?_⟩
      · simp only [List.mem_flatMap, List.mem_range, List.mem_map, Prod.mk.injEq]
        exact ⟨m - 1, by omega, n - 1, by omega, rfl, rfl⟩
      · show ¬ (m - 1 < n ∧ n - 1 < m)
        omega)
  simp only [CellG.generateInteriorPoints, hn, hbox, bind, Except.bind, hgrid, hmask, hloop]

/-! ### examples -/

/-- the square with corners `(±1, ±1)`, sampled, with a mesh of 3 by 3 points -/
noncomputable def oneSquare (m n : ℕ) : CellG :=
  { components := [squareContour 1], numPts := 4, startIdx := [0, 4], closest := [0, 0, 0, 0], meshSize := (m, n) }

theorem oneSquare_ready (m n : ℕ) : (oneSquare m n).Ready := by
  refine ⟨?_, ?_, ?_⟩
  · intro c hc
    simp only [oneSquare, List.mem_singleton] at hc
    subst hc
    exact square_ready 1
  · simp [oneSquare, CellG.cols, squareContour, ContourG.cols, EdgeG.cols]
  · simp [oneSquare, squareContour, List.range_succ, blockStart]

/-- the centre of the square is an interior point, the corner is not -/
example : ∃ K1, (oneSquare 3 3).generateInteriorPoints convexInside = .ok K1 ∧ ((0 : ℝ), (0 : ℝ)) ∈ K1.interior ∧
    ((1 : ℝ), (1 : ℝ)) ∉ K1.interior := by
  obtain ⟨x0, x1, y0, y1, K1, hB, h1, -, h2⟩ := C31_points_partial (oneSquare_ready 3 3) (by simp [oneSquare])
    (by simp [oneSquare, squareContour]) convexInside rfl
  have hc : (oneSquare 3 3).cols = [⟨-1, -1, 1, 0, 0, -1, 1, 0⟩, ⟨1, -1, 1, 0, 0, -1, 1, 0⟩, ⟨1, 1, 1, 0, 0, -1, 1, 0⟩,
      ⟨-1, 1, 1, 0, 0, -1, 1, 0⟩] := by
    simp [oneSquare, CellG.cols, squareContour, ContourG.cols, EdgeG.cols]
  have ex0 : x0 = -1 := hB.xmin.unique ⟨by simp [hc], by rintro v ⟨s, hs, rfl⟩; rw [hc] at hs; simp at hs; rcases hs with rfl | rfl | rfl | rfl <;> norm_num⟩
  have ex1 : x1 = 1 := hB.xmax.unique ⟨by simp [hc], by rintro v ⟨s, hs, rfl⟩; rw [hc] at hs; simp at hs; rcases hs with rfl | rfl | rfl | rfl <;> norm_num⟩
  have ey0 : y0 = -1 := hB.ymin.unique ⟨by simp [hc], by rintro v ⟨s, hs, rfl⟩; rw [hc] at hs; simp at hs; rcases hs with rfl | rfl | rfl | rfl <;> norm_num⟩
  have ey1 : y1 = 1 := hB.ymax.unique ⟨by simp [hc], by rintro v ⟨s, hs, rfl⟩; rw [hc] at hs; simp at hs; rcases hs with rfl | rfl | rfl | rfl <;> norm_num⟩
  subst ex0 ex1 ey0 ey1
  refine ⟨K1, h1, (h2 _).2 ⟨⟨1, by norm_num, 1, by norm_num, by norm_num [gridPoint]⟩, ?_, ?_⟩, fun hp => ?_⟩
  · exact ⟨squareContour 1, [], rfl, (square_inside 1 0 0 one_pos).2 (by norm_num), by simp⟩
  · intro s hs
    have hs : s.x ^ 2 = 1 ∧ s.y ^ 2 = 1 := by
      simp [CellG.samples, oneSquare, ContourG.samples, squareContour] at hs
      rcases hs with rfl | rfl | rfl | rfl | rfl <;> norm_num
    have h1 : (1 : ℝ) ≤ sampleDist 0 0 s := by
      rw [sampleDist, Real.le_sqrt' one_pos, sub_zero, sub_zero, hs.1, hs.2]; norm_num
    have h3 : (oneSquare 3 3).atol = 0.05 ∧ (oneSquare 3 3).rtol = 0.05 := ⟨rfl, rfl⟩
    constructor
    · rw [h3.1]; exact le_trans (by norm_num) h1
    · rw [h3.2]; exact le_trans (by norm_num) h1
  · obtain ⟨c, cs, hcs, h3, -⟩ := ((h2 _).1 hp).2.1
    cases hcs
    have := (square_inside 1 1 1 one_pos).1 h3
    exact absurd this.2.1 (lt_irrefl _)

/-- C31 is violated: two rows and three columns of points in a square raise an `IndexError`. -/
theorem C31_violated : ∃ K : CellG, K.Ready ∧ K.meshSize = (2, 3) ∧
    ∀ inside, K.generateInteriorPoints inside = .error .indexError :=
  ⟨oneSquare 2 3, oneSquare_ready 2 3, rfl, fun inside => C31_rectangular (oneSquare_ready 2 3) (by simp [oneSquare])
    (by simp [oneSquare, squareContour]) inside rfl (by norm_num) (by norm_num) (by norm_num)⟩

/-- the hypotheses of `C32_search` hold for the square -/
example : (squareContour 1).Ready ∧ (squareContour 1).edges ≠ [] ∧
    ∃ s ∈ (squareContour 1).cols, ∃ s' ∈ (squareContour 1).cols, s.x ≠ s'.x ∨ s.y ≠ s'.y := by
  refine ⟨square_ready 1, by simp [squareContour], ⟨-1, -1, 1, 0, 0, -1, 1, 0⟩, ?_, ⟨1, -1, 1, 0, 0, -1, 1, 0⟩, ?_, ?_⟩
  · simp [squareContour, ContourG.cols, EdgeG.cols]
  · simp [squareContour, ContourG.cols, EdgeG.cols]
  · left; norm_num

end PFEM
