import Verif.Props.Interior

/-!
Property theorems C30 (the outer boundary comes first), and test shapes.
-/

namespace PFEM
open EdgeG

/-- the sample points of a contour, as the corners of a polygon -/
def ContourG.polygon (c : ContourG) : List (ℝ × ℝ) := c.cols.map fun s => (s.x, s.y)

/-- all sample points of `b` lie inside the polygon of `a` -/
def Surrounds (inside : InsideTest) (a b : ContourG) : Prop := ∀ p ∈ b.polygon, inside a.polygon p = true

theorem contains_eq {a b : ContourG} (ha : a.Ready) (hb : b.Ready) (inside : InsideTest) :
    ∃ r : Bool, CellG.contains inside a b = .ok r ∧ (r = true ↔ Surrounds inside a b) := by
  have h1 : ContourG.mapPy (ContourG.isInInterior inside a) ((b.cols.map Sample.x).zip (b.cols.map Sample.y)) =
      .ok (((b.cols.map Sample.x).zip (b.cols.map Sample.y)).map (inside a.polygon)) :=
    mapPy_ok fun p _ => inInterior_eq ha inside p
  refine ⟨(((b.cols.map Sample.x).zip (b.cols.map Sample.y)).map (inside a.polygon)).all id,
    by simp only [CellG.contains, hb.getSampledPoints, bind, Except.bind, h1], ?_⟩
  rw [List.zip_map']
  simp [Surrounds, ContourG.polygon]

theorem outerInner_false {inside : InsideTest} {i outer : ℕ} {ci : ContourG} (hi : ci.Ready) : ∀ (l : List ContourG),
    (∀ c ∈ l, c.Ready) → (∀ c ∈ l, ¬ Surrounds inside ci c) → CellG.outerInner inside i ci outer l = .ok outer
  | [], _, _ => rfl
  | c :: l, hr, h => by
    obtain ⟨r, h1, h2⟩ := contains_eq hi (hr c (by simp)) inside
    have : r = false := by
      cases r
      · rfl
      · exact absurd (h2.1 rfl) (h c (by simp))
    subst this
    simp only [CellG.outerInner, h1, bind, Except.bind, Bool.false_eq_true, if_false]
    exact outerInner_false hi l (fun c hc => hr c (by simp [hc])) fun c hc => h c (by simp [hc])

theorem outerInner_true {inside : InsideTest} {i outer : ℕ} {ci : ContourG} (hi : ci.Ready) : ∀ (l : List ContourG), l ≠ [] →
    (∀ c ∈ l, c.Ready) → (∀ c ∈ l, Surrounds inside ci c) → CellG.outerInner inside i ci outer l = .ok i
  | [], h, _, _ => absurd rfl h
  | c :: l, _, hr, h => by
    obtain ⟨r, h1, h2⟩ := contains_eq hi (hr c (by simp)) inside
    have : r = true := h2.2 (h c (by simp))
    subst this
    simp only [CellG.outerInner, h1, bind, Except.bind, if_true]
    cases l with
    | nil => rfl
    | cons d l => exact outerInner_true hi (d :: l) (by simp) (fun c hc => hr c (by simp [hc])) fun c hc => h c (by simp [hc])

/-- if no contour of the list surrounds a later one, the index stays as it is -/
theorem outerLoop_none {inside : InsideTest} : ∀ (l : List ContourG) (i outer : ℕ), (∀ c ∈ l, c.Ready) →
    l.Pairwise (fun a b => ¬ Surrounds inside a b) → CellG.outerLoop inside i outer l = .ok outer
  | [], _, _, _, _ => rfl
  | c :: l, i, outer, hr, hp => by
    obtain ⟨h1, h2⟩ := List.pairwise_cons.1 hp
    simp only [CellG.outerLoop, outerInner_false (hr c (by simp)) l (fun c hc => hr c (by simp [hc])) h1, bind, Except.bind]
    exact outerLoop_none l (i + 1) outer (fun c hc => hr c (by simp [hc])) h2

theorem outerLoop_one {inside : InsideTest} {o : ContourG} {suf : List ContourG} (hs : suf ≠ []) : ∀ (pre : List ContourG) (i outer : ℕ),
    (∀ c ∈ pre ++ o :: suf, c.Ready) → (∀ c ∈ suf, Surrounds inside o c) →
    suf.Pairwise (fun a b => ¬ Surrounds inside a b) → (pre ++ o :: suf).Pairwise (fun a b => a ∈ pre → ¬ Surrounds inside a b) →
    CellG.outerLoop inside i outer (pre ++ o :: suf) = .ok (i + pre.length)
  | [], i, outer, hr, ho, hp, _ => by
    simp only [List.nil_append, CellG.outerLoop]
    rw [outerInner_true (hr o (by simp)) suf hs (fun c hc => hr c (by simp [hc])) ho]
    simp only [bind, Except.bind]
    rw [outerLoop_none suf (i + 1) i (fun c hc => hr c (by simp [hc])) hp]
    rfl
  | c :: pre, i, outer, hr, ho, hp, hq => by
    simp only [List.cons_append] at hq hr ⊢
    obtain ⟨h1, h2⟩ := List.pairwise_cons.1 hq
    simp only [CellG.outerLoop]
    rw [outerInner_false (hr c (by simp)) _ (fun d hd => hr d (List.mem_cons_of_mem _ hd)) fun d hd => h1 d hd (by simp)]
    simp only [bind, Except.bind]
    rw [outerLoop_one hs pre (i + 1) outer (fun d hd => hr d (List.mem_cons_of_mem _ hd)) ho hp
      (h2.imp fun hab ha => hab (by simp [ha]))]
    congr 1
    simp; omega

/-- C30: whatever the shapes, the components after `_find_outer_boundary` are a permutation of those before. -/
theorem C30_permutation {inside : InsideTest} {K K1 : CellG} (h : K.findOuter inside = .ok K1) :
    K1.components.Perm K.components := by
  obtain ⟨-, -, h⟩ := bind_ok h
  obtain ⟨k, -, h⟩ := bind_ok h
  obtain ⟨cs, hcs, h⟩ := bind_ok h
  cases h
  exact swap0_perm hcs

/-- one contour, at place `k`, surrounds all the others, and no other contour surrounds one -/
structure OneOuter (inside : InsideTest) (l : List ContourG) (k : ℕ) (o : ContourG) : Prop where
  place : l[k]? = some o
  outer : ∀ (j : ℕ) c, j ≠ k → l[j]? = some c → Surrounds inside o c
  other : ∀ (i j : ℕ) a b, i ≠ k → i ≠ j → l[i]? = some a → l[j]? = some b → ¬ Surrounds inside a b

theorem swap0_head {α : Type} {l : List α} {k : ℕ} {o : α} (h : l[k]? = some o) : ∃ l', CellG.swap0 l k = .ok l' ∧ l'[0]? = some o := by
  obtain ⟨hk, -⟩ := List.getElem?_eq_some_iff.1 h
  obtain ⟨t, ht⟩ : ∃ t, l[0]? = some t := ⟨_, List.getElem?_eq_getElem (by omega)⟩
  refine ⟨(l.set 0 o).set k t, by simp only [CellG.swap0, Np.get, ht, h, bind, Except.bind], ?_⟩
  rw [List.getElem?_set, List.getElem?_set]
  split
  · next h0 =>
    subst h0
    rw [h] at ht
    cases ht
    rw [if_pos (by simpa using hk)]
  · rw [if_pos rfl, if_pos (by omega)]

/-- C30, where it holds (the full statement is for every order of the components): if one contour surrounds all the others
and is not the last one, or is the only one, then it is the first component afterwards. -/
theorem C30_outer_partial {inside : InsideTest} {K : CellG} (h : ∀ c ∈ K.components, c.Ready) {k : ℕ} {o : ContourG}
    (ho : OneOuter inside K.components k o) (hk : k + 1 < K.components.length ∨ K.components.length = 1) :
    ∃ K1, K.findOuter inside = .ok K1 ∧ K1.components[0]? = some o ∧ K1.components.Perm K.components := by
  have hg : K.guard = .ok () := by
    have : K.isParameterized = true := by
      rw [CellG.isParameterized, List.all_eq_true]
      intro c hc
      rw [ContourG.isParameterized, List.all_eq_true]
      intro e he
      obtain ⟨L, hL, -⟩ := (h c hc).sampled e he
      simp [hL]
    simp [CellG.guard, this]
  obtain ⟨hklt, hko⟩ := List.getElem?_eq_some_iff.1 ho.place
  have hloop : CellG.outerLoop inside 0 0 K.components = .ok k := by
    rcases hk with hk | hk
    · have hsplit : K.components = K.components.take k ++ o :: K.components.drop (k + 1) := by
        rw [← hko, List.getElem_cons_drop, List.take_append_drop]
      have hlen : (K.components.take k).length = k := by simp; omega
      have := outerLoop_one (inside := inside) (o := o) (suf := K.components.drop (k + 1)) (by simp; omega) (K.components.take k) 0 0
        (by rw [← hsplit]; exact h) ?_ ?_ ?_
      · rw [← hsplit, hlen, zero_add] at this; exact this
      · intro c hc
        obtain ⟨j, hj⟩ := List.getElem?_of_mem hc
        rw [List.getElem?_drop] at hj
        exact ho.outer (k + 1 + j) c (by omega) hj
      · rw [List.pairwise_iff_getElem]
        intro i j hi hj hij
        refine ho.other (k + 1 + i) (k + 1 + j) _ _ (by omega) (by omega) ?_ ?_
        · rw [← List.getElem?_drop, List.getElem?_eq_getElem]
        · rw [← List.getElem?_drop, List.getElem?_eq_getElem]
      · rw [List.pairwise_iff_getElem]
        intro i j hi hj hij hmem hsur
        have hi' : i < K.components.length := by rw [← hsplit] at hi; exact hi
        have hj' : j < K.components.length := by rw [← hsplit] at hj; exact hj
        have ei : (K.components.take k ++ o :: K.components.drop (k + 1))[i] = K.components[i] := by
          congr 1; exact hsplit.symm
        have ej : (K.components.take k ++ o :: K.components.drop (k + 1))[j] = K.components[j] := by
          congr 1; exact hsplit.symm
        rw [ei, ej] at hsur
        rw [ei] at hmem
        obtain ⟨i2, hi2⟩ := List.getElem?_of_mem hmem
        have hi2k : i2 < k := by
          by_contra hge
          rw [List.getElem?_take, if_neg hge] at hi2; cases hi2
        rw [List.getElem?_take, if_pos hi2k] at hi2
        by_cases hik : i = k
        · -- `o` also occurs before `k`
          have hok : K.components[i] = o := by subst hik; exact hko
          by_cases hj2 : i2 = j
          · omega
          · exact ho.other i2 j _ _ (by omega) hj2 hi2 (List.getElem?_eq_getElem hj') hsur
        · exact ho.other i j _ _ hik (by omega) (List.getElem?_eq_getElem hi') (List.getElem?_eq_getElem hj') hsur
    · obtain ⟨c, hc⟩ := List.length_eq_one_iff.1 hk
      rw [hc]
      have : k = 0 := by omega
      subst this
      rw [hc] at h
      exact outerLoop_none [c] 0 0 h (by simp)
  obtain ⟨l', h1, h2⟩ := swap0_head ho.place
  have hfo : K.findOuter inside = .ok { K with components := l' } := by
    simp only [CellG.findOuter, hg, bind, Except.bind, hloop, h1]
  exact ⟨_, hfo, h2, C30_permutation hfo⟩

/-- C30 fails if the outer contour is the last of several: the components stay as they are, so a hole comes first. -/
theorem C30_outer_last {inside : InsideTest} {K : CellG} (h : ∀ c ∈ K.components, c.Ready) {k : ℕ} {o : ContourG}
    (ho : OneOuter inside K.components k o) (hk : k + 1 = K.components.length) :
    ∃ K1, K.findOuter inside = .ok K1 ∧ K1.components = K.components := by
  have hg : K.guard = .ok () := by
    have : K.isParameterized = true := by
      rw [CellG.isParameterized, List.all_eq_true]
      intro c hc
      rw [ContourG.isParameterized, List.all_eq_true]
      intro e he
      obtain ⟨L, hL, -⟩ := (h c hc).sampled e he
      simp [hL]
    simp [CellG.guard, this]
  have hloop : CellG.outerLoop inside 0 0 K.components = .ok 0 := by
    refine outerLoop_none _ _ _ h ?_
    rw [List.pairwise_iff_getElem]
    intro i j hi hj hij
    exact ho.other i j _ _ (by omega) (by omega) (List.getElem?_eq_getElem hi) (List.getElem?_eq_getElem hj)
  obtain ⟨t, ht⟩ : ∃ t, K.components[0]? = some t := ⟨_, List.getElem?_eq_getElem (by omega)⟩
  refine ⟨{ K with components := (K.components.set 0 t).set 0 t },
    by simp only [CellG.findOuter, hg, bind, Except.bind, hloop, CellG.swap0, Np.get, ht], ?_⟩
  obtain ⟨h0, rfl⟩ := List.getElem?_eq_some_iff.1 ht
  simp

/-! ### test shapes -/

/-- the strict test of a point against a convex polygon traversed counterclockwise: left of all sides -/
noncomputable def convexInside : InsideTest := fun poly p =>
  decide (∀ q ∈ poly.zip (poly.rotate 1), 0 < (q.2.1 - q.1.1) * (p.2 - q.1.2) - (q.2.2 - q.1.2) * (p.1 - q.1.1))

/-- the square with corners `(±r, ±r)`, sampled at its corners (tangents and speeds are not used here) -/
noncomputable def squareContour (r : ℝ) : ContourG :=
  { edges := [{ unitCircle "trap" [] with pts := some [⟨-r, -r, 1, 0, 0, -1, 1, 0⟩, ⟨r, -r, 1, 0, 0, -1, 1, 0⟩,
      ⟨r, r, 1, 0, 0, -1, 1, 0⟩, ⟨-r, r, 1, 0, 0, -1, 1, 0⟩, ⟨-r, -r, 1, 0, 0, -1, 1, 0⟩] }]
    orients := [1], numPts := 4, vertIdx := [0, 4], closest := [0, 0, 0, 0] }

theorem square_ready (r : ℝ) : (squareContour r).Ready := by
  refine ⟨?_, ?_, ?_⟩
  · intro e he
    simp only [squareContour, List.mem_singleton] at he
    subst he
    exact ⟨_, rfl, by simp⟩
  · simp [squareContour, ContourG.cols, EdgeG.cols]
  · simp [squareContour, EdgeG.cols, List.range_succ, blockStart]

theorem square_inside (r x y : ℝ) (hr : 0 < r) :
    convexInside (squareContour r).polygon (x, y) = true ↔ -r < x ∧ x < r ∧ -r < y ∧ y < r := by
  simp only [convexInside, squareContour, ContourG.polygon, ContourG.cols, EdgeG.cols, List.flatMap_cons, List.flatMap_nil,
    Option.getD_some, List.dropLast, List.append_nil, List.map_cons, List.map_nil, decide_eq_true_eq]
  simp only [List.rotate, List.zip]
  simp
  constructor
  · rintro ⟨h1, h2, h3, h4⟩
    refine ⟨?_, ?_, ?_, ?_⟩ <;> nlinarith
  · rintro ⟨h1, h2, h3, h4⟩
    refine ⟨?_, ?_, ?_, ?_⟩ <;> nlinarith

theorem square_polygon (r : ℝ) : (squareContour r).polygon = [(-r, -r), (r, -r), (r, r), (-r, r)] := by
  simp [squareContour, ContourG.polygon, ContourG.cols, EdgeG.cols]

theorem square_surrounds {a b : ℝ} (ha : 0 < a) (hb : 0 < b) : Surrounds convexInside (squareContour a) (squareContour b) ↔ b < a := by
  rw [Surrounds, square_polygon b]
  simp only [List.mem_cons, List.not_mem_nil, or_false, forall_eq_or_imp, forall_eq, square_inside a _ _ ha]
  constructor
  · rintro ⟨-, -, ⟨-, h, -⟩, -⟩; exact h
  · intro h
    refine ⟨⟨?_, ?_, ?_, ?_⟩, ⟨?_, ?_, ?_, ?_⟩, ⟨?_, ?_, ?_, ?_⟩, ?_, ?_, ?_, ?_⟩ <;> linarith

/-- a cell with the given contours, not yet sampled as a whole -/
noncomputable def squareCell (l : List ℝ) : CellG :=
  { components := l.map squareContour, meshSize := (3, 3) }

theorem squareCell_ready (l : List ℝ) : ∀ c ∈ (squareCell l).components, c.Ready := by
  intro c hc
  obtain ⟨r, -, rfl⟩ := List.mem_map.1 hc
  exact square_ready r

theorem oneOuter_first : OneOuter convexInside (squareCell [2, 1]).components 0 (squareContour 2) := by
  refine ⟨rfl, ?_, ?_⟩
  · intro j c hj hc
    match j, hj, hc with
    | 1, _, hc => cases hc; exact (square_surrounds (by norm_num) (by norm_num)).2 (by norm_num)
    | j + 2, _, hc => simp [squareCell] at hc
  · intro i j a b hi hij ha hb
    match i, hi, ha with
    | 1, _, ha =>
      cases ha
      match j, hij, hb with
      | 0, _, hb => cases hb; rw [square_surrounds (by norm_num) (by norm_num)]; norm_num
      | j + 2, _, hb => simp [squareCell] at hb
    | i + 2, _, ha => simp [squareCell] at ha

theorem oneOuter_last : OneOuter convexInside (squareCell [1, 2]).components 1 (squareContour 2) := by
  refine ⟨rfl, ?_, ?_⟩
  · intro j c hj hc
    match j, hj, hc with
    | 0, _, hc => cases hc; exact (square_surrounds (by norm_num) (by norm_num)).2 (by norm_num)
    | j + 2, _, hc => simp [squareCell] at hc
  · intro i j a b hi hij ha hb
    match i, hi, ha with
    | 0, _, ha =>
      cases ha
      match j, hij, hb with
      | 1, _, hb => cases hb; rw [square_surrounds (by norm_num) (by norm_num)]; norm_num
      | j + 2, _, hb => simp [squareCell] at hb
    | i + 2, _, ha => simp [squareCell] at ha

/-- the square of side 4 before the square of side 2: the hypotheses of `C30_outer_partial` hold -/
example : ∃ K1, (squareCell [2, 1]).findOuter convexInside = .ok K1 ∧ K1.components[0]? = some (squareContour 2) ∧
    K1.components.Perm (squareCell [2, 1]).components :=
  C30_outer_partial (squareCell_ready _) oneOuter_first (Or.inl (by simp [squareCell]))

/-- C30 is violated: the square of side 2 listed before the square of side 4 around it stays the first component. -/
theorem C30_violated : ∃ (K K1 : CellG), (∀ c ∈ K.components, c.Ready) ∧ K.findOuter convexInside = .ok K1 ∧
    K1.components = [squareContour 1, squareContour 2] ∧
    Surrounds convexInside (squareContour 2) (squareContour 1) ∧ ¬ Surrounds convexInside (squareContour 1) (squareContour 2) := by
  obtain ⟨K1, h1, h2⟩ := C30_outer_last (squareCell_ready [1, 2]) oneOuter_last (by simp [squareCell])
  refine ⟨_, K1, squareCell_ready [1, 2], h1, h2, ?_, ?_⟩
  · rw [square_surrounds (by norm_num) (by norm_num)]; norm_num
  · rw [square_surrounds (by norm_num) (by norm_num)]; norm_num

end PFEM
