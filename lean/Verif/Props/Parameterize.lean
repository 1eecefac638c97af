import Verif.Props.Interior
import Verif.Props.OuterBoundary
import Verif.Props.Closest
import Verif.Spec.Room

/-!
Property theorems C87: parameterizing cells succeeds.
-/

namespace PFEM
open EdgeG

/-! ### the search finds a point -/

theorem linspace_near {a b q : ℝ} (hab : a < b) (h0 : a ≤ q) (h1 : q ≤ b) :
    ∃ j < 257, |Np.linspace a b 257 j - q| ≤ (b - a) / 512 := by
  have hba : 0 < b - a := by linarith
  set r := (q - a) / (b - a) * 256 with hr
  have hr0 : 0 ≤ r := by have : 0 ≤ q - a := by linarith
                         positivity
  have hr1 : r ≤ 256 := by
    have : (q - a) / (b - a) ≤ 1 := by rw [div_le_one hba]; linarith
    linarith
  have h2 := abs_sub_round r
  have hk0 : 0 ≤ round r := by
    rw [round_eq]; exact Int.floor_nonneg.2 (by linarith)
  have hk1 : round r ≤ 256 := by
    rw [round_eq, ← Int.lt_add_one_iff, Int.floor_lt]
    push_cast
    linarith
  refine ⟨(round r).toNat, by omega, ?_⟩
  have e1 : (((round r).toNat : ℕ) : ℝ) = (round r : ℝ) := by
    rw [← Int.cast_natCast, Int.toNat_of_nonneg hk0]
  have e2 : Np.linspace a b 257 (round r).toNat - q = (round r - r) * ((b - a) / 256) := by
    rw [Np.linspace, e1, hr]
    field_simp
    norm_num
    ring
  rw [e2, abs_mul, abs_sub_comm, abs_of_pos (by positivity : 0 < (b - a) / 256)]
  calc _ ≤ 1 / 2 * ((b - a) / 256) := mul_le_mul_of_nonneg_right h2 (by positivity)
    _ = _ := by ring

theorem distVal_large {c : ContourG} (h : c.Ready) (hne : c.edges ≠ []) {inside : InsideTest} {tol : ℝ} {p : ℝ × ℝ}
    (h1 : inside (c.cols.map fun s => (s.x, s.y)) p = true) (h2 : ∀ s ∈ c.samples, tol ≤ sampleDist p.1 p.2 s) :
    (tol : WithTop ℝ) ≤ distVal inside c p := by
  obtain ⟨r, hr, ⟨-, s, hs, hr2⟩, -⟩ := distance_spec h.sampled hne p.1 p.2
  rw [distVal, if_pos h1, hr]
  simp only [WithTop.coe_le_coe]
  rw [hr2]
  exact h2 s hs

theorem searchLoop_found {c : ContourG} (h : c.Ready) (hne : c.edges ≠ []) (inside : InsideTest) (box : ℝ × ℝ × ℝ × ℝ)
    {tol : ℝ} {k0 : ℕ} (hk0 : k0 < 257 * 257)
    (hgood : (tol : WithTop ℝ) ≤ distVal inside c (ContourG.gridPt box 257 k0)) :
    ∀ (i fuel : ℕ) (d : WithTop ℝ) (pt : Option Vert), i ≤ 5 → 8 ≤ fuel + i →
    ∃ r, ContourG.searchLoop inside c box tol fuel (8 * 2 ^ i + 1) d pt = some (.ok r) := by
  intro i
  induction hj : 5 - i generalizing i with
  | zero =>
    intro fuel d pt hi hf
    obtain rfl : i = 5 := by omega
    obtain ⟨fuel, rfl⟩ : ∃ f, fuel = f + 2 := ⟨fuel - 2, by omega⟩
    by_cases hd : d < tol
    · obtain ⟨k, -, h1, h2, h3, h4⟩ := pass_spec h hne inside box (m := 8 * 2 ^ 5 + 1) (by norm_num)
      unfold ContourG.searchLoop
      rw [if_pos hd, h1]
      simp only [h2, h3]
      rw [if_neg (by norm_num)]
      unfold ContourG.searchLoop
      rw [if_neg]
      · exact ⟨_, rfl⟩
      · exact not_lt.2 (hgood.trans (h4 k0 (by norm_num; omega)))
    · exact ⟨pt, by unfold ContourG.searchLoop; rw [if_neg hd]⟩
  | succ j ih =>
    intro fuel d pt hi hf
    obtain ⟨fuel, rfl⟩ : ∃ f, fuel = f + 1 := ⟨fuel - 1, by omega⟩
    by_cases hd : d < tol
    · obtain ⟨k, -, h1, h2, h3, -⟩ := pass_spec h hne inside box (m := 8 * 2 ^ i + 1) (by omega)
      have hm : 4 * ((8 * 2 ^ i + 1) / 2) + 1 = 8 * 2 ^ (i + 1) + 1 := by rw [pow_succ]; omega
      unfold ContourG.searchLoop
      rw [if_pos hd, h1]
      simp only [h2, hm, h3]
      rw [if_neg]
      · exact ih (i + 1) (by omega) fuel _ _ (by omega) (by omega)
      · have : 2 ^ (i + 1) ≤ 2 ^ 6 := Nat.pow_le_pow_right (by norm_num) (by omega)
        have h64 : 8 * 2 ^ (i + 1) + 1 ≤ 513 := by omega
        have := Nat.mul_le_mul h64 h64
        omega
    · exact ⟨pt, by unfold ContourG.searchLoop; rw [if_neg hd]⟩

theorem samples_mem {c : ContourG} {s : Sample} : s ∈ c.samples ↔ ∃ e ∈ c.edges, s ∈ e.pts.getD [] := by
  simp [ContourG.samples]

/-- C87: the search for an interior point succeeds for every contour with some room inside: if the points of some rectangle,
as large as the 256th part of the bounding box in each direction, are accepted by the inside test and keep the required
distance from the samples, then the search does not raise and returns such a point. -/
theorem C87_search {c : ContourG} (h : c.Ready) (hne : c.edges ≠ []) (inside : InsideTest)
    (hd : ∃ s ∈ c.cols, ∃ s' ∈ c.cols, s.x ≠ s'.x ∨ s.y ≠ s'.y) {x0 x1 y0 y1 : ℝ}
    (hb : getBoundingBox (c.cols.map Sample.x) (c.cols.map Sample.y) = .ok (x0, x1, y0, y1))
    (hroom : c.Roomy inside x0 x1 y0 y1 (0.01 * min (x1 - x0) (y1 - y0))) {fuel : ℕ} (hf : 8 ≤ fuel) :
    ∃ v, c.findInteriorPoint inside fuel = some (.ok { c with interior := some v }) ∧
      GoodPoint inside c (0.01 * min (x1 - x0) (y1 - y0)) v := by
  obtain ⟨a0, a1, b0, b1, hb', ht, hs⟩ := C32_search h hne inside hd
  rw [hb] at hb'
  simp only [Except.ok.injEq, Prod.mk.injEq] at hb'
  obtain ⟨rfl, rfl, rfl, rfl⟩ := hb'
  rcases hs fuel hf with hs | hs
  · exact hs
  exfalso
  obtain ⟨q, q1, q2, q3, q4, hq⟩ := hroom
  have hmin : 0 < min (x1 - x0) (y1 - y0) := by
    by_contra hc
    push Not at hc
    nlinarith
  have hx : x0 < x1 := by have := hmin.trans_le (min_le_left _ _); linarith
  have hy : y0 < y1 := by have := hmin.trans_le (min_le_right _ _); linarith
  obtain ⟨i, hi, hi'⟩ := linspace_near hx q1 q2
  obtain ⟨j, hj, hj'⟩ := linspace_near hy q3 q4
  have hg : ContourG.gridPt (x0, x1, y0, y1) 257 (j * 257 + i) = (Np.linspace x0 x1 257 i, Np.linspace y0 y1 257 j) := by
    rw [ContourG.gridPt, Nat.mul_add_mod_of_lt hi, show (j * 257 + i) / 257 = j by omega]
  obtain ⟨g1, g2⟩ := hq (Np.linspace x0 x1 257 i, Np.linspace y0 y1 257 j) ⟨hi', hj'⟩
  have hpoly : (c.edges.flatMap fun e => (e.pts.getD []).dropLast.map fun s => (s.x, s.y)) = c.cols.map fun s => (s.x, s.y) := by
    simp only [ContourG.cols, List.map_flatMap]
    rfl
  rw [hpoly] at g1
  have hgood := distVal_large h hne (tol := 0.01 * min (x1 - x0) (y1 - y0)) g1 (by
    intro s hs
    obtain ⟨e, he, hs⟩ := samples_mem.1 hs
    exact g2 e he s hs)
  rw [← hg] at hgood
  obtain ⟨r, hr⟩ := searchLoop_found h hne inside (x0, x1, y0, y1) (by omega) hgood 0 fuel 0 c.interior (by omega) (by omega)
  simp only [ContourG.findInteriorPoint, h.guard, h.getSampledPoints, bind, Except.bind, hb] at hs
  norm_num only [pow_zero, mul_one] at hr hs
  rw [hr] at hs
  cases hs

/-! ### cells -/

theorem outerInner_ok {inside : InsideTest} {i : ℕ} {ci : ContourG} (hi : ci.Ready) : ∀ (l : List ContourG) (outer : ℕ),
    (∀ c ∈ l, c.Ready) → ∃ r, CellG.outerInner inside i ci outer l = .ok r ∧ (r = i ∨ r = outer)
  | [], outer, _ => ⟨outer, rfl, .inr rfl⟩
  | c :: l, outer, hr => by
    obtain ⟨b, h1, -⟩ := contains_eq hi (hr c (by simp)) inside
    obtain ⟨r, h2, h3⟩ := outerInner_ok (inside := inside) (i := i) hi l (if b then i else outer) fun c hc => hr c (by simp [hc])
    refine ⟨r, by simp only [CellG.outerInner, h1, bind, Except.bind]; exact h2, ?_⟩
    rcases h3 with h3 | h3
    · exact .inl h3
    · split at h3
      · exact .inl h3
      · exact .inr h3

theorem outerLoop_ok {inside : InsideTest} : ∀ (l : List ContourG) (i outer : ℕ), (∀ c ∈ l, c.Ready) →
    ∃ r, CellG.outerLoop inside i outer l = .ok r ∧ (r = outer ∨ r < i + l.length)
  | [], i, outer, _ => ⟨outer, rfl, .inl rfl⟩
  | c :: l, i, outer, hr => by
    obtain ⟨r, h1, h2⟩ := outerInner_ok (inside := inside) (i := i) (hr c (by simp)) l outer fun c hc => hr c (by simp [hc])
    obtain ⟨r', h3, h4⟩ := outerLoop_ok (inside := inside) l (i + 1) r fun c hc => hr c (by simp [hc])
    refine ⟨r', by simp only [CellG.outerLoop, h1, bind, Except.bind]; exact h3, ?_⟩
    simp only [List.length_cons]
    rcases h4 with h4 | h4
    · rcases h2 with h2 | h2
      · right; omega
      · left; omega
    · right; omega

theorem ready_guard {K : CellG} (h : ∀ c ∈ K.components, c.Ready) : K.guard = .ok () := by
  have : K.isParameterized = true := by
    rw [CellG.isParameterized, List.all_eq_true]
    intro c hc
    have := (h c hc).guard
    unfold ContourG.guard at this
    split at this
    · assumption
    · cases this
  rw [CellG.guard, if_pos this]

/-- the steps after the components have been sampled -/
theorem finish_ok {inside : InsideTest} {K : CellG} (hne : K.components ≠ []) (h : ∀ c ∈ K.components, c.Ready)
    (hl : ∀ c ∈ K.components, c.closest.length = c.numPts) :
    ∃ K1, (do
      let K ← K.findNumPts
      let K ← K.findOuter inside
      let K ← K.findStartIdx
      K.findClosest) = .ok K1 := by
  obtain ⟨k, hk, hk'⟩ := outerLoop_ok (inside := inside) K.components 0 0 h
  have hlen : 0 < K.components.length := List.length_pos_of_ne_nil hne
  obtain ⟨o, ho⟩ : ∃ o, K.components[k]? = some o := ⟨_, List.getElem?_eq_getElem (by omega)⟩
  obtain ⟨cs, hcs, -⟩ := swap0_head ho
  have hp := swap0_perm hcs
  have hr' : ∀ c ∈ cs, c.Ready := fun c hc => h c (hp.mem_iff.1 hc)
  have hl' : ∀ c ∈ cs, c.closest.length = c.numPts := fun c hc => hl c (hp.mem_iff.1 hc)
  have hR : CellG.Ready
      { K with numPts := (K.components.map ContourG.numPts).sum, components := cs, startIdx := CellG.startLoop 0 cs } := by
    refine ⟨hr', ?_, ?_⟩
    · simp only [CellG.cols, List.length_flatMap]
      rw [← (hp.map ContourG.numPts).sum_eq]
      congr 1
      exact List.map_congr_left fun c hc => (hr' c hc).numPts
    · dsimp only
      rw [startLoop_eq, offsets_zero]
  have e1 : K.findNumPts = .ok { K with numPts := (K.components.map ContourG.numPts).sum } := by
    simp only [CellG.findNumPts, ready_guard h, bind, Except.bind]
  have e2 : CellG.findOuter inside { K with numPts := (K.components.map ContourG.numPts).sum } =
      .ok { K with numPts := (K.components.map ContourG.numPts).sum, components := cs } := by
    rw [CellG.findOuter, ready_guard (K := { K with numPts := (K.components.map ContourG.numPts).sum }) h]
    simp only [bind, Except.bind, hk, hcs]
  have e3 : CellG.findStartIdx { K with numPts := (K.components.map ContourG.numPts).sum, components := cs } =
      .ok { K with numPts := (K.components.map ContourG.numPts).sum, components := cs, startIdx := CellG.startLoop 0 cs } := by
    rw [CellG.findStartIdx,
      ready_guard (K := { K with numPts := (K.components.map ContourG.numPts).sum, components := cs }) hr']
    simp only [bind, Except.bind]
  have e4 := findClosest_eq hR hl'
  refine ⟨{ K with numPts := (K.components.map ContourG.numPts).sum, components := cs, startIdx := CellG.startLoop 0 cs, closest := (cs.map ContourG.closest).flatten }, ?_⟩
  rw [e1, py_ok_bind, e2, py_ok_bind, e3, py_ok_bind, e4]

/-- what is needed of one component -/
def Samplable (d : Quad × Quad) (inside : InsideTest) (c : ContourG) : Prop :=
  c.edges ≠ [] ∧ c.edges.length = c.orients.length ∧ (∀ e ∈ c.edges, ∃ e', e.parameterize d = .ok e') ∧
  ∀ c1, c.parameterize d = .ok c1 → (∃ s ∈ c1.cols, ∃ s' ∈ c1.cols, s.x ≠ s'.x ∨ s.y ≠ s'.y) ∧
    ∃ x0 x1 y0 y1, getBoundingBox (c1.cols.map Sample.x) (c1.cols.map Sample.y) = .ok (x0, x1, y0, y1) ∧
      c1.Roomy inside x0 x1 y0 y1 (0.01 * min (x1 - x0) (y1 - y0))

theorem sampleContours_ok {n p : ℤ} {d : Quad × Quad} (hd : getQuadDict n p = .ok d) {inside : InsideTest} {fuel : ℕ}
    (hf : 8 ≤ fuel) : ∀ {l : List ContourG}, (∀ c ∈ l, Samplable d inside c) →
    ∃ r, CellG.sampleContours inside fuel d l = some (.ok r) ∧ r.length = l.length ∧ (∀ c ∈ r, c.Ready) ∧
      ∀ c ∈ r, c.closest.length = c.numPts
  | [], _ => ⟨[], rfl, rfl, by simp, by simp⟩
  | c :: l, h => by
    obtain ⟨h1, h2, h3, h4⟩ := h c (by simp)
    obtain ⟨c1, hc1⟩ := C28_success hd h2 h3
    obtain ⟨k1, -, -, k4, k5⟩ := parameterize_edges hd h2 hc1
    have hne : c1.edges ≠ [] := by
      intro h0
      rw [h0] at k1
      exact h1 (List.eq_nil_of_length_eq_zero k1.symm)
    obtain ⟨g1, x0, x1, y0, y1, g2, g3⟩ := h4 c1 hc1
    obtain ⟨v, hv, -⟩ := C87_search k4 hne inside g1 g2 g3 hf
    obtain ⟨r, hr, hr1, hr2, hr3⟩ := sampleContours_ok hd hf (l := l) fun c hc => h c (by simp [hc])
    refine ⟨{ c1 with interior := some v } :: r, by simp only [CellG.sampleContours, hc1, hv, hr], by simp [hr1], ?_, ?_⟩
    · intro c' hc'
      rcases List.mem_cons.1 hc' with rfl | hc'
      · exact ⟨k4.sampled, k4.numPts, k4.vertIdx⟩
      · exact hr2 c' hc'
    · intro c' hc'
      rcases List.mem_cons.1 hc' with rfl | hc'
      · exact k5.nearest.1
      · exact hr3 c' hc'

/-- C87: parameterizing a cell succeeds whenever it has a component, every component has edges, one orientation per edge and room
for an interior point, and every edge can be parameterized. -/
theorem C87_cell {n p : ℤ} {d : Quad × Quad} (hd : getQuadDict n p = .ok d) {inside : InsideTest} {fuel : ℕ} (hf : 8 ≤ fuel)
    {K : CellG} (hne : K.components ≠ []) (h : ∀ c ∈ K.components, Samplable d inside c) :
    ∃ K1, K.parameterize inside fuel d = some (.ok K1) := by
  obtain ⟨r, h1, h2, h3, h4⟩ := sampleContours_ok hd hf h
  have hr : r ≠ [] := by
    intro h0
    rw [h0] at h2
    exact hne (List.eq_nil_of_length_eq_zero h2.symm)
  obtain ⟨K1, hK1⟩ := finish_ok (inside := inside) (K := { K with components := r }) hr h3 h4
  exact ⟨K1, by simp only [CellG.parameterize, h1]; exact congrArg some hK1⟩

/-! ### what can go wrong -/

theorem sampleContours_either {n p : ℤ} {d : Quad × Quad} (hd : getQuadDict n p = .ok d) {inside : InsideTest} {fuel : ℕ}
    (hf : 8 ≤ fuel) : ∀ {l : List ContourG}, (∀ c ∈ l, c.edges ≠ [] ∧ c.edges.length = c.orients.length ∧
      (∀ e ∈ c.edges, ∃ e', e.parameterize d = .ok e') ∧
      ∀ c1, c.parameterize d = .ok c1 → ∃ s ∈ c1.cols, ∃ s' ∈ c1.cols, s.x ≠ s'.x ∨ s.y ≠ s'.y) →
    (∃ r, CellG.sampleContours inside fuel d l = some (.ok r) ∧ r.length = l.length ∧ (∀ c ∈ r, c.Ready) ∧
      (∀ c ∈ r, c.closest.length = c.numPts)) ∨
    CellG.sampleContours inside fuel d l = some (.error .interiorPoint)
  | [], _ => .inl ⟨[], rfl, rfl, by simp, by simp⟩
  | c :: l, h => by
    obtain ⟨h1, h2, h3, h4⟩ := h c (by simp)
    obtain ⟨c1, hc1⟩ := C28_success hd h2 h3
    obtain ⟨k1, -, -, k4, k5⟩ := parameterize_edges hd h2 hc1
    have hne : c1.edges ≠ [] := by
      intro h0
      rw [h0] at k1
      exact h1 (List.eq_nil_of_length_eq_zero k1.symm)
    obtain ⟨x0, x1, y0, y1, -, -, hs⟩ := C32_search k4 hne inside (h4 c1 hc1)
    rcases hs fuel hf with ⟨v, hv, -⟩ | hv
    · rcases sampleContours_either hd (inside := inside) hf (l := l) fun c hc => h c (by simp [hc]) with ⟨r, hr, hr1, hr2, hr3⟩ | hr
      · refine .inl ⟨{ c1 with interior := some v } :: r, by simp only [CellG.sampleContours, hc1, hv, hr], by simp [hr1], ?_, ?_⟩
        · intro c' hc'
          rcases List.mem_cons.1 hc' with rfl | hc'
          · exact ⟨k4.sampled, k4.numPts, k4.vertIdx⟩
          · exact hr2 c' hc'
        · intro c' hc'
          rcases List.mem_cons.1 hc' with rfl | hc'
          · exact k5.nearest.1
          · exact hr3 c' hc'
      · exact .inr (by simp only [CellG.sampleContours, hc1, hv, hr])
    · exact .inr (by simp only [CellG.sampleContours, hc1, hv])

/-- C87: whatever the shapes, if every edge can be parameterized and no component shrinks to a point, then parameterizing the
cell ends, and the only error it can end with is `InteriorPointError`. -/
theorem C87_outcomes {n p : ℤ} {d : Quad × Quad} (hd : getQuadDict n p = .ok d) {inside : InsideTest} {fuel : ℕ} (hf : 8 ≤ fuel)
    {K : CellG} (hne : K.components ≠ []) (h : ∀ c ∈ K.components, c.edges ≠ [] ∧ c.edges.length = c.orients.length ∧
      (∀ e ∈ c.edges, ∃ e', e.parameterize d = .ok e') ∧
      ∀ c1, c.parameterize d = .ok c1 → ∃ s ∈ c1.cols, ∃ s' ∈ c1.cols, s.x ≠ s'.x ∨ s.y ≠ s'.y) :
    (∃ K1, K.parameterize inside fuel d = some (.ok K1)) ∨ K.parameterize inside fuel d = some (.error .interiorPoint) := by
  rcases sampleContours_either hd (inside := inside) hf h with ⟨r, h1, h2, h3, h4⟩ | h1
  · left
    have hr : r ≠ [] := by
      intro h0
      rw [h0] at h2
      exact hne (List.eq_nil_of_length_eq_zero h2.symm)
    obtain ⟨K1, hK1⟩ := finish_ok (inside := inside) (K := { K with components := r }) hr h3 h4
    exact ⟨K1, by simp only [CellG.parameterize, h1]; exact congrArg some hK1⟩
  · exact .inr (by simp only [CellG.parameterize, h1])

/-- C87: a cell without components cannot be parameterized, and an edge that fails makes the cell fail with the same error. -/
theorem C87_failures (inside : InsideTest) (fuel : ℕ) (d : Quad × Quad) (K : CellG) :
    (K.components = [] → K.parameterize inside fuel d = some (.error .indexError)) ∧
    (∀ c cs e es o os x, K.components = c :: cs → c.edges = e :: es → c.orients = o :: os → e.parameterize d = .error x →
      K.parameterize inside fuel d = some (.error x)) := by
  refine ⟨fun h => ?_, fun c cs e es o os x h1 h2 h3 h4 => ?_⟩
  · simp [CellG.parameterize, CellG.sampleContours, h, CellG.findNumPts, CellG.guard, CellG.isParameterized, CellG.findOuter,
      CellG.outerLoop, CellG.swap0, Np.get, bind, Except.bind]
  · simp only [CellG.parameterize, h1, CellG.sampleContours, ContourG.parameterize, h2, h3, ContourG.sampleEdges, h4, bind,
      Except.bind]

end PFEM
