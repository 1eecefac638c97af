import Verif.Props.Nystrom
import Verif.Props.Closest
import Mathlib.Algebra.BigOperators.Ring.Finset

/-!
Property theorems C50: the double layer operator and the operator of the Neumann problem; which cells C50 and C51 apply to.
-/

namespace PFEM
open Nystrom

/-- entry `i` of a vector -/
def vec (u : List ℝ) (i : ℕ) : ℝ := u.getD i 0

/-- the vector `a u + b v` -/
def comb (a : ℝ) (u : List ℝ) (b : ℝ) (v : List ℝ) : List ℝ := List.zipWith (fun x y => a * x + b * y) u v

theorem comb_length {a b : ℝ} {u v : List ℝ} (h : u.length = v.length) : (comb a u b v).length = u.length := by
  simp [comb, h]

theorem vec_comb {a b : ℝ} {u v : List ℝ} (h : u.length = v.length) (i : ℕ) : vec (comb a u b v) i = a * vec u i + b * vec v i := by
  unfold vec comb
  by_cases hi : i < u.length
  · rw [List.getD_eq_getElem _ _ (by simp [h]; omega), List.getD_eq_getElem _ _ hi, List.getD_eq_getElem _ _ (by omega),
      List.getElem_zipWith]
  · rw [List.getD_eq_default _ _ (by simp [h]; omega), List.getD_eq_default _ _ (by omega), List.getD_eq_default _ _ (by omega)]
    ring

theorem vec_ext {u v : List ℝ} (h : u.length = v.length) (hv : ∀ i < u.length, vec u i = vec v i) : u = v := by
  refine List.ext_getElem h fun i h1 h2 => ?_
  have := hv i h1
  unfold vec at this
  rwa [List.getD_eq_getElem _ _ h1, List.getD_eq_getElem _ _ h2] at this

theorem vec_zipWith (f : ℝ → ℝ → ℝ) {u v : List ℝ} (h : u.length = v.length) {i : ℕ} (hi : i < u.length) :
    vec (List.zipWith f u v) i = f (vec u i) (vec v i) := by
  unfold vec
  rw [List.getD_eq_getElem _ _ (by simp [h]; omega), List.getD_eq_getElem _ _ hi, List.getD_eq_getElem _ _ (by omega),
      List.getElem_zipWith]

theorem vec_map (f : ℝ → ℝ) {u : List ℝ} {i : ℕ} (hi : i < u.length) : vec (u.map f) i = f (vec u i) := by
  unfold vec
  rw [List.getD_eq_getElem _ _ (by simpa using hi), List.getD_eq_getElem _ _ hi, List.getElem_map]

theorem vec_range (f : ℕ → ℝ) {n i : ℕ} (hi : i < n) : vec ((List.range n).map f) i = f i := by
  unfold vec
  rw [List.getD_eq_getElem _ _ (by simpa using hi)]
  simp

theorem vec_replicate (c : ℝ) {n i : ℕ} (hi : i < n) : vec (List.replicate n c) i = c := by
  unfold vec
  rw [List.getD_eq_getElem _ _ (by simpa using hi)]
  simp

theorem get_vec {u : List ℝ} {i : ℕ} (hi : i < u.length) : Np.get u i = .ok (vec u i) := by
  simp [Np.get, vec, List.getElem?_eq_getElem hi]

theorem sum_vec : ∀ {n : ℕ} {u : List ℝ}, u.length = n → u.sum = ∑ i ∈ Finset.range n, vec u i
  | 0, u, h => by simp [List.eq_nil_of_length_eq_zero h]
  | n + 1, [], h => by simp at h
  | n + 1, x :: u, h => by
    rw [Finset.sum_range_succ', List.sum_cons, sum_vec (by simpa using h : u.length = n)]
    simp [vec, add_comm]

theorem mulVec_ok {M : Mat} {u : List ℝ} (h : u.length = M.cols) :
    M.mulVec u = .ok ((List.range M.rows).map fun i => ∑ j ∈ Finset.range M.cols, M.at' i j * vec u j) := by
  simp only [Mat.mulVec, h, ne_eq, not_true_eq_false, if_false]
  congr 2
  funext i
  rw [sum_vec (n := M.cols) (by simp [h])]
  refine Finset.sum_congr rfl fun j hj => ?_
  have hj := Finset.mem_range.1 hj
  unfold vec
  rw [List.getD_eq_getElem _ _ (by simp [h]; omega), List.getD_eq_getElem _ _ (by omega), List.getElem_zipWith]
  simp

theorem rowSums_vec (M : Mat) {i : ℕ} (hi : i < M.rows) : vec M.rowSums i = ∑ j ∈ Finset.range M.cols, M.at' i j := by
  rw [Mat.rowSums, vec_range _ hi, sum_vec (n := M.cols) (by simp)]
  exact Finset.sum_congr rfl fun j hj => vec_range _ (Finset.mem_range.1 hj)

theorem mapPy_get {u : List ℝ} : ∀ {l : List ℕ}, (∀ i ∈ l, i < u.length) → ContourG.mapPy (Np.get u) l = .ok (l.map (vec u))
  | [], _ => rfl
  | i :: l, h => by
    have ih : ContourG.mapPy (Np.get u) l = .ok (l.map (vec u)) := mapPy_get fun j hj => h j (by simp [hj])
    simp only [ContourG.mapPy, get_vec (h i (by simp)), ih, bind, Except.bind, List.map_cons]

/-- the nearest vertices are stored for all samples of the cell, as samples of the cell -/
def Corners (K : CellG) : Prop := K.closest.length = K.numPts ∧ ∀ i ∈ K.closest, i < K.numPts

theorem build_shape {K : CellG} (h : K.Ready) {o : Ops} (ho : build K = .ok o) :
    o.K = K ∧ o.D.rows = K.numPts ∧ o.D.cols = K.numPts ∧ o.rowSum = o.D.rowSums := by
  obtain ⟨S, -, ho⟩ := bind_ok ho
  obtain ⟨D, hD, ho⟩ := bind_ok ho
  cases ho
  have := doubleMat_only h
  rw [hD] at this
  exact ⟨rfl, this.1, this.2, rfl⟩

/-- C50, what the double layer operator does: entry `i` is half the difference of `u` at sample `i` and at its nearest vertex `c`, plus
the matrix applied to `u - u c`. -/
theorem C50_formula {K : CellG} (h : K.Ready) (hc : Corners K) {o : Ops} (ho : build K = .ok o) {u : List ℝ}
    (hu : u.length = K.numPts) :
    ∃ y, o.double u = .ok y ∧ y.length = K.numPts ∧ ∀ (i c : ℕ), i < K.numPts → K.closest[i]? = some c →
      vec y i = (vec u i - vec u c) / 2 + ∑ j ∈ Finset.range K.numPts, o.D.at' i j * (vec u j - vec u c) := by
  obtain ⟨rfl, h1, h2, h3⟩ := build_shape h ho
  have hcl : (o.K.closest.map (vec u)).length = o.K.numPts := by simp [hc.1]
  have hb : ∀ (f : ℝ → ℝ → ℝ) {a b : List ℝ}, a.length = b.length → Np.bin f a b = .ok (List.zipWith f a b) := fun f a b hab =>
    bin_eq f hab
  have hrs : o.rowSum.length = o.K.numPts := by rw [h3]; simp [Mat.rowSums, h1]
  refine ⟨List.zipWith (· - ·) (List.zipWith (· + ·) ((List.zipWith (· - ·) u (o.K.closest.map (vec u))).map (0.5 * ·))
    ((List.range o.D.rows).map fun i => ∑ j ∈ Finset.range o.D.cols, o.D.at' i j * vec u j))
    (List.zipWith (· * ·) (o.K.closest.map (vec u)) o.rowSum), ?_, ?_, ?_⟩
  · simp only [Ops.double, call, hu, ne_eq, not_true_eq_false, if_false, doubleOp, bind, Except.bind,
      mapPy_get (fun i hi => hu ▸ hc.2 i hi), hb (· - ·) (hu.trans hcl.symm), mulVec_ok (hu.trans h2.symm)]
    rw [hb _ (by simp [hu, hcl, h1])]
    simp only
    rw [hb _ (by rw [hcl, hrs])]
    simp only
    rw [hb _ (by simp [hu, hcl, h1, hrs])]
  · simp [hu, hcl, h1, hrs]
  · intro i c hi hic
    have hcv : vec (o.K.closest.map (vec u)) i = vec u c := by
      unfold vec
      rw [List.getD_eq_getElem?_getD, List.getElem?_map, hic]
      rfl
    rw [vec_zipWith _ (by simp [hu, hcl, h1, hrs]) (by simp [hu, hcl, h1, hi]),
      vec_zipWith _ (by simp [hu, hcl, h1]) (by simp [hu, hcl, hi]),
      vec_map _ (by simp [hu, hc.1, hi]), vec_zipWith _ (by simp [hu, hc.1]) (by simp [hu, hi]),
      vec_zipWith _ (by simp [hrs, hc.1]) (by simp [hc.1, hi]), hcv, vec_range _ (by rw [h1]; exact hi), h3,
      rowSums_vec _ (by rw [h1]; exact hi), h2]
    simp only [mul_sub, Finset.sum_sub_distrib, Finset.mul_sum]
    rw [add_sub_assoc]
    congr 1
    · ring
    · congr 1
      exact Finset.sum_congr rfl fun j _ => mul_comm _ _

/-- C50: the double layer operator maps every constant to zero -/
theorem C50_constant {K : CellG} (h : K.Ready) (hc : Corners K) {o : Ops} (ho : build K = .ok o) (x : ℝ) :
    o.double (List.replicate K.numPts x) = .ok (List.replicate K.numPts 0) := by
  obtain ⟨y, h1, h2, h3⟩ := C50_formula h hc ho (u := List.replicate K.numPts x) (by simp)
  rw [h1]
  congr 1
  refine vec_ext (by simp [h2]) fun i hi => ?_
  rw [h2] at hi
  have hic : K.closest[i]? = some (K.closest[i]'(by rw [hc.1]; exact hi)) := List.getElem?_eq_getElem _
  rw [h3 i _ hi hic, vec_replicate _ hi, vec_replicate _ hi, vec_replicate _ (hc.2 _ (List.mem_of_getElem? hic))]
  rw [Finset.sum_eq_zero fun j hj => by rw [vec_replicate _ (Finset.mem_range.1 hj)]; ring]
  ring

/-- C50: the double layer operator is linear, and vectors of another length are refused -/
theorem C50_linear {K : CellG} (h : K.Ready) (hc : Corners K) {o : Ops} (ho : build K = .ok o) :
    (∀ (u v : List ℝ) (a b : ℝ), u.length = K.numPts → v.length = K.numPts →
      ∃ y z, o.double u = .ok y ∧ o.double v = .ok z ∧ o.double (comb a u b v) = .ok (comb a y b z)) ∧
    ∀ u : List ℝ, u.length ≠ K.numPts → o.double u = .error .valueError := by
  constructor
  · intro u v a b hu hv
    obtain ⟨y, hy1, hy2, hy3⟩ := C50_formula h hc ho hu
    obtain ⟨z, hz1, hz2, hz3⟩ := C50_formula h hc ho hv
    have huv : u.length = v.length := hu.trans hv.symm
    obtain ⟨w, hw1, hw2, hw3⟩ := C50_formula h hc ho (u := comb a u b v) (by rw [comb_length huv, hu])
    refine ⟨y, z, hy1, hz1, ?_⟩
    rw [hw1]
    congr 1
    have hyz : y.length = z.length := hy2.trans hz2.symm
    refine vec_ext (by rw [comb_length hyz, hw2, hy2]) fun i hi => ?_
    rw [hw2] at hi
    have hic : K.closest[i]? = some (K.closest[i]'(by rw [hc.1]; exact hi)) := List.getElem?_eq_getElem _
    rw [vec_comb hyz, hw3 i _ hi hic, hy3 i _ hi hic, hz3 i _ hi hic]
    simp only [vec_comb huv]
    rw [mul_add, mul_add, Finset.mul_sum, Finset.mul_sum, add_add_add_comm, ← Finset.sum_add_distrib]
    congr 1
    · ring
    · exact Finset.sum_congr rfl fun j _ => by ring
  · intro u hu
    obtain ⟨rfl, -⟩ := build_shape h ho
    simp [Ops.double, call, hu]

theorem dot_vec {u v : List ℝ} {n : ℕ} (hu : u.length = n) (hv : v.length = n) : dot u v = ∑ i ∈ Finset.range n, vec u i * vec v i := by
  rw [dot, entrywise, sum_vec (n := n) (by simp [hu, hv])]
  exact Finset.sum_congr rfl fun i hi => vec_zipWith _ (hu.trans hv.symm) (by rw [hu]; exact Finset.mem_range.1 hi)

theorem cellWeights_length (K : CellG) : (cellWeights K).length = K.cols.length := by
  simp [cellWeights, CellG.cols, List.length_flatMap]

/-- C50, what the operator of the Neumann problem does: it adds the integral of `u` over the boundary to every entry. -/
theorem C50_neumann {K : CellG} (h : K.Ready) (hne : ∀ c ∈ K.components, c.edges ≠ []) (hc : Corners K) {o : Ops}
    (ho : build K = .ok o) {u : List ℝ} (hu : u.length = K.numPts) :
    ∃ y I, o.double u = .ok y ∧ K.integrate u = .ok I ∧ o.neumann u = .ok (y.map (· + I)) := by
  obtain ⟨y, hy, -⟩ := C50_formula h hc ho hu
  have hI := cell_integrate h hne (hu.trans h.numPts)
  refine ⟨y, _, hy, hI, ?_⟩
  obtain ⟨rfl, -⟩ := build_shape h ho
  simp only [Ops.neumann, call, hu, ne_eq, not_true_eq_false, if_false, hy, hI, bind, Except.bind]

/-- C50: the operator of the Neumann problem maps the constant `x` to `x` times the boundary length, which is the integral of one. -/
theorem C50_neumann_constant {K : CellG} (h : K.Ready) (hne : ∀ c ∈ K.components, c.edges ≠ []) (hc : Corners K) {o : Ops}
    (ho : build K = .ok o) (x : ℝ) :
    ∃ L, K.integrate (List.replicate K.numPts 1) = .ok L ∧
      o.neumann (List.replicate K.numPts x) = .ok (List.replicate K.numPts (x * L)) := by
  obtain ⟨y, I, h1, h2, h3⟩ := C50_neumann h hne hc ho (u := List.replicate K.numPts x) (by simp)
  rw [C50_constant h hc ho] at h1
  cases h1
  have hw : (cellWeights K).length = K.numPts := by rw [cellWeights_length, h.numPts]
  refine ⟨_, cell_integrate h hne (by simp [h.numPts]), ?_⟩
  rw [cell_integrate h hne (by simp [h.numPts])] at h2
  cases h2
  rw [h3, List.map_replicate, zero_add]
  congr 2
  rw [dot_vec (n := K.numPts) (by simp) hw, dot_vec (n := K.numPts) (by simp) hw, Finset.mul_sum]
  refine Finset.sum_congr rfl fun i hi => ?_
  rw [vec_replicate _ (Finset.mem_range.1 hi), vec_replicate _ (Finset.mem_range.1 hi), one_mul]

/-- C50: the operator of the Neumann problem is linear, and vectors of another length are refused. -/
theorem C50_neumann_linear {K : CellG} (h : K.Ready) (hne : ∀ c ∈ K.components, c.edges ≠ []) (hc : Corners K) {o : Ops}
    (ho : build K = .ok o) :
    (∀ (u v : List ℝ) (a b : ℝ), u.length = K.numPts → v.length = K.numPts →
      ∃ y z, o.neumann u = .ok y ∧ o.neumann v = .ok z ∧ o.neumann (comb a u b v) = .ok (comb a y b z)) ∧
    ∀ u : List ℝ, u.length ≠ K.numPts → o.neumann u = .error .valueError := by
  constructor
  · intro u v a b hu hv
    have huv : u.length = v.length := hu.trans hv.symm
    obtain ⟨y, I, h1, h2, h3⟩ := C50_neumann h hne hc ho hu
    obtain ⟨z, J, k1, k2, k3⟩ := C50_neumann h hne hc ho hv
    have hl : (comb a u b v).length = K.numPts := by rw [comb_length huv, hu]
    obtain ⟨w, M, l1, l2, l3⟩ := C50_neumann h hne hc ho hl
    obtain ⟨y', z', m1, m2, m3⟩ := (C50_linear h hc ho).1 u v a b hu hv
    rw [h1] at m1
    rw [k1] at m2
    rw [l1] at m3
    cases m1
    cases m2
    cases m3
    refine ⟨_, _, h3, k3, ?_⟩
    rw [l3]
    have hw : (cellWeights K).length = K.numPts := by rw [cellWeights_length, h.numPts]
    rw [cell_integrate h hne (hu.trans h.numPts)] at h2
    rw [cell_integrate h hne (hv.trans h.numPts)] at k2
    rw [cell_integrate h hne (hl.trans h.numPts)] at l2
    cases h2
    cases k2
    cases l2
    have hM : dot (comb a u b v) (cellWeights K) = a * dot u (cellWeights K) + b * dot v (cellWeights K) := by
      rw [dot_vec hl hw, dot_vec hu hw, dot_vec hv hw, Finset.mul_sum, Finset.mul_sum, ← Finset.sum_add_distrib]
      exact Finset.sum_congr rfl fun i _ => by rw [vec_comb huv]; ring
    rw [hM]
    congr 1
    simp only [comb, List.map_zipWith, List.zipWith_map]
    congr 1
    funext p q
    ring
  · intro u hu
    obtain ⟨rfl, -⟩ := build_shape h ho
    simp [Ops.neumann, call, hu]

/-! ### which cells are meant -/

theorem layout_closest {c : ContourG} (h : c.Ready) (hl : ContourLayout c) {v : ℕ} (hv : v ∈ c.closest) : v < c.numPts := by
  obtain ⟨m, hm⟩ := List.mem_iff_getElem?.1 hv
  have hlt : m < c.numPts := by rw [← hl.nearest.1]; exact (List.getElem?_eq_some_iff.1 hm).1
  obtain ⟨i, ⟨a, b, ha, hb, h1, h2⟩, -⟩ := hl.cover m hlt
  have hi : i < c.edges.length := by
    have := (List.getElem?_eq_some_iff.1 hb).1
    rw [hl.len] at this
    omega
  have hm' := hl.nearest.2 i _ a b (List.getElem?_eq_getElem hi) ha hb (m - a) (by omega)
  rw [show a + (m - a) = m by omega, hm] at hm'
  simp only [Option.some.injEq] at hm'
  subst hm'
  split_ifs with h3 h4
  · omega
  · obtain ⟨b', d, hb', hd, hw⟩ := hl.width (i + 1) _ (List.getElem?_eq_getElem h4)
    rw [hb] at hb'
    cases hb'
    obtain ⟨L, hL, hL2⟩ := h.sampled _ (List.getElem_mem h4)
    have hn : (c.edges[i + 1]).numPts = (L.length : ℤ) := by simp [EdgeG.numPts, hL]
    have hd' : d ≤ c.numPts := by
      rw [h.vertIdx, List.getElem?_map, List.getElem?_range (by omega)] at hd
      simp only [Option.map_some, Option.some.injEq] at hd
      rw [← hd, h.numPts, ContourG.cols_len]
      have := blockStart_length (c.edges.map fun e => e.cols.length)
      rw [← this]
      exact blockStart_mono _ (by simp; omega)
    omega
  · omega

/-- Cells on which C50 and C51 are meant: `MeshCell.parameterize` leaves every cell in the sampled state, with an even number of
intervals on every edge and a nearest vertex for every sample. -/
theorem C51_sampled {n p : ℤ} {d : Quad × Quad} (hd : getQuadDict n p = .ok d) (hn : n ≤ 2 * 10 ^ 7) {inside : InsideTest}
    {fuel : ℕ} {K K1 : CellG} (ho : ∀ c ∈ K.components, c.edges.length = c.orients.length)
    (hne : ∀ c ∈ K.components, c.edges ≠ []) (h : K.parameterize inside fuel d = some (.ok K1)) :
    K1.Ready ∧ K1.Even ∧ Corners K1 ∧ ∀ c ∈ K1.components, c.edges ≠ [] := by
  obtain ⟨-, h1, h2, h3, h4⟩ := C33_parameterize hd ho h
  have hl : ∀ c ∈ K1.components, c.closest.length = c.numPts := fun c hc => (h2 c hc).nearest.1
  have hcl := parameterize_closest hd ho h
  rw [findClosest_eq h3 hl] at hcl
  simp only [Except.ok.injEq] at hcl
  have hcl' : K1.closest = (K1.components.map ContourG.closest).flatten := by
    conv_lhs => rw [← hcl]
  have h4n : 4 ≤ n := by
    by_contra hlt
    simp [getQuadDict, Quad.init, show n < 4 by omega, bind, Except.bind] at hd
  have hsum : (K1.components.map ContourG.numPts).sum = K1.numPts := by rw [h3.numPts, h3.cols_len]
  refine ⟨h3, fun c hc e he => ⟨n.toNat, by omega, by omega, ?_⟩, ⟨?_, fun v hv => ?_⟩, fun c hc => (h4 hne c hc).1⟩
  · obtain ⟨L, hL, hL2⟩ := (h3.ready c hc).sampled e he
    have h5 := h1 c hc e he
    simp only [EdgeG.numPts, hL] at h5
    rw [cols_length hL]
    omega
  · rw [hcl', List.length_flatten, List.map_map, ← hsum]
    congr 1
    exact List.map_congr_left fun c hc => hl c hc
  · rw [hcl'] at hv
    obtain ⟨l, hl1, hl2⟩ := List.mem_flatten.1 hv
    obtain ⟨c, hc, rfl⟩ := List.mem_map.1 hl1
    have := layout_closest (h3.ready c hc) (h2 c hc) hl2
    have := List.single_le_sum (l := K1.components.map ContourG.numPts) (by simp) c.numPts (List.mem_map_of_mem hc)
    omega

/-! ### an example -/

/-- eight points around the origin -/
def ringPt : List (ℤ × ℤ) := [(2, 0), (1, 1), (0, 2), (-1, 1), (-2, 0), (-1, -1), (0, -2), (1, -1)]

/-- a sample at `r` times a point of the ring; tangent, normal, speed and curvature play no role here -/
noncomputable def ringSample (r : ℤ) (p : ℤ × ℤ) : Sample := ⟨(r * p.1 : ℤ), (r * p.2 : ℤ), 1, 0, 0, -1, 1, 0⟩

/-- a closed contour with one edge and eight intervals -/
noncomputable def ringContour (r : ℤ) : ContourG :=
  { edges := [{ unitCircle "trap" [] with pts := some (ringPt.map (ringSample r) ++ [ringSample r (2, 0)]) }]
    orients := [1], numPts := 8, vertIdx := [0, 8], closest := [0, 0, 0, 0, 0, 0, 0, 0], interior := some (Vert.mk' 0 0) }

/-- the cell between two such contours -/
noncomputable def ringCell : CellG :=
  { components := [ringContour 2, ringContour 1], numPts := 16, startIdx := [0, 8, 16], closest := List.replicate 16 0 }

theorem ring_cols (r : ℤ) : ∀ e ∈ (ringContour r).edges, e.cols = ringPt.map (ringSample r) ∧ e.quadType = "trap" := by
  intro e he
  simp only [ringContour, List.mem_singleton] at he
  subst he
  exact ⟨by simp [EdgeG.cols], rfl⟩

theorem ring_ready (r : ℤ) : (ringContour r).Ready := by
  refine ⟨?_, ?_, ?_⟩
  · intro e he
    simp only [ringContour, List.mem_singleton] at he
    subst he
    exact ⟨_, rfl, by simp [ringPt]⟩
  · simp [ringContour, ContourG.cols, EdgeG.cols, ringPt]
  · simp [ringContour, EdgeG.cols, List.range_succ, blockStart, ringPt]

theorem ringCell_ready : ringCell.Ready := by
  refine ⟨?_, ?_, ?_⟩
  · intro c hc
    simp only [ringCell, List.mem_cons, List.not_mem_nil, or_false] at hc
    rcases hc with rfl | rfl <;> exact ring_ready _
  · simp [ringCell, CellG.cols, ringContour, ContourG.cols, EdgeG.cols, ringPt]
  · simp [ringCell, ringContour, List.range_succ, blockStart]

theorem ringCell_mem {c : ContourG} {i : ℕ} (h : ringCell.components[i]? = some c) : i < 2 ∧ c = ringContour (2 - i) := by
  match i, h with
  | 0, h => simp [ringCell] at h; exact ⟨by omega, by rw [← h]; norm_num⟩
  | 1, h => simp [ringCell] at h; exact ⟨by omega, by rw [← h]; norm_num⟩

/-- where a sample of the example lies -/
theorem ringCell_node (P : Node ringCell) : P.k = 0 ∧ ∃ p, ringPt[P.a]? = some p ∧ P.i < 2 ∧ P.a < 8 ∧ P.s = ringSample (2 - P.i) p := by
  obtain ⟨h1, h2⟩ := ringCell_mem P.hc
  have he := P.he
  have hs := P.hs
  rw [h2] at he
  have hk : P.k = 0 := by
    have := (List.getElem?_eq_some_iff.1 he).1
    simp [ringContour] at this
    exact this
  rw [(ring_cols _ _ (List.mem_of_getElem? he)).1, List.getElem?_map] at hs
  refine ⟨hk, ?_⟩
  cases hp : ringPt[P.a]? with
  | none => rw [hp] at hs; cases hs
  | some p =>
    rw [hp] at hs
    simp only [Option.map_some, Option.some.injEq] at hs
    exact ⟨p, rfl, h1, by simpa [ringPt] using (List.getElem?_eq_some_iff.1 hp).1, hs.symm⟩

theorem ring_apart : ∀ i < 2, ∀ j < 2, ∀ a < 8, ∀ b < 8, ∀ p q : ℤ × ℤ, ringPt[a]? = some p → ringPt[b]? = some q →
    (2 - (i : ℕ) : ℤ) * p.1 = (2 - (j : ℕ)) * q.1 → (2 - (i : ℕ) : ℤ) * p.2 = (2 - (j : ℕ)) * q.2 → i = j ∧ a = b := by
  have key : ∀ i : Fin 2, ∀ j : Fin 2, ∀ a : Fin 8, ∀ b : Fin 8,
      (2 - ((i : ℕ) : ℤ)) * (ringPt.getD a 0).1 = (2 - ((j : ℕ) : ℤ)) * (ringPt.getD b 0).1 →
      (2 - ((i : ℕ) : ℤ)) * (ringPt.getD a 0).2 = (2 - ((j : ℕ) : ℤ)) * (ringPt.getD b 0).2 → (i : ℕ) = j ∧ (a : ℕ) = b := by decide
  intro i hi j hj a ha b hb p q hp hq h1 h2
  refine key ⟨i, hi⟩ ⟨j, hj⟩ ⟨a, ha⟩ ⟨b, hb⟩ ?_ ?_ <;> simpa [List.getD_eq_getElem?_getD, hp, hq]

/-- The example meets the hypotheses of C50 and C51. -/
theorem ringCell_meets : ringCell.Ready ∧ ringCell.Even ∧ Corners ringCell ∧ (∀ c ∈ ringCell.components, c.edges ≠ []) ∧
    ringCell.Apart ∧ ringCell.Simple := by
  have hS : ringCell.Simple := by
    intro P Q _ hne h0
    obtain ⟨h1, p, h2, h3, h3', h4⟩ := ringCell_node P
    obtain ⟨k1, q, k2, k3, k3', k4⟩ := ringCell_node Q
    have hx : (P.s.x - Q.s.x) = 0 ∧ (P.s.y - Q.s.y) = 0 := by
      unfold sqDist at h0
      constructor <;> nlinarith [sq_nonneg (P.s.x - Q.s.x), sq_nonneg (P.s.y - Q.s.y)]
    rw [h4, k4] at hx
    simp only [ringSample, sub_eq_zero, Int.cast_inj] at hx
    obtain ⟨l1, l2⟩ := ring_apart P.i h3 Q.i k3 P.a h3' Q.a k3' p q h2 k2 hx.1 hx.2
    exact hne ⟨⟨l1, by rw [h1, k1]⟩, l2⟩
  refine ⟨ringCell_ready, ?_, ⟨by simp [ringCell], by simp [ringCell]⟩, ?_, fun P Q hQ hne => hS P Q hQ fun h => hne h.1, hS⟩
  · intro c hc e he
    refine ⟨4, by norm_num, by norm_num, ?_⟩
    simp only [ringCell, List.mem_cons, List.not_mem_nil, or_false] at hc
    rcases hc with rfl | rfl <;> rw [(ring_cols _ e he).1] <;> simp [ringPt]
  · intro c hc
    simp only [ringCell, List.mem_cons, List.not_mem_nil, or_false] at hc
    rcases hc with rfl | rfl <;> simp [ringContour]

/-- on the example the matrices exist and constants are mapped to zero -/
example : ∃ o, build ringCell = .ok o ∧ o.double (List.replicate 16 3) = .ok (List.replicate 16 0) := by
  obtain ⟨h1, h2, h3, -, h4, h5⟩ := ringCell_meets
  obtain ⟨S, hS, -⟩ := C51_single h1 h2 h5
  obtain ⟨D, hD, -⟩ := C51_double h1 h4
  have hb : build ringCell = .ok ⟨ringCell, S, D, D.rowSums⟩ := by simp only [build, hS, hD, bind, Except.bind]
  exact ⟨_, hb, C50_constant h1 h3 hb 3⟩

/-- two contours with the same samples: the hypothesis of `C51_touching` is met and the matrix is not built -/
example : doubleMat { ringCell with components := [ringContour 1, ringContour 1] } = .error .zeroDivision := by
  refine (C51_touching ?_).1 fun h => ?_
  · refine ⟨?_, ?_, ?_⟩
    · intro c hc
      simp only [List.mem_cons, List.not_mem_nil, or_false, or_self] at hc
      rw [hc]
      exact ring_ready _
    · simp [ringCell, CellG.cols, ringContour, ContourG.cols, EdgeG.cols, ringPt]
    · simp [ringCell, ringContour, List.range_succ, blockStart]
  · refine h ⟨0, 0, 0, ringContour 1, _, ringSample 1 (2, 0), rfl, rfl, by simp [EdgeG.cols, ringPt]⟩
      ⟨1, 0, 0, ringContour 1, _, ringSample 1 (2, 0), rfl, rfl, by simp [EdgeG.cols, ringPt]⟩ ?_ ?_ (by simp [sqDist])
    · simp [Node.Skipped, EdgeG.IsKress, unitCircle]
    · simp [Node.SameEdge]

end PFEM
