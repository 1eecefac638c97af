import Verif.Props.Jacobi

/-!
Property theorems C68: the harmonic normal indicators.
-/

namespace PFEM
open Nystrom

/-! ### data constant on edges -/

/-- the values of a trace are the number `f k` on edge `k` -/
def EdgeConst (t : Trace) (f : ℕ → ℝ) : Prop :=
  ∃ v, t.values = some v ∧ v.length = t.sizes.sum ∧ ∀ (k : ℕ) (e : EdgeG), t.edges[k]? = some e → ∀ a < e.cols.length,
    v[blockStart t.sizes k + a]? = some (f k)

theorem setEdge_const {t : Trace} (h : t.Sized) {f : ℕ → ℝ} (hf : EdgeConst t f) {k : ℕ} (hk : k < t.edges.length) (x : ℝ) :
    ∃ r, t.setOnEdge k (.num x) = ({ t with values := some r }, .ok ()) ∧
      EdgeConst { t with values := some r } (Function.update f k x) := by
  obtain ⟨v, hv, hl, hc⟩ := hf
  have he := List.getElem?_eq_getElem hk
  have hw := Trace.sizes_get t he
  have hb : (FloatLike.num x).block (t.edges[k]).cols.length = some (List.replicate (t.edges[k]).cols.length x) := rfl
  have h1 := Trace.Field.vals.set_ok h hw hb (show Trace.attr t.values = .ok v by rw [hv]; rfl) hl
  have hle := Trace.Field.block_le hw
  have h2 := Trace.replaced_of v (List.replicate (t.edges[k]).cols.length x) (blockStart t.sizes k) (by simpa [hl] using hle)
  rw [List.length_replicate] at h2
  refine ⟨_, h1, _, rfl, h2.1.trans hl, fun j e hj a ha => ?_⟩
  have hj : t.edges[j]? = some e := hj
  change (_ : List ℝ)[blockStart t.sizes j + a]? = _
  by_cases hjk : j = k
  · subst hjk
    rw [he] at hj
    cases hj
    have := h2.2.1 a (by simpa using ha)
    rw [this]
    simp [ha]
  · rw [Function.update_of_ne hjk, ← hc j e hj a ha]
    refine h2.2.2 _ ?_
    rw [List.length_replicate]
    by_contra hcon
    push Not at hcon
    exact hjk (block_unique t.sizes (blockStart t.sizes j + a) (Trace.sizes_get t hj) hw (by omega) (by omega) hcon.1 hcon.2)

theorem setEdges_const {t : Trace} (h : t.Sized) {f : ℕ → ℝ} (hf : EdgeConst t f) (first : ℕ) (x : ℝ) :
    ∀ n, first + n ≤ t.edges.length → ∃ r, setEdges first n x t = .ok { t with values := some r } ∧
      EdgeConst { t with values := some r } fun k => if first ≤ k ∧ k < first + n then x else f k
  | 0, _ => by
    have hf' := hf
    obtain ⟨v, hv, -⟩ := hf
    have ht : ({ t with values := some v } : Trace) = t := by rw [← hv]
    refine ⟨v, by rw [ht]; rfl, ?_⟩
    rw [ht]
    have : (fun k => if first ≤ k ∧ k < first + 0 then x else f k) = f := by
      funext k
      rw [if_neg (by omega)]
    rw [this]
    exact hf'
  | n + 1, hn => by
    obtain ⟨r, h1, h2⟩ := setEdges_const h hf first x n (by omega)
    have hs : ({ t with values := some r } : Trace).Sized := ⟨h.sampled, h.numEdges, h.numPts, h.idx⟩
    obtain ⟨r', h3, h4⟩ := setEdge_const hs h2 (k := first + n) (by change first + n < t.edges.length; omega) x
    refine ⟨r', ?_, ?_⟩
    · unfold setEdges at h1 ⊢
      rw [List.range_succ, List.foldlM_append, h1]
      simp only [py_ok_bind, List.foldlM_cons, List.foldlM_nil, h3, Trace.after, Except.map]
      rfl
    · have : (Function.update (fun k => if first ≤ k ∧ k < first + n then x else f k) (first + n) x) =
          fun k => if first ≤ k ∧ k < first + (n + 1) then x else f k := by
        funext k
        by_cases hk : k = first + n
        · subst hk
          simp
        · rw [Function.update_of_ne hk]
          by_cases h5 : first ≤ k ∧ k < first + n
          · rw [if_pos h5, if_pos (by omega)]
          · rw [if_neg h5, if_neg (by omega)]
      rw [← this]
      exact h4

/-! ### edges of a cell and edges of its components -/

theorem flatMap_take {α β : Type} (g : α → List β) : ∀ (l : List α) (i k : ℕ) (c : α), l[i]? = some c → k ≤ (g c).length →
    (l.flatMap g).take (blockStart (l.map fun c => (g c).length) i + k) = (l.take i).flatMap g ++ (g c).take k
  | [], i, k, c, h, _ => by simp at h
  | d :: l, 0, k, c, h, hk => by
    simp only [List.getElem?_cons_zero, Option.some.injEq] at h
    subst h
    simp [blockStart, List.take_append_of_le_length hk]
  | d :: l, i + 1, k, c, h, hk => by
    simp only [List.getElem?_cons_succ] at h
    have ih := flatMap_take g l i k c h hk
    have : blockStart ((d :: l).map fun c => (g c).length) (i + 1) + k =
        (g d).length + (blockStart (l.map fun c => (g c).length) i + k) := by simp [blockStart]; omega
    rw [this, List.flatMap_cons, List.take_length_add_append, ih]
    simp

/-- the number of an edge among all edges of its cell -/
def Node.edgeIdx {K : CellG} (P : Node K) : ℕ := blockStart (K.components.map fun c => c.edges.length) P.i + P.k

theorem node_edge {K : CellG} (P : Node K) : K.getEdges[P.edgeIdx]? = some P.e :=
  flatMap_get ContourG.edges K.components P.i P.k P.c P.e P.hc P.he

theorem node_pos {K : CellG} (h : K.Ready) (P : Node K) :
    P.pos = blockStart (K.getEdges.map fun e => e.cols.length) P.edgeIdx + P.a := by
  have hk : P.k ≤ P.c.edges.length := (List.getElem?_eq_some_iff.1 P.he).1.le
  have h1 := flatMap_take ContourG.edges K.components P.i P.k P.c P.hc hk
  simp only [Node.pos, h.sizes, Node.edgeIdx]
  congr 1
  have e : ∀ n, blockStart (K.getEdges.map fun e => e.cols.length) n = ((K.getEdges.take n).map fun e => e.cols.length).sum :=
    fun n => by rw [blockStart, List.map_take]
  rw [e]
  unfold CellG.getEdges
  rw [h1, List.map_append, List.sum_append]
  congr 1
  · rw [blockStart, ← List.map_take, List.map_flatMap]
    simp only [ContourG.cols_len]
    generalize K.components.take P.i = l
    induction l with
    | nil => rfl
    | cons a l ih => simp [ih]
  · rw [blockStart, List.map_take]

/-- C68, the data for hole `j`: per arc length one on the boundary of the hole, minus the ratio of the lengths on the outer boundary, zero on
the other holes. -/
def IndicatorData (K : CellG) (j : ℕ) (inner outer : ℝ) (w : List ℝ) : Prop :=
  w.length = K.numPts ∧ ∀ P : Node K,
    w[P.pos]? = some ((if P.i = 0 then -(inner / outer) else if P.i = j + 1 then 1 else 0) * P.s.dxNorm)

theorem indicatorData_ok {K : CellG} (h : K.Ready) {c0 c : ContourG} {j : ℕ} (h0 : K.components[0]? = some c0)
    (hj : K.components[j + 1]? = some c) {outer inner : ℝ} (hou : outer ≠ 0)
    (hin : c.integrate (List.replicate c.numPts 1) = .ok inner) :
    ∃ w, indicatorData K c0 c outer (blockStart (K.components.map fun c => c.edges.length) (j + 1)) = .ok w ∧
      IndicatorData K j inner outer w := by
  have hb := Trace.good_bare (getEdges_sampled h)
  have h1 := (Trace.C46_set_values hb).2.1 0
  obtain ⟨-, h2, h3⟩ := bare_data K.getEdges
  have hinit : Trace.init K.getEdges (values := some (.one (.num 0))) =
      .ok (Trace.made K.getEdges (some (List.replicate (Trace.bare K.getEdges).sizes.sum 0)) none none) := by
    simp only [Trace.init, Bool.false_eq_true, if_false, h1, Except.map, Trace.made]
    rw [h2, h3]
  set t := Trace.made K.getEdges (some (List.replicate (Trace.bare K.getEdges).sizes.sum 0)) none none with ht
  have hts : t.Sized := made_sized h _ _ _
  have hte : t.edges = K.getEdges := Trace.edges_bare _
  have htc : EdgeConst t fun _ => 0 := by
    refine ⟨List.replicate (Trace.bare K.getEdges).sizes.sum 0, rfl, by simp; rfl, fun k e hk a ha => ?_⟩
    have := Trace.Field.block_le (Trace.sizes_get t hk)
    rw [List.getElem?_replicate, if_pos]
    change _ < t.sizes.sum
    omega
  set B := fun i => blockStart (K.components.map fun c => c.edges.length) i with hB
  have hlen : K.getEdges.length = (K.components.map fun c => c.edges.length).sum := by simp [CellG.getEdges, List.length_flatMap]
  have hB1 : ∀ i d, K.components[i]? = some d → B (i + 1) = B i + d.edges.length := fun i d hd =>
    PFEM.blockStart_succ _ i (by simp [hd])
  have hBle : ∀ i, B i ≤ K.getEdges.length := fun i => by rw [hlen]; exact Nystrom.blockStart_le_sum _ _
  have hB0 : B 0 = 0 := by simp [hB, blockStart]
  have e0 : B 1 = B 0 + c0.edges.length := hB1 0 c0 h0
  have ej := hB1 (j + 1) c hj
  obtain ⟨r1, h4, h5⟩ := setEdges_const hts htc 0 (-inner / outer) c0.edges.length (by rw [hte]; have := hBle 1; omega)
  have hts1 : ({ t with values := some r1 } : Trace).Sized := ⟨hts.sampled, hts.numEdges, hts.numPts, hts.idx⟩
  obtain ⟨r2, h6, v, hv, hvl, h7⟩ := setEdges_const hts1 h5 (B (j + 1)) 1 c.edges.length (by
    change _ ≤ t.edges.length
    rw [hte]
    have := hBle (j + 1 + 1)
    omega)
  cases hv
  have hvl : r2.length = K.cols.length := by
    rw [hvl, ← h.numPts]
    exact made_sizes h _ _ _
  refine ⟨List.zipWith (fun s v => v * s.dxNorm) K.cols r2, ?_, by simp [hvl, h.numPts], fun P => ?_⟩
  · simp only [indicatorData, hinit, py_ok_bind, hin, if_neg hou, h4]
    rw [h6]
    simp only [py_ok_bind, Trace.attr]
    exact h.multiplyByDxNorm hvl
  · have hP := (C51_places h).1 P
    have hval := h7 P.edgeIdx P.e (by change t.edges[_]? = _; rw [hte]; exact node_edge P) P.a (List.getElem?_eq_some_iff.1 P.hs).1
    have hpos : P.pos = blockStart ({ t with values := some r1 } : Trace).sizes P.edgeIdx + P.a := by
      rw [node_pos h P]
      congr 2
      change _ = t.edges.map _
      rw [hte]
    have hval' : r2[P.pos]? = some (if B (j + 1) ≤ P.edgeIdx ∧ P.edgeIdx < B (j + 1) + c.edges.length then 1 else
        if 0 ≤ P.edgeIdx ∧ P.edgeIdx < 0 + c0.edges.length then -inner / outer else 0) := by rw [hpos]; exact hval
    rw [List.getElem?_zipWith, hP, hval']
    simp only [Option.some.injEq]
    congr 1
    have hk := (List.getElem?_eq_some_iff.1 P.he).1
    have hidx : P.edgeIdx = B P.i + P.k := rfl
    have eP := hB1 P.i P.c P.hc
    have hmono : ∀ {i i' : ℕ}, i ≤ i' → B i ≤ B i' := fun hii => blockStart_mono _ hii
    rcases Nat.lt_trichotomy P.i (j + 1) with hlt | heq | hgt
    · rw [if_neg (by have := hmono (show P.i + 1 ≤ j + 1 by omega); omega)]
      by_cases hz : P.i = 0
      · have hc0 : P.c = c0 := by
          have := P.hc
          rw [hz, h0] at this
          exact (Option.some.inj this).symm
        rw [hz, hB0] at hidx
        rw [hc0] at hk
        rw [if_pos (by omega), if_pos hz, neg_div]
      · have := hmono (show 1 ≤ P.i by omega)
        rw [if_neg (by omega), if_neg hz, if_neg (by omega)]
    · have hcc : P.c = c := by
        have := P.hc
        rw [heq, hj] at this
        exact (Option.some.inj this).symm
      rw [hcc] at hk
      rw [heq] at hidx
      rw [if_pos (by omega), if_neg (by omega), if_pos heq]
    · have := hmono (show j + 1 + 1 ≤ P.i by omega)
      have := hmono (show 1 ≤ P.i by omega)
      rw [if_neg (by omega), if_neg (by omega), if_neg (by omega), if_neg (by omega)]

/-! ### all holes -/

theorem indicatorLoop_ok {K : CellG} (h : K.Ready) {solve : List ℝ → Py (List ℝ)} {c0 : ContourG} (h0 : K.components[0]? = some c0)
    {outer : ℝ} : ∀ (cs : List ContourG) (i : ℕ) (ts : List Trace), K.components.drop (i + 1) = cs →
    indicatorLoop K solve c0 outer (blockStart (K.components.map fun c => c.edges.length) (i + 1)) cs = .ok ts →
    ts.length = cs.length ∧ ∀ (m : ℕ) (t : Trace), ts[m]? = some t → ∃ c inner w x, K.components[i + 1 + m]? = some c ∧
      c.integrate (List.replicate c.numPts 1) = .ok inner ∧ IndicatorData K (i + m) inner outer w ∧ solve w = .ok x ∧
      Trace.init K.getEdges (values := some (.one (.arr x))) = .ok t
  | [], i, ts, _, hr => by
    cases hr
    exact ⟨rfl, fun m t hm => by simp at hm⟩
  | c :: cs, i, ts, hcs, hr => by
    have hc : K.components[i + 1]? = some c := by
      have := congrArg (·[0]?) hcs
      simpa using this
    have hcs' : K.components.drop (i + 1 + 1) = cs := by
      rw [← List.drop_drop, hcs]; rfl
    obtain ⟨w, hw, hr⟩ := bind_ok hr
    obtain ⟨x, hx, hr⟩ := bind_ok hr
    obtain ⟨t, ht, hr⟩ := bind_ok hr
    obtain ⟨ts', hts, hr⟩ := bind_ok hr
    cases hr
    have hnext := PFEM.blockStart_succ (K.components.map fun c => c.edges.length) (i + 1) (w := c.edges.length) (by simp [hc])
    rw [← hnext] at hts
    obtain ⟨h1, h2⟩ := indicatorLoop_ok h h0 cs (i + 1) ts' hcs' hts
    refine ⟨by simp [h1], fun m t' hm => ?_⟩
    cases m with
    | zero =>
      simp only [List.getElem?_cons_zero, Option.some.injEq] at hm
      subst hm
      have hw' := hw
      obtain ⟨chi, -, hw'⟩ := bind_ok hw'
      obtain ⟨inner, hin, hw'⟩ := bind_ok hw'
      have hou : outer ≠ 0 := by
        intro h00
        rw [if_pos h00] at hw'
        cases hw'
      obtain ⟨w', hw1, hw2⟩ := indicatorData_ok h h0 hc hou hin
      rw [hw] at hw1
      cases hw1
      exact ⟨c, inner, w, x, hc, hin, hw2, hx, ht⟩
    | succ m =>
      simp only [List.getElem?_cons_succ] at hm
      obtain ⟨c', inner, w', x', k1, k2, k3, k4, k5⟩ := h2 m t' hm
      refine ⟨c', inner, w', x', ?_, k2, ?_, k4, k5⟩
      · rw [← k1]
        congr 1
        omega
      · rw [show i + (m + 1) = i + 1 + m by omega]
        exact k3

/-- C68: with the strategy `fft` there is one indicator for every hole, in the order of the holes.  Indicator `j` is the solution of the
Neumann problem, as the linear solver returns it, for the data that are one on hole `j`, minus the ratio of the lengths of hole `j` and the
outer boundary on the outer boundary, and zero on the other holes, each times the weighted speed. -/
theorem C68_indicators {gmres : Gmres} {K : CellG} (h : K.Ready) {pc : String} {s : Solver}
    (hs : init gmres K "fft" pc = .ok s) {eta : List Trace} (he : s.eta = some eta) :
    eta.length = K.components.length - 1 ∧ ∃ c0 outer, K.components[0]? = some c0 ∧
      c0.integrate (List.replicate c0.numPts 1) = .ok outer ∧
      ∀ (j : ℕ) (t : Trace), eta[j]? = some t → ∃ c inner w b x, K.components[j + 1]? = some c ∧
        c.integrate (List.replicate c.numPts 1) = .ok inner ∧ IndicatorData K j inner outer w ∧
        s.ops.single w = .ok b ∧ gmres s.ops.neumann b (precond K.numPts s.diag) = .ok x ∧
        Trace.init (K.components.flatMap ContourG.edges) (values := some (.one (.arr x))) = .ok t := by
  obtain ⟨ho, -, -, -, -, -, hi⟩ := init_parts hs
  obtain ⟨-, eta', he', hi⟩ := hi.resolve_right fun hh => by rw [hh.2] at he; cases he
  rw [he] at he'
  cases he'
  have hK := (build_shape h ho).1
  obtain ⟨c0, hc0, hi⟩ := bind_ok hi
  obtain ⟨outer, hou, hi⟩ := bind_ok hi
  have h0 : K.components[0]? = some c0 := by
    unfold Np.get at hc0
    cases hg : K.components[0]? with
    | none => rw [hg] at hc0; cases hc0
    | some d => rw [hg] at hc0; cases hc0; rfl
  have h1 : blockStart (K.components.map fun c => c.edges.length) (0 + 1) = c0.edges.length := by
    rw [PFEM.blockStart_succ _ 0 (w := c0.edges.length) (by simp [h0])]
    simp [blockStart]
  rw [← h1] at hi
  obtain ⟨h2, h3⟩ := indicatorLoop_ok h h0 K.components.tail 0 eta (by simp) hi
  refine ⟨by simp [h2], c0, outer, h0, hou, fun j t hj => ?_⟩
  obtain ⟨c, inner, w, x, k1, k2, k3, k4, k5⟩ := h3 j t hj
  obtain ⟨b, hb, hx⟩ := bind_ok k4
  rw [hK] at hx
  refine ⟨c, inner, w, b, x, by rw [← k1]; congr 1; omega, k2, by simpa using k3, hb, hx, k5⟩

/-- the data for hole `j` as a list -/
theorem indicator_list {K : CellG} (h : K.Ready) {j : ℕ} {inner outer : ℝ} {w : List ℝ} (hw : IndicatorData K j inner outer w) :
    w = K.components.zipIdx.flatMap fun q => q.1.cols.map fun s =>
      (if q.2 = 0 then -(inner / outer) else if q.2 = j + 1 then 1 else 0) * s.dxNorm := by
  set f : ContourG × ℕ → List ℝ := fun q => q.1.cols.map fun s =>
      (if q.2 = 0 then -(inner / outer) else if q.2 = j + 1 then 1 else 0) * s.dxNorm with hf
  have hlen : (K.components.zipIdx.map fun q => (f q).length) = K.components.map fun c => c.cols.length := by
    simp only [hf, List.length_map]
    rw [show (fun q : ContourG × ℕ => q.1.cols.length) = (fun c : ContourG => c.cols.length) ∘ Prod.fst from rfl, ← List.map_map,
      List.zipIdx_map_fst]
  have hl : w.length = (K.components.zipIdx.flatMap f).length := by
    rw [hw.1, h.numPts, List.length_flatMap, hlen]
    simp [CellG.cols, List.length_flatMap]
  refine List.ext_getElem? fun p => ?_
  by_cases hp : p < K.numPts
  · obtain ⟨P, rfl⟩ := (C51_places h).2.1 p hp
    rw [hw.2 P]
    have hin : (P.c.cols)[es P.c P.k + P.a]? = some P.s := flatMap_get EdgeG.cols P.c.edges P.k P.a P.e P.s P.he P.hs
    have hq : K.components.zipIdx[P.i]? = some (P.c, P.i) := by simp [P.hc]
    have := flatMap_get f K.components.zipIdx P.i (es P.c P.k + P.a) (P.c, P.i)
      ((if P.i = 0 then -(inner / outer) else if P.i = j + 1 then 1 else 0) * P.s.dxNorm) hq (by
        simp only [hf, List.getElem?_map, hin, Option.map_some])
    rw [hlen, ← add_assoc, ← h.sizes] at this
    exact this.symm
  · rw [List.getElem?_eq_none (by rw [hw.1]; omega), List.getElem?_eq_none (by rw [← hl, hw.1]; omega)]

/-- the discrete length of a closed contour -/
noncomputable def discLen (c : ContourG) : ℝ :=
  2 * Real.pi * (c.edges.length : ℝ) / (c.cols.length : ℝ) * (c.cols.map Sample.dxNorm).sum

theorem integrate_one {c : ContourG} (h : c.Ready) (hne : c.edges ≠ []) {N : ℕ} (hN : ∀ e ∈ c.edges, e.cols.length = N) :
    c.integrate (List.replicate c.numPts 1) = .ok (discLen c) := by
  rw [contour_integrate h hN (by simp [h.numPts]), discLen, cols_uniform hN]
  congr 1
  have h1 : (c.edges.length : ℝ) ≠ 0 := by simpa using hne
  congr 1
  · push_cast
    rw [mul_comm (c.edges.length : ℝ) (N : ℝ), mul_div_mul_right _ _ h1]
  · rw [h.numPts]
    congr 1
    generalize c.cols = l
    induction l with
    | nil => rfl
    | cons a l ih => simp [List.replicate_succ, ih]

theorem sum_pick (L : ContourG → ℝ) (m : ℕ) : ∀ (l : List ContourG) (n : ℕ),
    ((l.zipIdx n).map fun q => (if q.2 = m then 1 else 0) * L q.1).sum = if n ≤ m then (l[m - n]?).elim 0 L else 0
  | [], n => by simp
  | a :: l, n => by
    have ih := sum_pick L m l (n + 1)
    simp only [List.zipIdx_cons, List.map_cons, List.sum_cons, ih]
    rcases Nat.lt_trichotomy n m with hlt | heq | hgt
    · obtain ⟨d, rfl⟩ : ∃ d, m = n + 1 + d := ⟨m - n - 1, by omega⟩
      rw [if_neg (by omega), if_pos (by omega), if_pos (by omega)]
      simp [show n + 1 + d - n = d + 1 by omega]
    · subst heq
      simp
    · rw [if_neg (by omega), if_neg (by omega), if_neg (by omega)]
      simp

/-- C68: the data of every indicator have integral zero over the whole boundary, so that the Neumann problem is solvable. -/
theorem C68_balanced {K : CellG} (h : K.Ready) (hU : Uniform K) {j : ℕ} {c0 c : ContourG} (h0 : K.components[0]? = some c0)
    (hj : K.components[j + 1]? = some c) {inner outer : ℝ} (hou : c0.integrate (List.replicate c0.numPts 1) = .ok outer)
    (hin : c.integrate (List.replicate c.numPts 1) = .ok inner) (hnz : outer ≠ 0) {w : List ℝ} (hw : IndicatorData K j inner outer w) :
    K.integratePreweighted w = .ok 0 := by
  have hL : ∀ {i : ℕ} {d : ContourG} {x : ℝ}, K.components[i]? = some d → d.integrate (List.replicate d.numPts 1) = .ok x →
      x = discLen d := by
    intro i d x hd hx
    obtain ⟨hne, N, hN⟩ := hU d (List.mem_of_getElem? hd)
    rw [integrate_one (h.ready d (List.mem_of_getElem? hd)) hne hN] at hx
    exact (Except.ok.inj hx).symm
  have ho := hL h0 hou
  have hi := hL hj hin
  rw [indicator_list h hw, List.flatMap_def, h.integratePreweighted (fun c hc => (hU c hc).1) (by
    rw [List.map_map]
    simp only [Function.comp_def, List.length_map]
    rw [show (fun q : ContourG × ℕ => q.1.cols.length) = (fun c : ContourG => c.cols.length) ∘ Prod.fst from rfl, ← List.map_map,
      List.zipIdx_map_fst])]
  congr 1
  have key : ∀ (l : List ContourG) (n : ℕ) (v : ℕ → ℝ), (List.zipWith (fun (c : ContourG) (u : List ℝ) =>
      2 * Real.pi * (c.edges.length : ℝ) / (c.cols.length : ℝ) * u.sum) l
      ((l.zipIdx n).map fun q => q.1.cols.map fun s => v q.2 * s.dxNorm)).sum = ((l.zipIdx n).map fun q => v q.2 * discLen q.1).sum := by
    intro l
    induction l with
    | nil => simp
    | cons a l ih =>
      intro n v
      simp only [List.zipIdx_cons, List.map_cons, List.zipWith_cons_cons, List.sum_cons, ih]
      congr 1
      rw [show (fun s : Sample => v n * s.dxNorm) = (v n * ·) ∘ Sample.dxNorm from rfl, ← List.map_map, ← ContourG.mul_sum_list, discLen]
      ring
  rw [key K.components 0 fun i => if i = 0 then -(inner / outer) else if i = j + 1 then 1 else 0]
  obtain ⟨cs, hcs⟩ : ∃ cs, K.components = c0 :: cs := by
    cases hK : K.components with
    | nil => rw [hK] at h0; simp at h0
    | cons a l => rw [hK] at h0; simp at h0; exact ⟨l, by rw [h0]⟩
  rw [hcs, List.getElem?_cons_succ] at hj
  rw [hcs, List.zipIdx_cons, List.map_cons, List.sum_cons]
  have e : ((cs.zipIdx (0 + 1)).map fun q => (if q.2 = 0 then -(inner / outer) else if q.2 = j + 1 then 1 else 0) * discLen q.1) =
      (cs.zipIdx (0 + 1)).map fun q => (if q.2 = j + 1 then 1 else 0) * discLen q.1 := by
    refine List.map_congr_left fun q hq => ?_
    have := List.le_snd_of_mem_zipIdx hq
    rw [if_neg (show ¬ q.2 = 0 by omega)]
  rw [e, sum_pick discLen (j + 1) cs (0 + 1)]
  simp only [zero_add, if_true, Nat.add_sub_cancel, hj, Option.elim_some]
  rw [if_pos (by omega), ← ho, ← hi, neg_mul, div_mul_cancel₀ _ hnz]
  ring

/-- C68 on the ring of the examples: the length of the outer boundary is not zero, and the data exist -/
example : ∃ c0 c outer inner w, ringCell.components[0]? = some c0 ∧ ringCell.components[0 + 1]? = some c ∧
    c0.integrate (List.replicate c0.numPts 1) = .ok outer ∧ c.integrate (List.replicate c.numPts 1) = .ok inner ∧ outer ≠ 0 ∧
    IndicatorData ringCell 0 inner outer w ∧ ringCell.integratePreweighted w = .ok 0 := by
  obtain ⟨h, -, -, hne, -⟩ := ringCell_meets
  have hU : Uniform ringCell := by
    intro c hc
    refine ⟨hne c hc, 8, fun e he => ?_⟩
    simp only [ringCell, List.mem_cons, List.not_mem_nil, or_false] at hc
    rcases hc with rfl | rfl <;> rw [(ring_cols _ e he).1] <;> simp [ringPt]
  have h0 : ringCell.components[0]? = some (ringContour 2) := rfl
  have h1 : ringCell.components[0 + 1]? = some (ringContour 1) := rfl
  have hr : ∀ r : ℤ, (ringContour r).integrate (List.replicate (ringContour r).numPts 1) = .ok (discLen (ringContour r)) := fun r =>
    integrate_one (ring_ready r) (by simp [ringContour]) (N := 8) fun e he => by rw [(ring_cols _ e he).1]; simp [ringPt]
  have hnz : discLen (ringContour 2) ≠ 0 := by
    have : ((ringContour 2).cols.map Sample.dxNorm).sum = 8 := by
      simp [ringContour, ContourG.cols, EdgeG.cols, ringPt, ringSample]; norm_num
    rw [discLen, this]
    simp [ringContour, ContourG.cols, EdgeG.cols, ringPt, Real.pi_ne_zero]
  obtain ⟨w, -, hw⟩ := indicatorData_ok h h0 h1 hnz (hr 1)
  exact ⟨_, _, _, _, w, h0, h1, hr 2, hr 1, hnz, hw, C68_balanced h hU h0 h1 (hr 2) (hr 1) hnz hw⟩

end PFEM
