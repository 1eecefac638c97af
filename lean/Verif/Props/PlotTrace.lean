import Verif.Lemmas.Boundary
import Verif.Lemmas.NystromSolve
import Verif.Props.Masks
import Verif.Props.Quad
import Verif.Spec.Plot

/-!
Property theorems C93 (one curve for each trace) and C94 (the horizontal axis of a trace plot).
-/

namespace PFEM
open Plot

/-! ### one curve for each trace -/

/-- the array that a trace stands for -/
def Plot.TraceLike.data : TraceLike → Option (List ℝ)
  | .trace t => t.values
  | .arr l => some l
  | .other => none

/-- how often it is stored: a `DirichletTrace` twice -/
def Plot.TraceLike.copies : TraceLike → ℕ
  | .trace _ => 2
  | _ => 1

theorem traceLoop_eq (n : ℕ) (l : List TraceLike) (ds : List (List ℝ)) (h : List.Forall₂ (fun f d => f.data = some d ∧ d.length = n) l ds)
    (acc : List (List ℝ)) : traceLoop n acc l =
      .ok (acc ++ (List.zipWith (fun f d => List.replicate (TraceLike.copies f) d) l ds).flatten) := by
  induction h generalizing acc with
  | nil => simp [traceLoop]
  | @cons f d l ds hd _ ih =>
    obtain ⟨h1, h2⟩ := hd
    cases f with
    | trace t =>
      simp only [TraceLike.data] at h1
      simp [traceLoop, h1, Trace.attr, py_ok_bind, h2, ih, TraceLike.copies, List.replicate]
    | arr v =>
      simp only [TraceLike.data, Option.some.injEq] at h1
      subst h1
      simp [traceLoop, h2, ih, TraceLike.copies]
    | other => simp [TraceLike.data] at h1

/-- C93 (in part): arrays of the right length are stored as they are, and each is drawn as one curve over the parameter, in
its own format if there is a list of formats.  Missing: `DirichletTrace` objects (`C93_violated`). -/
theorem C93_arrays_partial {K : CellG} {d : Quad × Quad} {t ticks : List ℝ} {labels : List ℤ} {m : ℤ} (ht : findT K d = .ok t)
    (hm : findTicks (K.components.map fun c => c.edges.length).sum m = .ok (ticks, labels)) {fs : List (List ℝ)}
    (hf : ∀ f ∈ fs, f.length = K.numPts) {legend : List String} (hl : legend = [] ∨ legend.length = fs.length) :
    (∀ s, ∃ P, TracePlot.init (.list (fs.map .arr)) K d (.one s) legend m = .ok P ∧
      P.curves = fs.map fun f => (t.zip f, s)) ∧
    (∀ l : List String, l.length = fs.length → ∃ P, TracePlot.init (.list (fs.map .arr)) K d (.list l) legend m = .ok P ∧
      P.curves = List.zipWith (fun f s => (t.zip f, s)) fs l) ∧
    ∀ f s, fs = [f] → ∃ P, TracePlot.init (.one (.arr f)) K d (.one s) legend m = .ok P ∧ P.curves = [(t.zip f, s)] := by
  have h0 : ∀ gs : List (List ℝ), (List.zipWith (fun f d => List.replicate (TraceLike.copies f) d) (gs.map TraceLike.arr) gs).flatten = gs := by
    intro gs; induction gs with
    | nil => rfl
    | cons a l ih =>
      simp only [List.map_cons, List.zipWith_cons_cons, List.flatten_cons, ih]
      simp [TraceLike.copies]
  have h1 : setTraces K.numPts (.list (fs.map .arr)) = .ok fs := by
    rw [setTraces, traceLoop_eq K.numPts _ fs, h0]; · simp
    rw [List.forall₂_map_left_iff]
    exact List.forall₂_same.2 fun f hfm => ⟨rfl, hf f hfm⟩
  have h2 : setLegend fs legend = .ok legend := by
    rw [setLegend, if_neg]
    rintro ⟨h, h'⟩
    rcases hl with hl | hl
    · exact h hl
    · exact h' hl
  refine ⟨fun s => ⟨⟨t, ticks, labels, fs, .one s, legend⟩, ?_, rfl⟩, fun l hlen => ⟨⟨t, ticks, labels, fs, .list l, legend⟩, ?_, ?_⟩,
    fun f s hfs => ⟨⟨t, ticks, labels, fs, .one s, legend⟩, ?_, ?_⟩⟩
  · simp only [TracePlot.init, ht, hm, h1, h2, py_ok_bind, setFormat]
  · simp only [TracePlot.init, ht, hm, h1, h2, py_ok_bind, setFormat, hlen, ne_eq, not_true_eq_false, if_false]
  · simp [TracePlot.curves, List.zip, List.map_zipWith]
  · subst hfs
    have h1' : setTraces K.numPts (.one (.arr f)) = .ok [f] := h1
    simp only [TracePlot.init, ht, hm, h1', h2, py_ok_bind, setFormat]
  · subst hfs; rfl

/-- C93: what cannot be a trace is refused: `TypeError` for another object, `ValueError` for an array of another length -/
theorem C93_errors (n : ℕ) (l r : List TraceLike) (ds : List (List ℝ))
    (h : List.Forall₂ (fun f d => f.data = some d ∧ d.length = n) l ds) :
    setTraces n (.list (l ++ .other :: r)) = .error .typeError ∧
    ∀ f d, f.data = some d → d.length ≠ n → setTraces n (.list (l ++ f :: r)) = .error .valueError := by
  have key : ∀ (f : TraceLike) e, (∀ acc, traceLoop n acc (f :: r) = .error e) → ∀ acc, traceLoop n acc (l ++ f :: r) = .error e := by
    intro f e he
    induction h with
    | nil => exact he
    | @cons g d l ds hd _ ih =>
      intro acc
      obtain ⟨h1, h2⟩ := hd
      cases g with
      | trace t =>
        simp only [TraceLike.data] at h1
        simp [traceLoop, h1, Trace.attr, py_ok_bind, h2, ih]
      | arr v =>
        simp only [TraceLike.data, Option.some.injEq] at h1
        subst h1
        simp [traceLoop, h2, ih]
      | other => simp [TraceLike.data] at h1
  refine ⟨key _ _ (fun _ => rfl) [], fun f d hd hn => key _ _ (fun acc => ?_) []⟩
  cases f with
  | trace t =>
    simp only [TraceLike.data] at hd
    simp [traceLoop, hd, Trace.attr, py_ok_bind, hn]
  | arr v =>
    simp only [TraceLike.data, Option.some.injEq] at hd
    subst hd
    simp [traceLoop, hn]
  | other => simp [TraceLike.data] at hd

/-- C93 is violated: as soon as one of the traces is a `DirichletTrace`, more curves are stored than traces were given (each
`DirichletTrace` twice), and a legend with one entry for each trace, or a list with one format for each, is refused. -/
theorem C93_violated (n : ℕ) (l : List TraceLike) (ds : List (List ℝ))
    (h : List.Forall₂ (fun f d => f.data = some d ∧ d.length = n) l ds) {t : Trace} (ht : .trace t ∈ l) :
    ∃ fs, setTraces n (.list l) = .ok fs ∧ l.length < fs.length ∧
      (∀ legend : List String, legend.length = l.length → setLegend fs legend = .error .valueError) ∧
      ∀ fmt : List String, fmt.length = l.length → setFormat fs (.list fmt) = .error .valueError := by
  have hlen : l.length < (List.zipWith (fun f d => List.replicate (TraceLike.copies f) d) l ds).flatten.length := by
    have h' := h.length_eq
    clear h
    have hle : ∀ (l : List TraceLike) (ds : List (List ℝ)), l.length = ds.length →
        l.length ≤ (List.zipWith (fun f d => List.replicate (TraceLike.copies f) d) l ds).flatten.length := by
      intro l
      induction l with
      | nil => simp
      | cons f l ih =>
        intro ds hds
        cases ds with
        | nil => simp at hds
        | cons d ds =>
          have := ih ds (by simpa using hds)
          simp only [List.zipWith_cons_cons, List.flatten_cons, List.length_append, List.length_replicate, List.length_cons]
          have : 1 ≤ f.copies := by cases f <;> simp [TraceLike.copies]
          omega
    induction l generalizing ds with
    | nil => simp at ht
    | cons f l ih =>
      cases ds with
      | nil => simp at h'
      | cons d ds =>
        have h'' : l.length = ds.length := by simpa using h'
        simp only [List.zipWith_cons_cons, List.flatten_cons, List.length_append, List.length_replicate, List.length_cons]
        rcases List.mem_cons.1 ht with rfl | hm
        · have := hle l ds h''
          have h2 : (TraceLike.trace t).copies = 2 := rfl
          rw [h2]; omega
        · have := ih ds hm h''
          have : 1 ≤ f.copies := by cases f <;> simp [TraceLike.copies]
          omega
  have hpos : 0 < l.length := List.length_pos_of_mem ht
  refine ⟨_, by rw [setTraces, traceLoop_eq n l ds h, List.nil_append], hlen, fun legend hl => ?_, fun fmt hl => ?_⟩
  · rw [setLegend, if_pos]
    refine ⟨?_, by omega⟩
    rintro rfl
    simp at hl; omega
  · rw [setFormat, if_pos (by omega)]

/-- the simplest case: one `DirichletTrace`, and a legend for it -/
example : ∃ t : Trace, t.values = some [1, 2, 3] ∧ setTraces 3 (.one (.trace t)) = .ok [[1, 2, 3], [1, 2, 3]] ∧
    setLegend [[1, 2, 3], [1, 2, 3]] ["u"] = .error .valueError := by
  refine ⟨⟨[], 0, none, none, some [1, 2, 3], none, none, none⟩, rfl, ?_, ?_⟩
  · simp [setTraces, traceLoop, Trace.attr, py_ok_bind]
  · simp [setLegend]

/-! ### the parameter -/

/-- the rule that an edge is sampled with -/
def ruleOf (d : Quad × Quad) (e : EdgeG) : Quad := if e.quadType = "trap" then d.1 else d.2

/-- the positions of the samples of the edges `es`, the first of which has number `j` -/
noncomputable def axisOf (d : Quad × Quad) : ℕ → List EdgeG → List ℝ
  | _, [] => []
  | j, e :: es => (ruleOf d e).t.dropLast.map (2 * Real.pi * (j : ℝ) + ·) ++ axisOf d (j + 1) es

/-- the edge is sampled with a rule of the dictionary -/
def FitsRule (d : Quad × Quad) (e : EdgeG) : Prop :=
  (e.quadType = "trap" ∨ e.quadType = "kress") ∧ (ruleOf d e).t.length = ContourG.npts e ∧ 2 ≤ ContourG.npts e

theorem paramEdges_eq (d : Quad × Quad) : ∀ (es : List EdgeG), (∀ e ∈ es, FitsRule d e) → ∀ (j : ℕ) (done rest : List ℝ),
    (axisOf d j es).length ≤ rest.length →
    paramEdges d (done ++ rest, 2 * Real.pi * (j : ℝ), done.length) es =
      .ok ((done ++ axisOf d j es) ++ rest.drop (axisOf d j es).length, 2 * Real.pi * ((j + es.length : ℕ) : ℝ),
        (done ++ axisOf d j es).length)
  | [], _, j, done, rest, _ => by simp [paramEdges, axisOf]
  | e :: es, h, j, done, rest, hr => by
    obtain ⟨hq, hl, h2⟩ := h e (by simp)
    have hrule : lookup d e.quadType = .ok (ruleOf d e) := by
      unfold ruleOf lookup
      split
      · rfl
      · rw [if_pos (hq.resolve_left ‹_›)]
    set v := (ruleOf d e).t.dropLast.map (2 * Real.pi * (j : ℝ) + ·) with hv
    have hvl : v.length = ContourG.npts e - 1 := by rw [hv]; simp [hl]
    have hax : axisOf d j (e :: es) = v ++ axisOf d (j + 1) es := rfl
    rw [hax, List.length_append] at hr
    have hs := setSlice_block done rest v v.length (by omega) rfl
    have e1 : done.length + ContourG.npts e - 1 = done.length + v.length := by omega
    have ih := paramEdges_eq d es (fun e he => h e (by simp [he])) (j + 1) (done ++ v) (rest.drop v.length)
      (by rw [List.length_drop]; omega)
    have e2 : 2 * Real.pi * (j : ℝ) + 2 * Real.pi = 2 * Real.pi * ((j + 1 : ℕ) : ℝ) := by push_cast; ring
    have e3 : done.length + (ContourG.npts e - 1) = (done ++ v).length := by simp [hvl]
    simp only [paramEdges, hrule, py_ok_bind, e1, e2, e3]
    rw [← hv, hs, py_ok_bind, ih, hax]
    simp only [List.append_assoc, List.drop_drop, List.length_append, List.length_cons]
    congr 3
    · congr 2; omega

theorem axisOf_append (d : Quad × Quad) : ∀ (es fs : List EdgeG) (j : ℕ), axisOf d j (es ++ fs) = axisOf d j es ++ axisOf d (j + es.length) fs
  | [], fs, j => by simp [axisOf]
  | e :: es, fs, j => by
    simp only [List.cons_append, axisOf, axisOf_append d es fs (j + 1), List.append_assoc, List.length_cons]
    congr 3; omega

theorem paramContours_eq (d : Quad × Quad) : ∀ (cs : List ContourG) (s : List ℝ × ℝ × ℕ),
    paramContours d s cs = paramEdges d s (cs.flatMap ContourG.edges)
  | [], s => rfl
  | c :: cs, s => by
    have key : ∀ (es fs : List EdgeG) (s : List ℝ × ℝ × ℕ), paramEdges d s (es ++ fs) = (do let s ← paramEdges d s es; paramEdges d s fs) := by
      intro es
      induction es with
      | nil => intro fs s; rfl
      | cons e es ih =>
        intro fs s
        simp only [List.cons_append, paramEdges, bind_assoc, ih]
    rw [List.flatMap_cons, key, paramContours]
    congr 1
    funext s
    exact paramContours_eq d cs s

theorem axisOf_length {d : Quad × Quad} : ∀ {es : List EdgeG}, (∀ e ∈ es, FitsRule d e) → ∀ j,
    (axisOf d j es).length = (es.map fun e => e.cols.length).sum
  | [], _, _ => rfl
  | e :: es, h, j => by
    obtain ⟨-, hl, -⟩ := h e (by simp)
    have := axisOf_length (fun e he => h e (by simp [he]) : ∀ e ∈ es, FitsRule d e) (j + 1)
    simp [axisOf, this, hl, EdgeG.cols, ContourG.npts]

theorem findT_eq {K : CellG} (hK : K.Ready) {d : Quad × Quad} (h : ∀ e ∈ K.components.flatMap ContourG.edges, FitsRule d e) :
    findT K d = .ok (axisOf d 0 (K.components.flatMap ContourG.edges)) := by
  have hl : (axisOf d 0 (K.components.flatMap ContourG.edges)).length = K.numPts := by
    rw [axisOf_length h, hK.numPts]
    simp [CellG.cols, ContourG.cols, List.length_flatMap, List.map_flatMap]
    simp [List.flatMap, List.sum_flatten, Function.comp_def]
  have := paramEdges_eq d _ h 0 [] (List.replicate K.numPts 0) (by simp [hl])
  simp only [List.nil_append, Nat.cast_zero, mul_zero, List.length_nil] at this
  rw [findT, paramContours_eq, this, py_ok_bind]
  simp [hl]

/-- what is needed of a rule: `2n + 1` increasing nodes from `0` to `2 pi` -/
structure GoodRule (n : ℕ) (q : Quad) : Prop where
  length : q.t.length = 2 * n + 1
  first : q.t[0]? = some 0
  last : q.t[2 * n]? = some (2 * Real.pi)
  increasing : q.t.Pairwise (· < ·)

theorem goodRules {n p : ℤ} {d : Quad × Quad} (hd : getQuadDict n p = .ok d) : 4 ≤ n ∧ GoodRule n.toNat d.1 ∧ GoodRule n.toNat d.2 := by
  obtain ⟨hn, hp⟩ := (C21_dict n p).1.1 ⟨d, hd⟩
  obtain ⟨h1, h2, -, -⟩ := (C21_dict n p).2 d hd
  obtain ⟨m, rfl⟩ := Int.eq_ofNat_of_zero_le (by omega : 0 ≤ n)
  obtain ⟨r, rfl⟩ := Int.eq_ofNat_of_zero_le (by omega : 0 ≤ p)
  obtain ⟨q, hq, -, hl, -, hj⟩ := C21_trap "trap" m 7 (by omega) (by decide) (by decide)
  obtain ⟨q', hq', -, hl', -, h0, h1', hpw, -⟩ := C21_kress m r (by omega) (by omega)
  rw [h1] at hq; rw [h2] at hq'
  cases hq; cases hq'
  have hm : (0 : ℝ) < m := by have : 4 ≤ m := by omega
                              positivity
  refine ⟨hn, ⟨hl, ?_, ?_, ?_⟩, ⟨hl', h0, h1', hpw⟩⟩
  · simpa using (hj 0 (by omega)).1
  · have := (hj (2 * m) le_rfl).1
    rw [(hj 0 (by omega)).2.2] at this
    simp only [Int.toNat_natCast]
    rw [this]; congr 1; push_cast; field_simp
  · rw [List.pairwise_iff_getElem]
    intro i j hi hj' hij
    have a := (hj i (by omega)).1
    have b := (hj j (by omega)).1
    rw [List.getElem?_eq_getElem hi, Option.some.injEq] at a
    rw [List.getElem?_eq_getElem hj', Option.some.injEq] at b
    rw [a, b, (hj 0 (by omega)).2.2]
    have : (i : ℝ) < j := by exact_mod_cast hij
    have : 0 < Real.pi / m := div_pos Real.pi_pos hm
    gcongr

theorem GoodRule.range {n : ℕ} {q : Quad} (h : GoodRule n q) {x : ℝ} (hx : x ∈ q.t.dropLast) : 0 ≤ x ∧ x < 2 * Real.pi := by
  obtain ⟨i, hi, rfl⟩ := List.getElem_of_mem hx
  have hl := h.length
  simp only [List.length_dropLast] at hi
  rw [List.getElem_dropLast]
  obtain ⟨h0, e0⟩ := List.getElem?_eq_some_iff.1 h.first
  obtain ⟨h1, e1⟩ := List.getElem?_eq_some_iff.1 h.last
  have hp := List.pairwise_iff_getElem.1 h.increasing
  constructor
  · rcases Nat.eq_zero_or_pos i with rfl | hpos
    · exact e0.ge
    · rw [← e0]; exact (hp 0 i h0 (by omega) hpos).le
  · rw [← e1]; exact hp i (2 * n) (by omega) h1 (by omega)

theorem ruleOf_good {n : ℕ} {d : Quad × Quad} (h1 : GoodRule n d.1) (h2 : GoodRule n d.2) (e : EdgeG) : GoodRule n (ruleOf d e) := by
  unfold ruleOf; split
  · exact h1
  · exact h2

theorem axisOf_range {n : ℕ} {d : Quad × Quad} (h1 : GoodRule n d.1) (h2 : GoodRule n d.2) : ∀ (es : List EdgeG) (j : ℕ),
    ∀ x ∈ axisOf d j es, 2 * Real.pi * j ≤ x ∧ x < 2 * Real.pi * (j + es.length)
  | [], j => by simp [axisOf]
  | e :: es, j => by
    intro x hx
    rw [axisOf, List.mem_append] at hx
    have hπ := Real.pi_pos
    rcases hx with hx | hx
    · obtain ⟨y, hy, rfl⟩ := List.mem_map.1 hx
      obtain ⟨a, b⟩ := (ruleOf_good h1 h2 e).range hy
      refine ⟨by linarith, ?_⟩
      have : (0 : ℝ) ≤ es.length := Nat.cast_nonneg _
      simp only [List.length_cons]; push_cast
      nlinarith
    · obtain ⟨a, b⟩ := axisOf_range h1 h2 es (j + 1) x hx
      push_cast at a b
      simp only [List.length_cons]; push_cast
      constructor <;> nlinarith

theorem axisOf_increasing {n : ℕ} {d : Quad × Quad} (h1 : GoodRule n d.1) (h2 : GoodRule n d.2) : ∀ (es : List EdgeG) (j : ℕ),
    (axisOf d j es).Pairwise (· < ·)
  | [], j => by simp [axisOf]
  | e :: es, j => by
    rw [axisOf, List.pairwise_append]
    refine ⟨?_, axisOf_increasing h1 h2 es (j + 1), ?_⟩
    · rw [List.pairwise_map]
      exact ((ruleOf_good h1 h2 e).increasing.sublist (List.dropLast_sublist _)).imp fun h => by linarith
    · intro x hx y hy
      obtain ⟨z, hz, rfl⟩ := List.mem_map.1 hx
      obtain ⟨-, b⟩ := (ruleOf_good h1 h2 e).range hz
      obtain ⟨a, -⟩ := axisOf_range h1 h2 es (j + 1) y hy
      push_cast at a
      linarith

theorem axisOf_getElem {n : ℕ} {d : Quad × Quad} (h1 : GoodRule n d.1) (h2 : GoodRule n d.2) : ∀ (es : List EdgeG) (j k : ℕ) (e : EdgeG),
    es[k]? = some e → ∀ i < 2 * n, ∃ τ, (ruleOf d e).t[i]? = some τ ∧
      (axisOf d j es)[2 * n * k + i]? = some (2 * Real.pi * ((j + k : ℕ) : ℝ) + τ)
  | [], j, k, e, h => by simp at h
  | e' :: es, j, 0, e, h => by
    intro i hi
    simp only [List.getElem?_cons_zero, Option.some.injEq] at h
    subst h
    have hl := (ruleOf_good h1 h2 e').length
    refine ⟨(ruleOf d e').t[i], List.getElem?_eq_getElem (by omega), ?_⟩
    rw [axisOf, List.getElem?_append_left (by simp [hl, hi])]
    simp only [mul_zero, zero_add, List.getElem?_map, add_zero]
    rw [List.getElem?_eq_getElem (by simp; omega), List.getElem_dropLast]
    rfl
  | e' :: es, j, k + 1, e, h => by
    intro i hi
    simp only [List.getElem?_cons_succ] at h
    have hl := (ruleOf_good h1 h2 e').length
    obtain ⟨τ, a, b⟩ := axisOf_getElem h1 h2 es (j + 1) k e h i hi
    refine ⟨τ, a, ?_⟩
    rw [axisOf, List.getElem?_append_right (by simp [hl]; nlinarith)]
    have e1 : 2 * n * (k + 1) + i - ((ruleOf d e').t.dropLast.map (2 * Real.pi * (j : ℝ) + ·)).length = 2 * n * k + i := by
      simp only [List.length_map, List.length_dropLast, hl]; rw [Nat.mul_add]; omega
    rw [e1, b]
    congr 3; push_cast; ring

/-- C94 (in part): on the horizontal axis every edge of the cell takes an interval of length `2 pi`; sample `i` of edge
number `j` is at `2 pi j` plus node `i` of the rule of the edge, so the positions increase, start with `0` and stay below
`2 pi` times the number of edges. -/
theorem C94_positions_partial {K : CellG} (hK : K.Ready) {n p : ℤ} {d : Quad × Quad} (hd : getQuadDict n p = .ok d)
    (h : ∀ e ∈ K.components.flatMap ContourG.edges, (e.quadType = "trap" ∨ e.quadType = "kress") ∧
      e.pts.map List.length = some (2 * n.toNat + 1)) :
    ∃ t, findT K d = .ok t ∧ t.length = K.numPts ∧ t.Pairwise (· < ·) ∧
      (∀ x ∈ t, 0 ≤ x ∧ x < 2 * Real.pi * (K.components.flatMap ContourG.edges).length) ∧
      ∀ (j : ℕ) e, (K.components.flatMap ContourG.edges)[j]? = some e → ∀ i < 2 * n.toNat,
        ∃ τ, (if e.quadType = "trap" then d.1 else d.2).t[i]? = some τ ∧
          t[2 * n.toNat * j + i]? = some (2 * Real.pi * (j : ℝ) + τ) := by
  obtain ⟨hn, h1, h2⟩ := goodRules hd
  have hfit : ∀ e ∈ K.components.flatMap ContourG.edges, FitsRule d e := by
    intro e he
    obtain ⟨a, b⟩ := h e he
    obtain ⟨l, hl, hlen⟩ := Option.map_eq_some_iff.1 b
    have hnp : ContourG.npts e = 2 * n.toNat + 1 := by simp [ContourG.npts, hl, hlen]
    exact ⟨a, by rw [(ruleOf_good h1 h2 e).length, hnp], by omega⟩
  refine ⟨_, findT_eq hK hfit, ?_, axisOf_increasing h1 h2 _ 0, fun x hx => ?_, fun j e hj i hi => ?_⟩
  · rw [axisOf_length hfit, hK.numPts]
    simp [CellG.cols, ContourG.cols, List.length_flatMap, List.map_flatMap]
    simp [List.flatMap, List.sum_flatten, Function.comp_def]
  · simpa using axisOf_range h1 h2 _ 0 x hx
  · simpa [ruleOf] using axisOf_getElem h1 h2 _ 0 j e hj i hi

/-- the hypotheses are met: a cell with two contours, sampled at eight points each -/
example : ∃ d, getQuadDict 4 7 = .ok d ∧ ∃ t, findT (pointCell [midSquare, midSquare] []) d = .ok t ∧ t.length = 16 ∧
    t[8]? = some (2 * Real.pi) := by
  obtain ⟨d, hd⟩ := (C21_dict 4 7).1.2 (by norm_num)
  have h8 : midSquare.length = 8 := rfl
  obtain ⟨t, ht, hl, -, -, hp⟩ := C94_positions_partial (K := pointCell [midSquare, midSquare] [])
    (pointCell_ready (by simp [midSquare]) []) hd (by simp [pointCell, pointContour, unitCircle, h8])
  refine ⟨d, hd, t, ht, by simpa [pointCell, h8] using hl, ?_⟩
  obtain ⟨-, h1, h2⟩ := goodRules hd
  obtain ⟨τ, hτ, h⟩ := hp 1 _ rfl 0 (by norm_num)
  have h0 : τ = 0 := by
    split_ifs at hτ
    · rw [h1.first] at hτ; exact (Option.some.inj hτ).symm
    · rw [h2.first] at hτ; exact (Option.some.inj hτ).symm
  subst h0
  simpa using h

/-! ### the ticks -/

theorem fdiv_nat (a b : ℕ) : Int.fdiv (a : ℤ) (b : ℤ) = ((a / b : ℕ) : ℤ) := by
  rw [Int.fdiv_eq_ediv_of_nonneg _ (by positivity)]; simp

theorem fmod_nat (a b : ℕ) : Int.fmod (a : ℤ) (b : ℤ) = ((a % b : ℕ) : ℤ) := by
  rw [Int.fmod_eq_emod_of_nonneg _ (by positivity)]; simp

/-- C94 (in part): if the number of intervals divides the number of edges - in particular if `max_num_ticks` exceeds the
number of edges, when there is a tick where each edge starts - then there are as many labels as ticks, from `0` to `2 pi`
times the number of edges, and every tick stands where its label says.  Missing: the other cases (`C94_violated`). -/
theorem C94_ticks_partial {E N : ℕ} (hN : 1 ≤ N) {m : ℤ} (hm : (N : ℤ) + 1 = min ((E : ℤ) + 1) m) (hdvd : N ∣ E) :
    ∃ ticks labels, findTicks E m = .ok (ticks, labels) ∧ ticks.length = N + 1 ∧ labels.length = N + 1 ∧
      labels[N]? = some (2 * (E : ℤ)) ∧
      ∀ k ≤ N, ∃ l, labels[k]? = some l ∧ l = 2 * (k : ℤ) * (E / N : ℕ) ∧ ticks[k]? = some ((l : ℝ) * Real.pi) := by
  obtain ⟨r, rfl⟩ := hdvd
  have hr : N * r / N = r := Nat.mul_div_cancel_left r (by omega)
  have e0 : min (((N * r : ℕ) : ℤ) + 1) m - 1 = (N : ℤ) := by omega
  have hN0 : (N : ℤ) ≠ 0 := by omega
  have hNR : (N : ℝ) ≠ 0 := by positivity
  have hls : linspace 0 (2 * Real.pi * ((N * r : ℕ) : ℝ)) ((N : ℤ) + 1) = .ok ((List.range (N + 1)).map fun k : ℕ =>
      2 * Real.pi * (k : ℝ) * r) := by
    have h1 : ¬((N : ℤ) + 1 < 0) := by omega
    have h2 : ((N : ℤ) + 1).toNat = N + 1 := by omega
    have h3 : ¬((N : ℤ) + 1 = 1) := by omega
    rw [linspace, if_neg h1, h2]
    refine congrArg _ (List.map_congr_left fun k _ => ?_)
    rw [if_neg h3, Np.linspace]
    push_cast
    rw [add_sub_cancel_right]
    field_simp
    ring
  have hlab : ∀ k ≤ N, ((0 : ℤ) :: forRange1 ((N : ℤ) + 1) fun k => 2 * k * (r : ℤ))[k]? = some (2 * (k : ℤ) * r) := by
    intro k hk
    cases k with
    | zero => simp
    | succ k => simp [forRange1, show k < N by omega]
  refine ⟨(List.range (N + 1)).map fun k : ℕ => 2 * Real.pi * (k : ℝ) * r, 0 :: forRange1 ((N : ℤ) + 1) fun k => 2 * k * (r : ℤ), ?_,
    by simp, by simp [forRange1], ?_, fun k hk => ⟨2 * (k : ℤ) * r, hlab k hk, by rw [hr], ?_⟩⟩
  · simp only [findTicks, ← hm, add_sub_cancel_right, hN0, if_false, fdiv_nat, fmod_nat, Nat.mul_mod_right, Nat.cast_zero, if_true, hls,
      py_ok_bind, hr]
  · rw [hlab N le_rfl]; push_cast; congr 1; ring
  · rw [List.getElem?_map, List.getElem?_range (by omega)]
    simp only [Option.map_some, Option.some.injEq]
    push_cast; ring

/-- C94 is violated whenever the number of intervals does not divide the number of edges: first and last tick are right,
but every tick in between is away from where its label says. -/
theorem C94_violated {E N : ℕ} (hN : 1 ≤ N) {m : ℤ} (hm : (N : ℤ) + 1 = min ((E : ℤ) + 1) m) (hdvd : ¬N ∣ E) :
    ∃ ticks labels, findTicks E m = .ok (ticks, labels) ∧ ticks.length = N + 1 ∧ labels.length = N + 1 ∧
      ticks[0]? = some 0 ∧ labels[0]? = some 0 ∧ ticks[N]? = some (2 * Real.pi * E) ∧ labels[N]? = some (2 * (E : ℤ)) ∧
      ∀ k, 0 < k → k < N → ∃ x l, ticks[k]? = some x ∧ labels[k]? = some l ∧
        l = 2 * (k : ℤ) * (E / N : ℕ) ∧ x = (l : ℝ) * Real.pi * (N / (N - 1)) ∧ (l : ℝ) * Real.pi < x := by
  have hN2 : 2 ≤ N := by
    by_contra hlt
    exact hdvd (by rw [show N = 1 by omega]; exact one_dvd _)
  have hNE : N ≤ E := by omega
  have hr : 1 ≤ E / N := (Nat.one_le_div_iff (by omega)).2 hNE
  set r := E / N with hrd
  have e0 : min ((E : ℤ) + 1) m - 1 = (N : ℤ) := by omega
  have hN0 : (N : ℤ) ≠ 0 := by omega
  have hmod : ¬(((E % N : ℕ) : ℤ) = 0) := by
    intro h
    exact hdvd (Nat.dvd_of_mod_eq_zero (by exact_mod_cast h))
  have hneg : ¬((N : ℤ) + 1 < 0) := by omega
  have hls : linspace 0 (2 * Real.pi * ((r : ℤ) : ℝ) * ((((N : ℤ) + 1 : ℤ) : ℝ) - 1)) (N : ℤ) = .ok ((List.range N).map fun k : ℕ =>
      2 * Real.pi * r * (k : ℝ) * (N / (N - 1))) := by
    have h1 : ¬((N : ℤ) < 0) := by omega
    have h3 : ¬((N : ℤ) = 1) := by omega
    rw [linspace, if_neg h1, Int.toNat_natCast]
    refine congrArg _ (List.map_congr_left fun k _ => ?_)
    rw [if_neg h3, Np.linspace]
    push_cast
    ring
  refine ⟨((List.range N).map fun k : ℕ => 2 * Real.pi * r * (k : ℝ) * (N / (N - 1))) ++ [2 * Real.pi * E],
    (0 :: forRange1 (N : ℤ) fun k => 2 * k * (r : ℤ)) ++ [2 * (E : ℤ)], ?_, by simp, by simp [forRange1]; omega, ?_, by simp, by simp, ?_,
    fun k hk hkN => ?_⟩
  · simp only [findTicks, ← hm, add_sub_cancel_right, hN0, if_false, fdiv_nat, fmod_nat, hmod, hneg, hls, py_ok_bind, ← hrd,
      List.cons_append]
  · rw [List.getElem?_append_left (by simp; omega), List.getElem?_map, List.getElem?_range (by omega)]
    simp
  · rw [List.getElem?_append_right (by simp [forRange1]; omega)]
    have : N - (0 :: forRange1 (N : ℤ) fun k => 2 * k * (r : ℤ)).length = 0 := by simp [forRange1]; omega
    rw [this]; rfl
  · refine ⟨2 * Real.pi * r * (k : ℝ) * (N / (N - 1)), 2 * (k : ℤ) * r, ?_, ?_, rfl, by push_cast; ring, ?_⟩
    · rw [List.getElem?_append_left (by simp; omega), List.getElem?_map, List.getElem?_range (by omega)]
      rfl
    · rw [List.getElem?_append_left (by simp [forRange1]; omega)]
      obtain ⟨k, rfl⟩ := Nat.exists_eq_succ_of_ne_zero (by omega : k ≠ 0)
      simp [forRange1, show k < N - 1 by omega]
    · have hk' : (0 : ℝ) < k := by exact_mod_cast hk
      have hr' : (0 : ℝ) < r := by exact_mod_cast hr
      have hN' : (0 : ℝ) < (N : ℝ) - 1 := by
        have : (2 : ℝ) ≤ N := by exact_mod_cast hN2
        linarith
      have h1 : (1 : ℝ) < N / (N - 1) := by rw [lt_div_iff₀ hN']; linarith
      have h2 : 0 < 2 * Real.pi * r * k := by have := Real.pi_pos; positivity
      push_cast
      nlinarith

/-- nine edges, at most nine ticks: the tick labelled `14π` stands at `16π`, the end of the eighth edge -/
example : ∃ ticks labels, findTicks 9 9 = .ok (ticks, labels) ∧ ∃ x, ticks[7]? = some x ∧ labels[7]? = some 14 ∧ x = 16 * Real.pi := by
  obtain ⟨ticks, labels, h, -, -, -, -, -, -, hk⟩ := C94_violated (E := 9) (N := 8) (m := 9) (by norm_num) (by norm_num) (by norm_num)
  obtain ⟨x, l, h1, h2, rfl, rfl, -⟩ := hk 7 (by norm_num) (by norm_num)
  refine ⟨ticks, labels, h, _, h1, by simpa using h2, ?_⟩
  norm_num; ring

/-- C94: a single tick is refused; without ticks there still is a label; negative numbers are refused. -/
theorem C94_errors (E : ℕ) : findTicks E 1 = .error .zeroDivision ∧ findTicks E 0 = .ok ([], [0]) ∧
    ∀ m : ℤ, m < 0 → findTicks E m = .error .valueError := by
  refine ⟨?_, ?_, fun m hm => ?_⟩
  · simp [findTicks]
  · have h : min ((E : ℤ) + 1) 0 = 0 := by omega
    have h' : Int.fmod (E : ℤ) (-1) = 0 := Int.fmod_eq_zero_of_dvd (by simp)
    simp [findTicks, h, h', linspace, forRange1, py_ok_bind]
  · have h : min ((E : ℤ) + 1) m = m := by omega
    simp only [findTicks, h]
    rw [if_neg (by omega)]
    split_ifs
    · simp [linspace, hm, py_error_bind]
    · rfl

end PFEM
