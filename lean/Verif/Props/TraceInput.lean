import Verif.Props.Trace
import Verif.Props.OuterBoundary

/-!
Properties C61, C62 and C63: what the setters of a Dirichlet trace accept and what they leave behind; examples for C46.
-/

namespace PFEM
namespace Trace
open ContourG (npts)

/-! ### an example -/

/-- two edges, with four and two samples in their blocks -/
noncomputable def twoEdges : List EdgeG :=
  (squareContour 1).edges ++ [{ unitCircle "trap" [] with pts := some [⟨5, 0, 1, 0, 0, -1, 1, 0⟩, ⟨6, 1, 1, 0, 0, -1, 1, 0⟩,
    ⟨7, 3, 1, 0, 0, -1, 1, 0⟩] }]

theorem twoEdges_sampled : ∀ e ∈ twoEdges, ∃ L, e.pts = some L ∧ 2 ≤ L.length := by
  intro e he
  simp only [twoEdges, squareContour, List.cons_append, List.nil_append, List.mem_cons, List.not_mem_nil, or_false] at he
  rcases he with rfl | rfl <;> exact ⟨_, rfl, by simp⟩

theorem twoEdges_sizes : (twoEdges.map fun e => e.cols.length) = [4, 2] := by
  simp [twoEdges, squareContour, EdgeG.cols]

/-- a trace on these edges with the values 10, …, 15 -/
noncomputable def sampleTrace : Trace := { bare twoEdges with values := some [10, 11, 12, 13, 14, 15] }

theorem sampleTrace_sizes : sampleTrace.sizes = [4, 2] := by
  rw [show sampleTrace.sizes = (bare twoEdges).sizes from rfl, sizes_bare, twoEdges_sizes]

theorem sampleTrace_good : sampleTrace.Good := by
  have h := good_bare twoEdges_sampled
  exact good_vals h (a := [10, 11, 12, 13, 14, 15]) (by rw [sizes_bare, twoEdges_sizes]; rfl)

/-- C46: the vector constructor makes this trace. -/
example : init twoEdges (values := some (.one (.arr [10, 11, 12, 13, 14, 15]))) = .ok sampleTrace := by
  have h := (C46_set_values (good_bare twoEdges_sampled)).1 [10, 11, 12, 13, 14, 15]
    (by rw [sizes_bare, twoEdges_sizes]; rfl)
  simp only [init, Bool.false_eq_true, if_false, h, Except.map]
  rfl

/-- C46: writing 8 and 9 on the second edge changes the last two entries. -/
example : ∃ r, sampleTrace.setOnEdge (1 : ℕ) (.arr [8, 9]) = ({ sampleTrace with values := some r }, .ok ()) ∧
    Replaced [10, 11, 12, 13, 14, 15] [8, 9] 4 r := by
  have he : sampleTrace.edges[1]? = twoEdges[1]? := by rw [show sampleTrace.edges = twoEdges from edges_bare _]
  have := C46_set_on_edge (t := sampleTrace) sampleTrace_good rfl (k := 1) (e := twoEdges[1]'(by simp [twoEdges, squareContour]))
    (by rw [he]; exact List.getElem?_eq_getElem _) (v := .arr [8, 9]) (b := [8, 9])
    (by simp [FloatLike.block, twoEdges, squareContour, EdgeG.cols])
  rw [sampleTrace_sizes] at this
  exact this

/-- C46: three values on the second edge are rejected, and so is the index `-1`. -/
example : sampleTrace.setOnEdge 1 (.arr [8, 9, 10]) = (sampleTrace, .error .valueError) ∧
    sampleTrace.setOnEdge (-1) (.arr [8, 9]) = (sampleTrace, .error .valueError) := by
  have he : sampleTrace.edges[1]? = twoEdges[1]? := by rw [show sampleTrace.edges = twoEdges from edges_bare _]
  refine ⟨(C46_rejected sampleTrace_good 1 _ (Or.inr (Or.inr ⟨twoEdges[1]'(by simp [twoEdges, squareContour]), ?_, ?_⟩))).1,
    (C46_rejected sampleTrace_good (-1) _ (Or.inl (by norm_num))).1⟩
  · show sampleTrace.edges[1]? = _
    rw [he]; exact List.getElem?_eq_getElem _
  · simp [FloatLike.block, twoEdges, squareContour, EdgeG.cols]

/-- C46: twice the trace. -/
example : ∃ r, sampleTrace.mul 2 = .ok r ∧ r.values = some [20, 22, 24, 26, 28, 30] := by
  obtain ⟨r, h1, _, _, h2, _⟩ := C46_mul sampleTrace_good rfl 2
  refine ⟨r, h1, ?_⟩
  rw [h2]
  norm_num

/-- C46: `x + y` on all edges. -/
example : ∃ t, sampleTrace.setFuncs (.one (.call 2 fun x y => x + y)) = (t, .ok ()) ∧ t.values = some [-2, 0, 2, 0, 5, 7] := by
  obtain ⟨t, h1, h2⟩ := C46_one_function sampleTrace_good (.call 2 fun x y => x + y) (fun x y => x + y) rfl
  refine ⟨t, h1, ?_⟩
  rw [h2, show sampleTrace.edges = twoEdges from edges_bare _]
  simp [twoEdges, squareContour, EdgeG.cols]
  norm_num

/-! ### C61: lists of values -/

/-- C61 for lists of arrays with one array per edge: the list is accepted if and only if every array has as many entries
as its edge has samples; otherwise `ValueError`.

Missing for the full claim: lists of another length, and lists that contain numbers (`C61_violated`). -/
theorem C61_list_partial {t : Trace} (h : t.Good) (bs : List (List ℝ)) (hlen : bs.length = t.edges.length) :
    ((t.setValues (.list (bs.map .arr))).2 = .ok () ↔ bs.map List.length = t.sizes) ∧
    (bs.map List.length ≠ t.sizes → (t.setValues (.list (bs.map .arr))).2 = .error .valueError) := by
  have hall : (bs.map FloatLike.arr).all isArr = true := by
    rw [List.all_eq_true]
    intro v hv
    obtain ⟨b, _, rfl⟩ := List.mem_map.1 hv
    rfl
  have hbad : bs.map List.length ≠ t.sizes → (t.setValues (.list (bs.map .arr))).2 = .error .valueError := by
    intro hne
    unfold setValues
    rw [prep h.toSized (show t.convert (.list (bs.map .arr)) = .ok (bs.map .arr) by simp only [convert, if_pos hall])]
    simp only
    have hn : t.numEdges = t.sizes.length := by rw [h.numEdges]; simp [sizes]
    have hbl : bs.length = t.sizes.length := by rw [hlen]; simp [sizes]
    -- there is a first array that does not fit
    have key : ∀ (left k : ℕ) (a : List ℝ), k + left = t.sizes.length → a.length = t.sizes.sum →
        (bs.drop k).map List.length ≠ t.sizes.drop k →
        (edgeLoop Field.vals.set (bs.map .arr) left k (Field.vals.put t a)).2 = .error .valueError := by
      intro left
      induction left with
      | zero =>
        intro k a hk ha hd
        rw [List.drop_eq_nil_of_le (by omega), List.drop_eq_nil_of_le (by omega)] at hd
        exact absurd rfl hd
      | succ left ih =>
        intro k a hk ha hd
        have hkl : k < t.sizes.length := by omega
        have hkb : k < bs.length := by omega
        have hw : (Field.vals.put t a).sizes[k]? = some t.sizes[k] := by
          rw [Field.sizes_put]; exact List.getElem?_eq_getElem hkl
        have hg : Np.get (bs.map FloatLike.arr) k = .ok (.arr bs[k]) := by
          simp only [Np.get, List.getElem?_map, List.getElem?_eq_getElem hkb, Option.map_some]
        rw [edgeLoop, hg]
        simp only
        by_cases hfit : bs[k].length = t.sizes[k]
        · have hblk : (FloatLike.arr bs[k]).block t.sizes[k] = some bs[k] := by simp [FloatLike.block, hfit]
          rw [Field.vals.set_ok (Field.vals.sized_put h.toSized a) hw hblk (Field.vals.cur_put _ _)
            (by rw [Field.sizes_put]; exact ha)]
          simp only
          rw [Field.put_put]
          refine ih (k + 1) _ (by omega) ?_ ?_
          · have hle := Field.block_le (List.getElem?_eq_getElem hkl)
            rw [Field.sizes_put]
            simp only [List.length_append, List.length_take, List.length_drop]
            omega
          · intro he
            apply hd
            rw [← List.cons_getElem_drop_succ (h := hkb), ← List.cons_getElem_drop_succ (h := hkl), List.map_cons, he, hfit]
        · have hblk : (FloatLike.arr bs[k]).block t.sizes[k] = none := by simp [FloatLike.block, hfit]
          rw [Field.vals.set_bad (Field.vals.sized_put h.toSized a) hw hblk]
    exact key t.numEdges 0 (List.replicate t.sizes.sum 0) (by omega) (by simp) (by simpa using hne)
  refine ⟨⟨?_, ?_⟩, hbad⟩
  · intro hok
    by_contra hne
    rw [hbad hne] at hok
    cases hok
  · intro hb
    rw [(C46_set_values h).2.2.1 bs hb]

/-- C61 is violated: a list with more arrays than edges is accepted and the surplus ignored; a list of numbers, one for
each edge, is rejected; and a list with too few arrays raises `IndexError` after the old values have been lost. -/
theorem C61_violated : ∃ t : Trace, t.Good ∧ t.values = some [10, 11, 12, 13, 14, 15] ∧ t.edges.length = 2 ∧
    (t.setValues (.list [.arr [1, 2, 3, 4], .arr [5, 6], .arr [7]])).2 = .ok () ∧
    (t.setValues (.list [.num 1, .num 2])).2 = .error .valueError ∧
    (t.setValues (.list [.arr [1, 2, 3, 4]])).2 = .error .indexError ∧
    (t.setValues (.list [.arr [1, 2, 3, 4]])).1.values = some [1, 2, 3, 4, 0, 0] := by
  have hg := sampleTrace_good
  have hn : sampleTrace.numEdges = 2 := by
    rw [hg.numEdges, show sampleTrace.edges = twoEdges from edges_bare _]; rfl
  have hs := sampleTrace_sizes
  have e1 := Field.vals.set_ok (t := Field.vals.put sampleTrace [0, 0, 0, 0, 0, 0]) (Field.sized_put _ hg.toSized _)
    (k := 0) (w := 4) (by rw [Field.sizes_put, hs]; rfl) (v := .arr [1, 2, 3, 4]) (b := [1, 2, 3, 4]) rfl
    (Field.vals.cur_put _ _) (by rw [Field.sizes_put, hs]; rfl)
  rw [Field.put_put, Field.sizes_put, hs] at e1
  have e2 := Field.vals.set_ok (t := Field.vals.put sampleTrace [1, 2, 3, 4, 0, 0]) (Field.sized_put _ hg.toSized _)
    (k := 1) (w := 2) (by rw [Field.sizes_put, hs]; rfl) (v := .arr [5, 6]) (b := [5, 6]) rfl
    (Field.vals.cur_put _ _) (by rw [Field.sizes_put, hs]; rfl)
  rw [Field.put_put, Field.sizes_put, hs] at e2
  have p : ∀ l : List FloatLike, l.all isArr = true → sampleTrace.setValues (.list l) =
      edgeLoop Field.vals.set l 2 0 (Field.vals.put sampleTrace [0, 0, 0, 0, 0, 0]) := by
    intro l hl
    unfold setValues
    rw [prep hg.toSized (show sampleTrace.convert (.list l) = .ok l by simp only [convert, if_pos hl])]
    simp only [hn, hs]
    rfl
  have e1' : Field.vals.set (Field.vals.put sampleTrace [0, 0, 0, 0, 0, 0]) ((0 : ℕ) : ℤ) (.arr [1, 2, 3, 4]) =
      (Field.vals.put sampleTrace [1, 2, 3, 4, 0, 0], .ok ()) := e1
  have e2' : Field.vals.set (Field.vals.put sampleTrace [1, 2, 3, 4, 0, 0]) ((0 + 1 : ℕ) : ℤ) (.arr [5, 6]) =
      (Field.vals.put sampleTrace [1, 2, 3, 4, 5, 6], .ok ()) := e2
  refine ⟨sampleTrace, hg, rfl, ?_, ?_, ?_, ?_, ?_⟩
  · rw [show sampleTrace.edges = twoEdges from edges_bare _]; rfl
  · rw [p _ rfl]
    simp only [edgeLoop, Np.get, List.getElem?_cons_zero, e1', List.getElem?_cons_succ, e2']
  · simp [setValues, convert, isArr, bind, Except.bind]
  · rw [p _ rfl]
    simp only [edgeLoop, Np.get, List.getElem?_cons_zero, e1', List.getElem?_cons_succ, List.getElem?_nil]
  · rw [p _ rfl]
    simp only [edgeLoop, Np.get, List.getElem?_cons_zero, e1', List.getElem?_cons_succ, List.getElem?_nil]
    rfl

/-- C61: the case of the partial theorem occurs. -/
example : (sampleTrace.setValues (.list [.arr [1, 2, 3, 4], .arr [5, 6]])).2 = .ok () :=
  (C61_list_partial sampleTrace_good [[1, 2, 3, 4], [5, 6]]
    (by rw [show sampleTrace.edges = twoEdges from edges_bare _]; rfl)).1.2 (by rw [sampleTrace_sizes]; rfl)

/-! ### C62: polynomials on the edges -/

/-- C62 is violated: `set_funcs_from_polys` raises `AttributeError` for every polynomial and every nonempty list of
polynomials, and changes nothing. -/
theorem C62_violated (t : Trace) (p : ℝ → ℝ → ℝ) (ps : List (ℝ → ℝ → ℝ)) :
    t.setFuncsFromPolys (.one (.poly p)) = (t, .error .attributeError) ∧
    t.setFuncsFromPolys (.list ((p :: ps).map .poly)) = (t, .error .attributeError) := by
  refine ⟨rfl, ?_⟩
  have : ((p :: ps).map PyFn.poly).all PyFn.isPoly = true := by
    rw [List.all_eq_true]
    intro f hf
    obtain ⟨q, _, rfl⟩ := List.mem_map.1 hf
    rfl
  simp only [List.map_cons] at this ⊢
  simp only [setFuncsFromPolys, this, if_true]

theorem findValues_eq {t : Trace} (h : t.Good) {fs : List PyFn} {gs : List (ℝ → ℝ → ℝ)} (hf : t.funcs = some fs)
    (hfs : fs.map PyFn.run = gs.map .ok) (hl : gs.length = t.edges.length) :
    t.findValues = ({ t with
      values := some (List.zipWith (fun e g => e.cols.map fun s => g s.x s.y) t.edges gs).flatten }, .ok ()) := by
  have hf' : ∀ (k : ℕ) (g : ℝ → ℝ → ℝ), gs[k]? = some g → ∃ f, fs[k]? = some f ∧ f.run = .ok g := by
    intro k g hg
    have := congrArg (fun l : List (Py (ℝ → ℝ → ℝ)) => l[k]?) hfs
    simp only [List.getElem?_map, hg, Option.map_some] at this
    obtain ⟨f, h1, h2⟩ := Option.map_eq_some_iff.1 this
    exact ⟨f, h1, h2⟩
  have hv := valueLoop_ok t h.toSized fs gs hl hf' t.edges 0 [] (List.replicate t.sizes.sum 0) rfl
    (by simp [blockStart]) (by simp [blockStart])
  simp only [Trace.findValues, hf, h.toSized.ready, if_true, h.toSized.findSizes]
  rw [idxLoop_zero, sizes_eq]
  simp only [List.nil_append, List.drop_zero] at hv
  have hv' : valueLoop (blocksOf (t.edges.map fun e => e.cols.length)) fs 0 (List.replicate t.sizes.sum 0) t.edges = _ := hv
  rw [hv']

/-- C62 for the other ways: with `set_func_from_poly_on_edge` the function of that edge becomes the polynomial and the
values become those of the functions at the samples; with `set_funcs` polynomials are accepted as functions.

Missing for the full claim: `set_funcs_from_polys` itself (`C62_violated`). -/
theorem C62_polys_partial {t : Trace} (h : t.Good) {fs : List PyFn} {gs : List (ℝ → ℝ → ℝ)} (hf : t.funcs = some fs)
    (hfs : fs.map PyFn.run = gs.map .ok) (hl : gs.length = t.edges.length) (k : ℕ) (hk : k < t.edges.length)
    (p : ℝ → ℝ → ℝ) (ps : List (ℝ → ℝ → ℝ)) (hps : ps.length = t.edges.length) :
    t.setPolyOnEdge k (.poly p) = ({ t with
      funcs := some (fs.set k (.poly p))
      values := some (List.zipWith (fun e g => e.cols.map fun s => g s.x s.y) t.edges (gs.set k p)).flatten }, .ok ()) ∧
    t.setFuncs (.list (ps.map .poly)) = ({ t with
      funcs := some (ps.map .poly)
      values := some (List.zipWith (fun e g => e.cols.map fun s => g s.x s.y) t.edges ps).flatten }, .ok ()) := by
  refine ⟨?_, C46_functions h (ps.map .poly) ps (by rw [List.map_map]; rfl) hps⟩
  have hlen : fs.length = gs.length := by simpa using congrArg List.length hfs
  have hr : ¬ ((k : ℤ) < 0 ∨ (k : ℤ) ≥ (t.numEdges : ℤ)) := by rw [h.numEdges]; omega
  simp only [setPolyOnEdge, if_neg hr, PyFn.isPoly, if_true, setFuncOnEdge, hf, Int.toNat_natCast]
  rw [if_pos (by omega)]
  have hg : ({ t with funcs := some (fs.set k (.poly p)) } : Trace).Good :=
    good_of ⟨h.sampled, h.numEdges, h.numPts, h.idx⟩ h.values h.wnd h.wtd
  simp only [hg.toSized.ready, Bool.and_self, if_true]
  rw [findValues_eq hg rfl (gs := gs.set k p) (by rw [List.map_set, hfs, List.map_set]; rfl) (by simpa using hl)]

/-- C62: the hypotheses are met. -/
example : ∃ (t : Trace) (fs : List PyFn) (gs : List (ℝ → ℝ → ℝ)), t.Good ∧ t.funcs = some fs ∧
    fs.map PyFn.run = gs.map .ok ∧ gs.length = t.edges.length ∧ t.edges.length = 2 := by
  refine ⟨{ sampleTrace with funcs := some [.call 2 fun x _ => x, .poly fun _ y => y] }, _, [fun x _ => x, fun _ y => y],
    good_of ⟨sampleTrace_good.sampled, sampleTrace_good.numEdges, sampleTrace_good.numPts, sampleTrace_good.idx⟩
      sampleTrace_good.values sampleTrace_good.wnd sampleTrace_good.wtd, rfl, rfl, ?_, ?_⟩ <;>
  · show _ = _
    simp only [show sampleTrace.edges = twoEdges from edges_bare _]
    rfl

theorem isR2R_iff (f : PyFn) : f.isR2R = true ↔ ∃ g, f.run = .ok g := by
  cases f with
  | poly g => exact ⟨fun _ => ⟨g, rfl⟩, fun _ => rfl⟩
  | other => exact ⟨nofun, nofun⟩
  | call n g =>
    by_cases hn : n = 2
    · simp [PyFn.isR2R, PyFn.run, hn]
    · simp [PyFn.isR2R, PyFn.run, hn]

/-- C46: functions are checked.  A list of functions is accepted exactly if it has one entry per edge and each can be called with two arguments, a
single function exactly if it can be called with two arguments, a polynomial on one edge exactly if the index is in range; otherwise `ValueError` is
raised and nothing changes.  With `compute_vals=False` the values are left alone. -/
theorem C46_functions_checked {t : Trace} (h : t.Good) (fs : List PyFn) (f : PyFn) (k : ℤ) (c : Bool) :
    (fs.length = t.edges.length ∧ (∀ f ∈ fs, ∃ g, f.run = .ok g) → (t.setFuncs (.list fs) c).2 = .ok () ∧
      t.setFuncs (.list fs) false = ({ t with funcs := some fs }, .ok ())) ∧
    (¬ (fs.length = t.edges.length ∧ ∀ f ∈ fs, ∃ g, f.run = .ok g) → t.setFuncs (.list fs) c = (t, .error .valueError)) ∧
    ((¬ ∃ g, f.run = .ok g) → t.setFuncs (.one f) c = (t, .error .valueError)) ∧
    ((¬ (0 ≤ k ∧ k < t.edges.length)) → t.setPolyOnEdge k f c = (t, .error .valueError)) ∧
    ((∀ p, f ≠ .poly p) → t.setPolyOnEdge k f c = (t, .error .valueError)) ∧
    (∀ gs p, t.funcs = some gs → gs.length = t.edges.length → 0 ≤ k → k < t.edges.length →
      t.setPolyOnEdge k (.poly p) false = ({ t with funcs := some (gs.set k.toNat (.poly p)) }, .ok ())) := by
  have hn := h.numEdges
  have hall : (∀ f ∈ fs, ∃ g, f.run = .ok g) ↔ fs.all PyFn.isR2R = true := by
    rw [List.all_eq_true]
    exact forall₂_congr fun f _ => (isR2R_iff f).symm
  refine ⟨fun ⟨h1, h2⟩ => ⟨?_, ?_⟩, fun h1 => ?_, fun h1 => ?_, fun h1 => ?_, fun h1 => ?_, fun gs p hg hl h0 h1 => ?_⟩
  · have hch : ∃ gs : List (ℝ → ℝ → ℝ), fs.map PyFn.run = gs.map .ok := by
      clear * - h2
      induction fs with
      | nil => exact ⟨[], rfl⟩
      | cons f fs ih =>
        obtain ⟨gs, hgs⟩ := ih fun f hf => h2 f (List.mem_cons_of_mem _ hf)
        obtain ⟨g, hg⟩ := h2 f List.mem_cons_self
        exact ⟨g :: gs, by rw [List.map_cons, List.map_cons, hg, hgs]⟩
    obtain ⟨gs, hgs⟩ := hch
    have hl : gs.length = t.edges.length := by
      have := congrArg List.length hgs
      simp only [List.length_map] at this
      rw [← this, h1]
    cases c with
    | true => rw [C46_functions h fs gs hgs hl]
    | false => simp [setFuncs, setFuncList, hall.1 h2, h1, hn]
  · simp [setFuncs, setFuncList, hall.1 h2, h1, hn]
  · rw [hall, not_and_or] at h1
    simp only [setFuncs, setFuncList]
    split
    · rename_i h2
      rw [if_pos]
      rcases h1 with h1 | h1
      · rw [hn]; exact h1
      · exact absurd h2 h1
    · rfl
  · rw [← isR2R_iff] at h1
    simp only [setFuncs, if_neg h1]
  · simp only [setPolyOnEdge]
    rw [if_pos (by rw [hn]; omega)]
  · simp only [setPolyOnEdge]
    split
    · rfl
    · cases f with
      | poly p => exact absurd rfl (h1 p)
      | call n f => rfl
      | other => rfl
  · simp only [setPolyOnEdge, setFuncOnEdge, hg, PyFn.isPoly, if_true]
    rw [if_neg (by rw [hn]; omega), if_neg (by rw [hn]; omega), if_pos (by omega)]
    simp

/-! ### C63: values follow functions -/

/-- C63 is violated: `set_func_on_edge` succeeds but leaves the values of the old function. -/
theorem C63_violated : ∃ (t : Trace) (f : ℝ → ℝ → ℝ), t.Good ∧ t.values = some [0, 0, 0, 0, 0, 0] ∧
    (∃ t', t.setFuncOnEdge 0 (.call 2 f) = (t', .ok ()) ∧ t'.values = t.values) ∧ ∀ x y, f x y = 1 := by
  have hb := good_bare twoEdges_sampled
  obtain ⟨t, h1, h2⟩ := C46_one_function hb (.call 2 fun _ _ => 0) (fun _ _ => 0) rfl
  have h3 := good_run hb (.funcs (.one (.call 2 fun _ _ => 0)) true)
  have hrun : (Call.funcs (.one (.call 2 fun _ _ => 0)) true).run (bare twoEdges) = (t, .ok ()) := h1
  rw [hrun] at h3
  have hn : t.numEdges = 2 := by
    rw [h3.1.numEdges, h3.2, edges_bare]; rfl
  have hfun : t.funcs = some (List.replicate 2 (.call 2 fun _ _ => 0)) := by
    have hl : (List.replicate 2 (PyFn.call 2 fun _ _ => 0)).map PyFn.run =
      (List.replicate 2 fun _ _ => (0 : ℝ)).map .ok := rfl
    have hb2 : (bare twoEdges).numEdges = 2 := by rw [hb.numEdges, edges_bare]; rfl
    have := C46_functions hb _ _ hl (by rw [edges_bare]; rfl)
    have e : (bare twoEdges).setFuncs (.one (.call 2 fun _ _ => 0)) =
      (bare twoEdges).setFuncs (.list (List.replicate 2 (.call 2 fun _ _ => 0))) := by
      simp only [setFuncs, hb2]; rfl
    rw [e, this] at h1
    have h4 := congrArg (fun r : Trace × Py Unit => r.1.funcs) h1
    exact h4.symm
  refine ⟨t, fun _ _ => 1, h3.1, ?_, ⟨{ t with funcs := some [.call 2 fun _ _ => 1, .call 2 fun _ _ => 0] }, ?_, rfl⟩,
    fun _ _ => rfl⟩
  · rw [h2, edges_bare]
    simp [twoEdges, squareContour, EdgeG.cols]
  · simp only [setFuncOnEdge, hn, hfun]
    rfl

/-- C63 for the rest: after a successful `set_func_on_edge`, calling `find_values` gives the values of the functions.

Missing for the full claim: the values are not recomputed by `set_func_on_edge` itself (`C63_violated`). -/
theorem C63_find_values_partial {t : Trace} (h : t.Good) {fs : List PyFn} {gs : List (ℝ → ℝ → ℝ)} (hf : t.funcs = some fs)
    (hfs : fs.map PyFn.run = gs.map .ok) (hl : gs.length = t.edges.length) (k : ℕ) (hk : k < t.edges.length)
    (f : PyFn) (g : ℝ → ℝ → ℝ) (hfg : f.run = .ok g) :
    ∃ t', t.setFuncOnEdge k f = (t', .ok ()) ∧ t'.values = t.values ∧
      (t'.findValues).2 = .ok () ∧ (t'.findValues).1.values =
        some (List.zipWith (fun e g => e.cols.map fun s => g s.x s.y) t.edges (gs.set k g)).flatten := by
  have hlen : fs.length = gs.length := by simpa using congrArg List.length hfs
  have hr : ¬ ((k : ℤ) < 0 ∨ (k : ℤ) ≥ (t.numEdges : ℤ)) := by rw [h.numEdges]; omega
  have hg : ({ t with funcs := some (fs.set k f) } : Trace).Good :=
    good_of ⟨h.sampled, h.numEdges, h.numPts, h.idx⟩ h.values h.wnd h.wtd
  have hfv := findValues_eq hg rfl (gs := gs.set k g) (by rw [List.map_set, hfs, List.map_set, hfg]) (by simpa using hl)
  refine ⟨{ t with funcs := some (fs.set k f) }, ?_, rfl, by rw [hfv], by rw [hfv]⟩
  simp only [setFuncOnEdge, if_neg hr, hf, Int.toNat_natCast]
  rw [if_pos (by omega)]

end Trace
end PFEM
