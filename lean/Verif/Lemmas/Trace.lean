import Verif.Spec.Trace
import Verif.Lemmas.Layout
import Verif.Lemmas.Py

/-!
Lemmas about traces: where the setters write.
-/

namespace PFEM
namespace Trace
open ContourG (npts)

theorem npts_sub (e : EdgeG) : npts e - 1 = e.cols.length := by simp [npts, EdgeG.cols]

theorem sizes_eq (t : Trace) : (t.edges.map fun e => npts e - 1) = t.sizes :=
  List.map_congr_left fun e _ => npts_sub e

theorem idxLoop_eq : ∀ (es : List EdgeG) (s : ℕ), idxLoop s es =
    (List.range es.length).map fun k => (s + blockStart (es.map fun e => e.cols.length) k,
      s + blockStart (es.map fun e => e.cols.length) (k + 1))
  | [], s => rfl
  | e :: es, s => by
    rw [idxLoop, idxLoop_eq es, List.length_cons, List.range_succ_eq_map, List.map_cons, npts_sub]
    congr 1
    rw [List.map_map]
    refine List.map_congr_left fun k _ => ?_
    simp only [blockStart, Function.comp_apply, Nat.succ_eq_add_one, List.map_cons, List.take_succ_cons, List.sum_cons,
      Nat.add_assoc]

theorem idxLoop_zero (es : List EdgeG) : idxLoop 0 es = blocksOf (es.map fun e => e.cols.length) := by
  rw [idxLoop_eq, blocksOf, List.length_map]
  exact List.map_congr_left fun k _ => by simp

theorem ready_iff (t : Trace) : t.ready = true ↔ ∀ e ∈ t.edges, ∃ L, e.pts = some L := by
  simp [ready, List.all_eq_true, Option.isSome_iff_exists]

theorem Sized.ready {t : Trace} (h : t.Sized) : t.ready = true :=
  (ready_iff t).2 fun e he => let ⟨L, hL, _⟩ := h.sampled e he; ⟨L, hL⟩

theorem Sized.findSizes {t : Trace} (h : t.Sized) : t.findSizes = t := by
  unfold Trace.findSizes
  rw [sizes_eq, idxLoop_zero]
  have h1 := h.numPts
  have h2 := h.idx
  rw [← h1]
  unfold sizes at h2
  rw [← h2]

/-- the length of the block of edge `k` -/
theorem sizes_get (t : Trace) {k : ℕ} {e : EdgeG} (h : t.edges[k]? = some e) : t.sizes[k]? = some e.cols.length := by
  simp [sizes, h]

theorem edgeNumPts_eq {e : EdgeG} {L : List Sample} (h : e.pts = some L) (hL : 2 ≤ L.length) :
    edgeNumPts e - 1 = (e.cols.length : ℤ) := by
  rw [cols_length h]; simp only [edgeNumPts, h]; omega

theorem validate_iff (w : ℕ) (v : FloatLike) :
    validate w v = if (v.block w).isSome then .ok () else .error .valueError := by
  cases v with
  | num x => rfl
  | other => rfl
  | arr l =>
    by_cases h : l.length = w
    · simp [validate, FloatLike.block, h]
    · simp [validate, FloatLike.block, h]

theorem block_len {w : ℕ} {v : FloatLike} {b : List ℝ} (h : v.block w = some b) : b.length = w := by
  cases v with
  | num x => simp only [FloatLike.block, Option.some.injEq] at h; subst h; simp
  | other => simp [FloatLike.block] at h
  | arr l =>
    simp only [FloatLike.block] at h
    by_cases hl : l.length = w
    · rw [if_pos hl] at h; cases h; exact hl
    · rw [if_neg hl] at h; exact absurd h (by simp)

theorem edgeBlock_eq {t : Trace} (h : t.Sized) {k w : ℕ} (hw : t.sizes[k]? = some w) (v : FloatLike) :
    t.edgeBlock k v = if (v.block w).isSome then .ok (blockStart t.sizes k, blockStart t.sizes k + w)
      else .error .valueError := by
  have hk : k < t.edges.length := by
    have := (List.getElem?_eq_some_iff.1 hw).1
    simpa [sizes] using this
  obtain ⟨L, hL, hL2⟩ := h.sampled t.edges[k] (List.getElem_mem hk)
  have he : t.edges[k]? = some t.edges[k] := List.getElem?_eq_getElem hk
  have hwe : t.edges[k].cols.length = w := by
    have := sizes_get t he
    rw [this] at hw
    exact Option.some.inj hw
  have hg : Np.get t.edges k = .ok t.edges[k] := by simp only [Np.get, he]
  have hr : ¬ ((k : ℤ) < 0 ∨ (k : ℤ) ≥ (t.numEdges : ℤ)) := by rw [h.numEdges]; omega
  have hi : Np.get (blocksOf t.sizes) k = .ok (blockStart t.sizes k, blockStart t.sizes k + w) := by
    simp only [Np.get, blocksOf, List.getElem?_map]
    rw [List.getElem?_range (by simpa [sizes] using hk)]
    simp [blockStart_succ t.sizes k hw]
  simp only [edgeBlock, if_neg hr, Int.toNat_natCast, hg, bind, Except.bind]
  rw [edgeNumPts_eq hL hL2, hwe, validate_iff]
  by_cases hb : (v.block w).isSome = true
  · simp only [hb, if_true, h.idx, attr, hi]
  · simp [hb]

theorem edgeBlock_range {t : Trace} (h : t.Sized) {k : ℤ} (hk : k < 0 ∨ (t.edges.length : ℤ) ≤ k) (v : FloatLike) :
    t.edgeBlock k v = .error .valueError := by
  rw [edgeBlock, if_pos]
  rw [h.numEdges]
  exact hk

theorem setSlice_mid {β : Type} (a v : List β) {s w : ℕ} (h : s + w ≤ a.length) (hv : v.length = w) :
    Np.setSlice a s (s + w) v = .ok (a.take s ++ v ++ a.drop (s + w)) := by
  have hm := slice_length a h
  simp only [Np.setSlice, hm, hv, if_true]

theorem assign_eq (a : List ℝ) {s w : ℕ} (h : s + w ≤ a.length) {v : FloatLike} {b : List ℝ} (hb : v.block w = some b) :
    assign a s (s + w) v = .ok (a.take s ++ b ++ a.drop (s + w)) := by
  have hl := block_len hb
  cases v with
  | other => simp [FloatLike.block] at hb
  | arr l =>
    simp only [FloatLike.block] at hb
    by_cases hlw : l.length = w
    · rw [if_pos hlw] at hb; cases hb; exact setSlice_mid a _ h hlw
    · rw [if_neg hlw] at hb; exact absurd hb (by simp)
  | num x =>
    simp only [FloatLike.block, Option.some.injEq] at hb
    have hm := slice_length a h
    simp only [assign, Np.setSlice, hm]
    by_cases h1 : w = 1
    · subst h1; subst hb; simp
    · rw [if_neg (by simpa using fun h => h1 h.symm), hb]

/-- one of the three data arrays of a trace, with its setter -/
structure Field where
  set : Trace → ℤ → FloatLike → Trace × Py Unit
  put : Trace → List ℝ → Trace
  cur : Trace → Py (List ℝ)
  set_eq : ∀ (t : Trace) (k : ℤ) (v : FloatLike), set t k v =
    match (do
      let (s, e) ← t.edgeBlock k v
      let a ← cur t
      assign a s e v : Py (List ℝ)) with
    | .ok a => (put t a, .ok ())
    | .error er => (t, .error er)
  cur_put : ∀ (t : Trace) (a : List ℝ), cur (put t a) = .ok a
  put_put : ∀ (t : Trace) (a b : List ℝ), put (put t a) b = put t b
  edges_put : ∀ (t : Trace) (a : List ℝ), (put t a).edges = t.edges
  numEdges_put : ∀ (t : Trace) (a : List ℝ), (put t a).numEdges = t.numEdges
  numPts_put : ∀ (t : Trace) (a : List ℝ), (put t a).numPts = t.numPts
  idx_put : ∀ (t : Trace) (a : List ℝ), (put t a).idx = t.idx

/-- the values -/
def Field.vals : Field where
  set := setOnEdge
  put t a := { t with values := some a }
  cur t := attr t.values
  set_eq _ _ _ := rfl
  cur_put _ _ := rfl
  put_put _ _ _ := rfl
  edges_put _ _ := rfl
  numEdges_put _ _ := rfl
  numPts_put _ _ := rfl
  idx_put _ _ := rfl

/-- the normal derivatives -/
def Field.wn : Field where
  set := setWndOnEdge
  put t a := { t with wnd := some a }
  cur t := t.derivArray t.wnd
  set_eq _ _ _ := rfl
  cur_put _ _ := rfl
  put_put _ _ _ := rfl
  edges_put _ _ := rfl
  numEdges_put _ _ := rfl
  numPts_put _ _ := rfl
  idx_put _ _ := rfl

/-- the tangential derivatives -/
def Field.wt : Field where
  set := setWtdOnEdge
  put t a := { t with wtd := some a }
  cur t := t.derivArray t.wtd
  set_eq _ _ _ := rfl
  cur_put _ _ := rfl
  put_put _ _ _ := rfl
  edges_put _ _ := rfl
  numEdges_put _ _ := rfl
  numPts_put _ _ := rfl
  idx_put _ _ := rfl

namespace Field

theorem sized_put (F : Field) {t : Trace} (h : t.Sized) (a : List ℝ) : (F.put t a).Sized := by
  have hs : (F.put t a).sizes = t.sizes := by unfold sizes; rw [F.edges_put]
  constructor
  · rw [F.edges_put]; exact h.sampled
  · rw [F.numEdges_put, F.edges_put]; exact h.numEdges
  · rw [F.numPts_put, hs]; exact h.numPts
  · rw [F.idx_put, hs]; exact h.idx

theorem sizes_put (F : Field) (t : Trace) (a : List ℝ) : (F.put t a).sizes = t.sizes := by unfold sizes; rw [F.edges_put]

theorem block_le {ws : List ℕ} {k w : ℕ} (hw : ws[k]? = some w) : blockStart ws k + w ≤ ws.sum := by
  rw [← blockStart_succ ws k hw, ← blockStart_length]
  have hk := (List.getElem?_eq_some_iff.1 hw).1
  exact blockStart_mono ws (by omega)

/-- the setter for one edge writes the block of that edge -/
theorem set_ok (F : Field) {t : Trace} (h : t.Sized) {k w : ℕ} (hw : t.sizes[k]? = some w) {v : FloatLike} {b : List ℝ}
    (hb : v.block w = some b) {a : List ℝ} (ha : F.cur t = .ok a) (hl : a.length = t.sizes.sum) :
    F.set t k v = (F.put t (a.take (blockStart t.sizes k) ++ b ++ a.drop (blockStart t.sizes k + w)), .ok ()) := by
  have hle := block_le hw
  rw [← hl] at hle
  rw [F.set_eq, edgeBlock_eq h hw]
  simp only [hb, Option.isSome_some, if_true, bind, Except.bind, ha, assign_eq a hle hb]

/-- … and rejects anything that is not a block, leaving the trace as it was -/
theorem set_bad (F : Field) {t : Trace} (h : t.Sized) {k w : ℕ} (hw : t.sizes[k]? = some w) {v : FloatLike}
    (hb : v.block w = none) : F.set t k v = (t, .error .valueError) := by
  rw [F.set_eq, edgeBlock_eq h hw]
  simp [hb, bind, Except.bind]

theorem set_range (F : Field) {t : Trace} (h : t.Sized) {k : ℤ} (hk : k < 0 ∨ (t.edges.length : ℤ) ≤ k) (v : FloatLike) :
    F.set t k v = (t, .error .valueError) := by
  rw [F.set_eq, edgeBlock_range h hk]
  simp [bind, Except.bind]

/-- no array yet: `AttributeError` -/
theorem set_missing (F : Field) {t : Trace} (h : t.Sized) {k w : ℕ} (hw : t.sizes[k]? = some w) {v : FloatLike}
    {b : List ℝ} (hb : v.block w = some b) {er : PyErr} (ha : F.cur t = .error er) : F.set t k v = (t, .error er) := by
  rw [F.set_eq, edgeBlock_eq h hw]
  simp [hb, bind, Except.bind, ha]

/-- the loop over the edges, all arguments being accepted: the blocks one after the other -/
theorem loop_ok (F : Field) {t : Trace} (h : t.Sized) (vs : List FloatLike) (bs : List (List ℝ))
    (hbs : ∀ (k w : ℕ), t.sizes[k]? = some w → ∃ v b, vs[k]? = some v ∧ v.block w = some b ∧ bs[k]? = some b)
    (hlen : bs.length = t.sizes.length) :
    ∀ (left k : ℕ) (rest : List ℝ), k + left = t.sizes.length →
      rest.length = t.sizes.sum - blockStart t.sizes k →
      edgeLoop F.set vs left k (F.put t ((bs.take k).flatten ++ rest)) = (F.put t bs.flatten, .ok ())
  | 0, k, rest, hk, hr => by
    have : k = t.sizes.length := by omega
    subst this
    rw [blockStart_length, Nat.sub_self] at hr
    have : rest = [] := List.eq_nil_of_length_eq_zero hr
    subst this
    rw [edgeLoop, List.take_of_length_le (by omega), List.append_nil]
  | left + 1, k, rest, hk, hr => by
    have hkl : k < t.sizes.length := by omega
    have hw : t.sizes[k]? = some t.sizes[k] := List.getElem?_eq_getElem hkl
    obtain ⟨v, b, hv, hb, hbk⟩ := hbs k _ hw
    have hpre : ((bs.take k).flatten).length = blockStart t.sizes k := by
      rw [List.length_flatten, blockStart]
      congr 1
      apply List.ext_getElem?
      intro j
      rw [List.getElem?_map, List.getElem?_take, List.getElem?_take]
      by_cases hj : j < k
      · have hwj : t.sizes[j]? = some t.sizes[j] := List.getElem?_eq_getElem (by omega)
        obtain ⟨v', b', _, hb', hbj⟩ := hbs j _ hwj
        simp only [hj, if_true, hbj, hwj, Option.map_some, block_len hb']
      · simp [hj]
    have hle := block_le hw
    have hl : ((bs.take k).flatten ++ rest).length = (F.put t ((bs.take k).flatten ++ rest)).sizes.sum := by
      rw [List.length_append, hpre, hr, F.sizes_put]; omega
    have hs := F.set_ok (F.sized_put h ((bs.take k).flatten ++ rest)) (k := k) (w := t.sizes[k])
      (by rw [F.sizes_put]; exact hw) hb (F.cur_put _ _) hl
    have hg : Np.get vs k = .ok v := by simp only [Np.get, hv]
    rw [edgeLoop, hg]
    simp only
    rw [hs]
    simp only
    rw [F.put_put, F.sizes_put]
    have e1 : ((bs.take k).flatten ++ rest).take (blockStart t.sizes k) = (bs.take k).flatten := by
      rw [← hpre, List.take_left]
    have e2 : ((bs.take k).flatten ++ rest).drop (blockStart t.sizes k + t.sizes[k]) = rest.drop t.sizes[k] := by
      rw [← hpre, List.drop_append]; simp
    have e3 : (bs.take (k + 1)).flatten = (bs.take k).flatten ++ b := by
      rw [List.take_add_one, hbk]; simp
    rw [e1, e2, ← e3]
    refine loop_ok F h vs bs hbs hlen left (k + 1) _ (by omega) ?_
    rw [List.length_drop, hr, blockStart_succ _ _ hw]; omega

/-- whatever the loop does, it only writes this array, and the array keeps its length -/
theorem loop_any (F : Field) {t : Trace} (h : t.Sized) (vs : List FloatLike) :
    ∀ (left k : ℕ) (a : List ℝ), a.length = t.sizes.sum →
      ∃ a', a'.length = t.sizes.sum ∧ (edgeLoop F.set vs left k (F.put t a)).1 = F.put t a'
  | 0, k, a, ha => ⟨a, ha, rfl⟩
  | left + 1, k, a, ha => by
    rw [edgeLoop]
    cases hg : Np.get vs k with
    | error er => exact ⟨a, ha, rfl⟩
    | ok v =>
      simp only
      by_cases hk : k < t.sizes.length
      · have hw : t.sizes[k]? = some t.sizes[k] := List.getElem?_eq_getElem hk
        have hw' : (F.put t a).sizes[k]? = some t.sizes[k] := by rw [F.sizes_put]; exact hw
        cases hb : v.block t.sizes[k] with
        | none =>
          rw [F.set_bad (F.sized_put h a) hw' hb]
          exact ⟨a, ha, rfl⟩
        | some b =>
          rw [F.set_ok (F.sized_put h a) hw' hb (F.cur_put _ _) (by rw [F.sizes_put]; exact ha)]
          simp only
          rw [F.put_put, F.sizes_put]
          refine loop_any F h vs left (k + 1) _ ?_
          have hle := block_le hw
          have := block_len hb
          simp only [List.length_append, List.length_take, List.length_drop]
          omega
      · have : (t.edges.length : ℤ) ≤ k := by simp [sizes] at hk; omega
        rw [F.set_range (F.sized_put h a) (by rw [F.edges_put]; exact Or.inr this)]
        exact ⟨a, ha, rfl⟩

end Field

/-! ### the whole arrays -/

theorem sized_bare {es : List EdgeG} (h : ∀ e ∈ es, ∃ L, e.pts = some L ∧ 2 ≤ L.length) : (bare es).Sized := by
  have hr : ({ edges := es, numEdges := es.length } : Trace).ready = true :=
    (ready_iff _).2 fun e he => let ⟨L, hL, _⟩ := h e he; ⟨L, hL⟩
  have he : bare es = ({ edges := es, numEdges := es.length } : Trace).findSizes := by
    simp only [bare]; rw [if_pos hr]
  rw [he]
  refine ⟨h, rfl, ?_, ?_⟩
  · simp only [Trace.findSizes, sizes]
    simp only [npts_sub]
  · simp only [Trace.findSizes, idxLoop_zero]; rfl

theorem sizes_bare (es : List EdgeG) : (bare es).sizes = es.map fun e => e.cols.length := by
  unfold bare sizes; dsimp only; split <;> rfl

theorem edges_bare (es : List EdgeG) : (bare es).edges = es := by
  unfold bare; dsimp only; split <;> rfl

/-- the blocks of a vector -/
theorem convert_arr {t : Trace} (h : t.Sized) {a : List ℝ} (ha : a.length = t.sizes.sum) :
    t.convert (.one (.arr a)) = .ok ((blocksOf t.sizes).map fun p => .arr (Np.slice a p.1 p.2)) := by
  simp only [convert, h.numPts, h.idx, attr, bind, Except.bind, ha, ne_eq, not_true_eq_false, if_false]

theorem blocksOf_get {ws : List ℕ} {k w : ℕ} (hw : ws[k]? = some w) :
    (blocksOf ws)[k]? = some (blockStart ws k, blockStart ws k + w) := by
  have hk := (List.getElem?_eq_some_iff.1 hw).1
  simp only [blocksOf, List.getElem?_map]
  rw [List.getElem?_range hk]
  simp [blockStart_succ ws k hw]

theorem flatten_slices (ws : List ℕ) (a : List ℝ) (ha : a.length = ws.sum) :
    ((blocksOf ws).map fun p => Np.slice a p.1 p.2).flatten = a := by
  obtain ⟨us, hu, hl⟩ := exists_split ws a ha
  have : ((blocksOf ws).map fun p => Np.slice a p.1 p.2) = us := by
    apply List.ext_getElem?
    intro k
    by_cases hk : k < us.length
    · have hw : ws[k]? = some us[k].length := by rw [← hl]; simp [hk]
      rw [List.getElem?_map, blocksOf_get hw, List.getElem?_eq_getElem hk, Option.map_some]
      congr 1
      have hsp : us = us.take k ++ us[k] :: us.drop (k + 1) := by
        rw [List.cons_getElem_drop_succ, List.take_append_drop]
      have hpl : blockStart ws k = (us.take k).flatten.length := by
        rw [blockStart, ← hl, List.length_flatten, List.map_take]
      have : a = (us.take k).flatten ++ (us[k] ++ (us.drop (k + 1)).flatten) := by
        rw [hu]; conv_lhs => rw [hsp]
        rw [List.flatten_append, List.flatten_cons]
      dsimp only
      rw [hpl]
      conv_lhs => rw [this]
      exact slice_block _ _ _
    · have h1 : ws.length ≤ k := by rw [← hl]; simpa using hk
      rw [List.getElem?_eq_none (by simpa [blocksOf] using h1), List.getElem?_eq_none (by simpa using hk)]
  rw [this, ← hu]

namespace Field

/-- the setter for the whole array with a vector: the array is that vector -/
theorem loop_arr (F : Field) {t : Trace} (h : t.Sized) {a : List ℝ} (ha : a.length = t.sizes.sum) :
    edgeLoop F.set ((blocksOf t.sizes).map fun p => .arr (Np.slice a p.1 p.2)) t.numEdges 0
      (F.put t (List.replicate t.sizes.sum 0)) = (F.put t a, .ok ()) := by
  have hn : t.numEdges = t.sizes.length := by rw [h.numEdges]; simp [sizes]
  have := F.loop_ok h ((blocksOf t.sizes).map fun p => .arr (Np.slice a p.1 p.2))
    ((blocksOf t.sizes).map fun p => Np.slice a p.1 p.2) (fun k w hw => by
      refine ⟨.arr (Np.slice a (blockStart t.sizes k) (blockStart t.sizes k + w)),
        Np.slice a (blockStart t.sizes k) (blockStart t.sizes k + w), ?_, ?_, ?_⟩
      · rw [List.getElem?_map, blocksOf_get hw]; rfl
      · have hl := slice_length a (i := blockStart t.sizes k) (w := w) (by rw [ha]; exact block_le hw)
        simp only [FloatLike.block, hl, if_true]
      · rw [List.getElem?_map, blocksOf_get hw]; rfl) (by simp [blocksOf]) t.numEdges 0
      (List.replicate t.sizes.sum 0) (by omega) (by simp [blockStart])
  rw [flatten_slices _ _ ha] at this
  simpa using this

/-- … with one number -/
theorem loop_num (F : Field) {t : Trace} (h : t.Sized) (x : ℝ) :
    edgeLoop F.set (List.replicate t.numEdges (.num x)) t.numEdges 0 (F.put t (List.replicate t.sizes.sum 0)) =
      (F.put t (List.replicate t.sizes.sum x), .ok ()) := by
  have hn : t.numEdges = t.sizes.length := by rw [h.numEdges]; simp [sizes]
  have := F.loop_ok h (List.replicate t.numEdges (.num x)) (t.sizes.map fun w => List.replicate w x) (fun k w hw => by
      have hk := (List.getElem?_eq_some_iff.1 hw).1
      refine ⟨.num x, List.replicate w x, ?_, rfl, ?_⟩
      · rw [List.getElem?_replicate, if_pos (by omega)]
      · rw [List.getElem?_map, hw]; rfl) (by simp) t.numEdges 0
      (List.replicate t.sizes.sum 0) (by omega) (by simp [blockStart])
  have hf : (t.sizes.map fun w => List.replicate w x).flatten = List.replicate t.sizes.sum x := by
    generalize t.sizes = ws
    induction ws with
    | nil => rfl
    | cons w ws ih => rw [List.map_cons, List.flatten_cons, ih, List.sum_cons, List.replicate_add]
  rw [hf] at this
  simpa using this

/-- … with a list of arrays that fit the edges -/
theorem loop_list (F : Field) {t : Trace} (h : t.Sized) {bs : List (List ℝ)} (hb : bs.map List.length = t.sizes) :
    edgeLoop F.set (bs.map .arr) t.numEdges 0 (F.put t (List.replicate t.sizes.sum 0)) =
      (F.put t bs.flatten, .ok ()) := by
  have hn : t.numEdges = t.sizes.length := by rw [h.numEdges]; simp [sizes]
  have := F.loop_ok h (bs.map .arr) bs (fun k w hw => by
      rw [← hb] at hw
      rw [List.getElem?_map] at hw
      obtain ⟨b, hbk, hbw⟩ := Option.map_eq_some_iff.1 hw
      refine ⟨.arr b, b, ?_, by simp [FloatLike.block, hbw], hbk⟩
      rw [List.getElem?_map, hbk]; rfl) (by rw [← hb]; simp) t.numEdges 0
      (List.replicate t.sizes.sum 0) (by omega) (by simp [blockStart])
  simpa using this

end Field

/-! ### keeping the invariant -/

theorem good_of {t : Trace} (h : t.Sized) (h1 : ∀ a, t.values = some a → a.length = t.sizes.sum)
    (h2 : ∀ a, t.wnd = some a → a.length = t.sizes.sum) (h3 : ∀ a, t.wtd = some a → a.length = t.sizes.sum) : t.Good :=
  { toSized := h, values := h1, wnd := h2, wtd := h3 }

theorem setSlice_len {β : Type} {a v r : List β} {i j : ℕ} (h : Np.setSlice a i j v = .ok r) : r.length = a.length := by
  unfold Np.setSlice at h
  have hm : (Np.slice a i j).length = min j a.length - i := by simp [Np.slice]
  dsimp only at h
  rw [hm] at h
  by_cases hv : v.length = min j a.length - i
  · rw [if_pos hv] at h
    cases h
    simp only [List.length_append, List.length_take, List.length_drop]
    omega
  · rw [if_neg hv] at h
    match v, h with
    | [x], h =>
      cases h
      simp only [List.length_append, List.length_take, List.length_drop, List.length_replicate]
      omega

theorem valueLoop_len (idx : List (ℕ × ℕ)) (fs : List PyFn) : ∀ (es : List EdgeG) (k : ℕ) (acc : List ℝ),
    (valueLoop idx fs k acc es).1.length = acc.length
  | [], _, _ => rfl
  | e :: es, k, acc => by
    rw [valueLoop]
    split
    · rfl
    · rename_i acc' h
      obtain ⟨p, _, h⟩ := bind_ok h
      obtain ⟨fn, _, h⟩ := bind_ok h
      obtain ⟨f, _, h⟩ := bind_ok h
      obtain ⟨v, _, h⟩ := bind_ok h
      rw [valueLoop_len idx fs es (k + 1) acc', setSlice_len h]

theorem valueLoop_ok (t : Trace) (h : t.Sized) (fs : List PyFn) (gs : List (ℝ → ℝ → ℝ)) (hl : gs.length = t.edges.length)
    (hf : ∀ (k : ℕ) (g : ℝ → ℝ → ℝ), gs[k]? = some g → ∃ f, fs[k]? = some f ∧ f.run = .ok g) :
    ∀ (es : List EdgeG) (k : ℕ) (done rest : List ℝ), t.edges.drop k = es → done.length = blockStart t.sizes k →
      rest.length = t.sizes.sum - blockStart t.sizes k →
      valueLoop (blocksOf t.sizes) fs k (done ++ rest) es =
        (done ++ (List.zipWith (fun e g => e.cols.map fun s => g s.x s.y) es (gs.drop k)).flatten, .ok ())
  | [], k, done, rest, he, hd, hr => by
    have hk : t.edges.length ≤ k := by simpa using he
    have : rest = [] := by
      apply List.eq_nil_of_length_eq_zero
      have hm := blockStart_mono t.sizes (show t.sizes.length ≤ k by simpa [sizes] using hk)
      rw [blockStart_length] at hm
      omega
    simp [valueLoop, this]
  | e :: es, k, done, rest, he, hd, hr => by
    have hk : k < t.edges.length := by
      by_contra hc
      rw [List.drop_eq_nil_of_le (by omega)] at he
      exact absurd he (by simp)
    have hek : t.edges[k]? = some e := by
      rw [← List.head?_drop, he]; rfl
    have hes : t.edges.drop (k + 1) = es := by
      rw [← List.tail_drop, he]; rfl
    have hw := sizes_get t hek
    have hgk : gs[k]? = some gs[k] := List.getElem?_eq_getElem (by omega)
    obtain ⟨f, hfk, hrun⟩ := hf k _ hgk
    obtain ⟨L, hL, _⟩ := h.sampled e (List.mem_of_getElem? hek)
    have hle := Field.block_le hw
    have hs := setSlice_block done rest (e.cols.map fun s => gs[k] s.x s.y) e.cols.length (by omega) (by simp)
    rw [hd] at hs
    rw [valueLoop]
    simp only [Np.get, blocksOf_get hw, hfk, bind, Except.bind, hrun, edge_evaluate hL, hs]
    have ih := valueLoop_ok t h fs gs hl hf es (k + 1) (done ++ e.cols.map fun s => gs[k] s.x s.y) (rest.drop e.cols.length) hes
      (by rw [blockStart_succ _ _ hw]; simp [hd]) (by rw [blockStart_succ _ _ hw]; simp only [List.length_drop]; omega)
    rw [ih]
    have hgd : gs.drop k = gs[k] :: gs.drop (k + 1) := by rw [List.cons_getElem_drop_succ]
    rw [hgd, List.zipWith_cons_cons, List.flatten_cons, List.append_assoc]

end Trace
end PFEM
