import Verif.Lemmas.Trace
import Mathlib.Tactic.NormNum

/-!
Properties C46, C61 and C62: Dirichlet traces.

The vocabulary (`FloatLike.block`, `Trace.sizes`, `Trace.blocksOf`, `Trace.Good`) is in `Verif/Spec/Trace.lean`.
-/

namespace PFEM
namespace Trace
open ContourG (npts)

/-! ### what a user can do to a trace -/

/-- the calls that change a trace -/
inductive Call
  | values (v : TraceArg)
  | valuesOn (k : ℤ) (v : FloatLike)
  | wnd (v : TraceArg)
  | wndOn (k : ℤ) (v : FloatLike)
  | wtd (v : TraceArg)
  | wtdOn (k : ℤ) (v : FloatLike)
  | funcOn (k : ℤ) (f : PyFn)
  | polyOn (k : ℤ) (f : PyFn) (compute : Bool)
  | funcs (f : FuncArg) (compute : Bool)
  | polys (f : FuncArg)
  | findValues

/-- the trace and the outcome after a call -/
def Call.run (t : Trace) : Call → Trace × Py Unit
  | values v => t.setValues v
  | valuesOn k v => t.setOnEdge k v
  | wnd v => t.setWnd v
  | wndOn k v => t.setWndOnEdge k v
  | wtd v => t.setWtd v
  | wtdOn k v => t.setWtdOnEdge k v
  | funcOn k f => t.setFuncOnEdge k f
  | polyOn k f c => t.setPolyOnEdge k f c
  | funcs f c => t.setFuncs f c
  | polys f => t.setFuncsFromPolys f
  | findValues => t.findValues

/-- the trace after a history of calls, exceptions being caught -/
def history (t : Trace) (cs : List Call) : Trace := cs.foldl (fun t c => (c.run t).1) t

/-! ### the invariant -/

theorem deriv_cur {t : Trace} (h : t.Sized) {d : Option (List ℝ)} (hd : ∀ a, d = some a → a.length = t.sizes.sum) :
    ∃ a, t.derivArray d = .ok a ∧ a.length = t.sizes.sum := by
  cases d with
  | some a => exact ⟨a, rfl, hd a rfl⟩
  | none => exact ⟨List.replicate t.sizes.sum 0, by simp only [derivArray, h.numPts, attr, bind, Except.bind], by simp⟩

/-- a setter for one edge leaves the trace as it was or puts an array of the right length -/
theorem Field.set_any (F : Field) {t : Trace} (h : t.Sized) (k : ℤ) (v : FloatLike)
    (hc : ∀ a, F.cur t = .ok a → a.length = t.sizes.sum) :
    (F.set t k v).1 = t ∨ ∃ a, a.length = t.sizes.sum ∧ (F.set t k v).1 = F.put t a := by
  by_cases hk : k < 0 ∨ (t.edges.length : ℤ) ≤ k
  · rw [F.set_range h hk]; exact Or.inl rfl
  · push Not at hk
    obtain ⟨n, rfl⟩ := Int.eq_ofNat_of_zero_le hk.1
    have hn : n < t.sizes.length := by simp [sizes]; omega
    have hw : t.sizes[n]? = some t.sizes[n] := List.getElem?_eq_getElem hn
    cases hb : v.block t.sizes[n] with
    | none => exact Or.inl (by rw [F.set_bad h hw hb])
    | some b =>
      cases ha : F.cur t with
      | error er => exact Or.inl (by rw [F.set_missing h hw hb ha])
      | ok a =>
        refine Or.inr ⟨_, ?_, by rw [F.set_ok h hw hb ha (hc a ha)]⟩
        have hle := Field.block_le hw
        have := block_len hb
        have := hc a ha
        simp only [List.length_append, List.length_take, List.length_drop]
        omega

theorem good_vals {t : Trace} (h : t.Good) {a : List ℝ} (ha : a.length = t.sizes.sum) : (Field.vals.put t a).Good :=
  good_of (Field.sized_put _ h.toSized a) (fun b hb => by cases hb; exact ha) h.wnd h.wtd

theorem good_wn {t : Trace} (h : t.Good) {a : List ℝ} (ha : a.length = t.sizes.sum) : (Field.wn.put t a).Good :=
  good_of (Field.sized_put _ h.toSized a) h.values (fun b hb => by cases hb; exact ha) h.wtd

theorem good_wt {t : Trace} (h : t.Good) {a : List ℝ} (ha : a.length = t.sizes.sum) : (Field.wt.put t a).Good :=
  good_of (Field.sized_put _ h.toSized a) h.values h.wnd (fun b hb => by cases hb; exact ha)

theorem good_findValues {t : Trace} (h : t.Good) : t.findValues.1.Good ∧ t.findValues.1.edges = t.edges := by
  unfold Trace.findValues
  cases t.funcs with
  | none => exact ⟨h, rfl⟩
  | some fs =>
    simp only [h.toSized.ready, if_true, h.toSized.findSizes]
    refine ⟨good_vals h ?_, trivial⟩
    rw [valueLoop_len, List.length_replicate, sizes_eq]

theorem good_setFuncList {t : Trace} (h : t.Good) (fs : List PyFn) (c : Bool) :
    (t.setFuncList fs c).1.Good ∧ (t.setFuncList fs c).1.edges = t.edges := by
  unfold Trace.setFuncList
  split
  · split
    · exact ⟨h, rfl⟩
    · dsimp only
      have hg : ({ t with funcs := some fs } : Trace).Good := good_of ⟨h.sampled, h.numEdges, h.numPts, h.idx⟩ h.values h.wnd h.wtd
      split
      · exact good_findValues hg
      · exact ⟨hg, rfl⟩
  · exact ⟨h, rfl⟩

theorem good_setFuncOnEdge {t : Trace} (h : t.Good) (k : ℤ) (f : PyFn) :
    (t.setFuncOnEdge k f).1.Good ∧ (t.setFuncOnEdge k f).1.edges = t.edges := by
  unfold Trace.setFuncOnEdge
  split
  · exact ⟨h, rfl⟩
  · cases hf : t.funcs with
    | none => exact ⟨h, rfl⟩
    | some fs =>
      simp only
      split
      · exact ⟨good_of ⟨h.sampled, h.numEdges, h.numPts, h.idx⟩ h.values h.wnd h.wtd, rfl⟩
      · exact ⟨h, rfl⟩

theorem good_run {t : Trace} (h : t.Good) (c : Call) : (c.run t).1.Good ∧ (c.run t).1.edges = t.edges := by
  have hs := h.toSized
  have hz : (List.replicate t.sizes.sum (0 : ℝ)).length = t.sizes.sum := by simp
  cases c with
  | values v =>
    simp only [Call.run, setValues]
    split
    · exact ⟨h, rfl⟩
    · rename_i vs n heq
      obtain ⟨vs', _, heq⟩ := bind_ok heq
      obtain ⟨n', hn, heq⟩ := bind_ok heq
      cases heq
      rw [hs.numPts] at hn; cases hn
      obtain ⟨a, ha, he⟩ := Field.vals.loop_any hs vs t.numEdges 0 _ hz
      refine ⟨?_, ?_⟩
      · have := good_vals h ha; rw [← he] at this; exact this
      · exact (congrArg Trace.edges he).trans rfl
  | wnd v =>
    simp only [Call.run, setWnd]
    split
    · exact ⟨h, rfl⟩
    · rename_i vs n heq
      obtain ⟨vs', _, heq⟩ := bind_ok heq
      obtain ⟨n', hn, heq⟩ := bind_ok heq
      cases heq
      rw [hs.numPts] at hn; cases hn
      obtain ⟨a, ha, he⟩ := Field.wn.loop_any hs vs t.numEdges 0 _ hz
      refine ⟨?_, ?_⟩
      · have := good_wn h ha; rw [← he] at this; exact this
      · exact (congrArg Trace.edges he).trans rfl
  | wtd v =>
    simp only [Call.run, setWtd]
    split
    · exact ⟨h, rfl⟩
    · rename_i vs n heq
      obtain ⟨vs', _, heq⟩ := bind_ok heq
      obtain ⟨n', hn, heq⟩ := bind_ok heq
      cases heq
      rw [hs.numPts] at hn; cases hn
      obtain ⟨a, ha, he⟩ := Field.wt.loop_any hs vs t.numEdges 0 _ hz
      refine ⟨?_, ?_⟩
      · have := good_wt h ha; rw [← he] at this; exact this
      · exact (congrArg Trace.edges he).trans rfl
  | valuesOn k v =>
    rcases Field.vals.set_any hs k v (fun a ha => by
      cases hv : t.values with
      | none => simp [Field.vals, hv, attr] at ha
      | some b => simp [Field.vals, hv, attr] at ha; subst ha; exact h.values _ hv) with he | ⟨a, ha, he⟩
    · exact ⟨by have := h; rw [← he] at this; exact this, congrArg Trace.edges he⟩
    · exact ⟨by have := good_vals h ha; rw [← he] at this; exact this, (congrArg Trace.edges he).trans rfl⟩
  | wndOn k v =>
    rcases Field.wn.set_any hs k v (fun a ha => by
      obtain ⟨b, hb, hl⟩ := deriv_cur hs h.wnd
      have : t.derivArray t.wnd = .ok a := ha
      rw [hb] at this; cases this; exact hl) with he | ⟨a, ha, he⟩
    · exact ⟨by have := h; rw [← he] at this; exact this, congrArg Trace.edges he⟩
    · exact ⟨by have := good_wn h ha; rw [← he] at this; exact this, (congrArg Trace.edges he).trans rfl⟩
  | wtdOn k v =>
    rcases Field.wt.set_any hs k v (fun a ha => by
      obtain ⟨b, hb, hl⟩ := deriv_cur hs h.wtd
      have : t.derivArray t.wtd = .ok a := ha
      rw [hb] at this; cases this; exact hl) with he | ⟨a, ha, he⟩
    · exact ⟨by have := h; rw [← he] at this; exact this, congrArg Trace.edges he⟩
    · exact ⟨by have := good_wt h ha; rw [← he] at this; exact this, (congrArg Trace.edges he).trans rfl⟩
  | funcOn k f => exact good_setFuncOnEdge h k f
  | polyOn k f c =>
    simp only [Call.run, setPolyOnEdge]
    split
    · exact ⟨h, rfl⟩
    · split
      · have hg := good_setFuncOnEdge h k f
        cases hr : t.setFuncOnEdge k f with
        | mk t' o =>
          rw [hr] at hg
          cases o with
          | error er => exact hg
          | ok u =>
            simp only
            split
            · have := good_findValues hg.1
              exact ⟨this.1, this.2.trans hg.2⟩
            · exact hg
      · exact ⟨h, rfl⟩
  | funcs f c =>
    cases f with
    | one f =>
      simp only [Call.run, setFuncs]
      split
      · exact good_setFuncList h _ c
      · exact ⟨h, rfl⟩
    | list l => exact good_setFuncList h l c
  | polys f =>
    cases f with
    | one f =>
      simp only [Call.run, setFuncsFromPolys]
      split <;> exact ⟨h, rfl⟩
    | list l =>
      simp only [Call.run, setFuncsFromPolys]
      split
      · match l with
        | [] => exact good_setFuncList h _ _
        | _ :: _ => exact ⟨h, rfl⟩
      · exact ⟨h, rfl⟩
  | findValues => exact good_findValues h

theorem good_bare {es : List EdgeG} (h : ∀ e ∈ es, ∃ L, e.pts = some L ∧ 2 ≤ L.length) : (bare es).Good := by
  have hs := sized_bare h
  have hv : (bare es).values = none ∧ (bare es).wnd = none ∧ (bare es).wtd = none := by
    unfold bare; dsimp only; split <;> exact ⟨rfl, rfl, rfl⟩
  exact good_of hs (fun a ha => by rw [hv.1] at ha; cases ha) (fun a ha => by rw [hv.2.1] at ha; cases ha)
    (fun a ha => by rw [hv.2.2] at ha; cases ha)

theorem map_ok {r : Trace × Py Unit} {t : Trace} (h : (r.2.map fun _ => r.1) = .ok t) : t = r.1 := by
  cases hr : r.2 with
  | error er => rw [hr] at h; cases h
  | ok u => rw [hr] at h; cases h; rfl

/-- C46: whatever arguments a trace on sampled edges is built from, and whatever calls follow (also calls that raise), its
data have exactly one entry for every sample of its edges, and its edges stay the same. -/
theorem C46_history {es : List EdgeG} (hes : ∀ e ∈ es, ∃ L, e.pts = some L ∧ 2 ≤ L.length) (custom : Bool)
    (funcs : Option FuncArg) (values : Option TraceArg) {t : Trace} (ht : init es custom funcs values = .ok t)
    (cs : List Call) : (t.history cs).Good ∧ (t.history cs).edges = es := by
  have h0 : t.Good ∧ t.edges = es := by
    have hb := good_bare hes
    have heb := edges_bare es
    unfold init at ht
    dsimp only at ht
    split at ht
    · cases ht; exact ⟨hb, heb⟩
    · split at ht
      · rename_i v
        have := good_run hb (.values v)
        rw [map_ok ht]; exact ⟨this.1, this.2.trans heb⟩
      · rename_i f
        have := good_run hb (.funcs f true)
        rw [map_ok ht]; exact ⟨this.1, this.2.trans heb⟩
      · cases ht
        exact ⟨good_of ⟨hb.sampled, hb.numEdges, hb.numPts, hb.idx⟩ hb.values hb.wnd hb.wtd, heb⟩
  unfold history
  induction cs generalizing t with
  | nil => exact h0
  | cons c cs ih =>
    have := good_run h0.1 c
    have key : ∀ (t : Trace), t.Good ∧ t.edges = es →
        (cs.foldl (fun t c => (c.run t).1) t).Good ∧ (cs.foldl (fun t c => (c.run t).1) t).edges = es := by
      clear ih this h0 ht t
      induction cs with
      | nil => exact fun t h => h
      | cons c cs ih => exact fun t h => ih _ ⟨(good_run h.1 c).1, (good_run h.1 c).2.trans h.2⟩
    exact key _ ⟨this.1, this.2.trans h0.2⟩

/-- C46: the blocks partition the sample vector.  Edge `k` has one block, as long as the edge has samples (the last one
belongs to the next edge), and every index of the vector lies in the block of exactly one edge. -/
theorem C46_partition {t : Trace} (h : t.Good) {a : List ℝ} (ha : t.values = some a) :
    ∃ bl, t.idx = some bl ∧ bl.length = t.edges.length ∧
      (∀ (k : ℕ) (e : EdgeG), t.edges[k]? = some e → ∃ s f, bl[k]? = some (s, f) ∧ f = s + e.cols.length) ∧
      ∀ m < a.length, ∃! k : ℕ, ∃ s f, bl[k]? = some (s, f) ∧ s ≤ m ∧ m < f := by
  refine ⟨blocksOf t.sizes, h.idx, by simp [blocksOf, sizes], ?_, ?_⟩
  · intro k e he
    exact ⟨_, _, blocksOf_get (sizes_get t he), rfl⟩
  · intro m hm
    rw [h.values a ha] at hm
    obtain ⟨k, w, hw, h1, h2⟩ := block_cover t.sizes m hm
    refine ⟨k, ⟨_, _, blocksOf_get hw, h1, h2⟩, ?_⟩
    rintro k' ⟨s, f, hb, hs, hf⟩
    have hk' : k' < t.sizes.length := by
      have := (List.getElem?_eq_some_iff.1 hb).1
      simpa [blocksOf] using this
    have hw' : t.sizes[k']? = some t.sizes[k'] := List.getElem?_eq_getElem hk'
    rw [blocksOf_get hw'] at hb
    cases hb
    exact block_unique t.sizes m hw' hw hs hf h1 h2

/-! ### one edge -/

/-- the vector `a` with its block `s, …, s + b.length - 1` replaced by `b` -/
def Replaced (a b : List ℝ) (s : ℕ) (r : List ℝ) : Prop :=
  r.length = a.length ∧ (∀ (j : ℕ), j < b.length → r[s + j]? = b[j]?) ∧
    ∀ (m : ℕ), (m < s ∨ s + b.length ≤ m) → r[m]? = a[m]?

theorem replaced_of (a b : List ℝ) (s : ℕ) (h : s + b.length ≤ a.length) :
    Replaced a b s (a.take s ++ b ++ a.drop (s + b.length)) := by
  have hs : (a.take s).length = s := by simp; omega
  refine ⟨by simp; omega, ?_, ?_⟩
  · intro j hj
    rw [List.append_assoc, List.getElem?_append_right (by omega), hs, Nat.add_sub_cancel_left,
      List.getElem?_append_left hj]
  · rintro m (hm | hm)
    · rw [List.append_assoc, List.getElem?_append_left (by omega), List.getElem?_take, if_pos hm]
    · rw [List.getElem?_append_right (by simp; omega), List.getElem?_drop]
      congr 1
      simp; omega

/-- C46: setting values on an edge changes exactly the block of that edge (one number for the whole block, or an array
with one entry for every sample of the block), and nothing else about the trace. -/
theorem C46_set_on_edge {t : Trace} (h : t.Good) {a : List ℝ} (ha : t.values = some a) {k : ℕ} {e : EdgeG}
    (he : t.edges[k]? = some e) {v : FloatLike} {b : List ℝ} (hv : v.block e.cols.length = some b) :
    ∃ r, t.setOnEdge k v = ({ t with values := some r }, .ok ()) ∧ Replaced a b (blockStart t.sizes k) r := by
  have hw := sizes_get t he
  refine ⟨_, Field.vals.set_ok h.toSized hw hv (show attr t.values = .ok a by rw [ha]; rfl) (h.values a ha), ?_⟩
  have hl := block_len hv
  have := replaced_of a b (blockStart t.sizes k) (by rw [hl, h.values a ha]; exact Field.block_le hw)
  rw [hl] at this
  exact this

/-- C46: the same for the normal derivatives; they start as zeros. -/
theorem C46_set_wnd_on_edge {t : Trace} (h : t.Good) {k : ℕ} {e : EdgeG} (he : t.edges[k]? = some e) {v : FloatLike}
    {b : List ℝ} (hv : v.block e.cols.length = some b) :
    ∃ r, t.setWndOnEdge k v = ({ t with wnd := some r }, .ok ()) ∧
      Replaced (t.wnd.getD (List.replicate t.sizes.sum 0)) b (blockStart t.sizes k) r := by
  have hw := sizes_get t he
  have hc : t.derivArray t.wnd = .ok (t.wnd.getD (List.replicate t.sizes.sum 0)) := by
    cases t.wnd with
    | some a => rfl
    | none => simp [derivArray, h.numPts, attr, bind, Except.bind]
  have hlen : (t.wnd.getD (List.replicate t.sizes.sum 0)).length = t.sizes.sum := by
    cases hd : t.wnd with
    | some a => exact h.wnd a hd
    | none => simp
  refine ⟨_, Field.wn.set_ok h.toSized hw hv hc hlen, ?_⟩
  have hl := block_len hv
  have := replaced_of (t.wnd.getD (List.replicate t.sizes.sum 0)) b (blockStart t.sizes k) (by rw [hl, hlen]; exact Field.block_le hw)
  rw [hl] at this
  exact this

/-- C46: the same for the tangential derivatives. -/
theorem C46_set_wtd_on_edge {t : Trace} (h : t.Good) {k : ℕ} {e : EdgeG} (he : t.edges[k]? = some e) {v : FloatLike}
    {b : List ℝ} (hv : v.block e.cols.length = some b) :
    ∃ r, t.setWtdOnEdge k v = ({ t with wtd := some r }, .ok ()) ∧
      Replaced (t.wtd.getD (List.replicate t.sizes.sum 0)) b (blockStart t.sizes k) r := by
  have hw := sizes_get t he
  have hc : t.derivArray t.wtd = .ok (t.wtd.getD (List.replicate t.sizes.sum 0)) := by
    cases t.wtd with
    | some a => rfl
    | none => simp [derivArray, h.numPts, attr, bind, Except.bind]
  have hlen : (t.wtd.getD (List.replicate t.sizes.sum 0)).length = t.sizes.sum := by
    cases hd : t.wtd with
    | some a => exact h.wtd a hd
    | none => simp
  refine ⟨_, Field.wt.set_ok h.toSized hw hv hc hlen, ?_⟩
  have hl := block_len hv
  have := replaced_of (t.wtd.getD (List.replicate t.sizes.sum 0)) b (blockStart t.sizes k) (by rw [hl, hlen]; exact Field.block_le hw)
  rw [hl] at this
  exact this

/-- C46: a wrong index (also a negative one) or anything that does not fit the edge is rejected with `ValueError`, and the
trace stays as it was. -/
theorem C46_rejected {t : Trace} (h : t.Good) (k : ℤ) (v : FloatLike)
    (hbad : k < 0 ∨ (t.edges.length : ℤ) ≤ k ∨ ∃ e, t.edges[k.toNat]? = some e ∧ v.block e.cols.length = none) :
    t.setOnEdge k v = (t, .error .valueError) ∧ t.setWndOnEdge k v = (t, .error .valueError) ∧
      t.setWtdOnEdge k v = (t, .error .valueError) := by
  have key : ∀ F : Field, F.set t k v = (t, .error .valueError) := by
    intro F
    by_cases hk : k < 0 ∨ (t.edges.length : ℤ) ≤ k
    · exact F.set_range h.toSized hk v
    · rcases hbad with hb | hb | ⟨e, he, hb⟩
      · exact absurd (Or.inl hb) hk
      · exact absurd (Or.inr hb) hk
      · push Not at hk
        obtain ⟨n, rfl⟩ := Int.eq_ofNat_of_zero_le hk.1
        exact F.set_bad h.toSized (sizes_get t he) hb
  exact ⟨key Field.vals, key Field.wn, key Field.wt⟩

/-! ### all edges -/

theorem prep {t : Trace} (h : t.Sized) {v : TraceArg} {vs : List FloatLike} (hc : t.convert v = .ok vs) :
    (do
      let vs ← t.convert v
      let n ← attr t.numPts
      .ok (vs, n) : Py (List FloatLike × ℕ)) = .ok (vs, t.sizes.sum) := by
  simp only [hc, h.numPts, attr, bind, Except.bind]

/-- C46: `set_trace_values` with a vector for all samples, with one number, or with one array per edge. -/
theorem C46_set_values {t : Trace} (h : t.Good) :
    (∀ a : List ℝ, a.length = t.sizes.sum → t.setValues (.one (.arr a)) = ({ t with values := some a }, .ok ())) ∧
    (∀ x : ℝ, t.setValues (.one (.num x)) = ({ t with values := some (List.replicate t.sizes.sum x) }, .ok ())) ∧
    (∀ bs : List (List ℝ), bs.map List.length = t.sizes →
      t.setValues (.list (bs.map .arr)) = ({ t with values := some bs.flatten }, .ok ())) ∧
    ∀ a : List ℝ, a.length ≠ t.sizes.sum → t.setValues (.one (.arr a)) = (t, .error .valueError) := by
  refine ⟨?_, ?_, ?_, ?_⟩
  · intro a ha
    unfold setValues
    rw [prep h.toSized (convert_arr h.toSized ha)]
    exact Field.vals.loop_arr h.toSized ha
  · intro x
    unfold setValues
    rw [prep h.toSized (show t.convert (.one (.num x)) = .ok (List.replicate t.numEdges (.num x)) from rfl)]
    exact Field.vals.loop_num h.toSized x
  · intro bs hb
    have hall : (bs.map FloatLike.arr).all isArr = true := by
      rw [List.all_eq_true]
      intro v hv
      obtain ⟨b, _, rfl⟩ := List.mem_map.1 hv
      rfl
    unfold setValues
    rw [prep h.toSized (show t.convert (.list (bs.map .arr)) = .ok (bs.map .arr) by simp only [convert, if_pos hall])]
    exact Field.vals.loop_list h.toSized hb
  · intro a ha
    unfold setValues
    simp only [convert, h.numPts, attr, bind, Except.bind, ne_eq, ha, not_false_eq_true, if_true]

theorem setWnd_arr {t : Trace} (h : t.Sized) {a : List ℝ} (ha : a.length = t.sizes.sum) :
    t.setWnd (.one (.arr a)) = ({ t with wnd := some a }, .ok ()) := by
  unfold setWnd
  rw [prep h (convert_arr h ha)]
  exact Field.wn.loop_arr h ha

theorem setWtd_arr {t : Trace} (h : t.Sized) {a : List ℝ} (ha : a.length = t.sizes.sum) :
    t.setWtd (.one (.arr a)) = ({ t with wtd := some a }, .ok ()) := by
  unfold setWtd
  rw [prep h (convert_arr h ha)]
  exact Field.wt.loop_arr h ha

/-- C46: the same for the derivatives with a vector. -/
theorem C46_set_derivatives {t : Trace} (h : t.Good) (a : List ℝ) (ha : a.length = t.sizes.sum) :
    t.setWnd (.one (.arr a)) = ({ t with wnd := some a }, .ok ()) ∧
      t.setWtd (.one (.arr a)) = ({ t with wtd := some a }, .ok ()) :=
  ⟨setWnd_arr h.toSized ha, setWtd_arr h.toSized ha⟩

/-- C46: functions on the edges: on the block of edge `k` the values are those of function `k` at the samples of the
edge, whether one function is given for all edges or a list of functions. -/
theorem C46_functions {t : Trace} (h : t.Good) (fs : List PyFn) (gs : List (ℝ → ℝ → ℝ))
    (hfs : fs.map PyFn.run = gs.map .ok) (hl : gs.length = t.edges.length) :
    t.setFuncs (.list fs) = ({ t with
      funcs := some fs
      values := some (List.zipWith (fun e g => e.cols.map fun s => g s.x s.y) t.edges gs).flatten }, .ok ()) := by
  have hlen : fs.length = gs.length := by simpa using congrArg List.length hfs
  have hf : ∀ (k : ℕ) (g : ℝ → ℝ → ℝ), gs[k]? = some g → ∃ f, fs[k]? = some f ∧ f.run = .ok g := by
    intro k g hg
    have := congrArg (fun l : List (Py (ℝ → ℝ → ℝ)) => l[k]?) hfs
    simp only [List.getElem?_map, hg, Option.map_some] at this
    obtain ⟨f, h1, h2⟩ := Option.map_eq_some_iff.1 this
    exact ⟨f, h1, h2⟩
  have hall : fs.all PyFn.isR2R = true := by
    rw [List.all_eq_true]
    intro f hf'
    have : f.run ∈ gs.map (Except.ok : _ → Py (ℝ → ℝ → ℝ)) := by rw [← hfs]; exact List.mem_map_of_mem hf'
    obtain ⟨g, _, hg⟩ := List.mem_map.1 this
    cases f with
    | poly _ => rfl
    | other => cases hg
    | call n f =>
      simp only [PyFn.run] at hg
      by_cases hn : n = 2
      · simp [PyFn.isR2R, hn]
      · rw [if_neg hn] at hg; cases hg
  have hs : ({ t with funcs := some fs } : Trace).Sized := ⟨h.sampled, h.numEdges, h.numPts, h.idx⟩
  have hv := valueLoop_ok { t with funcs := some fs } hs fs gs hl hf t.edges 0 [] (List.replicate t.sizes.sum 0) rfl
    (by simp [blockStart]) (by simp [blockStart, sizes])
  simp only [setFuncs, setFuncList, hall, if_true]
  rw [if_neg (by rw [hlen, hl, h.numEdges]; simp)]
  have hr := hs.ready
  simp only [hr, Bool.and_self, if_true, Trace.findValues, hs.findSizes]
  have e1 : idxLoop 0 t.edges = blocksOf t.sizes := idxLoop_zero _
  have e2 : (t.edges.map fun e => npts e - 1).sum = t.sizes.sum := by rw [sizes_eq]
  rw [e1, e2]
  simp only [List.nil_append, List.drop_zero] at hv
  have hv' : valueLoop (blocksOf t.sizes) fs 0 (List.replicate t.sizes.sum 0) t.edges = _ := hv
  rw [hv']

/-- C46: one function is used on all edges. -/
theorem C46_one_function {t : Trace} (h : t.Good) (f : PyFn) (g : ℝ → ℝ → ℝ) (hf : f.run = .ok g) :
    ∃ t', t.setFuncs (.one f) = (t', .ok ()) ∧
      t'.values = some ((t.edges.flatMap EdgeG.cols).map fun s => g s.x s.y) := by
  have hn := h.numEdges
  have hc := C46_functions h (List.replicate t.numEdges f) (List.replicate t.numEdges g) (by simp [hf]) (by simp [hn])
  have hr : f.isR2R = true := by
    cases f with
    | poly _ => rfl
    | other => cases hf
    | call n f =>
      simp only [PyFn.run] at hf
      by_cases hn : n = 2
      · simp [PyFn.isR2R, hn]
      · rw [if_neg hn] at hf; cases hf
  have he : t.setFuncs (.one f) = t.setFuncs (.list (List.replicate t.numEdges f)) := by
    simp only [setFuncs, hr, if_true]
  refine ⟨_, he.trans hc, ?_⟩
  simp only [Option.some.injEq]
  rw [hn]
  generalize t.edges = es
  induction es with
  | nil => rfl
  | cons e es ih =>
    rw [List.length_cons, List.replicate_succ, List.zipWith_cons_cons, List.flatten_cons, ih]
    simp

/-! ### algebra -/

/-- entrywise work on optional data: present if both are -/
def pointwise (f : ℝ → ℝ → ℝ) : Option (List ℝ) → Option (List ℝ) → Option (List ℝ)
  | some a, some b => some (List.zipWith f a b)
  | _, _ => none

theorem both_eq (f : ℝ → ℝ → ℝ) {x y : Option (List ℝ)} {n : ℕ} (hx : ∀ a, x = some a → a.length = n)
    (hy : ∀ a, y = some a → a.length = n) : both f x y = .ok (pointwise f x y) := by
  cases x with
  | none => cases y <;> rfl
  | some a =>
    cases y with
    | none => rfl
    | some b =>
      simp only [both, pointwise, bin_eq f (show a.length = b.length by rw [hx a rfl, hy b rfl]), bind, Except.bind]

theorem pointwise_len (f : ℝ → ℝ → ℝ) {x y : Option (List ℝ)} {n : ℕ} (hx : ∀ a, x = some a → a.length = n)
    (hy : ∀ a, y = some a → a.length = n) {c : List ℝ} (h : pointwise f x y = some c) : c.length = n := by
  cases x with
  | none => cases y <;> simp [pointwise] at h
  | some a =>
    cases y with
    | none => simp [pointwise] at h
    | some b =>
      simp only [pointwise, Option.some.injEq] at h
      subst h
      rw [List.length_zipWith, hx a rfl, hy b rfl, Nat.min_self]

/-- the trace with the given data on the edges `es` -/
def made (es : List EdgeG) (v w d : Option (List ℝ)) : Trace := { bare es with values := v, wnd := w, wtd := d }

theorem build {t : Trace} (h : t.Good) {c : List ℝ} (hc : c.length = t.sizes.sum) {dn dt : Option (List ℝ)}
    (hn : ∀ a, dn = some a → a.length = t.sizes.sum) (ht : ∀ a, dt = some a → a.length = t.sizes.sum) :
    (do
      let new ← after ((bare t.edges).setValues (.one (.arr c)))
      let new ← copyDeriv setWnd new dn
      copyDeriv setWtd new dt : Py Trace) = .ok (made t.edges (some c) dn dt) := by
  have hb := good_bare h.sampled
  have hsz : (bare t.edges).sizes = t.sizes := sizes_bare _
  have hw : (bare t.edges).wnd = none ∧ (bare t.edges).wtd = none := by
    unfold bare; dsimp only; split <;> exact ⟨rfl, rfl⟩
  have h1 := (C46_set_values hb).1 c (by rw [hsz]; exact hc)
  have g1 := good_vals hb (a := c) (by rw [hsz]; exact hc)
  rw [h1]
  simp only [after, Except.map, bind, Except.bind]
  cases dn with
  | none =>
    cases dt with
    | none =>
      simp only [copyDeriv, made]
      rw [show (bare t.edges) = { bare t.edges with wnd := none, wtd := none } by
        conv_lhs => rw [show bare t.edges = { bare t.edges with wnd := (bare t.edges).wnd, wtd := (bare t.edges).wtd } from rfl]
        rw [hw.1, hw.2]]
    | some d =>
      simp only [copyDeriv]
      have := setWtd_arr g1.toSized (a := d) (by rw [Field.sizes_put, hsz]; exact ht d rfl)
      have e : (Field.vals.put (bare t.edges) c) = { bare t.edges with values := some c } := rfl
      rw [e] at this
      rw [this]
      simp only [after, Except.map, made]
      rw [hw.1]
  | some n =>
    simp only [copyDeriv]
    have e1 := setWnd_arr g1.toSized (a := n) (by rw [Field.sizes_put, hsz]; exact hn n rfl)
    have g2 := good_wn g1 (a := n) (by rw [Field.sizes_put, hsz]; exact hn n rfl)
    have e : (Field.vals.put (bare t.edges) c) = { bare t.edges with values := some c } := rfl
    rw [e] at e1
    rw [e1]
    simp only [after, Except.map]
    cases dt with
    | none => simp only [made]; rw [hw.2]
    | some d =>
      have e2 := setWtd_arr g2.toSized (a := d) (by rw [Field.sizes_put, Field.sizes_put, hsz]; exact ht d rfl)
      have e' : (Field.wn.put (Field.vals.put (bare t.edges) c) n) =
        { bare t.edges with values := some c, wnd := some n } := rfl
      rw [e'] at e2
      simp only
      rw [e2]
      simp only [after, Except.map, made]

/-- C46: the sum of two traces on the same number of edges with as many samples: entrywise sums of the values, and of
those derivatives that both have.  The sum is a new trace on the edges of the first. -/
theorem C46_add {t s : Trace} (ht : t.Good) (hs : s.Good) (hsz : t.sizes = s.sizes) {a b : List ℝ}
    (ha : t.values = some a) (hb : s.values = some b) :
    ∃ r, t.add s = .ok r ∧ r.Good ∧ r.edges = t.edges ∧ r.values = some (List.zipWith (· + ·) a b) ∧
      r.wnd = pointwise (· + ·) t.wnd s.wnd ∧ r.wtd = pointwise (· + ·) t.wtd s.wtd := by
  have hne : t.numEdges = s.numEdges := by
    rw [ht.numEdges, hs.numEdges]
    have := congrArg List.length hsz
    simpa [sizes] using this
  have la := ht.values a ha
  have lb := hs.values b hb
  have hs2 : ∀ x, s.wnd = some x → x.length = t.sizes.sum := by rw [hsz]; exact hs.wnd
  have hs3 : ∀ x, s.wtd = some x → x.length = t.sizes.sum := by rw [hsz]; exact hs.wtd
  have hc : (List.zipWith (· + ·) a b).length = t.sizes.sum := by
    rw [List.length_zipWith, la, lb, ← hsz, Nat.min_self]
  have hbld := build ht hc (fun _ => pointwise_len (· + ·) ht.wnd hs2) (fun _ => pointwise_len (· + ·) ht.wtd hs3)
  refine ⟨made t.edges (some (List.zipWith (· + ·) a b)) (pointwise (· + ·) t.wnd s.wnd) (pointwise (· + ·) t.wtd s.wtd),
    ?_, ?_, edges_bare _, rfl, rfl, rfl⟩
  · simp only [add, hne, ne_eq, not_true_eq_false, if_false, ha, hb, attr, bind, Except.bind,
      bin_eq (fun x y : ℝ => x + y) (show a.length = b.length by rw [la, lb, hsz]), both_eq (· + ·) ht.wnd hs2,
      both_eq (· + ·) ht.wtd hs3] at hbld ⊢
    exact hbld
  · have hg := good_bare ht.sampled
    have hszb : (made t.edges (some (List.zipWith (· + ·) a b)) (pointwise (· + ·) t.wnd s.wnd)
      (pointwise (· + ·) t.wtd s.wtd)).sizes = t.sizes := sizes_bare _
    refine good_of ⟨hg.sampled, hg.numEdges, hg.numPts, hg.idx⟩ ?_ ?_ ?_
    · intro x hx; rw [hszb]; cases hx; exact hc
    · intro x hx; rw [hszb]; exact pointwise_len (· + ·) ht.wnd hs2 hx
    · intro x hx; rw [hszb]; exact pointwise_len (· + ·) ht.wtd hs3 hx

theorem mapData_eq {t : Trace} (ht : t.Good) {a : List ℝ} (ha : t.values = some a) (f : ℝ → ℝ) :
    mapData f t = .ok (made t.edges (some (a.map f)) (t.wnd.map (List.map f)) (t.wtd.map (List.map f))) := by
  have h1 : ∀ x, t.wnd.map (List.map f) = some x → x.length = t.sizes.sum := by
    intro x hx
    obtain ⟨y, hy, rfl⟩ := Option.map_eq_some_iff.1 hx
    simpa using ht.wnd y hy
  have h2 : ∀ x, t.wtd.map (List.map f) = some x → x.length = t.sizes.sum := by
    intro x hx
    obtain ⟨y, hy, rfl⟩ := Option.map_eq_some_iff.1 hx
    simpa using ht.wtd y hy
  have hbld := build ht (c := a.map f) (by simpa using ht.values a ha) h1 h2
  simp only [mapData, ha, attr, bind, Except.bind] at hbld ⊢
  exact hbld

theorem mapData_good {t : Trace} (ht : t.Good) {a : List ℝ} (ha : t.values = some a) (f : ℝ → ℝ) :
    (made t.edges (some (a.map f)) (t.wnd.map (List.map f)) (t.wtd.map (List.map f))).Good := by
  have hg := good_bare ht.sampled
  have hszb : (made t.edges (some (a.map f)) (t.wnd.map (List.map f)) (t.wtd.map (List.map f))).sizes = t.sizes := sizes_bare _
  refine good_of ⟨hg.sampled, hg.numEdges, hg.numPts, hg.idx⟩ ?_ ?_ ?_
  · intro x hx; rw [hszb]; cases hx; simpa using ht.values a ha
  · intro x hx; rw [hszb]
    obtain ⟨y, hy, rfl⟩ := Option.map_eq_some_iff.1 hx
    simpa using ht.wnd y hy
  · intro x hx; rw [hszb]
    obtain ⟨y, hy, rfl⟩ := Option.map_eq_some_iff.1 hx
    simpa using ht.wtd y hy

/-- C46: multiplication by a number: every entry of the values and of the derivatives present. -/
theorem C46_mul {t : Trace} (ht : t.Good) {a : List ℝ} (ha : t.values = some a) (c : ℝ) :
    ∃ r, t.mul c = .ok r ∧ r.Good ∧ r.edges = t.edges ∧ r.values = some (a.map (c * ·)) ∧
      r.wnd = t.wnd.map (List.map (c * ·)) ∧ r.wtd = t.wtd.map (List.map (c * ·)) := by
  have hf : (fun x : ℝ => x * c) = (c * ·) := by funext x; ring
  refine ⟨_, mapData_eq ht ha _, mapData_good ht ha _, edges_bare _, ?_, ?_, ?_⟩ <;> simp only [made, hf]

/-- C46: division by a number other than zero; division by zero raises `ValueError`. -/
theorem C46_div {t : Trace} (ht : t.Good) {a : List ℝ} (ha : t.values = some a) (c : ℝ) :
    (c ≠ 0 → ∃ r, t.div c = .ok r ∧ r.Good ∧ r.edges = t.edges ∧ r.values = some (a.map (· / c)) ∧
      r.wnd = t.wnd.map (List.map (· / c)) ∧ r.wtd = t.wtd.map (List.map (· / c))) ∧
    t.div 0 = .error .valueError := by
  refine ⟨fun hc => ?_, by simp [div]⟩
  refine ⟨_, ?_, mapData_good ht ha (· / c), edges_bare _, rfl, rfl, rfl⟩
  simp only [div, if_neg hc]
  exact mapData_eq ht ha _

theorem zip_sub (a b : List ℝ) : List.zipWith (· + ·) a (b.map (-1 * ·)) = List.zipWith (· - ·) a b := by
  rw [List.zipWith_map_right]
  congr 1
  funext x y
  ring

/-- C46: the difference of two traces. -/
theorem C46_sub {t s : Trace} (ht : t.Good) (hs : s.Good) (hsz : t.sizes = s.sizes) {a b : List ℝ}
    (ha : t.values = some a) (hb : s.values = some b) :
    ∃ r, t.sub s = .ok r ∧ r.Good ∧ r.edges = t.edges ∧ r.values = some (List.zipWith (· - ·) a b) ∧
      r.wnd = pointwise (· - ·) t.wnd s.wnd ∧ r.wtd = pointwise (· - ·) t.wtd s.wtd := by
  obtain ⟨m, hm, gm, em, vm, nm, tm⟩ := C46_mul hs hb (-1)
  have hszm : t.sizes = m.sizes := by rw [hsz]; unfold sizes; rw [em]
  obtain ⟨r, hr, gr, er, vr, nr, tr⟩ := C46_add ht gm hszm ha vm
  refine ⟨r, by simp only [sub, hm, bind, Except.bind]; exact hr, gr, er, by rw [vr, zip_sub], ?_, ?_⟩
  · rw [nr, nm]
    cases t.wnd <;> cases s.wnd <;> simp only [pointwise, Option.map_none, Option.map_some, zip_sub]
  · rw [tr, tm]
    cases t.wtd <;> cases s.wtd <;> simp only [pointwise, Option.map_none, Option.map_some, zip_sub]

/-- C46: traces on different numbers of edges cannot be added. -/
theorem C46_add_rejected {t s : Trace} (ht : t.Good) (hs : s.Good) (h : t.edges.length ≠ s.edges.length) :
    t.add s = .error .valueError := by
  unfold add
  rw [if_pos]
  rw [ht.numEdges, hs.numEdges]; exact h

end Trace
end PFEM
