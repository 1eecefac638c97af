import Verif.Model.EdgeSet
import Verif.Lemmas.Py

/-!
Property theorems C109 (setters of an edge), C110 (choice of the curve type), C111 (samples and attributes of an edge).
-/

namespace PFEM
namespace EdgeAttrs

/-! ### C109 -/

/-- what every user of an edge relies on -/
def Valid (s : EdgeAttrs) : Prop :=
  (∀ k, s.idx = some k → 0 ≤ k) ∧ s.tBounds.1 < s.tBounds.2 ∧ (s.onMeshBoundary = true ↔ s.posCell < 0 ∨ s.negCell < 0)

theorem call_valid (files : String → Bool) {s : EdgeAttrs} (h : Valid s) (c : Call) : Valid (call files s c).1 := by
  obtain ⟨h1, h2, h3⟩ := h
  cases c with
  | idx v =>
    cases v with
    | int k =>
      simp only [call, setIdx]
      split
      · exact ⟨h1, h2, h3⟩
      · rename_i hk
        refine ⟨fun j hj => ?_, h2, h3⟩
        simp only [Option.some.injEq] at hj
        omega
    | _ => exact ⟨h1, h2, h3⟩
  | cells p n => exact ⟨h1, h2, by simp [call, setCells]⟩
  | tBounds a b =>
    simp only [call, setTBounds]
    split
    · split
      · exact ⟨h1, h2, h3⟩
      · rename_i hlt
        exact ⟨h1, not_le.1 hlt, h3⟩
    · exact ⟨h1, h2, h3⟩
  | curveType v =>
    cases v with
    | str c =>
      simp only [call, setCurveType]
      split
      · exact ⟨h1, h2, h3⟩
      · exact ⟨h1, h2, h3⟩
    | _ => exact ⟨h1, h2, h3⟩

theorem run_valid (files : String → Bool) {s : EdgeAttrs} (h : Valid s) (cs : List Call) : Valid (run files s cs) := by
  unfold run
  induction cs generalizing s with
  | nil => exact h
  | cons c cs ih => exact ih (call_valid files h c)

/-- C109: whatever the arguments, an edge that was constructed and on which setters were called in any order, with exceptions caught, has a
nonnegative index or none, bounds in increasing order, and a boundary flag that is set exactly if one of its cells is missing. -/
theorem C109_invariant (files : String → Bool) (ct : String) (idx a b : PyArg) (pos neg : ℤ) (s : EdgeAttrs)
    (h : init ct idx a b pos neg = .ok s) (cs : List Call) :
    let r := run files s cs
    (∀ k, r.idx = some k → 0 ≤ k) ∧ r.tBounds.1 < r.tBounds.2 ∧
      (r.onMeshBoundary = true ↔ r.posCell < 0 ∨ r.negCell < 0) := by
  refine run_valid files (s := s) ?_ cs
  unfold init at h
  have key : ∀ (s0 s1 : EdgeAttrs) (u : Unit), (∀ k, s0.idx = some k → 0 ≤ k) → setIdx s0 idx = (s1, .ok u) →
      ∀ k, s1.idx = some k → 0 ≤ k := by
    intro s0 s1 u h0 h1 k hk
    cases idx with
    | none => simp [setIdx] at h1; subst h1; exact h0 k hk
    | int j =>
      simp only [setIdx] at h1
      split at h1
      · simp at h1
      · simp only [Prod.mk.injEq] at h1
        rw [← h1.1] at hk
        simp at hk
        omega
    | _ => simp [setIdx] at h1
  dsimp only at h
  split at h
  · cases h
  · rename_i s1 u1 e1
    have k1 := key _ s1 _ (by simp) e1
    split at h
    · cases h
    · rename_i s2 u2 e2
      have hs : s = (setCells s2 pos neg).1 := by cases h; rfl
      have : (∀ k, s2.idx = some k → 0 ≤ k) ∧ s2.tBounds.1 < s2.tBounds.2 := by
        unfold setTBounds at e2
        split at e2
        · split at e2
          · simp at e2
          · rename_i hlt
            simp only [Prod.mk.injEq] at e2
            rw [← e2.1]
            exact ⟨k1, not_le.1 hlt⟩
        · simp at e2
      subst hs
      exact ⟨this.1, this.2, by simp [setCells]⟩

/-- C109: a call that raises changes nothing; a call that returns stores what was passed (an index `None` leaves the index) and nothing else. -/
theorem C109_frame (files : String → Bool) (s : EdgeAttrs) (c : Call) :
    (∀ e, (call files s c).2 = .error e → (call files s c).1 = s) ∧
    ((call files s c).2 = .ok () → match c with
      | .idx v => (v = .none ∧ (call files s c).1 = s) ∨ ∃ k, v = .int k ∧ 0 ≤ k ∧ (call files s c).1 = { s with idx := some k }
      | .cells p n => ∃ flag, (call files s c).1 = { s with posCell := p, negCell := n, onMeshBoundary := flag }
      | .tBounds a b => ∃ x y, PyArg.number a = some x ∧ PyArg.number b = some y ∧ x < y ∧
          (call files s c).1 = { s with tBounds := (x, y) }
      | .curveType v => ∃ t, v = .str t ∧ (call files s c).1 = { s with curveType := t }) := by
  cases c with
  | idx v =>
    cases v with
    | none => exact ⟨fun e h => rfl, fun _ => Or.inl ⟨rfl, rfl⟩⟩
    | int k =>
      simp only [call, setIdx]
      split
      · exact ⟨fun e h => rfl, fun h => by cases h⟩
      · rename_i hk
        exact ⟨fun e h => (by cases h), fun _ => Or.inr ⟨k, rfl, by omega, rfl⟩⟩
    | _ => exact ⟨fun e h => rfl, fun h => by cases h⟩
  | cells p n => exact ⟨fun e h => (by cases h), fun _ => ⟨_, rfl⟩⟩
  | tBounds a b =>
    simp only [call, setTBounds]
    split
    · rename_i x y ha hb
      split
      · exact ⟨fun e h => rfl, fun h => by cases h⟩
      · rename_i hlt
        exact ⟨fun e h => (by cases h), fun _ => ⟨x, y, ha, hb, not_le.1 hlt, rfl⟩⟩
    · exact ⟨fun e h => rfl, fun h => by cases h⟩
  | curveType v =>
    cases v with
    | str t =>
      simp only [call, setCurveType]
      split
      · exact ⟨fun e h => (by cases h), fun _ => ⟨t, rfl, rfl⟩⟩
      · exact ⟨fun e h => rfl, fun h => by cases h⟩
    | _ => exact ⟨fun e h => rfl, fun h => by cases h⟩

/-- C109: the errors.  A negative index, an index that is not an integer, and bounds that are not two increasing numbers are rejected. -/
theorem C109_errors (files : String → Bool) (s : EdgeAttrs) :
    (∀ k : ℤ, k < 0 → (call files s (.idx (.int k))).2 = .error .valueError) ∧
    (∀ v : PyArg, v ≠ .none → (∀ k, v ≠ .int k) → (call files s (.idx v)).2 = .error .typeError) ∧
    (∀ a b, (∀ x y, PyArg.number a = some x → PyArg.number b = some y → y ≤ x) →
      (call files s (.tBounds a b)).2 = .error .valueError) := by
  refine ⟨fun k hk => by simp [call, setIdx, hk], fun v h1 h2 => ?_, fun a b h => ?_⟩
  · cases v with
    | none => exact absurd rfl h1
    | int k => exact absurd rfl (h2 k)
    | _ => rfl
  · simp only [call, setTBounds]
    split
    · rename_i x y ha hb
      rw [if_pos (h x y ha hb)]
    · rfl

/-- C109: increasing bounds are stored, whether they are given as integers or as floats; an index that is not negative is stored. -/
theorem C109_accepts (files : String → Bool) (s : EdgeAttrs) (x y : ℝ) (h : x < y) (j k : ℤ) (hjk : j < k) :
    call files s (.tBounds (.float x) (.float y)) = ({ s with tBounds := (x, y) }, .ok ()) ∧
    call files s (.tBounds (.int j) (.int k)) = ({ s with tBounds := ((j : ℝ), (k : ℝ)) }, .ok ()) ∧
    ((j : ℝ) < y → call files s (.tBounds (.int j) (.float y)) = ({ s with tBounds := ((j : ℝ), y) }, .ok ())) ∧
    (x < (k : ℝ) → call files s (.tBounds (.float x) (.int k)) = ({ s with tBounds := (x, (k : ℝ)) }, .ok ())) ∧
    (0 ≤ k → call files s (.idx (.int k)) = ({ s with idx := some k }, .ok ())) := by
  have hjk' : (j : ℝ) < k := by exact_mod_cast hjk
  refine ⟨?_, ?_, fun h0 => ?_, fun h0 => ?_, fun h0 => ?_⟩
  · simp [call, setTBounds, PyArg.number, h]
  · simp [call, setTBounds, PyArg.number, hjk]
  · simp [call, setTBounds, PyArg.number, h0]
  · simp [call, setTBounds, PyArg.number, h0]
  · simp [call, setIdx, not_lt.2 h0]

/-! ### C110 -/

/-- C110, an edge whose present curve type exists: names are accepted and stored, other arguments are rejected.  Missing from the property: that
only names of existing curves are accepted (`C110_violated`). -/
theorem C110_partial (files : String → Bool) (s : EdgeAttrs) (h : files s.curveType = true) :
    (∀ c, files c = true → call files s (.curveType (.str c)) = ({ s with curveType := c }, .ok ())) ∧
    ∀ v, (∀ c, v ≠ .str c) → call files s (.curveType v) = (s, .error .valueError) := by
  constructor
  · intro c _
    simp [call, setCurveType, h]
  · intro v hv
    cases v with
    | str c => exact absurd rfl (hv c)
    | _ => rfl

/-- C110 fails: a name without a module is accepted, on every edge whose present curve type exists; from then on every call of `set_curve_type`
raises, with valid names too, and whatever setters are called, the edge keeps the name that does not exist. -/
theorem C110_violated (files : String → Bool) (s : EdgeAttrs) (h : files s.curveType = true) (bad : String)
    (hb : files bad = false) :
    (call files s (.curveType (.str bad))).2 = .ok () ∧
    ∀ cs : List Call,
      let r := run files (call files s (.curveType (.str bad))).1 cs
      r.curveType = bad ∧ ∀ v, ∃ e, (call files r (.curveType v)).2 = .error e := by
  refine ⟨by simp [call, setCurveType, h], ?_⟩
  have step : ∀ (r : EdgeAttrs) (c : Call), r.curveType = bad → (call files r c).1.curveType = bad := by
    intro r c hr
    cases c with
    | idx v =>
      cases v with
      | int k => simp only [call, setIdx]; split <;> exact hr
      | _ => exact hr
    | cells p n => exact hr
    | tBounds a b =>
      simp only [call, setTBounds]
      split
      · split <;> exact hr
      · exact hr
    | curveType v =>
      cases v with
      | str t => simp only [call, setCurveType, hr, hb]; exact hr
      | _ => exact hr
  have all : ∀ (cs : List Call) (r : EdgeAttrs), r.curveType = bad → (run files r cs).curveType = bad := by
    intro cs
    induction cs with
    | nil => intro r hr; exact hr
    | cons c cs ih => intro r hr; exact ih _ (step r c hr)
  intro cs
  have hr := all cs (call files s (.curveType (.str bad))).1 (by simp [call, setCurveType, h])
  refine ⟨hr, fun v => ?_⟩
  generalize run files (call files s (.curveType (.str bad))).1 cs = r at hr
  cases v with
  | str t => exact ⟨.fileNotFound, by simp only [call, setCurveType, hr, hb]; rfl⟩
  | _ => exact ⟨.valueError, rfl⟩

/-- the modules of the curve library -/
def edgelib (c : String) : Bool :=
  ["bean", "cartioid", "circle", "circular_arc", "circular_arc_deg", "ellipse", "line", "sine_wave", "spline", "teardrop"].contains c

/-- a line on the mesh boundary: construction, a rejected index, a rejected interval, a new interval, and the misspelled "cardioid" -/
example : ∃ s, init "line" .none (.int 0) (.float 6) 0 (-1) = .ok s ∧ edgelib s.curveType = true ∧ edgelib "cardioid" = false ∧
    s.onMeshBoundary = true ∧ s.idx = none ∧
    (call edgelib s (.idx (.int (-1)))).2 = .error .valueError ∧ (call edgelib s (.tBounds (.int 3) (.int 2))).2 = .error .valueError ∧
    (call edgelib s (.tBounds (.int 2) (.int 3))).1.tBounds = (2, 3) ∧ (call edgelib s (.cells 0 1)).1.onMeshBoundary = false ∧
    (call edgelib s (.curveType (.str "cardioid"))).1.curveType = "cardioid" := by
  refine ⟨⟨"line", none, (0, 6), 0, -1, true⟩, ?_, by decide, by decide, rfl, rfl, rfl, ?_, ?_, rfl, ?_⟩
  · simp [init, setIdx, setTBounds, PyArg.number, setCells]
    rw [if_neg (by norm_num)]
  · simp [call, setTBounds, PyArg.number]; norm_num
  · simp [call, setTBounds, PyArg.number]; norm_num
  · have : edgelib "line" = true := by decide
    simp [call, setCurveType, this]

end EdgeAttrs

/-! ### C111 -/

/-- C111, sampling again: after `set_verts`, `parameterize` gives the same edge as for a new edge constructed with the present attributes; samples
and transformations from before have no influence.  Missing from the property: that an edge whose attributes were set after it was sampled says
so (`C111_violated`). -/
theorem C111_fresh_partial (e n : EdgeG) (a b : Vert) (d : Quad × Quad)
    (hn : EdgeG.init a b e.curve e.opts e.quadType e.tBounds e.posCell e.negCell = .ok n) :
    EdgeG.parameterize (e.setVerts a b) d = EdgeG.parameterize n d := by
  unfold EdgeG.init at hn
  split at hn
  · cases hn
  · cases hn
    rfl

/-- C111 fails: `set_verts`, `set_t_bounds` and `set_curve_type` keep the samples of a parameterized edge.  After `set_verts` with another
starting point, an edge whose first sample was its starting point is still parameterized, and its first sample is not its starting point. -/
theorem C111_violated (e : EdgeG) (s0 : Sample) (L : List Sample) (hL : e.pts = some (s0 :: L)) :
    (∀ a b, (e.setVerts a b).pts = e.pts) ∧ (∀ a b e', e.setTBounds a b = .ok e' → e'.pts = e.pts) ∧
    (∀ c, (e.setCurve c).pts = e.pts) ∧
    ∀ a b : Vert, (s0.x, s0.y) = (e.anchor.x, e.anchor.y) → (a.x, a.y) ≠ (e.anchor.x, e.anchor.y) →
      let e' := e.setVerts a b
      (e'.anchor = a ∧ e'.pts = some (s0 :: L)) ∧ (s0.x, s0.y) ≠ (e'.anchor.x, e'.anchor.y) := by
  refine ⟨fun a b => rfl, fun a b e' h => ?_, fun c => rfl, fun a b h0 h1 => ⟨⟨rfl, hL⟩, ?_⟩⟩
  · unfold EdgeG.setTBounds at h
    split at h
    · cases h
    · cases h; rfl
  · intro h
    exact h1 (h.symm.trans h0)

/-- an edge from (0, 0) to (1, 0) with two samples, moved to (0, 1): the hypotheses of both theorems hold -/
example : ∃ (e n : EdgeG) (s0 : Sample) (L : List Sample) (a b : Vert), e.pts = some (s0 :: L) ∧ (s0.x, s0.y) = (e.anchor.x, e.anchor.y) ∧
    (a.x, a.y) ≠ (e.anchor.x, e.anchor.y) ∧ EdgeG.init a b e.curve e.opts e.quadType e.tBounds e.posCell e.negCell = .ok n := by
  refine ⟨⟨Vert.mk' 0 0, Vert.mk' 1 0, .line, {}, "kress", (0, 1), false, [],
    some [⟨0, 0, 1, 0, 0, -1, 1, 0⟩, ⟨1, 0, 1, 0, 0, -1, 1, 0⟩], -1, -1⟩,
    EdgeG.setVerts ⟨Vert.mk' 0 1, Vert.mk' 1 0, .line, {}, "kress", (0, 1), false, [], none, -1, -1⟩ (Vert.mk' 0 1) (Vert.mk' 1 0),
    _, _, Vert.mk' 0 1, Vert.mk' 1 0, rfl, ?_, ?_, ?_⟩
  · simp [Vert.mk']
  · simp [Vert.mk']
  · unfold EdgeG.init
    rw [if_neg (by norm_num)]

end PFEM
