import Verif.Lemmas.Split

/-!
Property theorem C26: splitting an edge.
-/

namespace PFEM
open EdgeG

/-- What it means that an edge lies along the path `P` (a function of the curve parameter): with every quadrature rule,
the points sampled by `parameterize` are the values of `P` at the nodes, scaled from `[0, 2 pi]` to the parameter
interval of the edge. -/
def LiesAlong (e : EdgeG) (P : ℝ → ℂ) : Prop :=
  ∀ (n p : ℤ) (d : Quad × Quad), getQuadDict n p = .ok d → ∀ e', e.parameterize d = .ok e' →
    ∃ q L, pickQuad e.quadType d = .ok q ∧ e'.pts = some L ∧
      L.map Sample.z = q.t.map fun s => P (e.tBounds.1 + s / (2 * Real.pi) * (e.tBounds.2 - e.tBounds.1))

/-- `P` is the library curve followed by the maps recorded in the diary -/
def PathOf (e : EdgeG) (P : ℝ → ℂ) : Prop :=
  ∃ γ : ℝ → ℂ, (∀ t, Curve.X e.curve e.opts t = .ok ((γ t).re, (γ t).im)) ∧
    ∀ t, P t = opsMap e.diary (γ e.tBounds.1) (γ e.tBounds.2) (γ t)

theorem curve_fun {c : CurveType} {o : CurveOpts} {t x} (h : Curve.X c o t = .ok x) :
    ∃ γ : ℝ → ℂ, ∀ t, Curve.X c o t = .ok ((γ t).re, (γ t).im) := by
  obtain ⟨γ, -, g, -⟩ := base_samples c o ((C20_errors c o t).1.1 ⟨x, h⟩)
  exact ⟨fun t => ⟨γ.x t, γ.y t⟩, fun t => (g t).1⟩

theorem PathOf.liesAlong {e : EdgeG} {P : ℝ → ℂ} (h : PathOf e P) : LiesAlong e P := by
  intro n p d hd e' hp
  obtain ⟨γ, hγ, hP⟩ := h
  obtain ⟨q, hq, h1⟩ := bind_ok hp
  obtain ⟨l, hl, h1⟩ := bind_ok h1
  obtain ⟨e'', he', h1⟩ := bind_ok h1
  cases h1
  have hs := dict_sym hd hq
  have hpi := Real.pi_pos
  obtain ⟨g, -, g2, g3⟩ := base_samples e.curve e.opts (baseSamples_ok hl hs.ne_nil)
  have hg : ∀ t, (⟨g.x t, g.y t⟩ : ℂ) = γ t := by
    intro t
    have := (g2 t).1
    rw [hγ t] at this
    simp only [Except.ok.injEq, Prod.mk.injEq] at this
    exact Complex.ext this.1.symm this.2.symm
  rw [g3] at hl
  cases hl
  set dt := 0.5 * (e.tBounds.2 - e.tBounds.1) / Real.pi with hdt
  set C := g.retime e.tBounds.1 dt with hC
  have hz : (C.samples (q.t.zip q.wgt)).map Sample.z = q.t.map fun s => γ (dt * s + e.tBounds.1) := by
    have hlen := dict_len hd hq
    have : q.t = (q.t.zip q.wgt).map Prod.fst := by rw [List.map_fst_zip (le_of_eq hlen)]
    conv_rhs => rw [this]
    simp only [PCurve.samples, List.map_map]
    refine List.map_congr_left fun r _ => ?_
    simp only [Function.comp, ← hg]
    rfl
  have hfl : ∀ s, dt * s + e.tBounds.1 = e.tBounds.1 + s / (2 * Real.pi) * (e.tBounds.2 - e.tBounds.1) := by
    intro s
    rw [hdt, show (0.5 : ℝ) = 1 / 2 by norm_num]; field_simp; ring
  obtain ⟨w0, k0⟩ := hs.first
  obtain ⟨w1, k1⟩ := hs.last
  obtain ⟨L, p1, p2⟩ := runDiary_z e.diary (z0 := γ e.tBounds.1) (z1 := γ e.tBounds.2)
    (e := { e with pts := some (C.samples (q.t.zip q.wgt)) }) rfl
    (by
      simp only [PCurve.samples, List.map_map, List.head?_map, k0, Option.map_some, Option.some.injEq, Function.comp]
      rw [← hg]
      simp only [Sample.z, PCurve.sample, hC, PCurve.retime, mul_zero, zero_add])
    (by
      simp only [PCurve.samples, List.map_map, List.getLast?_map, k1, Option.map_some, Option.some.injEq, Function.comp]
      rw [← hg]
      have : dt * (2 * Real.pi) + e.tBounds.1 = e.tBounds.2 := by rw [hfl]; field_simp; ring
      simp only [Sample.z, PCurve.sample, hC, PCurve.retime, this])
    he'
  refine ⟨q, L, hq, p1, ?_⟩
  rw [p2, hz, List.map_map]
  refine List.map_congr_left fun s _ => ?_
  simp only [Function.comp]
  rw [hP, ← hfl]

/-- everything about one split -/
theorem split_facts {e e1 e2 : EdgeG} {t : ℝ} (h : splitSingle e t = .ok (e1, e2)) :
    ∃ P : ℝ → ℂ, PathOf e P ∧
      EdgeG.init (Vert.mk' (P e.tBounds.1).re (P e.tBounds.1).im) (Vert.mk' (P t).re (P t).im) e.curve e.opts "kress"
        (e.tBounds.1, t) e.posCell e.negCell = .ok e1 ∧
      EdgeG.init (Vert.mk' (P t).re (P t).im) (Vert.mk' (P e.tBounds.2).re (P e.tBounds.2).im) e.curve e.opts "kress"
        (t, e.tBounds.2) e.posCell e.negCell = .ok e2 := by
  obtain ⟨xa, ha, h⟩ := bind_ok h
  obtain ⟨xt, ht, h⟩ := bind_ok h
  obtain ⟨xb, hb, h⟩ := bind_ok h
  obtain ⟨v, hv, h⟩ := bind_ok h
  obtain ⟨f1, h1, h⟩ := bind_ok h
  obtain ⟨f2, h2, h⟩ := bind_ok h
  cases h
  obtain ⟨γ, hγ⟩ := curve_fun ha
  rw [hγ] at ha ht hb
  cases ha; cases ht; cases hb
  have hv := transform_run_z e.diary (z0 := γ e.tBounds.1) (z1 := γ e.tBounds.2) rfl rfl hv
  refine ⟨fun t => opsMap e.diary (γ e.tBounds.1) (γ e.tBounds.2) (γ t), ⟨γ, hγ, fun _ => rfl⟩, ?_, ?_⟩
  · rw [hv] at h1; exact h1
  · rw [hv] at h2; exact h2

theorem init_facts {a b : Vert} {c o qt tb pos neg e} (h : EdgeG.init a b c o qt tb pos neg = .ok e) :
    tb.1 < tb.2 ∧ e.anchor = a ∧ e.endpnt = b ∧ e.curve = c ∧ e.opts = o ∧ e.quadType = qt ∧ e.tBounds = tb ∧
      e.posCell = pos ∧ e.negCell = neg ∧ e.pts = none ∧ e.isLoop = a.beq b ∧
      e.diary = if a.beq b then [.translate a] else [.joinPoints a b] := by
  unfold EdgeG.init at h
  split at h
  · cases h
  · rename_i hlt
    cases h
    exact ⟨not_le.1 hlt, rfl, rfl, rfl, rfl, rfl, rfl, rfl, rfl, rfl, rfl, rfl⟩

/-- C26 (first part): the two pieces meet at the same vertex, their parameter intervals `[a, t]` and `[t, b]` cover
`[a, b]`, they border the same cells and use the same curve; and for an edge with a path `P` the vertices are
`P a`, `P t`, `P b` (here for every diary, also with reflections). -/
theorem C26_structure {e e1 e2 : EdgeG} {t : ℝ} (h : splitSingle e t = .ok (e1, e2)) :
    e.tBounds.1 < t ∧ t < e.tBounds.2 ∧ e1.tBounds = (e.tBounds.1, t) ∧ e2.tBounds = (t, e.tBounds.2) ∧
    e1.endpnt = e2.anchor ∧ e1.posCell = e.posCell ∧ e1.negCell = e.negCell ∧ e2.posCell = e.posCell ∧
    e2.negCell = e.negCell ∧ e1.curve = e.curve ∧ e2.curve = e.curve ∧ e1.opts = e.opts ∧ e2.opts = e.opts ∧
    ∃ P, LiesAlong e P ∧ e1.anchor.z = P e.tBounds.1 ∧ e1.endpnt.z = P t ∧ e2.endpnt.z = P e.tBounds.2 := by
  obtain ⟨P, hP, h1, h2⟩ := split_facts h
  obtain ⟨a1, a2, a3, a4, a5, a6, a7, a8, a9, -⟩ := init_facts h1
  obtain ⟨b1, b2, b3, b4, b5, b6, b7, b8, b9, -⟩ := init_facts h2
  refine ⟨a1, b1, a7, b7, a3.trans b2.symm, a8, a9, b8, b9, a4, b4, a5, b5, P, hP.liesAlong, ?_, ?_, ?_⟩
  · rw [a2]; rfl
  · rw [a3]; rfl
  · rw [b3]; rfl

theorem beq_self_z {a b : Vert} (h : a.z = b.z) : a.beq b = true := by
  have h1 : a.x = b.x := congrArg Complex.re h
  have h2 : a.y = b.y := congrArg Complex.im h
  simp [Vert.beq, Vert.sub, Vert.norm, Vert.mk', tol, h1, h2]

theorem piece_path {γ : ℝ → ℂ} {m c : ℂ} {P : ℝ → ℂ} (hP : ∀ t, P t = m * γ t + c) {e1 : EdgeG} {s t : ℝ}
    {cv o pos neg} (hγ : ∀ t, Curve.X cv o t = .ok ((γ t).re, (γ t).im))
    (h1 : EdgeG.init (Vert.mk' (P s).re (P s).im) (Vert.mk' (P t).re (P t).im) cv o "kress" (s, t) pos neg = .ok e1)
    (hl : e1.isLoop = false) : PathOf e1 P ∧ ∀ o ∈ e1.diary, o.Direct := by
  obtain ⟨-, -, -, a4, a5, -, a7, -, -, -, a11, a12⟩ := init_facts h1
  rw [hl] at a11
  rw [← a11] at a12
  simp only [Bool.false_eq_true, if_false] at a12
  refine ⟨⟨γ, by rw [a4, a5]; exact hγ, fun u => ?_⟩, by simp [a12, EdgeOp.Direct]⟩
  rw [a12, a7]
  have hne : γ t - γ s ≠ 0 := by
    intro h0
    have : γ t = γ s := sub_eq_zero.1 h0
    have h3 : P s = P t := by rw [hP, hP, this]
    have := beq_self_z (a := Vert.mk' (P s).re (P s).im) (b := Vert.mk' (P t).re (P t).im) (by rw [h3])
    rw [this] at a11; cases a11
  have v1 : (Vert.mk' (P s).re (P s).im).z = P s := rfl
  have v2 : (Vert.mk' (P t).re (P t).im).z = P t := rfl
  simp only [opsMap, opMap]
  rw [v1, v2, hP, hP, hP]
  field_simp
  ring

/-- C26 (second part; the full statement is for every diary): if the edge was not reflected, and neither piece is
closed, each piece lies along the same path as the edge: no point is moved. -/
theorem C26_points_partial {e e1 e2 : EdgeG} {t : ℝ} (h : splitSingle e t = .ok (e1, e2))
    (hd : ∀ o ∈ e.diary, o.Direct) (h1 : e1.isLoop = false) (h2 : e2.isLoop = false) :
    ∃ P, LiesAlong e P ∧ LiesAlong e1 P ∧ LiesAlong e2 P := by
  obtain ⟨P, ⟨γ, hγ, hP⟩, i1, i2⟩ := split_facts h
  obtain ⟨m, c, hm⟩ := opsMap_direct e.diary (γ e.tBounds.1) (γ e.tBounds.2) hd
  have hP' : ∀ t, P t = m * γ t + c := fun t => by rw [hP, hm]
  exact ⟨P, PathOf.liesAlong ⟨γ, hγ, hP⟩, (piece_path hP' hγ i1 h1).1.liesAlong, (piece_path hP' hγ i2 h2).1.liesAlong⟩

/-- a list of edges follows the path `P` from parameter `s` to `b` through the split points `ts` -/
inductive Chain (P : ℝ → ℂ) (b : ℝ) : ℝ → List ℝ → List EdgeG → Prop
  | last {s e} : e.tBounds = (s, b) → s < b → LiesAlong e P → e.anchor.z = P s → e.endpnt.z = P b → Chain P b s [] [e]
  | cons {s t ts e es} : e.tBounds = (s, t) → s < t → LiesAlong e P → e.anchor.z = P s → e.endpnt.z = P t →
      Chain P b t ts es → Chain P b s (t :: ts) (e :: es)

theorem same_curve {c o} {γ γ' : ℝ → ℂ} (h : ∀ t, Curve.X c o t = .ok ((γ t).re, (γ t).im))
    (h' : ∀ t, Curve.X c o t = .ok ((γ' t).re, (γ' t).im)) : γ' = γ := by
  funext u
  have := h' u
  rw [h u] at this
  simp only [Except.ok.injEq, Prod.mk.injEq] at this
  exact Complex.ext this.1.symm this.2.symm

theorem splitLoop_chain : ∀ (ts : List ℝ) (last : Option EdgeG) {e : EdgeG} {P : ℝ → ℂ} {es : List EdgeG},
    PathOf e P → (last = some e ∨ (last = none ∧ ts ≠ [])) →
    (last = some e → e.anchor.z = P e.tBounds.1 ∧ e.endpnt.z = P e.tBounds.2 ∧ e.tBounds.1 < e.tBounds.2) →
    (∀ o ∈ e.diary, o.Direct) → (∀ t ∈ ts, TOL ≤ ‖P e.tBounds.2 - P t‖) → (∀ f ∈ es, f.isLoop = false) →
    splitLoop e last ts = .ok es →
    Chain P e.tBounds.2 e.tBounds.1 ts es ∧
      (ts ≠ [] → ∀ f ∈ es, f.posCell = e.posCell ∧ f.negCell = e.negCell ∧ f.curve = e.curve ∧ f.opts = e.opts)
  | [], last, e, P, es, hP, hla, hab, hd, ht, hl, hr => by
    rcases hla with rfl | ⟨-, h⟩
    · cases hr
      obtain ⟨h1, h2, h3⟩ := hab rfl
      exact ⟨.last rfl h3 hP.liesAlong h1 h2, by simp⟩
    · exact absurd rfl h
  | t :: ts, last, e, P, es, hP, hla, hab, hd, ht, hl, hr => by
    obtain ⟨⟨e1, e2⟩, r1, hr⟩ := bind_ok hr
    obtain ⟨r, r2, hr⟩ := bind_ok hr
    cases hr
    obtain ⟨Q, ⟨γ, hγ, hQ⟩, i1, i2⟩ := split_facts r1
    obtain ⟨γ2, hγ2, hP2⟩ := hP
    have hgg := same_curve hγ hγ2
    subst hgg
    have hQP : Q = P := by funext u; rw [hQ, hP2]
    subst hQP
    obtain ⟨m, c, hm⟩ := opsMap_direct e.diary (γ2 e.tBounds.1) (γ2 e.tBounds.2) hd
    have hm : ∀ t, Q t = m * γ2 t + c := fun t => by rw [hQ, hm]
    obtain ⟨a1, a2, a3, a4, a5, a6, a7, a8, a9, -⟩ := init_facts i1
    obtain ⟨b1, b2, b3, b4, b5, b6, b7, b8, b9, -, b11, -⟩ := init_facts i2
    have l1 : e1.isLoop = false := hl e1 (by simp)
    have l2 : e2.isLoop = false := by
      rw [b11]
      apply beq_far
      have k := ht t (by simp)
      have : Real.sqrt (((Vert.mk' (Q t).re (Q t).im).x - (Vert.mk' (Q e.tBounds.2).re (Q e.tBounds.2).im).x) ^ 2 +
          ((Vert.mk' (Q t).re (Q t).im).y - (Vert.mk' (Q e.tBounds.2).re (Q e.tBounds.2).im).y) ^ 2) =
          ‖Q e.tBounds.2 - Q t‖ := by
        rw [Complex.norm_def, Complex.normSq_apply]
        congr 1; simp only [Vert.mk', Complex.sub_re, Complex.sub_im]; ring
      rw [this]; exact not_lt.2 k
    obtain ⟨p1, -⟩ := piece_path hm hγ i1 l1
    obtain ⟨p2, d2⟩ := piece_path hm hγ i2 l2
    have hl' : ∀ f ∈ r, f.isLoop = false := fun f hf => hl f (by simp [hf])
    have ih := splitLoop_chain ts (some e2) p2 (.inl rfl)
      (fun _ => ⟨by rw [b2, b7]; rfl, by rw [b3, b7]; rfl, by rw [b7]; exact b1⟩) d2
      (by rw [b7]; exact fun u hu => ht u (by simp [hu])) hl' r2
    rw [b7] at ih
    refine ⟨.cons a7 a1 p1.liesAlong (by rw [a2]; rfl) (by rw [a3]; rfl) ih.1, fun _ f hf => ?_⟩
    rcases List.mem_cons.1 hf with rfl | hf
    · exact ⟨a8, a9, a4, a5⟩
    · by_cases hts : ts = []
      · subst hts
        cases r2
        rw [List.mem_singleton] at hf
        subst hf
        exact ⟨b8, b9, b4, b5⟩
      · obtain ⟨k1, k2, k3, k4⟩ := ih.2 hts f hf
        exact ⟨k1.trans b8, k2.trans b9, k3.trans b4, k4.trans b5⟩

/-- C26 for a list of split parameters (partial in the same way): the pieces, in order, follow the path of the edge from
its first to its last parameter through the sorted split parameters, and border the same cells. -/
theorem C26_list_partial {e : EdgeG} {P : ℝ → ℂ} (hP : PathOf e P) (ts : List ℝ) (hd : ∀ o ∈ e.diary, o.Direct)
    (ht : ∀ t ∈ ts, TOL ≤ ‖P e.tBounds.2 - P t‖) {es : List EdgeG} (hl : ∀ f ∈ es, f.isLoop = false)
    (h : splitEdge e (.list ts) none = .ok es) :
    ∃ us, us.Pairwise (· ≤ ·) ∧ us.Perm ts ∧ Chain P e.tBounds.2 e.tBounds.1 us es ∧
      ∀ f ∈ es, f.posCell = e.posCell ∧ f.negCell = e.negCell ∧ f.curve = e.curve ∧ f.opts = e.opts := by
  have h : splitLoop e none (ts.insertionSort (· ≤ ·)) = .ok es := h
  have hne : ts.insertionSort (· ≤ ·) ≠ [] := by
    intro h0
    rw [h0] at h
    cases h
  have := splitLoop_chain (ts.insertionSort (· ≤ ·)) none hP (.inr ⟨rfl, hne⟩) (by rintro ⟨⟩) hd
    (fun t h => ht t (by simpa using h)) hl h
  exact ⟨_, List.pairwise_insertionSort _ _, List.perm_insertionSort _ _, this.1, this.2 hne⟩

/-- C26: what is rejected.  No split parameter and no number; fewer than two parts; something that is not a number or a
list of numbers; an empty list; a split parameter that is not strictly inside the interval. -/
theorem C26_errors (e : EdgeG) (arg : SplitArg) :
    splitEdge e .missing none = .error .valueError ∧ splitEdge e .other none = .error .valueError ∧
    (∀ k < 2, splitEdge e arg (some k) = .error .valueError) ∧
    splitEdge e (.list []) none = .error .unboundLocal ∧
    ∀ t, t ≤ e.tBounds.1 ∨ e.tBounds.2 ≤ t → ∀ es, splitEdge e (.num t) none ≠ .ok es := by
  refine ⟨rfl, rfl, fun k hk => by simp [splitEdge, hk], by simp [splitEdge, splitMultiple, splitLoop], ?_⟩
  intro t ht es h
  obtain ⟨⟨e1, e2⟩, h1, -⟩ := bind_ok h
  obtain ⟨k1, k2, -⟩ := C26_structure h1
  rcases ht with h | h <;> linarith


/-- C26 for a freshly built edge that is not closed: the first piece starts at the anchor of the edge and the second ends
at its end point. -/
theorem C26_ends {a b : Vert} {c o qt tb pos neg} {e e1 e2 : EdgeG} {t : ℝ}
    (he : EdgeG.init a b c o qt tb pos neg = .ok e) (hl : e.isLoop = false) (h : splitSingle e t = .ok (e1, e2)) :
    e1.anchor.z = e.anchor.z ∧ e2.endpnt.z = e.endpnt.z := by
  obtain ⟨-, i2, i3, i4, i5, i6, i7, -, -, -, i11, i12⟩ := init_facts he
  rw [hl] at i11
  rw [← i11] at i12
  simp only [Bool.false_eq_true, if_false] at i12
  obtain ⟨P, ⟨γ, hγ, hP⟩, h1, h2⟩ := split_facts h
  have a2 := (init_facts h1).2.1
  have b3 := (init_facts h2).2.2.1
  have hne : γ e.tBounds.2 - γ e.tBounds.1 ≠ 0 := by
    obtain ⟨xa, ha, h⟩ := bind_ok h
    obtain ⟨xt, ht, h⟩ := bind_ok h
    obtain ⟨xb, hb, h⟩ := bind_ok h
    obtain ⟨v, hv, h⟩ := bind_ok h
    rw [hγ] at ha ht hb
    cases ha; cases ht; cases hb
    rw [i12] at hv
    obtain ⟨w, hw, -⟩ := bind_ok hv
    intro h0
    have h0 := sub_eq_zero.1 h0
    simp [Transform.apply, Transform.joinPoints, h0, TOL_pos] at hw
  constructor
  · rw [a2, i2]
    show P e.tBounds.1 = _
    rw [hP, i12]
    simp [opsMap, opMap]
  · rw [b3, i3]
    show P e.tBounds.2 = _
    rw [hP, i12]
    simp only [opsMap, opMap]
    field_simp
    ring

/-- C26 for a number of parts (partial in the same way): the pieces cut the parameter interval into equal parts. -/
theorem C26_number_partial {e : EdgeG} {P : ℝ → ℂ} (hP : PathOf e P) (k : ℕ) (hk : 2 ≤ k) (arg : SplitArg)
    (hd : ∀ o ∈ e.diary, o.Direct) (hab : e.tBounds.1 < e.tBounds.2)
    (ht : ∀ t, e.tBounds.1 < t → t < e.tBounds.2 → TOL ≤ ‖P e.tBounds.2 - P t‖)
    {es : List EdgeG} (hl : ∀ f ∈ es, f.isLoop = false) (h : splitEdge e arg (some k) = .ok es) :
    Chain P e.tBounds.2 e.tBounds.1
      ((List.range (k - 1)).map fun (i : ℕ) => e.tBounds.1 + (i + 1 : ℝ) / k * (e.tBounds.2 - e.tBounds.1)) es ∧
      ∀ f ∈ es, f.posCell = e.posCell ∧ f.negCell = e.negCell ∧ f.curve = e.curve ∧ f.opts = e.opts := by
  have hk0 : (0 : ℝ) < k := by exact_mod_cast (by omega : 0 < k)
  have h2 : ¬((k : ℤ) < 2) := by omega
  simp only [splitEdge, h2, if_false, Int.toNat_natCast, splitMultiple] at h
  have he : ((List.range (k - 1)).map fun (i : ℕ) =>
      e.tBounds.1 + ((i + 1 : ℕ) : ℝ) * ((e.tBounds.2 - e.tBounds.1) / (k : ℝ))) =
      (List.range (k - 1)).map fun (i : ℕ) => e.tBounds.1 + (i + 1 : ℝ) / k * (e.tBounds.2 - e.tBounds.1) := by
    refine List.map_congr_left fun i _ => ?_
    push_cast
    field_simp
  rw [he] at h
  have hs : ((List.range (k - 1)).map fun (i : ℕ) =>
      e.tBounds.1 + (i + 1 : ℝ) / k * (e.tBounds.2 - e.tBounds.1)).Pairwise (· ≤ ·) := by
    rw [List.pairwise_map]
    refine List.pairwise_lt_range.imp ?_
    intro i j hij
    have : (i : ℝ) ≤ j := by exact_mod_cast hij.le
    have h3 : ((i : ℝ) + 1) / k ≤ (j + 1) / k := by gcongr
    nlinarith
  rw [hs.insertionSort_eq] at h
  have hne : ((List.range (k - 1)).map fun (i : ℕ) =>
      e.tBounds.1 + (i + 1 : ℝ) / k * (e.tBounds.2 - e.tBounds.1)) ≠ [] := by
    simp; omega
  have := splitLoop_chain _ none hP (.inr ⟨rfl, hne⟩) (by rintro ⟨⟩) hd (fun t h => ?_) hl h
  · exact ⟨this.1, this.2 hne⟩
  · rw [List.mem_map] at h
    obtain ⟨i, hi, rfl⟩ := h
    rw [List.mem_range] at hi
    have hi2 : ((i : ℝ) + 1) < k := by exact_mod_cast (by omega : i + 1 < k)
    have h3 : ((i : ℝ) + 1) / k < 1 := by rw [div_lt_one hk0]; exact hi2
    have h4 : 0 < ((i : ℝ) + 1) / k := by positivity
    apply ht <;> nlinarith


/-- the unit circle as a loop at the origin -/
noncomputable def unitCircle (qt : String) (diary : List EdgeOp) : EdgeG :=
  ⟨Vert.mk' 0 0, Vert.mk' 0 0, .circle, {}, qt, (0, 2 * Real.pi), true, diary, none, -1, -1⟩

theorem circle_X (t : ℝ) : Curve.X .circle {} t = .ok (Real.cos t, Real.sin t) := by
  simp [Curve.X, Curve.radius]

theorem half_far : (Vert.mk' 1 0).beq (Vert.mk' (-1) 0) = false ∧ (Vert.mk' (-1) 0).beq (Vert.mk' 1 0) = false := by
  constructor
  all_goals
    apply beq_far
    simp only [Vert.mk']
    norm_num
    exact TOL_le.trans (Real.le_sqrt_of_sq_le (by norm_num))

/-- splitting a circle, reflected or not, at half -/
theorem circle_split {e : EdgeG} (h1 : e.curve = .circle) (h2 : e.opts = {}) (h3 : e.tBounds = (0, 2 * Real.pi))
    (h4 : e.posCell = -1) (h5 : e.negCell = -1)
    (hd : Transform.run e.diary [⟨1, 0⟩, ⟨-1, 0⟩, ⟨1, 0⟩] = .ok [⟨1, 0⟩, ⟨-1, 0⟩, ⟨1, 0⟩]) :
    splitSingle e Real.pi = .ok
      (⟨Vert.mk' 1 0, Vert.mk' (-1) 0, .circle, {}, "kress", (0, Real.pi), false,
        [.joinPoints (Vert.mk' 1 0) (Vert.mk' (-1) 0)], none, -1, -1⟩,
       ⟨Vert.mk' (-1) 0, Vert.mk' 1 0, .circle, {}, "kress", (Real.pi, 2 * Real.pi), false,
        [.joinPoints (Vert.mk' (-1) 0) (Vert.mk' 1 0)], none, -1, -1⟩) := by
  have hpi := Real.pi_pos
  simp only [splitSingle, h1, h2, h3, h4, h5, circle_X, bind, Except.bind, Real.cos_zero, Real.sin_zero, Real.cos_pi,
    Real.sin_pi, Real.cos_two_pi, Real.sin_two_pi, hd, List.getD_cons_zero, List.getD_cons_succ, EdgeG.init]
  rw [if_neg (by simpa using hpi), if_neg (by simp; linarith)]
  simp [setVerts, half_far]

/-- C26 fails for reflected edges: the reflected unit circle passes through `-i` at parameter `pi / 2`, but the first of
the two halves, which has the parameter interval `[0, pi]`, passes through `i` there. -/
theorem C26_reflection_moved : ∃ (e e1 e2 : EdgeG) (P P1 : ℝ → ℂ),
    (do (← EdgeG.init (Vert.mk' 0 0) (Vert.mk' 0 0) .circle {} "kress" (0, 2 * Real.pi)).reflectX true) = .ok e ∧
    splitSingle e Real.pi = .ok (e1, e2) ∧ e1.isLoop = false ∧ PathOf e P ∧ PathOf e1 P1 ∧
    e1.tBounds = (0, Real.pi) ∧ P (Real.pi / 2) = -Complex.I ∧ P1 (Real.pi / 2) = Complex.I := by
  have hpi := Real.pi_pos
  have hb : (Vert.mk' 0 0).beq (Vert.mk' 0 0) = true := beq_self_z rfl
  refine ⟨unitCircle "kress" [.translate (Vert.mk' 0 0), .reflectX], _, _, _, _, ?_, circle_split rfl rfl rfl rfl rfl ?_, rfl,
    ⟨fun t => ⟨Real.cos t, Real.sin t⟩, circle_X, fun _ => rfl⟩, ⟨fun t => ⟨Real.cos t, Real.sin t⟩, circle_X, fun _ => rfl⟩,
    rfl, ?_, ?_⟩
  · simp only [EdgeG.init]
    rw [if_neg (by simpa using hpi)]
    simp [setVerts, hb, bind, Except.bind, EdgeG.reflectX, note, unitCircle]
  · simp [unitCircle, Transform.run, Transform.apply, Transform.translate, Vert.mk', Transform.orthogonal, Mat2.orthDefect,
      not_lt.2 TOL_pos.le, bind, Except.bind]
  · apply Complex.ext <;> simp [unitCircle, opsMap, opMap, Vert.z, Vert.mk']
  · apply Complex.ext <;> simp [opsMap, opMap, Vert.z, Vert.mk', Complex.div_re, Complex.div_im, Complex.normSq_apply] <;>
      norm_num

/-- C26 fails for loops in another way: the first piece of the unit circle based at the origin does not start at the
anchor of the circle. -/
theorem C26_loop_anchor : ∃ (e e1 e2 : EdgeG), EdgeG.init (Vert.mk' 0 0) (Vert.mk' 0 0) .circle {} "kress" (0, 2 * Real.pi) = .ok e ∧
    splitSingle e Real.pi = .ok (e1, e2) ∧ e.anchor.z = 0 ∧ e1.anchor.z = 1 ∧ e2.endpnt.z = 1 := by
  have hpi := Real.pi_pos
  have hb : (Vert.mk' 0 0).beq (Vert.mk' 0 0) = true := beq_self_z rfl
  refine ⟨unitCircle "kress" [.translate (Vert.mk' 0 0)], _, _, ?_, circle_split rfl rfl rfl rfl rfl ?_, rfl, ?_, ?_⟩
  · simp only [EdgeG.init]
    rw [if_neg (by simpa using hpi)]
    simp [setVerts, hb, unitCircle]
  · simp [unitCircle, Transform.run, Transform.apply, Transform.translate, Vert.mk', bind, Except.bind]
  · apply Complex.ext <;> simp [Vert.z, Vert.mk']
  · apply Complex.ext <;> simp [Vert.z, Vert.mk']

/-- the hypotheses of `C26_structure` and `C26_points_partial` hold for the unit circle cut in two halves -/
example : ∃ (e e1 e2 : EdgeG) (P : ℝ → ℂ), splitSingle e Real.pi = .ok (e1, e2) ∧ (∀ o ∈ e.diary, o.Direct) ∧
    e1.isLoop = false ∧ e2.isLoop = false ∧ PathOf e P ∧ TOL ≤ ‖P e.tBounds.2 - P Real.pi‖ := by
  refine ⟨unitCircle "kress" [.translate (Vert.mk' 0 0)], _, _, _, circle_split rfl rfl rfl rfl rfl ?_, ?_, rfl, rfl,
    ⟨fun t => ⟨Real.cos t, Real.sin t⟩, circle_X, fun _ => rfl⟩, ?_⟩
  · simp [unitCircle, Transform.run, Transform.apply, Transform.translate, Vert.mk', bind, Except.bind]
  · simp [unitCircle, EdgeOp.Direct]
  · have : opsMap (unitCircle "kress" [.translate (Vert.mk' 0 0)]).diary
        (⟨Real.cos (unitCircle "kress" [.translate (Vert.mk' 0 0)]).tBounds.1, Real.sin (unitCircle "kress" [.translate (Vert.mk' 0 0)]).tBounds.1⟩)
        (⟨Real.cos (2 * Real.pi), Real.sin (2 * Real.pi)⟩) (⟨Real.cos (2 * Real.pi), Real.sin (2 * Real.pi)⟩ : ℂ) - 
        opsMap (unitCircle "kress" [.translate (Vert.mk' 0 0)]).diary
        (⟨Real.cos (unitCircle "kress" [.translate (Vert.mk' 0 0)]).tBounds.1, Real.sin (unitCircle "kress" [.translate (Vert.mk' 0 0)]).tBounds.1⟩)
        (⟨Real.cos (2 * Real.pi), Real.sin (2 * Real.pi)⟩) (⟨Real.cos Real.pi, Real.sin Real.pi⟩ : ℂ) = ((2 : ℝ) : ℂ) := by
      apply Complex.ext <;> simp [unitCircle, opsMap, opMap, Vert.z, Vert.mk']
      norm_num
    refine le_of_le_of_eq ?_ (congrArg norm this).symm
    rw [Complex.norm_real]
    exact TOL_le.trans (by norm_num)

/-- and those of `C26_ends` for the segment from the origin to `(1, 0)` -/
example : ∃ e e1 e2 : EdgeG, EdgeG.init (Vert.mk' 0 0) (Vert.mk' 1 0) .line {} "kress" (0, 2 * Real.pi) = .ok e ∧
    e.isLoop = false ∧ splitSingle e Real.pi = .ok (e1, e2) := by
  have hpi := Real.pi_pos
  have hf : (Vert.mk' 0 0).beq (Vert.mk' 1 0) = false := by
    apply beq_far
    simp only [Vert.mk']
    norm_num
    exact TOL_le.trans (by norm_num)
  have h1 : ¬ (1 : ℝ) < TOL := not_lt.2 (TOL_le.trans (by norm_num))
  have ha : Complex.arg ⟨1, 0⟩ = 0 := Complex.arg_one
  refine ⟨⟨Vert.mk' 0 0, Vert.mk' 1 0, .line, {}, "kress", (0, 2 * Real.pi), false,
    [.joinPoints (Vert.mk' 0 0) (Vert.mk' 1 0)], none, -1, -1⟩,
    setVerts ⟨Vert.mk' 0 0, Vert.mk' (1 / 2) 0, .line, {}, "kress", (0, Real.pi), false, [], none, -1, -1⟩
      (Vert.mk' 0 0) (Vert.mk' (1 / 2) 0),
    setVerts ⟨Vert.mk' (1 / 2) 0, Vert.mk' 1 0, .line, {}, "kress", (Real.pi, 2 * Real.pi), false, [], none, -1, -1⟩
      (Vert.mk' (1 / 2) 0) (Vert.mk' 1 0), ?_, rfl, ?_⟩
  · simp only [EdgeG.init]
    rw [if_neg (by simpa using hpi)]
    simp [setVerts, hf]
  · have k1 : Real.pi / (2 * Real.pi) = 1 / 2 := by field_simp
    have k2 : (2 * Real.pi) / (2 * Real.pi) = 1 := by field_simp
    have hr : Transform.run [.joinPoints (Vert.mk' 0 0) (Vert.mk' 1 0)] [⟨0, 0⟩, ⟨1 / 2, 0⟩, ⟨1, 0⟩] =
        .ok [⟨0, 0⟩, ⟨1 / 2, 0⟩, ⟨1, 0⟩] := by
      simp [Transform.run, Transform.apply, Transform.joinPoints, Vert.mk', h1, ha, Transform.rotate, Mat2.rot,
        Transform.orthogonal, Mat2.orthDefect, not_lt.2 TOL_pos.le, Transform.dilate, Transform.translate, bind,
        Except.bind]
    simp only [splitSingle, Curve.X, bind, Except.bind, zero_div, k1, k2, hr, List.getD_cons_zero, List.getD_cons_succ,
      EdgeG.init]
    rw [if_neg (by simpa using hpi), if_neg (by simp; linarith)]

end PFEM
