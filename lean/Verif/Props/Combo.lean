import Verif.Spec.Combo
import Verif.Props.SolverG
import Verif.Props.PoissonInit
import Verif.Lemmas.EdgeSpace

/-!
C84: linear combinations of basis functions on a cell.
-/

namespace PFEM
open Nystrom Antilap

/-! ### what the constructors leave behind -/

theorem init_arr_inv {K : CellG} (h : K.Ready) {v : List ℝ} {t : Trace}
    (ht : Trace.init K.getEdges (values := some (.one (.arr v))) = .ok t) :
    v.length = K.numPts ∧ t = Trace.made K.getEdges (some v) none none := by
  by_cases hv : v.length = K.numPts
  · rw [init_arr h hv] at ht
    cases ht
    exact ⟨hv, rfl⟩
  · have hb := Trace.good_bare (getEdges_sampled h)
    have h1 := (Trace.C46_set_values hb).2.2.2 v (by rw [getEdges_sizes h]; exact hv)
    simp only [Trace.init, Bool.false_eq_true, if_false, h1, Except.map] at ht
    cases ht

theorem setWnd_inv {t r : Trace} (h : t.Good) {a : List ℝ} (ht : Trace.after (t.setWnd (.one (.arr a))) = .ok r) :
    a.length = t.sizes.sum ∧ r = { t with wnd := some a } := by
  by_cases ha : a.length = t.sizes.sum
  · rw [Trace.setWnd_arr h.toSized ha] at ht
    cases ht
    exact ⟨ha, rfl⟩
  · unfold Trace.setWnd at ht
    simp only [Trace.convert, h.numPts, Trace.attr, bind, Except.bind, ne_eq, ha, not_false_eq_true, if_true] at ht
    cases ht

theorem setWtd_inv {t r : Trace} (h : t.Good) {a : List ℝ} (ht : Trace.after (t.setWtd (.one (.arr a))) = .ok r) :
    a.length = t.sizes.sum ∧ r = { t with wtd := some a } := by
  by_cases ha : a.length = t.sizes.sum
  · rw [Trace.setWtd_arr h.toSized ha] at ht
    cases ht
    exact ⟨ha, rfl⟩
  · unfold Trace.setWtd at ht
    simp only [Trace.convert, h.numPts, Trace.attr, bind, Except.bind, ne_eq, ha, not_false_eq_true, if_true] at ht
    cases ht

theorem single_len {K : CellG} (h : K.Ready) (hev : K.Even) {o : Ops} (ho : build K = .ok o) {u b : List ℝ} (hb : o.single u = .ok b) :
    b.length = K.numPts := by
  obtain ⟨h1, -⟩ := build_single_shape h hev ho
  unfold Ops.single call at hb
  split_ifs at hb
  unfold Mat.mulVec at hb
  split_ifs at hb
  cases hb
  simp [h1]

theorem conjugate_logs {gmres : Gmres} {K : CellG} (h : K.Ready) (hl : SolverG.LogsFit gmres K) {strategy pc : String} {s : Nystrom.Solver}
    (hs : init gmres K strategy pc = .ok s) {v c a : List ℝ} (hc : conjugate gmres s v = .ok (c, a)) : a.length = K.numHoles := by
  obtain ⟨p1, p2, -⟩ := init_parts hs
  have hK := LocSpaceG.build_cell p1
  unfold conjugate at hc
  rw [hK] at hc
  obtain ⟨w, -, hc⟩ := bind_ok hc
  split_ifs at hc with h0
  · obtain ⟨x, -, hc⟩ := bind_ok hc
    cases hc
    exact h0.symm
  · obtain ⟨g, hg, hc⟩ := bind_ok hc
    obtain ⟨b1, hb1, hc⟩ := bind_ok hc
    obtain ⟨b2, hb2, hc⟩ := bind_ok hc
    obtain ⟨x, hx, hc⟩ := bind_ok hc
    cases hc
    obtain ⟨hev, hz⟩ := hl h0
    have l1 := single_len h hev p1 hb1
    have l2 : b2.length = K.numHoles := by
      rw [← (mapPy_forall₂ hb2).length_eq]
      rcases p2 with ⟨-, g', e1, e2⟩ | ⟨e, -⟩
      · rw [e1] at hg
        cases hg
        unfold logTerms at e2
        obtain ⟨⟨x1, x2⟩, -, e2⟩ := bind_ok e2
        obtain ⟨lam, hlam, e2⟩ := bind_ok e2
        obtain ⟨t1, -, e2⟩ := bind_ok e2
        obtain ⟨T1, -, e2⟩ := bind_ok e2
        obtain ⟨s', -, e2⟩ := bind_ok e2
        obtain ⟨S, -, e2⟩ := bind_ok e2
        cases e2
        rw [← (mapPy_forall₂ hlam).length_eq, hK]
        simp [CellG.numHoles]
      · exact absurd e h0
    rw [List.length_drop, hz _ _ _ _ hx, List.length_append, l1, l2]
    omega

theorem attr_some {α : Type} {a : Option α} {x : α} (h : Trace.attr a = .ok x) : a = some x := by
  cases a with
  | none => cases h
  | some y => cases h; rfl

/-- a harmonic function that has been made -/
theorem harmInit_on {gmres : Gmres} {K : CellG} (h : K.Ready) (hl : SolverG.LogsFit gmres K) {strategy pc : String} {s : Nystrom.Solver}
    (hs : init gmres K strategy pc = .ok s) {t : Trace} (ht : t.On K.getEdges) {r : LocHarm} (hr : LocHarm.init gmres t (some s) = .ok r) :
    r.On K.getEdges K.numHoles ∧ (∃ v, r.trace.wnd = some v) ∧ (∃ v, r.trace.wtd = some v) ∧
      ∃ b v, r.biharm = some (some b) ∧ b.wnd = some v := by
  have hK := LocSpaceG.build_cell (init_parts hs).1
  have hsz := sizes_of h ht.edges
  unfold LocHarm.init at hr
  simp only [hK] at hr
  obtain ⟨v, hv, hr⟩ := bind_ok hr
  obtain ⟨w, -, hr⟩ := bind_ok hr
  obtain ⟨t1, ht1, hr⟩ := bind_ok hr
  obtain ⟨⟨c, a⟩, hc, hr⟩ := bind_ok hr
  obtain ⟨conj, hcj, hr⟩ := bind_ok hr
  obtain ⟨lam, -, hr⟩ := bind_ok hr
  obtain ⟨u, -, hr⟩ := bind_ok hr
  obtain ⟨psi, hpsi, hr⟩ := bind_ok hr
  obtain ⟨w2, -, hr⟩ := bind_ok hr
  obtain ⟨w3, -, hr⟩ := bind_ok hr
  obtain ⟨t2, ht2, hr⟩ := bind_ok hr
  obtain ⟨⟨P, Pn⟩, -, hr⟩ := bind_ok hr
  obtain ⟨b, hb, hr⟩ := bind_ok hr
  obtain ⟨b2, hb2, hr⟩ := bind_ok hr
  cases hr
  obtain ⟨l1, rfl⟩ := setWtd_inv ht.good ht1
  have hg1 : ({ t with wtd := some w } : Trace).Good :=
    ⟨⟨ht.good.sampled, ht.good.numEdges, ht.good.numPts, ht.good.idx⟩, ht.good.values, ht.good.wnd, fun a ha => by cases ha; exact l1⟩
  obtain ⟨l2, rfl⟩ := setWnd_inv hg1 ht2
  have hg2 : ({ t with wtd := some w, wnd := some w3 } : Trace).Good :=
    ⟨⟨ht.good.sampled, ht.good.numEdges, ht.good.numPts, ht.good.idx⟩, ht.good.values, fun a ha => by cases ha; exact l2,
      fun a ha => by cases ha; exact l1⟩
  obtain ⟨lc, rfl⟩ := init_arr_inv h hcj
  obtain ⟨lp, rfl⟩ := init_arr_inv h hpsi
  obtain ⟨lb, rfl⟩ := init_arr_inv h hb
  have hbo := made_on h lb (w := none) (d := none) nofun nofun
  obtain ⟨lb2, rfl⟩ := setWnd_inv hbo.good hb2
  rw [sizes_of h hbo.edges] at lb2
  refine ⟨⟨⟨hg2, ht.edges, v, attr_some hv⟩, ⟨_, rfl, made_on h lp nofun nofun⟩, ⟨_, rfl, made_on h lc nofun nofun⟩,
    ⟨a, rfl, conjugate_logs h hl hs hc⟩, _, rfl, made_on h lb (w := some Pn) (fun a e => by cases e; exact lb2) nofun⟩,
    ⟨_, rfl⟩, ⟨_, rfl⟩, _, _, rfl, rfl⟩

theorem polyPart_on {K : CellG} (h : K.Ready) (P : Poly ℝ) : (polyPart K P).On K.getEdges :=
  ⟨⟨_, rfl, made_on h (samples_len h _) (fun _ e => by cases e; exact normal_len h _ _) fun _ e => by cases e; exact tangent_len h _ _⟩,
    ⟨_, rfl⟩, ⟨_, rfl⟩, ⟨_, rfl⟩, _, rfl, made_on h (samples_len h _) (fun _ e => by cases e; exact normal_len h _ _) nofun⟩

theorem computeInterior_arrays {f r : LocPoisson} {K : CellG} (hK : f.cell = some K) {g : Bool} (h : f.computeInterior g = .ok r) :
    ∃ a b c, r.intVals = some a ∧ r.intGrad1 = some b ∧ r.intGrad2 = some c ∧ a.length = K.interior.length ∧
      b.length = K.interior.length ∧ c.length = K.interior.length := by
  unfold LocPoisson.computeInterior at h
  rw [hK] at h
  obtain ⟨K', hK', h⟩ := bind_ok h
  cases hK'
  obtain ⟨p, hp, h⟩ := bind_ok h
  obtain ⟨u, hu, h⟩ := bind_ok h
  obtain ⟨a, ha, h⟩ := bind_ok h
  obtain ⟨t, ht, h⟩ := bind_ok h
  obtain ⟨psi, hpsi, h⟩ := bind_ok h
  obtain ⟨t', ht', h⟩ := bind_ok h
  obtain ⟨psiHat, hpsi', h⟩ := bind_ok h
  obtain ⟨⟨x1, x2⟩, hx, h⟩ := bind_ok h
  obtain ⟨⟨t1, t2⟩, htt, h⟩ := bind_ok h
  obtain ⟨dx, hdx, h⟩ := bind_ok h
  dsimp only at h
  split_ifs at h with h0
  obtain ⟨rows, hr, h⟩ := bind_ok h
  cases h
  have := (mapPy_forall₂ hr).length_eq
  exact ⟨_, _, _, rfl, rfl, rfl, by simp [this], by simp [this], by simp [this]⟩

/-- a local Poisson function that has been made -/
theorem poissonInit_on {gmres : Gmres} {K : CellG} (h : K.Ready) (hl : SolverG.LogsFit gmres K) {strategy pc : String} {s : Nystrom.Solver}
    (hs : init gmres K strategy pc = .ok s) {f : Poly ℝ} {tr : LocPoisson.TraceOr} {ei eg : Bool} {F : LocPoisson}
    (hF : LocPoisson.init gmres (some s) f tr ei eg = .ok F) :
    F.On K ∧ ((ei || eg) = true → F.Whole K) := by
  have hK := LocSpaceG.build_cell (init_parts hs).1
  unfold LocPoisson.init at hF
  simp only [hK] at hF
  rw [Poly.antiLaplacian_ok, py_ok_bind, polyPart_init h, py_ok_bind] at hF
  obtain ⟨t, -, hF⟩ := bind_ok hF
  obtain ⟨a, -, hF⟩ := bind_ok hF
  obtain ⟨pt, -, hF⟩ := bind_ok hF
  obtain ⟨b, -, hF⟩ := bind_ok hF
  obtain ⟨d, -, hF⟩ := bind_ok hF
  obtain ⟨ht, hht, hF'⟩ := bind_ok hF
  obtain ⟨r, hr, hF''⟩ := bind_ok hF'
  clear hF hF'
  obtain ⟨ld, rfl⟩ := init_arr_inv h hht
  obtain ⟨o, ⟨v1, e1⟩, ⟨v2, e2⟩, b, v3, e3, e4⟩ := harmInit_on h hl hs (made_on h ld (w := none) (d := none) nofun nofun) hr
  have hp := polyPart_on h (Poly.alP f)
  split_ifs at hF'' with h0
  · obtain ⟨q1, q2, q3⟩ := computeInterior_parts hF''
    obtain ⟨i1, i2, i3, j1, j2, j3, k1, k2, k3⟩ := computeInterior_arrays rfl hF''
    have hon : F.On K := ⟨q1, ⟨_, q2, hp⟩, ⟨_, q3, o⟩, fun v hv => by rw [j1] at hv; cases hv; exact k1,
      fun v hv => by rw [j2] at hv; cases hv; exact k2, fun v hv => by rw [j3] at hv; cases hv; exact k3⟩
    refine ⟨hon, fun _ => ⟨hon, ?_⟩⟩
    have len : ∀ {t : Trace}, t.On K.getEdges → (∀ v, t.values = some v → v.length = K.numPts) ∧ (∀ v, t.wnd = some v → v.length = K.numPts) ∧
        ∀ v, t.wtd = some v → v.length = K.numPts := by
      intro t ht
      have := sizes_of h ht.edges
      exact ⟨fun v hv => this ▸ ht.good.values v hv, fun v hv => this ▸ ht.good.wnd v hv, fun v hv => this ▸ ht.good.wtd v hv⟩
    obtain ⟨v0, e0⟩ := o.trace.values
    obtain ⟨t5, e5, o5⟩ := o.psi
    obtain ⟨t6, e6, o6⟩ := o.conj
    obtain ⟨v7, e7, l7⟩ := o.logCoef
    obtain ⟨t8, e8, o8⟩ := o.biharm
    rw [e3] at e8
    cases e8
    obtain ⟨v5, f5⟩ := o5.values
    obtain ⟨v6, f6⟩ := o6.values
    obtain ⟨v8, f8⟩ := o8.values
    intro i
    cases i
    case harmValues => exact ⟨v0, by simp [LocPoisson.item, q3, e0], (len o.trace).1 _ e0⟩
    case harmNormal => exact ⟨v1, by simp [LocPoisson.item, q3, e1], (len o.trace).2.1 _ e1⟩
    case harmTangent => exact ⟨v2, by simp [LocPoisson.item, q3, e2], (len o.trace).2.2 _ e2⟩
    case psi => exact ⟨v5, by simp [LocPoisson.item, q3, e5, f5], (len o5).1 _ f5⟩
    case conj => exact ⟨v6, by simp [LocPoisson.item, q3, e6, f6], (len o6).1 _ f6⟩
    case logs => exact ⟨v7, by simp [LocPoisson.item, q3, e7], l7⟩
    case biharmValues => exact ⟨v8, by simp [LocPoisson.item, q3, e3, f8], (len o8).1 _ f8⟩
    case biharmNormal => exact ⟨v3, by simp [LocPoisson.item, q3, e3, e4], (len o8).2.1 _ e4⟩
    case polyValues => exact ⟨_, by simp only [LocPoisson.item, q2]; rfl, samples_len h _⟩
    case polyNormal => exact ⟨_, by simp only [LocPoisson.item, q2]; rfl, normal_len h _ _⟩
    case polyTangent => exact ⟨_, by simp only [LocPoisson.item, q2]; rfl, tangent_len h _ _⟩
    case antilapValues => exact ⟨_, by simp only [LocPoisson.item, q2]; rfl, samples_len h _⟩
    case antilapNormal => exact ⟨_, by simp only [LocPoisson.item, q2]; rfl, normal_len h _ _⟩
    case interior => exact ⟨i1, j1, k1⟩
    case gradient1 => exact ⟨i2, j2, k2⟩
    case gradient2 => exact ⟨i3, j3, k3⟩
  · cases hF''
    exact ⟨⟨rfl, ⟨_, rfl, hp⟩, ⟨_, rfl, o⟩, nofun, nofun, nofun⟩, fun e => absurd e h0⟩

/-! ### sums and multiples, array by array -/

theorem Comb.item {R : Poly ℝ → Poly ℝ → Poly ℝ → Prop} {a b : ℝ} {f g r : LocPoisson} (h : LocPoisson.Comb R a b f g r) (i : Item) :
    r.item i = combOpt a b (f.item i) (g.item i) := by
  obtain ⟨p, q, s, hp, hq, hs, hc⟩ := h.poly
  obtain ⟨p', q', s', hp', hq', hs', hc'⟩ := h.harm
  obtain ⟨t1, t2, t3, x1, x2, x3, ht⟩ := hc.trace
  obtain ⟨u1, u2, u3, y1, y2, y3, hu⟩ := hc.antilapTrace
  obtain ⟨v1, v2, v3, z1, z2, z3, hv⟩ := hc'.psi
  obtain ⟨w1, w2, w3, k1, k2, k3, hw⟩ := hc'.conj
  obtain ⟨b1, b2, b3, l1, l2, l3, c1, c2, c3, m1, m2, m3, hb⟩ := hc'.biharm
  subst m1 m2 m3
  cases i
  case harmValues => simpa [LocPoisson.item, hp', hq', hs'] using hc'.trace.values
  case harmNormal => simpa [LocPoisson.item, hp', hq', hs'] using hc'.trace.wnd
  case harmTangent => simpa [LocPoisson.item, hp', hq', hs'] using hc'.trace.wtd
  case psi => simpa [LocPoisson.item, hp', hq', hs', z1, z2, z3] using hv.values
  case conj => simpa [LocPoisson.item, hp', hq', hs', k1, k2, k3] using hw.values
  case logs => simpa [LocPoisson.item, hp', hq', hs'] using hc'.logCoef
  case biharmValues => simpa [LocPoisson.item, hp', hq', hs', l1, l2, l3] using hb.values
  case biharmNormal => simpa [LocPoisson.item, hp', hq', hs', l1, l2, l3] using hb.wnd
  case polyValues => simpa [LocPoisson.item, hp, hq, hs, x1, x2, x3] using ht.values
  case polyNormal => simpa [LocPoisson.item, hp, hq, hs, x1, x2, x3] using ht.wnd
  case polyTangent => simpa [LocPoisson.item, hp, hq, hs, x1, x2, x3] using ht.wtd
  case antilapValues => simpa [LocPoisson.item, hp, hq, hs, y1, y2, y3] using hu.values
  case antilapNormal => simpa [LocPoisson.item, hp, hq, hs, y1, y2, y3] using hu.wnd
  case interior => exact h.intVals
  case gradient1 => exact h.intGrad1
  case gradient2 => exact h.intGrad2

theorem Whole.comb {R : Poly ℝ → Poly ℝ → Poly ℝ → Prop} {K : CellG} {a b : ℝ} {f g r : LocPoisson} (hf : f.Whole K) (hg : g.Whole K)
    (hr : r.On K) (h : LocPoisson.Comb R a b f g r) : r.Whole K ∧ ∀ i k, r.entry i k = a * f.entry i k + b * g.entry i k := by
  have key : ∀ i, ∃ u v, f.item i = some u ∧ g.item i = some v ∧ u.length = i.size K ∧ v.length = i.size K ∧
      r.item i = some (List.zipWith (fun x y => a * x + b * y) u v) := by
    intro i
    obtain ⟨u, hu, lu⟩ := hf.items i
    obtain ⟨v, hv, lv⟩ := hg.items i
    exact ⟨u, v, hu, hv, lu, lv, by rw [Comb.item h, hu, hv]; rfl⟩
  refine ⟨⟨hr, fun i => ?_⟩, fun i k => ?_⟩
  · obtain ⟨u, v, -, -, lu, lv, e⟩ := key i
    exact ⟨_, e, by simp [lu, lv]⟩
  · obtain ⟨u, v, hu, hv, lu, lv, e⟩ := key i
    simp only [LocPoisson.entry, hu, hv, e, Option.getD_some, List.getD_eq_getElem?_getD, List.getElem?_zipWith]
    by_cases hk : k < i.size K
    · rw [List.getElem?_eq_getElem (lu ▸ hk), List.getElem?_eq_getElem (lv ▸ hk)]
      simp
    · rw [List.getElem?_eq_none (by omega), List.getElem?_eq_none (by omega)]
      simp

namespace SolverG
open LocSpaceG

/-- the loop -/
theorem comboLoop_ok {K : CellG} (coef : List ℝ) : ∀ (fs : List Fn) (i : ℕ) (w : LocPoisson), w.Whole K → (∀ f ∈ fs, f.val.Whole K) →
    i + fs.length ≤ coef.length → ∃ r, comboLoop coef i w fs = .ok r ∧ r.Whole K ∧ ∀ it k, r.entry it k = w.entry it k +
      (List.zipWith (fun x (f : Fn) => (if |x| < 1 / 10 ^ 4 then 0 else x) * f.val.entry it k) (coef.drop i) fs).sum
  | [], i, w, hw, _, _ => ⟨w, rfl, hw, fun it k => by simp⟩
  | f :: fs, i, w, hw, hf, hi => by
    have hlt : i < coef.length := by simp at hi; omega
    have hd : coef.drop i = coef[i] :: coef.drop (i + 1) := (List.drop_eq_getElem_cons hlt)
    unfold comboLoop
    rw [List.getElem?_eq_getElem hlt]
    dsimp only
    split_ifs with hx
    · obtain ⟨r, e, hr, hs⟩ := comboLoop_ok coef fs (i + 1) w hw (fun f hf' => hf f (by simp [hf'])) (by simp at hi ⊢; omega)
      refine ⟨r, e, hr, fun it k => ?_⟩
      rw [hs, hd, List.zipWith_cons_cons, List.sum_cons, if_pos hx, zero_mul, zero_add]
    · have h1 := hf f (by simp)
      obtain ⟨t, et, ot, ct⟩ := poisson_mul h1.on coef[i]
      obtain ⟨wt, vt⟩ := Whole.comb h1 h1 ot ct
      obtain ⟨y, ey, oy, cy⟩ := poisson_add hw.on ot
      obtain ⟨wy, vy⟩ := Whole.comb hw wt oy cy
      obtain ⟨r, e, hr, hs⟩ := comboLoop_ok coef fs (i + 1) y wy (fun f hf' => hf f (by simp [hf'])) (by simp at hi ⊢; omega)
      refine ⟨r, ?_, hr, fun it k => ?_⟩
      · rw [et, py_ok_bind, ey, py_ok_bind, e]
      · rw [hs, vy, vt, hd, List.zipWith_cons_cons, List.sum_cons, if_neg hx]
        ring

/-! ### the objects in the state were made by the constructor -/

/-- made by the constructor with this solver -/
def MadeBy (gmres : Gmres) (s : Nystrom.Solver) (ei eg : Bool) (f : Fn) : Prop :=
  ∃ p tr, LocPoisson.init gmres (some s) p tr ei eg = .ok f.val

theorem edgeOn_made {x : Ctx} {pos : ℕ} : ∀ {l : List (GlobalKey × Poly ℝ)} {fs : List Fn}, edgeOn x pos l = .ok fs →
    ∀ f ∈ fs, MadeBy x.gmres x.nyst x.evalInt x.evalGrad f
  | [], fs, h => by cases h; simp
  | (key, p) :: l, fs, h => by
    unfold edgeOn at h
    obtain ⟨f, hf, h⟩ := bind_ok h
    obtain ⟨fs', hfs, h⟩ := bind_ok h
    cases h
    unfold edgeFun at hf
    obtain ⟨t, -, hf⟩ := bind_ok hf
    obtain ⟨t', -, hf⟩ := bind_ok hf
    obtain ⟨g, hg, hf⟩ := bind_ok hf
    cases hf
    intro f hf
    rcases List.mem_cons.1 hf with rfl | hf
    · exact ⟨_, _, hg⟩
    · exact edgeOn_made hfs f hf

theorem edgeFuns_made {x : Ctx} {st : EdgeStore ℝ} {es : List ℕ} : ∀ {bs : List (EdgeSpace ℝ)} {fs : List Fn}, edgeFuns x st es bs = .ok fs →
    ∀ f ∈ fs, MadeBy x.gmres x.nyst x.evalInt x.evalGrad f
  | [], fs, h => by cases h; simp
  | b :: bs, fs, h => by
    unfold edgeFuns at h
    obtain ⟨pos, -, h⟩ := bind_ok h
    obtain ⟨fs1, h1, h⟩ := bind_ok h
    obtain ⟨fs2, h2, h⟩ := bind_ok h
    cases h
    intro f hf
    rcases List.mem_append.1 hf with hf | hf
    · exact edgeOn_made h1 f hf
    · exact edgeFuns_made h2 f hf

theorem basis_made {gmres : Gmres} {K : CellG} {ord : List ℤ → List ℤ} {st : EdgeStore ℝ} {es : List ℕ} {bs : List (EdgeSpace ℝ)} {deg : ℤ}
    {ei eg : Bool} {fs : List Fn} (h : basis gmres K ord st es bs deg ei eg = .ok fs) :
    ∃ s, Nystrom.init gmres K "fft" "jacobi" = .ok s ∧ ∀ f ∈ fs, MadeBy gmres s ei eg f := by
  unfold basis at h
  split_ifs at h
  obtain ⟨c, -, h⟩ := bind_ok h
  obtain ⟨a, -, h⟩ := bind_ok h
  obtain ⟨s, hs, h⟩ := bind_ok h
  obtain ⟨bubb, h1, h⟩ := bind_ok h
  obtain ⟨vert, h2, h⟩ := bind_ok h
  obtain ⟨edge, h3, h⟩ := bind_ok h
  cases h
  refine ⟨s, hs, fun f hf => ?_⟩
  rcases List.mem_append.1 hf with hf | hf
  · rcases List.mem_append.1 hf with hf | hf
    · obtain ⟨v, -, hv⟩ := (EdgeSpaceG.mapPy_mem h2).2 f hf
      unfold vertFun at hv
      obtain ⟨t, -, hv⟩ := bind_ok hv
      obtain ⟨t', -, hv⟩ := bind_ok hv
      obtain ⟨g, hg, hv⟩ := bind_ok hv
      cases hv
      exact ⟨_, _, hg⟩
    · exact edgeFuns_made h3 f hf
  · unfold bubbFuns at h1
    split_ifs at h1
    · cases h1
      simp at hf
    · obtain ⟨k, -, hk⟩ := (EdgeSpaceG.mapPy_mem h1).2 f hf
      unfold bubbFun at hk
      obtain ⟨p, -, hk⟩ := bind_ok hk
      obtain ⟨g, hg, hk⟩ := bind_ok hk
      cases hk
      exact ⟨_, _, hg⟩

theorem numberLoop_vals {s : GlobFunSp ℝ} {a : ℕ} : ∀ {fs fs' : List Fn}, numberLoop s a fs = .ok fs' → fs'.map Fn.val = fs.map Fn.val
  | [], fs', h => by cases h; rfl
  | f :: fs, fs', h => by
    unfold numberLoop at h
    obtain ⟨i, -, h⟩ := bind_ok h
    obtain ⟨key, -, h⟩ := bind_ok h
    obtain ⟨b, -, h⟩ := bind_ok h
    obtain ⟨rest, hr, h⟩ := bind_ok h
    cases h
    rw [List.map_cons, List.map_cons, numberLoop_vals hr]

/-- every stored local space was made from its cell -/
def StoredOk (E : Env) (l : List (Option (CellG × List Fn))) : Prop :=
  ∀ K fs, some (K, fs) ∈ l → ∃ s, Nystrom.init E.gmres K "fft" "jacobi" = .ok s ∧ ∀ f ∈ fs, MadeBy E.gmres s E.evalInt E.evalGrad f

theorem buildLocal_made {E : Env} {s s' : GlobFunSp ℝ} {c : ℤ} {K : CellG} {fs : List Fn} (h : buildLocal E s c = .ok (s', K, fs)) :
    ∃ n, Nystrom.init E.gmres K "fft" "jacobi" = .ok n ∧ ∀ f ∈ fs, MadeBy E.gmres n E.evalInt E.evalGrad f := by
  unfold buildLocal at h
  obtain ⟨a, -, h⟩ := bind_ok h
  obtain ⟨k, -, h⟩ := bind_ok h
  obtain ⟨K', -, h⟩ := bind_ok h
  obtain ⟨bs, -, h⟩ := bind_ok h
  obtain ⟨fs0, h0, h⟩ := bind_ok h
  obtain ⟨fs1, h1, h⟩ := bind_ok h
  cases h
  obtain ⟨n, hn, hm⟩ := basis_made h0
  refine ⟨n, hn, fun f hf => ?_⟩
  have : f.val ∈ fs0.map Fn.val := by rw [← numberLoop_vals h1]; exact List.mem_map_of_mem hf
  obtain ⟨g, hg, e⟩ := List.mem_map.1 this
  obtain ⟨p, tr, hp⟩ := hm g hg
  exact ⟨p, tr, by rw [← e]; exact hp⟩

theorem cellLoop_stored {E : Env} {B : BilinForm} : ∀ {as : List ℕ} {acc acc' : Accum}, cellLoop E B as acc = .ok acc' →
    StoredOk E acc.locSpaces → StoredOk E acc'.locSpaces
  | [], acc, acc', h, hs => by cases h; exact hs
  | a :: as, acc, acc', h, hs => by
    unfold cellLoop at h
    obtain ⟨acc1, h1, h⟩ := bind_ok h
    refine cellLoop_stored h ?_
    unfold cellStep at h1
    obtain ⟨c, -, h1⟩ := bind_ok h1
    obtain ⟨⟨s, K, fs⟩, hb, h1⟩ := bind_ok h1
    obtain ⟨⟨ts, rs⟩, -, h1⟩ := bind_ok h1
    cases h1
    dsimp only
    split_ifs
    · intro K' fs' hm
      rcases List.mem_or_eq_of_mem_set hm with hm | hm
      · exact hs K' fs' hm
      · cases hm
        exact buildLocal_made hb
    · exact hs

theorem assemble_stored {E : Env} {B : BilinForm} {s : GlobFunSp ℝ} {soln : Option (List ℝ)} {R : State}
    (h : assemble E B s soln = .ok R) : StoredOk E R.locSpaces := by
  unfold assemble at h
  obtain ⟨acc, h1, h⟩ := bind_ok h
  dsimp only at h
  obtain ⟨u1, -, h⟩ := bind_ok h
  obtain ⟨u2, -, h⟩ := bind_ok h
  obtain ⟨u3, -, h⟩ := bind_ok h
  cases h
  refine cellLoop_stored h1 ?_
  intro K fs hm
  simp at hm

/-! ### C84 -/

/-- the coefficients on a cell: those of its functions, perhaps several times -/
theorem getCoef_eq {S : Setup ℝ} (hc : S.CellsOk) {E : Env} (hE : E.Fits S) {B : BilinForm} {s : GlobFunSp ℝ} (hs : S.Hist s)
    {soln : Option (List ℝ)} {R : State} (h : assemble E B s soln = .ok R) {t : GlobFunSp ℝ} (ht : S.Reach R.space t)
    {a : ℕ} {c : ℤ} (ha : S.m.cellIdxList[a]? = some c) {u : List ℝ} (hu : S.s0.numFuns ≤ u.length) :
    t.mesh.getAbsCellIdx c = .ok a ∧
    ∃ m, getCoef { R with space := t } c u = .ok ((S.basisAt a).map (fun l => u.getD l.glob 0) ++ m) := by
  obtain ⟨halt, hac⟩ := List.getElem?_eq_some_iff.1 ha
  have hlt : a < S.m.numCells := by rw [S.numCells_eq]; exact halt
  obtain ⟨hsame, -⟩ := S.hist_spec hc s hs
  obtain ⟨-, R', h1, h2, -⟩ := assemble_refines hc hE hsame h
  obtain ⟨-, -, -, -, -, h6, h7, -⟩ := S.assembled_spec hc _ E.evalInt s hs soln R' h1
  rw [← h2] at ht
  have hR : S.Copies 1 R'.space := by
    obtain ⟨g1, g2⟩ := S.hist_spec hc s hs
    refine ⟨(S.hist_spec hc R'.space (.assembled hs h1)).1, fun b hb => ?_⟩
    obtain ⟨n, -, hn⟩ := g2 b hb
    refine ⟨n + 1, by omega, ?_⟩
    rw [h7 b hb, hn, List.replicate_succ']
    simp
  obtain ⟨t1, t2⟩ := S.reach_spec hc 1 _ _ hR ht
  obtain ⟨n, hn1, hn⟩ := t2 a hlt
  have habs : t.mesh.getAbsCellIdx c = .ok a := by
    rw [S.mesh_eq t t1]
    exact ((C34_abs_cell_idx S.st S.es S.m S.hm).2.1 a c ha)
  refine ⟨habs, ?_⟩
  have e2 : pyGetZ t.cellDofs (a : ℕ) = .ok (List.replicate n ((S.basisAt a).map LocFun.key)).flatten := by
    obtain ⟨hl, he⟩ := List.getElem?_eq_some_iff.1 hn
    simp [pyGetZ, hl, he]
  have e3 : List.mapM (fun key : GlobalKey => pyGetZ u ((key.globIdx.getD 0 : ℕ) : ℤ))
      (List.replicate n ((S.basisAt a).map LocFun.key)).flatten =
      .ok ((List.replicate n ((S.basisAt a).map LocFun.key)).flatten.map fun key => u.getD (key.globIdx.getD 0) 0) := by
    refine mapM_ok _ _ _ fun key hkey => ?_
    obtain ⟨l, hl, hkey⟩ := List.mem_flatten.1 hkey
    rw [(List.mem_replicate.1 hl).2] at hkey
    obtain ⟨f, hf, rfl⟩ := List.mem_map.1 hkey
    have hlt : f.glob < u.length := lt_of_lt_of_le (S.glob_lt hc a hlt f hf) hu
    have hlt' : f.key.globIdx.getD 0 < u.length := hlt
    simp [pyGetZ, hlt']
  obtain ⟨n, rfl⟩ : ∃ k, n = k + 1 := ⟨n - 1, by omega⟩
  refine ⟨(List.replicate n ((S.basisAt a).map LocFun.key)).flatten.map fun key => u.getD (key.globIdx.getD 0) 0, ?_⟩
  unfold getCoef
  dsimp only
  rw [habs, py_ok_bind, e2, py_ok_bind, e3, List.replicate_succ, List.flatten_cons, List.map_append, List.map_map]
  rfl

theorem whole_trace {K : CellG} {f : LocPoisson} (h : f.Whole K) : ∃ v, f.traceValues = .ok v ∧ v.length = K.numPts ∧
    ∀ k, v.getD k 0 = f.entry .harmValues k + f.entry .polyValues k := by
  obtain ⟨x, hx, lx⟩ := h.items .harmValues
  obtain ⟨y, hy, ly⟩ := h.items .polyValues
  obtain ⟨p, ep, op⟩ := h.on.poly
  obtain ⟨r, er, or'⟩ := h.on.harm
  obtain ⟨q, eq, oq⟩ := op.trace
  have lx' : x.length = K.numPts := lx
  have ly' : y.length = K.numPts := ly
  simp only [LocPoisson.item, er, ep, eq, Option.bind_some] at hx hy
  refine ⟨List.zipWith (· + ·) x y, ?_, by simp [lx', ly'], fun k => ?_⟩
  · simp only [LocPoisson.traceValues, er, ep, eq, Trace.attr, py_ok_bind, hx, hy]
    rw [Np.add, bin_eq _ (by rw [lx', ly'])]
  · simp only [LocPoisson.entry, LocPoisson.item, er, ep, eq, Option.bind_some, hx, hy, Option.getD_some, List.getD_eq_getElem?_getD,
      List.getElem?_zipWith]
    by_cases hk : k < K.numPts
    · rw [List.getElem?_eq_getElem (lx' ▸ hk), List.getElem?_eq_getElem (ly' ▸ hk)]
      simp
    · rw [List.getElem?_eq_none (by omega), List.getElem?_eq_none (by omega)]
      simp

theorem zipWith_map_append {α β : Type} (F : ℝ → β → ℝ) (x : α → ℝ) (g : α → β) (m : List ℝ) : ∀ l : List α,
    (List.zipWith F (l.map x ++ m) (l.map g)).sum = (l.map fun a => F (x a) (g a)).sum
  | [] => by simp
  | a :: l => by
    rw [List.map_cons, List.map_cons, List.cons_append, List.zipWith_cons_cons, List.sum_cons, List.map_cons, List.sum_cons,
      zipWith_map_append F x g m l]

/-- C84: the linear combination on a cell `c` of the mesh, in every state reached after an assembly with interior values.  With `w0` the zero
function that the computation starts from, every array that the result stores (boundary values, normal and tangential derivatives, the
conjugate data, interior values and gradients) has the right size and is, entry by entry, that of `w0` plus the sum over the basis of the cell of
coefficient times entry of the function, where coefficients below `1e-4` are dropped; the boundary values are the sums of the traces of the basis
functions, exactly.  If the zero function cannot be made, the exception is passed on. -/
theorem C84_combo {S : Setup ℝ} (hc : S.CellsOk) {E : Env} (hE : E.Fits S) (hi : E.evalInt = true) {B : BilinForm} {s : GlobFunSp ℝ}
    (hs : S.Hist s) {soln : Option (List ℝ)} {R : State} (h : assemble E B s soln = .ok R) {t : GlobFunSp ℝ} (ht : S.Reach R.space t)
    {a : ℕ} {c : ℤ} (ha : S.m.cellIdxList[a]? = some c) (hlog : ∀ c k b K, S.m.getCell c = .ok k → E.geo k b = .ok K → SolverG.LogsFit E.gmres K) {u : List ℝ}
    (hu : S.s0.numFuns ≤ u.length) :
    ∃ D : CellData, D.Valid S E B c ∧ R.locSpaces[a]? = some (some (D.K, D.funs.map fun l => ⟨l.key, D.obj l.glob⟩)) ∧
      (∀ w0, zeroFn E D.K = .ok w0 → ∃ w, linearCombo E { R with space := t } c u = .ok w ∧ w.Whole D.K ∧
        (∀ i k, w.entry i k = w0.entry i k + (D.funs.map fun l => used u l.glob * (D.obj l.glob).entry i k).sum) ∧
        ∃ v, w.traceValues = .ok v ∧ v.length = D.K.numPts ∧
          ∀ k, v.getD k 0 = (D.funs.map fun l => used u l.glob * (D.K.edgewise l.traces).getD k 0).sum) ∧
      ∀ e, zeroFn E D.K = .error e → linearCombo E { R with space := t } c u = .error e := by
  obtain ⟨h1, -⟩ := entries hc hE hs h
  obtain ⟨g1, g2, g3⟩ := h1 a c ha
  rw [← g3, hi, if_pos rfl] at g2
  obtain ⟨habs, m, hm⟩ := getCoef_eq hc hE hs h ht ha hu
  obtain ⟨k, hk, hgeo⟩ := g1.geo
  have hrd := (hE.2.2 _ _ _ _ hk hgeo).1
  have hlf := hlog _ _ _ _ hk hgeo
  obtain ⟨n, hn, hmade⟩ := assemble_stored h _ _ (List.mem_iff_getElem?.2 ⟨a, g2⟩)
  set D := dataAt S E B a with hD
  set fs : List Fn := D.funs.map fun l => ⟨l.key, D.obj l.glob⟩ with hfs
  have hwhole : ∀ f ∈ fs, f.val.Whole D.K := by
    intro f hf
    obtain ⟨p, tr, hp⟩ := hmade f hf
    exact (poissonInit_on hrd hlf hn hp).2 (by simp [hi])
  have hgetL : pyGetZ R.locSpaces (a : ℕ) = .ok (some (D.K, fs)) := by
    obtain ⟨hl, he⟩ := List.getElem?_eq_some_iff.1 g2
    simp [pyGetZ, hl, he]
  have hL : linearCombo E { R with space := t } c u = (do
      let w ← zeroFn E D.K
      comboLoop ((S.basisAt a).map (fun l => u.getD l.glob 0) ++ m) 0 w fs) := by
    unfold linearCombo zeroFn
    dsimp only
    rw [habs, py_ok_bind, hgetL, py_ok_bind]
    dsimp only
    rw [hm, py_ok_bind, hn, py_ok_bind, py_ok_bind]
  refine ⟨D, g1, g2, fun w0 hw0 => ?_, fun e he => by rw [hL, he, py_error_bind]⟩
  have hz : w0.Whole D.K ∧ w0.traceValues = .ok (List.replicate D.K.numPts 0) := by
    unfold zeroFn at hw0
    rw [hn, py_ok_bind] at hw0
    have hK := LocSpaceG.build_cell (init_parts hn).1
    refine ⟨(poissonInit_on hrd hlf hn hw0).2 rfl, ?_⟩
    exact C75_trace (hK ▸ hrd) (by rw [hK]; rfl) hw0
  have hlen : 0 + fs.length ≤ ((S.basisAt a).map (fun l => u.getD l.glob 0) ++ m).length := by
    simp only [hfs, List.length_map, List.length_append]
    have : D.funs.length = (S.basisAt a).length := rfl
    omega
  obtain ⟨w, hw, ww, we⟩ := comboLoop_ok _ fs 0 w0 hz.1 hwhole hlen
  have we' : ∀ i k, w.entry i k = w0.entry i k + (D.funs.map fun l => used u l.glob * (D.obj l.glob).entry i k).sum := by
    intro i k
    rw [we, List.drop_zero, hfs]
    congr 1
    exact zipWith_map_append _ (fun l : LocFun ℝ => u.getD l.glob 0) _ m D.funs
  refine ⟨w, by rw [hL, hw0, py_ok_bind, hw], ww, we', ?_⟩
  obtain ⟨v, hv, lv, ev⟩ := whole_trace ww
  refine ⟨v, hv, lv, fun k => ?_⟩
  obtain ⟨z, A, -, -, hst⟩ := g1.stands
  rw [ev, we', we']
  have e0 : w0.entry .harmValues k + w0.entry .polyValues k = 0 := by
    obtain ⟨v0, hv0, lv0, ev0⟩ := whole_trace hz.1
    rw [hz.2] at hv0
    cases hv0
    rw [← ev0, List.getD_eq_getElem?_getD, List.getElem?_replicate]
    split_ifs <;> rfl
  have e1 : ∀ l ∈ D.funs, (D.obj l.glob).entry .harmValues k + (D.obj l.glob).entry .polyValues k = (D.K.edgewise l.traces).getD k 0 := by
    intro l hl
    obtain ⟨v1, hv1, -, ev1⟩ := whole_trace (hwhole ⟨l.key, D.obj l.glob⟩ (List.mem_map_of_mem hl))
    have := (hst l hl).trace
    rw [show (⟨l.key, D.obj l.glob⟩ : Fn).val.traceValues = _ from hv1] at this
    cases this
    exact (ev1 k).symm
  rw [show ∀ x y z t : ℝ, x + y + (z + t) = x + z + (y + t) from fun x y z t => by ring, e0, zero_add, ← List.sum_map_add]
  congr 1
  refine List.map_congr_left fun l hl => ?_
  rw [← mul_add, e1 l hl]

/-- C84: dropping small coefficients changes an entry by at most `1e-4` times the sum of the magnitudes of the entries of the basis functions. -/
theorem C84_dropped {α : Type} (u : List ℝ) (l : List α) (g : α → ℕ) (φ : α → ℝ) :
    |(l.map fun a => used u (g a) * φ a).sum - (l.map fun a => u.getD (g a) 0 * φ a).sum| ≤ 1 / 10 ^ 4 * (l.map fun a => |φ a|).sum := by
  induction l with
  | nil => simp
  | cons a l ih =>
    simp only [List.map_cons, List.sum_cons]
    have h1 : |used u (g a) * φ a - u.getD (g a) 0 * φ a| ≤ 1 / 10 ^ 4 * |φ a| := by
      rw [← sub_mul, abs_mul]
      refine mul_le_mul_of_nonneg_right ?_ (abs_nonneg _)
      unfold used
      split_ifs with h
      · rw [zero_sub, abs_neg]; exact h.le
      · simp
    rw [mul_add]
    calc _ = |(used u (g a) * φ a - u.getD (g a) 0 * φ a) +
          ((l.map fun a => used u (g a) * φ a).sum - (l.map fun a => u.getD (g a) 0 * φ a).sum)| := by congr 1; ring
      _ ≤ _ := abs_add_le _ _
      _ ≤ _ := add_le_add h1 ih

/-- C84: where all coefficients are below `1e-4` the combination is the function it starts from, whatever the basis functions: all entries are
those of this function and the boundary values are 0. -/
theorem C84_small {S : Setup ℝ} (hc : S.CellsOk) {E : Env} (hE : E.Fits S) (hi : E.evalInt = true) {B : BilinForm} {s : GlobFunSp ℝ}
    (hs : S.Hist s) {soln : Option (List ℝ)} {R : State} (h : assemble E B s soln = .ok R) {t : GlobFunSp ℝ} (ht : S.Reach R.space t)
    {a : ℕ} {c : ℤ} (ha : S.m.cellIdxList[a]? = some c)
    (hlog : ∀ c k b K, S.m.getCell c = .ok k → E.geo k b = .ok K → SolverG.LogsFit E.gmres K) {u : List ℝ}
    (hu : S.s0.numFuns ≤ u.length) (hsmall : ∀ x ∈ u, |x| < 1 / 10 ^ 4) :
    ∃ K fs, R.locSpaces[a]? = some (some (K, fs)) ∧ ∀ w0, zeroFn E K = .ok w0 → ∃ w, linearCombo E { R with space := t } c u = .ok w ∧
      (∀ i k, w.entry i k = w0.entry i k) ∧ w.traceValues = .ok (List.replicate K.numPts 0) := by
  have h0 : ∀ i, used u i = 0 := by
    intro i
    unfold used
    split_ifs with hl
    · rfl
    · by_cases hlt : i < u.length
      · rw [List.getD_eq_getElem _ _ hlt] at hl
        exact absurd (hsmall _ (List.getElem_mem hlt)) hl
      · rw [List.getD_eq_default _ _ (not_lt.1 hlt)]
  obtain ⟨D, -, g2, g3, -⟩ := C84_combo hc hE hi hs h ht ha hlog hu
  refine ⟨D.K, _, g2, fun w0 hw0 => ?_⟩
  obtain ⟨w, k1, -, k2, v, k3, k4, k5⟩ := g3 w0 hw0
  have hz : ∀ φ : LocFun ℝ → ℝ, (D.funs.map fun l => used u l.glob * φ l).sum = 0 := fun φ => by simp [h0]
  refine ⟨w, k1, fun i k => by rw [k2, hz, add_zero], ?_⟩
  rw [k3]
  congr 1
  refine List.ext_getElem (by simp [k4]) fun k h1 h2 => ?_
  have := k5 k
  rw [hz, List.getD_eq_getElem _ _ h1] at this
  rw [this, List.getElem_replicate]

/-- C84: without interior values the combination cannot be formed (`ValueError`), nor on a number that is not a cell of the mesh. -/
theorem C84_errors {S : Setup ℝ} (hc : S.CellsOk) {E : Env} (hE : E.Fits S) {B : BilinForm} {s : GlobFunSp ℝ} (hs : S.Hist s)
    {soln : Option (List ℝ)} {R : State} (h : assemble E B s soln = .ok R) {t : GlobFunSp ℝ} (ht : S.Reach R.space t) (c : ℤ) (u : List ℝ) :
    (E.evalInt = false → c ∈ S.m.cellIdxList → linearCombo E { R with space := t } c u = .error .valueError) ∧
    (c ∉ S.m.cellIdxList → linearCombo E { R with space := t } c u = .error .valueError) := by
  obtain ⟨h1, -⟩ := entries hc hE hs h
  obtain ⟨hsame, -⟩ := S.hist_spec hc s hs
  obtain ⟨-, R', q1, q2, -⟩ := assemble_refines hc hE hsame h
  have hm : t.mesh = S.m := by
    rw [← q2] at ht
    exact S.mesh_eq t (S.reach_spec hc 0 _ _ (S.hist_spec hc R'.space (.assembled hs q1)) ht).1
  constructor
  · intro hi hmem
    obtain ⟨a, ha⟩ := List.mem_iff_getElem?.1 hmem
    obtain ⟨-, g2, -⟩ := h1 a c ha
    rw [hi] at g2
    have habs : t.mesh.getAbsCellIdx c = .ok a := by
      rw [hm]
      exact ((C34_abs_cell_idx S.st S.es S.m S.hm).2.1 a c ha)
    have e1 : pyGetZ R.locSpaces (a : ℕ) = .ok none := by
      obtain ⟨hl, he⟩ := List.getElem?_eq_some_iff.1 g2
      simp [pyGetZ, hl, he]
    unfold linearCombo
    dsimp only
    rw [habs, py_ok_bind, e1, py_ok_bind]
  · intro hn
    unfold linearCombo
    dsimp only
    rw [hm, (C34_abs_cell_idx S.st S.es S.m S.hm).2.2 c hn, py_error_bind]

end SolverG
end PFEM
