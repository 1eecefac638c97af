import Verif.Spec.LocFun
import Verif.Props.Trace
import Verif.Props.PolyValue

/-!
Property theorems C47: the operators on local functions act on everything the objects store.
-/

namespace PFEM
open Trace (attr)
open LocPoly (attr₁ attr₂)

theorem combOpt_add (x y : Option (List ℝ)) : combOpt 1 1 x y = Trace.pointwise (· + ·) x y := by
  cases x <;> cases y <;> simp [combOpt, Trace.pointwise]

theorem combOpt_sub (x y : Option (List ℝ)) : combOpt 1 (-1) x y = Trace.pointwise (· - ·) x y := by
  cases x <;> cases y <;> simp [combOpt, Trace.pointwise, sub_eq_add_neg]

theorem combOpt_self (c : ℝ) (x : Option (List ℝ)) : combOpt c 0 x x = x.map (List.map (c * ·)) := by
  cases x with
  | none => rfl
  | some u => simp [combOpt, List.zipWith_self]

theorem combOpt_mul (c : ℝ) (x : Option (List ℝ)) : combOpt c 0 x x = x.map (List.map (· * c)) := by
  rw [combOpt_self, show (fun x : ℝ => c * x) = fun x => x * c from funext fun x => mul_comm c x]

theorem combOpt_div (c : ℝ) (x : Option (List ℝ)) : combOpt (1 / c) 0 x x = x.map (List.map (· / c)) := by
  rw [combOpt_self, show (fun x : ℝ => 1 / c * x) = fun x => x / c from funext fun x => by ring]

/-! ### traces -/

theorem Trace.On.sizes {es : List EdgeG} {t s : Trace} (ht : t.On es) (hs : s.On es) : t.sizes = s.sizes := by
  unfold Trace.sizes; rw [ht.edges, hs.edges]

theorem trace_add {es : List EdgeG} {t s : Trace} (ht : t.On es) (hs : s.On es) :
    ∃ r, t.add s = .ok r ∧ r.On es ∧ Trace.Comb 1 1 t s r := by
  obtain ⟨a, ha⟩ := ht.values
  obtain ⟨b, hb⟩ := hs.values
  obtain ⟨r, hr, gr, er, vr, nr, tr⟩ := Trace.C46_add ht.good hs.good (ht.sizes hs) ha hb
  refine ⟨r, hr, ⟨gr, er.trans ht.edges, _, vr⟩, er, ?_, ?_, ?_⟩
  · rw [vr, combOpt_add, ha, hb]; rfl
  · rw [nr, combOpt_add]
  · rw [tr, combOpt_add]

theorem trace_sub {es : List EdgeG} {t s : Trace} (ht : t.On es) (hs : s.On es) :
    ∃ r, t.sub s = .ok r ∧ r.On es ∧ Trace.Comb 1 (-1) t s r := by
  obtain ⟨a, ha⟩ := ht.values
  obtain ⟨b, hb⟩ := hs.values
  obtain ⟨r, hr, gr, er, vr, nr, tr⟩ := Trace.C46_sub ht.good hs.good (ht.sizes hs) ha hb
  refine ⟨r, hr, ⟨gr, er.trans ht.edges, _, vr⟩, er, ?_, ?_, ?_⟩
  · rw [vr, combOpt_sub, ha, hb]; rfl
  · rw [nr, combOpt_sub]
  · rw [tr, combOpt_sub]

theorem trace_mul {es : List EdgeG} {t : Trace} (ht : t.On es) (c : ℝ) :
    ∃ r, t.mul c = .ok r ∧ r.On es ∧ Trace.Comb c 0 t t r := by
  obtain ⟨a, ha⟩ := ht.values
  obtain ⟨r, hr, gr, er, vr, nr, tr⟩ := Trace.C46_mul ht.good ha c
  refine ⟨r, hr, ⟨gr, er.trans ht.edges, _, vr⟩, er, ?_, ?_, ?_⟩
  · rw [vr, combOpt_self, ha]; rfl
  · rw [nr, combOpt_self]
  · rw [tr, combOpt_self]

theorem trace_div {es : List EdgeG} {t : Trace} (ht : t.On es) {c : ℝ} (hc : c ≠ 0) :
    ∃ r, t.div c = .ok r ∧ r.On es ∧ Trace.Comb (1 / c) 0 t t r := by
  obtain ⟨a, ha⟩ := ht.values
  obtain ⟨r, hr, gr, er, vr, nr, tr⟩ := (Trace.C46_div ht.good ha c).1 hc
  refine ⟨r, hr, ⟨gr, er.trans ht.edges, _, vr⟩, er, ?_, ?_, ?_⟩
  · rw [vr, combOpt_div, ha]; rfl
  · rw [nr, combOpt_div]
  · rw [tr, combOpt_div]

theorem Related.mono {α : Type} {R S : α → α → α → Prop} (h : ∀ u v w, R u v w → S u v w) {x y z : Option α}
    (hr : Related R x y z) : Related S x y z := by
  obtain ⟨u, v, w, hu, hv, hw, h0⟩ := hr
  exact ⟨u, v, w, hu, hv, hw, h u v w h0⟩

/-! ### local polynomials -/

/-- the two binary operators on local polynomials -/
theorem poly_zip {es : List EdgeG} {a b : ℝ} {F : Poly ℝ → Poly ℝ → Poly ℝ} {G : Trace → Trace → Py Trace}
    (hG : ∀ t s : Trace, t.On es → s.On es → ∃ r, G t s = .ok r ∧ r.On es ∧ Trace.Comb a b t s r)
    {p q : LocPoly} (hp : p.On es) (hq : q.On es) :
    ∃ r, LocPoly.zip F G p q = .ok r ∧ r.On es ∧ LocPoly.Comb (fun p q r => r = F p q) a b p q r := by
  obtain ⟨pt, ept, hpt⟩ := hp.trace
  obtain ⟨qt, eqt, hqt⟩ := hq.trace
  obtain ⟨p1, ep1⟩ := hp.grad1
  obtain ⟨q1, eq1⟩ := hq.grad1
  obtain ⟨p2, ep2⟩ := hp.grad2
  obtain ⟨q2, eq2⟩ := hq.grad2
  obtain ⟨pa, epa⟩ := hp.antilap
  obtain ⟨qa, eqa⟩ := hq.antilap
  obtain ⟨ps, eps, hps⟩ := hp.antilapTrace
  obtain ⟨qs, eqs, hqs⟩ := hq.antilapTrace
  obtain ⟨r, hr, ro, rc⟩ := hG pt qt hpt hqt
  obtain ⟨s, hs, so, sc⟩ := hG ps qs hps hqs
  refine ⟨⟨F p.exact q.exact, some r, some (F p1 q1), some (F p2 q2), some (F pa qa), some s⟩, ?_,
    ⟨⟨r, rfl, ro⟩, ⟨_, rfl⟩, ⟨_, rfl⟩, ⟨_, rfl⟩, ⟨s, rfl, so⟩⟩,
    ⟨rfl, ⟨pt, qt, r, ept, eqt, rfl, rc⟩, ⟨p1, q1, _, ep1, eq1, rfl, rfl⟩, ⟨p2, q2, _, ep2, eq2, rfl, rfl⟩,
      ⟨pa, qa, _, epa, eqa, rfl, rfl⟩, ⟨ps, qs, s, eps, eqs, rfl, sc⟩⟩⟩
  simp only [LocPoly.zip, attr₂, ept, eqt, ep1, eq1, ep2, eq2, epa, eqa, eps, eqs, attr, py_ok_bind, hr, hs]

/-- the two operators with a number on local polynomials -/
theorem poly_map {es : List EdgeG} {c : ℝ} {F : Poly ℝ → Poly ℝ} {F' : Poly ℝ → Py (Poly ℝ)} {G : Trace → Py Trace}
    (hF : ∀ p, F' p = .ok (F p))
    (hG : ∀ t : Trace, t.On es → ∃ r, G t = .ok r ∧ r.On es ∧ Trace.Comb c 0 t t r) {p : LocPoly} (hp : p.On es) :
    ∃ r, LocPoly.map F' G p = .ok r ∧ r.On es ∧ LocPoly.Comb (fun p _ r => r = F p) c 0 p p r := by
  obtain ⟨pt, ept, hpt⟩ := hp.trace
  obtain ⟨p1, ep1⟩ := hp.grad1
  obtain ⟨p2, ep2⟩ := hp.grad2
  obtain ⟨pa, epa⟩ := hp.antilap
  obtain ⟨ps, eps, hps⟩ := hp.antilapTrace
  obtain ⟨r, hr, ro, rc⟩ := hG pt hpt
  obtain ⟨s, hs, so, sc⟩ := hG ps hps
  refine ⟨⟨F p.exact, some r, some (F p1), some (F p2), some (F pa), some s⟩, ?_,
    ⟨⟨r, rfl, ro⟩, ⟨_, rfl⟩, ⟨_, rfl⟩, ⟨_, rfl⟩, ⟨s, rfl, so⟩⟩,
    ⟨rfl, ⟨pt, pt, r, ept, ept, rfl, rc⟩, ⟨p1, p1, _, ep1, ep1, rfl, rfl⟩, ⟨p2, p2, _, ep2, ep2, rfl, rfl⟩,
      ⟨pa, pa, _, epa, epa, rfl, rfl⟩, ⟨ps, ps, s, eps, eps, rfl, sc⟩⟩⟩
  simp only [LocPoly.map, attr₁, ept, ep1, ep2, epa, eps, attr, py_ok_bind, hr, hs, hF]

theorem LocPoly.Comb.mono {R S : Poly ℝ → Poly ℝ → Poly ℝ → Prop} {a b : ℝ} {p q r : LocPoly}
    (h : ∀ u ∈ p.polys, ∀ v ∈ q.polys, ∀ w, R u v w → S u v w) (hr : LocPoly.Comb R a b p q r) : LocPoly.Comb S a b p q r := by
  refine ⟨h _ (by simp [polys]) _ (by simp [polys]) _ hr.exact, hr.trace, ?_, ?_, ?_, hr.antilapTrace⟩
  · obtain ⟨u, v, w, hu, hv, hw, h0⟩ := hr.grad1
    exact ⟨u, v, w, hu, hv, hw, h u (by simp [polys, hu]) v (by simp [polys, hv]) w h0⟩
  · obtain ⟨u, v, w, hu, hv, hw, h0⟩ := hr.grad2
    exact ⟨u, v, w, hu, hv, hw, h u (by simp [polys, hu]) v (by simp [polys, hv]) w h0⟩
  · obtain ⟨u, v, w, hu, hv, hw, h0⟩ := hr.antilap
    exact ⟨u, v, w, hu, hv, hw, h u (by simp [polys, hu]) v (by simp [polys, hv]) w h0⟩

/-! ### local harmonic functions -/

theorem harm_add {es : List EdgeG} {m : ℕ} {h k : LocHarm} (hh : h.On es m) (hk : k.On es m) :
    ∃ r, h.add (.harm k) = .ok r ∧ r.On es m ∧ LocHarm.Comb 1 1 h k r := by
  obtain ⟨hp, ehp, ohp⟩ := hh.psi
  obtain ⟨kp, ekp, okp⟩ := hk.psi
  obtain ⟨hc, ehc, ohc⟩ := hh.conj
  obtain ⟨kc, ekc, okc⟩ := hk.conj
  obtain ⟨ha, eha, lha⟩ := hh.logCoef
  obtain ⟨ka, eka, lka⟩ := hk.logCoef
  obtain ⟨hb, ehb, ohb⟩ := hh.biharm
  obtain ⟨kb, ekb, okb⟩ := hk.biharm
  obtain ⟨t, ht, ot, ct⟩ := trace_add hh.trace hk.trace
  obtain ⟨p, hp', op, cp⟩ := trace_add ohp okp
  obtain ⟨c, hc', oc, cc⟩ := trace_add ohc okc
  obtain ⟨b, hb', ob, cb⟩ := trace_add ohb okb
  refine ⟨⟨t, some p, some c, some (List.zipWith (· + ·) ha ka), some (some b)⟩, ?_,
    ⟨ot, ⟨p, rfl, op⟩, ⟨c, rfl, oc⟩, ⟨_, rfl, by simp [lha, lka]⟩, ⟨b, rfl, ob⟩⟩,
    ⟨ct, ⟨hp, kp, p, ehp, ekp, rfl, cp⟩, ⟨hc, kc, c, ehc, ekc, rfl, cc⟩, ?_,
      ⟨_, _, _, ehb, ekb, rfl, ⟨hb, kb, b, rfl, rfl, rfl, cb⟩⟩⟩⟩
  · simp only [LocHarm.add, attr₂, ehp, ekp, ehc, ekc, eha, eka, ehb, ekb, attr, py_ok_bind, ht, hp', hc', hb']
  · rw [combOpt_add, eha, eka]; rfl

theorem harm_map {es : List EdgeG} {m : ℕ} {c : ℝ} {f : ℝ → ℝ} {G : Trace → Py Trace} (hf : ∀ x, f x = c * x)
    (hG : ∀ t : Trace, t.On es → ∃ r, G t = .ok r ∧ r.On es ∧ Trace.Comb c 0 t t r) {h : LocHarm} (hh : h.On es m) :
    ∃ r, LocHarm.map f G h = .ok r ∧ r.On es m ∧ LocHarm.Comb c 0 h h r := by
  obtain ⟨hp, ehp, ohp⟩ := hh.psi
  obtain ⟨hc, ehc, ohc⟩ := hh.conj
  obtain ⟨ha, eha, lha⟩ := hh.logCoef
  obtain ⟨hb, ehb, ohb⟩ := hh.biharm
  obtain ⟨t, ht, ot, ct⟩ := hG _ hh.trace
  obtain ⟨p, hp', op, cp⟩ := hG _ ohp
  obtain ⟨d, hd', od, cd⟩ := hG _ ohc
  obtain ⟨b, hb', ob, cb⟩ := hG _ ohb
  refine ⟨⟨t, some p, some d, some (ha.map f), some (some b)⟩, ?_,
    ⟨ot, ⟨p, rfl, op⟩, ⟨d, rfl, od⟩, ⟨_, rfl, by simp [lha]⟩, ⟨b, rfl, ob⟩⟩,
    ⟨ct, ⟨hp, hp, p, ehp, ehp, rfl, cp⟩, ⟨hc, hc, d, ehc, ehc, rfl, cd⟩, ?_,
      ⟨_, _, _, ehb, ehb, rfl, ⟨hb, hb, b, rfl, rfl, rfl, cb⟩⟩⟩⟩
  · simp only [LocHarm.map, attr₁, ehp, ehc, eha, ehb, attr, py_ok_bind, ht, hp', hd', hb']
  · rw [combOpt_self, eha, show f = (c * ·) from funext hf]; rfl

/-! ### local Poisson functions -/

theorem both_comb {n : ℕ} {x y : Option (List ℝ)} (hx : ∀ v, x = some v → v.length = n) (hy : ∀ v, y = some v → v.length = n) :
    LocPoisson.both x y = .ok (combOpt 1 1 x y) := by
  rw [LocPoisson.both, Trace.both_eq _ hx hy, combOpt_add]

theorem combOpt_len {a b : ℝ} {n : ℕ} {x y : Option (List ℝ)} (hx : ∀ v, x = some v → v.length = n)
    (hy : ∀ v, y = some v → v.length = n) : ∀ v, combOpt a b x y = some v → v.length = n := by
  intro v hv
  cases x with
  | none => cases hv
  | some u =>
    cases y with
    | none => cases hv
    | some w => cases hv; simp [hx u rfl, hy w rfl]

theorem poisson_add {K : CellG} {f g : LocPoisson} (hf : f.On K) (hg : g.On K) :
    ∃ r, f.add (.poisson g) = .ok r ∧ r.On K ∧ LocPoisson.Comb (fun p q r => r = p.add q) 1 1 f g r := by
  obtain ⟨p, ep, op⟩ := hf.poly
  obtain ⟨q, eq, oq⟩ := hg.poly
  obtain ⟨h, eh, oh⟩ := hf.harm
  obtain ⟨k, ek, ok⟩ := hg.harm
  obtain ⟨r, hr, ro, rc⟩ := poly_zip (F := Poly.add) (fun t s ht hs => trace_add ht hs) op oq
  obtain ⟨s, hs, so, sc⟩ := harm_add oh ok
  refine ⟨⟨some K, some r, some s, combOpt 1 1 f.intVals g.intVals, combOpt 1 1 f.intGrad1 g.intGrad1,
    combOpt 1 1 f.intGrad2 g.intGrad2⟩, ?_, ⟨rfl, ⟨r, rfl, ro⟩, ⟨s, rfl, so⟩, combOpt_len hf.intVals hg.intVals,
      combOpt_len hf.intGrad1 hg.intGrad1, combOpt_len hf.intGrad2 hg.intGrad2⟩,
    ⟨hf.cell.symm, ⟨p, q, r, ep, eq, rfl, rc⟩, ⟨h, k, s, eh, ek, rfl, sc⟩, rfl, rfl, rfl⟩⟩
  simp only [LocPoisson.add, attr₂, hf.cell, ep, eq, eh, ek, attr, py_ok_bind, LocPoly.add, hr, hs,
    both_comb hf.intVals hg.intVals, both_comb hf.intGrad1 hg.intGrad1, both_comb hf.intGrad2 hg.intGrad2]

theorem poisson_mul {K : CellG} {f : LocPoisson} (hf : f.On K) (c : ℝ) :
    ∃ r, f.mul (.num c) = .ok r ∧ r.On K ∧ LocPoisson.Comb (fun p _ r => r = p.smul c) c 0 f f r := by
  obtain ⟨p, ep, op⟩ := hf.poly
  obtain ⟨h, eh, oh⟩ := hf.harm
  obtain ⟨r, hr, ro, rc⟩ := poly_map (F := fun p => p.smul c) (fun _ => rfl) (fun t ht => trace_mul ht c) op
  obtain ⟨s, hs, so, sc⟩ := harm_map (f := (· * c)) (fun x => mul_comm x c) (fun t ht => trace_mul ht c) oh
  refine ⟨⟨some K, some r, some s, combOpt c 0 f.intVals f.intVals, combOpt c 0 f.intGrad1 f.intGrad1,
    combOpt c 0 f.intGrad2 f.intGrad2⟩, ?_, ⟨rfl, ⟨r, rfl, ro⟩, ⟨s, rfl, so⟩, combOpt_len hf.intVals hf.intVals,
      combOpt_len hf.intGrad1 hf.intGrad1, combOpt_len hf.intGrad2 hf.intGrad2⟩,
    ⟨hf.cell.symm, ⟨p, p, r, ep, ep, rfl, rc⟩, ⟨h, h, s, eh, eh, rfl, sc⟩, rfl, rfl, rfl⟩⟩
  simp only [LocPoisson.mul, attr₁, hf.cell, ep, eh, attr, py_ok_bind, LocPoly.mul, LocHarm.mul, hr, hs, combOpt_mul]

theorem LocPoisson.Comb.mono {R S : Poly ℝ → Poly ℝ → Poly ℝ → Prop} {a b : ℝ} {f g r : LocPoisson}
    (h : ∀ u ∈ f.polys, ∀ v ∈ g.polys, ∀ w, R u v w → S u v w) (hr : LocPoisson.Comb R a b f g r) : LocPoisson.Comb S a b f g r := by
  refine ⟨hr.cell, ?_, hr.harm, hr.intVals, hr.intGrad1, hr.intGrad2⟩
  obtain ⟨p, q, s, hp, hq, hs, h0⟩ := hr.poly
  exact ⟨p, q, s, hp, hq, hs, h0.mono fun u hu v hv w hw =>
    h u (by simpa [polys, hp] using hu) v (by simpa [polys, hq] using hv) w hw⟩

/-! ### polynomials -/

theorem near_add (p q : Poly ℝ) : PolyNear 1 1 p q (p.add q) := fun x y B hp hq => by
  simpa using C05_add_error p q x y B hp hq

theorem near_sub (p q : Poly ℝ) : PolyNear 1 (-1) p q (p.sub q) := fun x y B hp hq => by
  simpa [sub_eq_add_neg] using C05_sub_error p q x y B hp hq

theorem near_smul (c : ℝ) (p : Poly ℝ) : PolyNear c 0 p p (p.smul c) := fun x y B hp _ => by
  have h := C05_smul_error p c x y B hp
  by_cases hl : p = []
  · subst hl; simpa using h
  · have h0 : 0 ≤ B := Poly.monoBound_nonneg hp hl
    rw [zero_mul, add_zero]
    refine h.trans ?_
    have h1 : (p.length : ℝ) ≤ ((p.length + p.length : ℕ) : ℝ) := by push_cast; linarith [Nat.cast_nonneg (α := ℝ) p.length]
    have h2 : (0 : ℝ) ≤ 1 / 10 ^ 12 := by norm_num
    exact mul_le_mul_of_nonneg_right (mul_le_mul_of_nonneg_right h1 h2) h0

/-! ### C47 -/

/-- C47: the sum of two local Poisson functions on a cell.  Traces with their derivatives, the conjugable parts, the conjugates, the
logarithmic coefficients, the biharmonic traces and the interior data are the sums, entry by entry; the polynomials are the sums up to
`1e-12` per monomial, and exactly if all coefficients lie on a lattice of spacing at least `1e-12`. -/
theorem C47_add_partial {K : CellG} {f g : LocPoisson} (hf : f.On K) (hg : g.On K) :
    ∃ r, f.add (.poisson g) = .ok r ∧ r.On K ∧ LocPoisson.Comb (PolyNear 1 1) 1 1 f g r ∧
      ∀ δ : ℝ, 1 / 10 ^ 12 ≤ δ → (∀ p ∈ f.polys ++ g.polys, Poly.OnLattice δ p) → LocPoisson.Comb (PolyComb 1 1) 1 1 f g r := by
  obtain ⟨r, hr, ro, rc⟩ := poisson_add hf hg
  refine ⟨r, hr, ro, rc.mono fun u _ v _ w hw => ?_, fun δ hδ hl => rc.mono fun u hu v hv w hw x y => ?_⟩
  · rw [hw]; exact near_add u v
  · rw [hw, one_mul, one_mul]
    exact (C05_exact u v δ hδ (hl u (by simp [hu])) (hl v (by simp [hv])) x y).1

/-- C47: the product with a number -/
theorem C47_mul_partial {K : CellG} {f : LocPoisson} (hf : f.On K) (c : ℝ) :
    ∃ r, f.mul (.num c) = .ok r ∧ r.On K ∧ LocPoisson.Comb (PolyNear c 0) c 0 f f r ∧
      ∀ δ : ℝ, 1 / 10 ^ 12 ≤ δ → 1 / 10 ^ 12 ≤ δ * |c| → (∀ p ∈ f.polys, Poly.OnLattice δ p) →
        LocPoisson.Comb (fun p _ r => ∀ x y, r.eval x y = c * p.eval x y) c 0 f f r := by
  obtain ⟨r, hr, ro, rc⟩ := poisson_mul hf c
  refine ⟨r, hr, ro, ?_, fun δ hδ hc hl => rc.mono fun u hu v hv w hw x y => ?_⟩
  · obtain ⟨p, q, s, hp, hq, hs, h0⟩ := rc.poly
    rw [hp] at hq; cases hq
    refine ⟨rc.cell, ⟨p, p, s, hp, hp, hs, ?_⟩, rc.harm, rc.intVals, rc.intGrad1, rc.intGrad2⟩
    have key : ∀ {x z : Option (Poly ℝ)}, Related (fun p _ r => r = p.smul c) x x z → Related (PolyNear c 0) x x z := by
      rintro x z ⟨u, v, w, hu, hv, hw, h1⟩
      rw [hu] at hv; cases hv
      exact ⟨u, u, w, hu, hu, hw, by rw [h1]; exact near_smul c u⟩
    exact ⟨by rw [h0.exact]; exact near_smul c _, h0.trace, key h0.grad1, key h0.grad2, key h0.antilap, h0.antilapTrace⟩
  · rw [hw]
    exact (C05_exact u u δ hδ (hl u hu) (hl u hu) x y).2.2.2.2.1 c hc

theorem comb_trans {x y : Option (List ℝ)} : combOpt 1 1 x (combOpt (-1) 0 y y) = combOpt 1 (-1) x y := by
  rw [combOpt_self, combOpt_add, combOpt_sub]
  cases x <;> cases y <;> simp [Trace.pointwise, List.zipWith_map_right, sub_eq_add_neg]

theorem Trace.Comb.trans {t s m r : Trace} (h1 : Trace.Comb (-1) 0 s s m) (h2 : Trace.Comb 1 1 t m r) : Trace.Comb 1 (-1) t s r :=
  ⟨h2.edges, by rw [h2.values, h1.values, comb_trans], by rw [h2.wnd, h1.wnd, comb_trans], by rw [h2.wtd, h1.wtd, comb_trans]⟩

theorem Related.trans {α : Type} {R S T : α → α → α → Prop} (h : ∀ t s m r, R s s m → S t m r → T t s r) {x y m z : Option α}
    (h1 : Related R y y m) (h2 : Related S x m z) : Related T x y z := by
  obtain ⟨u, v, w, hu, hv, hw, h0⟩ := h1
  obtain ⟨u', v', w', hu', hv', hw', h0'⟩ := h2
  rw [hu] at hv; cases hv
  rw [hw] at hv'; cases hv'
  exact ⟨u', u, w', hu', hu, hw', h _ _ _ _ h0 h0'⟩

theorem LocHarm.Comb.trans {f g m r : LocHarm} (h1 : LocHarm.Comb (-1) 0 g g m) (h2 : LocHarm.Comb 1 1 f m r) :
    LocHarm.Comb 1 (-1) f g r :=
  ⟨h1.trace.trans h2.trace, Related.trans (T := Trace.Comb 1 (-1)) (fun _ _ _ _ => Trace.Comb.trans) h1.psi h2.psi,
    Related.trans (T := Trace.Comb 1 (-1)) (fun _ _ _ _ => Trace.Comb.trans) h1.conj h2.conj, by rw [h2.logCoef, h1.logCoef, comb_trans],
    Related.trans (T := Related (Trace.Comb 1 (-1)))
      (fun _ _ _ _ a b => Related.trans (T := Trace.Comb 1 (-1)) (fun _ _ _ _ => Trace.Comb.trans) a b) h1.biharm h2.biharm⟩

/-- C47: the difference -/
theorem C47_sub_partial {K : CellG} {f g : LocPoisson} (hf : f.On K) (hg : g.On K) :
    ∃ r, f.sub (.poisson g) = .ok r ∧ r.On K ∧ LocPoisson.Comb (PolyNear 1 (-1)) 1 (-1) f g r ∧
      ∀ δ : ℝ, 1 / 10 ^ 12 ≤ δ → (∀ p ∈ f.polys ++ g.polys, Poly.OnLattice δ p) →
        LocPoisson.Comb (PolyComb 1 (-1)) 1 (-1) f g r := by
  obtain ⟨m, hm, mo, mc⟩ := poisson_mul hg (-1)
  obtain ⟨r, hr, ro, rc⟩ := poisson_add hf mo
  have key : LocPoisson.Comb (fun p q r => r = p.sub q) 1 (-1) f g r := by
    refine ⟨rc.cell, ?_, Related.trans (T := LocHarm.Comb 1 (-1)) (fun _ _ _ _ => LocHarm.Comb.trans) mc.harm rc.harm,
      by rw [rc.intVals, mc.intVals, comb_trans],
      by rw [rc.intGrad1, mc.intGrad1, comb_trans], by rw [rc.intGrad2, mc.intGrad2, comb_trans]⟩
    refine Related.trans (fun t s m r h1 h2 => ?_) mc.poly rc.poly
    have hp : ∀ p q m r : Poly ℝ, m = q.smul (-1) → r = p.add m → r = p.sub q := by
      intro p q m r h1 h2; rw [h2, h1]; rfl
    exact ⟨hp _ _ _ _ h1.exact h2.exact, Related.trans (T := Trace.Comb 1 (-1)) (fun _ _ _ _ => Trace.Comb.trans) h1.trace h2.trace,
      Related.trans hp h1.grad1 h2.grad1, Related.trans hp h1.grad2 h2.grad2, Related.trans hp h1.antilap h2.antilap,
      Related.trans (T := Trace.Comb 1 (-1)) (fun _ _ _ _ => Trace.Comb.trans) h1.antilapTrace h2.antilapTrace⟩
  refine ⟨r, ?_, ro, key.mono fun u _ v _ w hw => ?_, fun δ hδ hl => key.mono fun u hu v hv w hw x y => ?_⟩
  · simp only [LocPoisson.sub, Obj.times, hm, py_ok_bind]; exact hr
  · rw [hw]; exact near_sub u v
  · rw [hw, one_mul, neg_one_mul, ← sub_eq_add_neg]
    exact (C05_exact u v δ hδ (hl u (by simp [hu])) (hl v (by simp [hv])) x y).2.2.1

/-- C47: division by a number is multiplication by its inverse; division by zero raises `ValueError` -/
theorem C47_div_partial {K : CellG} {f : LocPoisson} (hf : f.On K) (c : ℝ) :
    (c ≠ 0 → ∃ r, f.div (.num c) = .ok r ∧ r.On K ∧ LocPoisson.Comb (PolyNear (1 / c) 0) (1 / c) 0 f f r) ∧
      f.div (.num 0) = .error .valueError := by
  refine ⟨fun hc => ?_, by simp [LocPoisson.div]⟩
  obtain ⟨r, hr, ro, rc, -⟩ := C47_mul_partial hf (1 / c)
  exact ⟨r, by simp only [LocPoisson.div, if_neg hc]; exact hr, ro, rc⟩

/-- C47: what is not a number cannot be multiplied by or divided by, what is not a local Poisson function cannot be added: `TypeError` -/
theorem C47_types (f : LocPoisson) (o : Obj) :
    ((∀ g, o ≠ .poisson g) → f.add o = .error .typeError) ∧
    ((∀ c, o ≠ .num c) → f.mul o = .error .typeError ∧ f.div o = .error .typeError) := by
  cases o <;> simp [LocPoisson.add, LocPoisson.mul, LocPoisson.div]

/-- C47: the parts by themselves, local harmonic functions -/
theorem C47_harmonic {es : List EdgeG} {m : ℕ} {h k : LocHarm} (hh : h.On es m) (hk : k.On es m) (c : ℝ) :
    (∃ r, h.add (.harm k) = .ok r ∧ r.On es m ∧ LocHarm.Comb 1 1 h k r) ∧
    (∃ r, h.sub (.harm k) = .ok r ∧ r.On es m ∧ LocHarm.Comb 1 (-1) h k r) ∧
    (∃ r, h.mul (.num c) = .ok r ∧ r.On es m ∧ LocHarm.Comb c 0 h h r) ∧
    (c ≠ 0 → ∃ r, h.div (.num c) = .ok r ∧ r.On es m ∧ LocHarm.Comb (1 / c) 0 h h r) := by
  refine ⟨harm_add hh hk, ?_, harm_map (fun x => mul_comm x c) (fun t ht => trace_mul ht c) hh, fun hc => ?_⟩
  · obtain ⟨m, hm, mo, mc⟩ := harm_map (f := (· * -1)) (fun x => mul_comm x (-1)) (fun t ht => trace_mul ht (-1)) hk
    obtain ⟨r, hr, ro, rc⟩ := harm_add hh mo
    refine ⟨r, ?_, ro, mc.trans rc⟩
    simp only [LocHarm.sub, Obj.times, LocHarm.mul, hm, py_ok_bind]; exact hr
  · obtain ⟨r, hr⟩ := harm_map (f := (· / c)) (fun x => by ring) (fun t ht => trace_div ht hc) hh
    exact ⟨r, by simp only [LocHarm.div, if_neg hc]; exact hr.1, hr.2⟩

/-- C47: the parts by themselves, local polynomials -/
theorem C47_polynomial_partial {es : List EdgeG} {p q : LocPoly} (hp : p.On es) (hq : q.On es) (c : ℝ) :
    (∃ r, p.add (.poly q) = .ok r ∧ r.On es ∧ LocPoly.Comb (PolyNear 1 1) 1 1 p q r) ∧
    (∃ r, p.sub (.poly q) = .ok r ∧ r.On es ∧ LocPoly.Comb (PolyNear 1 (-1)) 1 (-1) p q r) ∧
    (∃ r, p.mul (.num c) = .ok r ∧ r.On es ∧
      LocPoly.Comb (fun p _ r => ∀ x y B, p.MonoBound x y B → |r.eval x y - c * p.eval x y| ≤ (p.length : ℝ) * (1 / 10 ^ 12) * B) c 0 p p r) ∧
    (c ≠ 0 → ∃ r, p.div (.num c) = .ok r ∧ r.On es ∧
      LocPoly.Comb (fun p _ r => ∀ x y B, p.MonoBound x y B → |r.eval x y - p.eval x y / c| ≤ (p.length : ℝ) * (1 / 10 ^ 12) * B)
        (1 / c) 0 p p r) ∧
    p.div (.num 0) = .error .valueError := by
  refine ⟨?_, ?_, ?_, fun hc => ?_, by simp [LocPoly.div]⟩
  · obtain ⟨r, hr, ro, rc⟩ := poly_zip (F := Poly.add) (fun t s ht hs => trace_add ht hs) hp hq
    exact ⟨r, hr, ro, rc.mono fun u _ v _ w hw => by rw [hw]; exact near_add u v⟩
  · obtain ⟨r, hr, ro, rc⟩ := poly_zip (F := Poly.sub) (fun t s ht hs => trace_sub ht hs) hp hq
    exact ⟨r, hr, ro, rc.mono fun u _ v _ w hw => by rw [hw]; exact near_sub u v⟩
  · obtain ⟨r, hr, ro, rc⟩ := poly_map (F := fun p => p.smul c) (fun _ => rfl) (fun t ht => trace_mul ht c) hp
    exact ⟨r, hr, ro, rc.mono fun u _ v _ w hw => by rw [hw]; exact fun x y B hB => C05_smul_error u c x y B hB⟩
  · obtain ⟨r, hr, ro, rc⟩ := poly_map (F := fun p => p.smul (1 / c)) (F' := fun q => q.div c)
      (fun p => by simp only [Poly.div, if_neg hc]) (fun t ht => trace_div ht hc) hp
    refine ⟨r, by simp only [LocPoly.div, if_neg hc]; exact hr, ro, rc.mono fun u _ v _ w hw => ?_⟩
    rw [hw]
    intro x y B hB
    have := C05_smul_error u (1 / c) x y B hB
    rwa [one_div_mul_eq_div] at this

end PFEM
