import Verif.Spec.LocRep
import Verif.Props.LocFun

/-!
Property theorems C47, second part: if two objects hold the data of two functions, then their linear combinations hold the data of the linear
combinations of the functions.
-/

namespace PFEM

/-- the function `a u + b v` -/
def lin (a b : ℝ) (u v : ℝ → ℝ → ℝ) (x y : ℝ) : ℝ := a * u x y + b * v x y

theorem HasGrad.lin {u v : ℝ → ℝ → ℝ} {x y g1 g2 h1 h2 : ℝ} (hu : HasGrad u x y g1 g2) (hv : HasGrad v x y h1 h2) (a b : ℝ) :
    HasGrad (lin a b u v) x y (a * g1 + b * h1) (a * g2 + b * h2) :=
  ⟨(hu.1.const_mul a).fun_add (hv.1.const_mul b), (hu.2.const_mul a).fun_add (hv.2.const_mul b)⟩

theorem HasGradOn.lin {S : Set (ℝ × ℝ)} {u v g1 g2 h1 h2 : ℝ → ℝ → ℝ} (hu : HasGradOn S u g1 g2) (hv : HasGradOn S v h1 h2) (a b : ℝ) :
    HasGradOn S (lin a b u v) (PFEM.lin a b g1 h1) (PFEM.lin a b g2 h2) := fun x y h => (hu x y h).lin (hv x y h) a b

theorem HasLaplacian.lin {S : Set (ℝ × ℝ)} {u v f g : ℝ → ℝ → ℝ} (hu : HasLaplacian S u f) (hv : HasLaplacian S v g) (a b : ℝ) :
    HasLaplacian S (PFEM.lin a b u v) (PFEM.lin a b f g) := by
  obtain ⟨u1, u2, hu⟩ := hu
  obtain ⟨v1, v2, hv⟩ := hv
  refine ⟨PFEM.lin a b u1 v1, PFEM.lin a b u2 v2, fun x y h => ?_⟩
  obtain ⟨gu, u11, u22, hu1, hu2, eu⟩ := hu x y h
  obtain ⟨gv, v11, v22, hv1, hv2, ev⟩ := hv x y h
  refine ⟨gu.lin gv a b, _, _, (hu1.const_mul a).fun_add (hv1.const_mul b), (hu2.const_mul a).fun_add (hv2.const_mul b), ?_⟩
  simp only [PFEM.lin, ← eu, ← ev]; ring

theorem ConjugateOn.lin {S : Set (ℝ × ℝ)} {u u' v v' : ℝ → ℝ → ℝ} (hu : ConjugateOn S u u') (hv : ConjugateOn S v v') (a b : ℝ) :
    ConjugateOn S (PFEM.lin a b u v) (PFEM.lin a b u' v') := by
  obtain ⟨p, q, h1, h2⟩ := hu
  obtain ⟨p', q', h1', h2'⟩ := hv
  refine ⟨PFEM.lin a b p p', PFEM.lin a b q q', h1.lin h1' a b, ?_⟩
  have := h2.lin h2' a b
  refine fun x y h => ?_
  have := this x y h
  simp only [PFEM.lin] at this ⊢
  rwa [show -(a * q x y + b * q' x y) = a * -q x y + b * -q' x y by ring]

theorem zip_map_lin {α : Type} (a b : ℝ) (f g : α → ℝ) (l : List α) :
    List.zipWith (fun x y => a * x + b * y) (l.map f) (l.map g) = l.map fun s => a * f s + b * g s := by
  induction l with
  | nil => rfl
  | cons s l ih => simp [ih]

theorem samplesOf_lin (K : CellG) (a b : ℝ) (u v : ℝ → ℝ → ℝ) :
    List.zipWith (fun x y => a * x + b * y) (K.samplesOf u) (K.samplesOf v) = K.samplesOf (lin a b u v) := zip_map_lin a b _ _ _

theorem normalOf_lin (K : CellG) (a b : ℝ) (g1 g2 h1 h2 : ℝ → ℝ → ℝ) :
    List.zipWith (fun x y => a * x + b * y) (K.normalOf g1 g2) (K.normalOf h1 h2) = K.normalOf (lin a b g1 h1) (lin a b g2 h2) := by
  unfold CellG.normalOf
  rw [zip_map_lin]
  exact List.map_congr_left fun s _ => by simp only [lin]; ring

theorem tangentOf_lin (K : CellG) (a b : ℝ) (g1 g2 h1 h2 : ℝ → ℝ → ℝ) :
    List.zipWith (fun x y => a * x + b * y) (K.tangentOf g1 g2) (K.tangentOf h1 h2) = K.tangentOf (lin a b g1 h1) (lin a b g2 h2) := by
  unfold CellG.tangentOf
  rw [zip_map_lin]
  exact List.map_congr_left fun s _ => by simp only [lin]; ring

theorem TraceOf.lin {K : CellG} {S : Set (ℝ × ℝ)} {u v : ℝ → ℝ → ℝ} {tang : Bool} {t s r : Trace} {a b : ℝ}
    (ht : TraceOf K S u tang t) (hs : TraceOf K S v tang s) (hr : Trace.Comb a b t s r) : TraceOf K S (PFEM.lin a b u v) tang r := by
  obtain ⟨et, vt, mt, g1, g2, ht1, ht2, ht3⟩ := ht
  obtain ⟨es, vs, ms, h1, h2, hs1, hs2, hs3⟩ := hs
  refine ⟨hr.edges.trans et, ?_, mt, PFEM.lin a b g1 h1, PFEM.lin a b g2 h2, HasGradOn.lin ht1 hs1 a b, ?_, ?_⟩
  · rw [hr.values, vt, vs, combOpt, samplesOf_lin]
  · rw [hr.wnd, ht2, hs2, combOpt, normalOf_lin]
  · rw [hr.wtd, ht3, hs3]
    cases tang with
    | false => rfl
    | true => simp only [if_true, combOpt, tangentOf_lin]

theorem withLogs_lin (K : CellG) (c d : ℝ) {a b : List ℝ} (hab : a.length = b.length) (ψ χ : ℝ → ℝ → ℝ) (x y : ℝ) :
    withLogs K (List.zipWith (fun x y => c * x + d * y) a b) (lin c d ψ χ) x y = lin c d (withLogs K a ψ) (withLogs K b χ) x y := by
  have : ∀ (l : List ContourG) (a b : List ℝ), a.length = b.length →
      (List.zipWith (fun c (k : ContourG) => c * logDist (k.interior.getD (Vert.mk' 0 0)) x y)
        (List.zipWith (fun x y => c * x + d * y) a b) l).sum =
      c * (List.zipWith (fun c (k : ContourG) => c * logDist (k.interior.getD (Vert.mk' 0 0)) x y) a l).sum +
        d * (List.zipWith (fun c (k : ContourG) => c * logDist (k.interior.getD (Vert.mk' 0 0)) x y) b l).sum := by
    intro l
    induction l with
    | nil => intro a b _; simp
    | cons k l ih =>
      intro a b h
      match a, b, h with
      | [], [], _ => simp
      | p :: a, q :: b, h =>
        simp only [List.zipWith_cons_cons, List.sum_cons, ih a b (by simpa using h)]
        ring
  simp only [withLogs, lin, this _ a b hab]
  ring

theorem LocPoly.Holds.lin {K : CellG} {p q r : LocPoly} {P Q : ℝ → ℝ → ℝ} {a b : ℝ} (hp : p.Holds K P) (hq : q.Holds K Q)
    (hr : LocPoly.Comb (PolyComb a b) a b p q r) : r.Holds K (PFEM.lin a b P Q) := by
  have ev : ∀ {u v w : Poly ℝ}, PolyComb a b u v w → w.eval = PFEM.lin a b u.eval v.eval := fun h => funext fun x => funext fun y => h x y
  refine ⟨?_, ?_, ?_, ?_⟩
  · intro x y
    rw [hr.exact x y, hp.exact, hq.exact]; rfl
  · obtain ⟨g1, g2, e1, e2, hg⟩ := hp.grads
    obtain ⟨k1, k2, e1', e2', hk⟩ := hq.grads
    obtain ⟨u, v, w, hu, hv, hw, h1⟩ := hr.grad1
    obtain ⟨u', v', w', hu', hv', hw', h2⟩ := hr.grad2
    rw [e1] at hu; cases hu
    rw [e1'] at hv; cases hv
    rw [e2] at hu'; cases hu'
    rw [e2'] at hv'; cases hv'
    refine ⟨w, w', hw, hw', ?_⟩
    rw [ev h1, ev h2]
    exact hg.lin hk a b
  · obtain ⟨t, et, ht⟩ := hp.trace
    obtain ⟨s, es, hs⟩ := hq.trace
    obtain ⟨u, v, w, hu, hv, hw, h1⟩ := hr.trace
    rw [et] at hu; cases hu
    rw [es] at hv; cases hv
    exact ⟨w, hw, ht.lin hs h1⟩
  · obtain ⟨m, em, lm, t, et, ht⟩ := hp.antilap
    obtain ⟨n, en, ln, s, es, hs⟩ := hq.antilap
    obtain ⟨u, v, w, hu, hv, hw, h1⟩ := hr.antilap
    obtain ⟨u', v', w', hu', hv', hw', h2⟩ := hr.antilapTrace
    rw [em] at hu; cases hu
    rw [en] at hv; cases hv
    rw [et] at hu'; cases hu'
    rw [es] at hv'; cases hv'
    refine ⟨w, hw, ?_, w', hw', ?_⟩
    · rw [ev h1]; exact lm.lin ln a b
    · rw [ev h1]; exact ht.lin hs h2

theorem LocHarm.Holds.lin {K : CellG} {S : Set (ℝ × ℝ)} {h k r : LocHarm} {φ χ : ℝ → ℝ → ℝ} {a b : ℝ} (hh : h.Holds K S φ)
    (hk : k.Holds K S χ) (hr : LocHarm.Comb a b h k r) : r.Holds K S (PFEM.lin a b φ χ) := by
  refine ⟨?_, hh.trace.lin hk.trace hr.trace, ?_⟩
  · obtain ⟨ψ, ψ', c, hc, ec, lc, hφ, ⟨t, et, vt⟩, s, es, vs⟩ := hh.parts
    obtain ⟨ω, ω', d, hd, ed, ld, hχ, ⟨t', et', vt'⟩, s', es', vs'⟩ := hk.parts
    refine ⟨PFEM.lin a b ψ ω, PFEM.lin a b ψ' ω', List.zipWith (fun x y => a * x + b * y) c d, hc.lin hd a b, ?_, ?_, ?_, ?_, ?_⟩
    · rw [hr.logCoef, ec, ed]; rfl
    · rw [List.length_zipWith, lc, ld, Nat.min_self]
    · intro x y hS
      rw [withLogs_lin K a b (lc.trans ld.symm)]
      simp only [PFEM.lin, hφ x y hS, hχ x y hS]
    · obtain ⟨u, v, w, hu, hv, hw, h1⟩ := hr.psi
      rw [et] at hu; cases hu
      rw [et'] at hv; cases hv
      exact ⟨w, hw, by rw [h1.values, vt, vt', combOpt, samplesOf_lin]⟩
    · obtain ⟨u, v, w, hu, hv, hw, h1⟩ := hr.conj
      rw [es] at hu; cases hu
      rw [es'] at hv; cases hv
      exact ⟨w, hw, by rw [h1.values, vs, vs', combOpt, samplesOf_lin]⟩
  · obtain ⟨t, v, w, et, ev, ew, P, g1, g2, hP, hg, rfl, rfl⟩ := hh.biharm
    obtain ⟨t', v', w', et', ev', ew', P', g1', g2', hP', hg', rfl, rfl⟩ := hk.biharm
    obtain ⟨u, v, w, hu, hv, hw, h1⟩ := hr.biharm
    rw [et] at hu; cases hu
    rw [et'] at hv; cases hv
    obtain ⟨u, v, z, hu, hv, hz, h1⟩ := h1
    cases hu; cases hv; subst hz
    refine ⟨z, K.samplesOf (PFEM.lin a b P P'), K.normalOf (PFEM.lin a b g1 g1') (PFEM.lin a b g2 g2'), hw, ?_, ?_,
      PFEM.lin a b P P', PFEM.lin a b g1 g1', PFEM.lin a b g2 g2', hP.lin hP' a b, hg.lin hg' a b, rfl, rfl⟩
    · rw [h1.values, ev, ev', combOpt, samplesOf_lin]
    · rw [h1.wnd, ew, ew', combOpt, normalOf_lin]

theorem LocPoisson.Holds.lin {K : CellG} {S : Set (ℝ × ℝ)} {f g r : LocPoisson} {u v : ℝ → ℝ → ℝ} {a b : ℝ} (hf : f.Holds K S u)
    (hg : g.Holds K S v) (hr : LocPoisson.Comb (PolyComb a b) a b f g r) : r.Holds K S (PFEM.lin a b u v) := by
  obtain ⟨h, p, φ, P, eh, ep, hh, hp, hu⟩ := hf
  obtain ⟨k, q, χ, Q, ek, eq, hk, hq, hv⟩ := hg
  obtain ⟨h', k', s, hu1, hv1, hs, h1⟩ := hr.harm
  obtain ⟨p', q', o, hu2, hv2, ho, h2⟩ := hr.poly
  rw [eh] at hu1; cases hu1
  rw [ek] at hv1; cases hv1
  rw [ep] at hu2; cases hu2
  rw [eq] at hv2; cases hv2
  refine ⟨s, o, _, _, hs, ho, hh.lin hk h1, hp.lin hq h2, fun x y hS => ?_⟩
  simp only [PFEM.lin, hu x y hS, hv x y hS]; ring

theorem lin_congr {K : CellG} {S : Set (ℝ × ℝ)} {f : LocPoisson} {u v : ℝ → ℝ → ℝ} (hf : f.Holds K S u) (h : v = u) : f.Holds K S v := by
  rw [h]; exact hf

/-- C47: the operators follow the functions.  If `f` and `g` hold the data of `u` and `v` (all traces, derivatives, conjugates, logarithmic
coefficients, anti-Laplacians), then `f + g`, `f - g` hold those of `u + v`, `u - v`, provided the coefficients of the polynomials lie on a
lattice of spacing at least `1e-12`. -/
theorem C47_functions_partial {K : CellG} {S : Set (ℝ × ℝ)} {f g : LocPoisson} (hf : f.On K) (hg : g.On K) {u v : ℝ → ℝ → ℝ}
    (hu : f.Holds K S u) (hv : g.Holds K S v) {δ : ℝ} (hδ : 1 / 10 ^ 12 ≤ δ) (hl : ∀ p ∈ f.polys ++ g.polys, Poly.OnLattice δ p) :
    (∃ r, f.add (.poisson g) = .ok r ∧ r.Holds K S fun x y => u x y + v x y) ∧
    ∃ r, f.sub (.poisson g) = .ok r ∧ r.Holds K S fun x y => u x y - v x y := by
  obtain ⟨r, hr, -, -, hc⟩ := C47_add_partial hf hg
  obtain ⟨s, hs, -, -, hd⟩ := C47_sub_partial hf hg
  refine ⟨⟨r, hr, lin_congr (hu.lin hv (hc δ hδ hl)) ?_⟩, s, hs, lin_congr (hu.lin hv (hd δ hδ hl)) ?_⟩ <;>
  · funext x y; simp only [lin]; ring

/-- C47: … and `c * f` holds those of `c u`, `f / c` those of `u / c`. -/
theorem C47_multiples_partial {K : CellG} {S : Set (ℝ × ℝ)} {f : LocPoisson} (hf : f.On K) {u : ℝ → ℝ → ℝ} (hu : f.Holds K S u) {δ : ℝ}
    (hδ : 1 / 10 ^ 12 ≤ δ) (hl : ∀ p ∈ f.polys, Poly.OnLattice δ p) (c : ℝ) :
    (1 / 10 ^ 12 ≤ δ * |c| → ∃ r, f.mul (.num c) = .ok r ∧ r.Holds K S fun x y => c * u x y) ∧
    (c ≠ 0 → 1 / 10 ^ 12 ≤ δ / |c| → ∃ r, f.div (.num c) = .ok r ∧ r.Holds K S fun x y => u x y / c) := by
  have key : ∀ c : ℝ, 1 / 10 ^ 12 ≤ δ * |c| → ∃ r, f.mul (.num c) = .ok r ∧ r.Holds K S fun x y => c * u x y := by
    intro c hc
    obtain ⟨r, hr, -, -, hd⟩ := C47_mul_partial hf c
    have h1 := hd δ hδ hc hl
    refine ⟨r, hr, lin_congr (hu.lin hu (a := c) (b := 0) (h1.mono fun p _ q _ w hw x y => ?_)) ?_⟩
    · rw [hw x y]; ring
    · funext x y; simp only [lin]; ring
  refine ⟨key c, fun h0 hc => ?_⟩
  obtain ⟨r, hr, h⟩ := key (1 / c) (by rw [abs_div, abs_one]; rwa [mul_one_div])
  refine ⟨r, by simp only [LocPoisson.div, if_neg h0]; exact hr, lin_congr h ?_⟩
  funext x y; ring

end PFEM
