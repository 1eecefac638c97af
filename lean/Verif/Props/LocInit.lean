import Verif.Props.LocRep
import Verif.Props.AntilapCell
import Verif.Props.AntiLap
import Verif.Props.PolyCalc

/-!
Property theorems C72: a local polynomial made from a polynomial and a cell holds the data of that polynomial.
-/

namespace PFEM
open Poly

theorem grad_eq (p : Poly ℝ) : p.grad = .ok (nz (p.map Mono.dx), nz (p.map Mono.dy)) := by
  unfold grad
  rw [partialDeriv_x, partialDeriv_y]
  rfl

theorem onBoundary_ok {K : CellG} (h : K.Ready) (p : Poly ℝ) : p.onBoundary K = .ok (K.samplesOf p.eval) := by
  simp only [Poly.onBoundary, h.getBoundaryPoints, bind, Except.bind]
  rw [List.zipWith_map, List.zipWith_self]
  rfl

theorem polyNormal_ok {K : CellG} (h : K.Ready) {p gx gy : Poly ℝ} (hg : p.grad = .ok (gx, gy)) :
    p.weightedNormal K = .ok (K.normalOf gx.eval gy.eval) := by
  simp only [Poly.weightedNormal, h.getBoundaryPoints, hg, bind, Except.bind]
  rw [List.zipWith_map, List.zipWith_self, List.zipWith_map, List.zipWith_self]
  exact weightedNormal_map h _ _

theorem polyTangent_ok {K : CellG} (h : K.Ready) {p gx gy : Poly ℝ} (hg : p.grad = .ok (gx, gy)) :
    p.weightedTangent K = .ok (K.tangentOf gx.eval gy.eval) := by
  simp only [Poly.weightedTangent, h.getBoundaryPoints, hg, bind, Except.bind]
  rw [List.zipWith_map, List.zipWith_self, List.zipWith_map, List.zipWith_self]
  exact weightedTangent_map h _ _

theorem normal_len {K : CellG} (h : K.Ready) (g1 g2 : ℝ → ℝ → ℝ) : (K.normalOf g1 g2).length = K.numPts := by simp [CellG.normalOf, h.numPts]
theorem tangent_len {K : CellG} (h : K.Ready) (g1 g2 : ℝ → ℝ → ℝ) : (K.tangentOf g1 g2).length = K.numPts := by simp [CellG.tangentOf, h.numPts]

theorem made_on {K : CellG} (h : K.Ready) {v : List ℝ} {w d : Option (List ℝ)} (hv : v.length = K.numPts)
    (hw : ∀ a, w = some a → a.length = K.numPts) (hd : ∀ a, d = some a → a.length = K.numPts) :
    (Trace.made K.getEdges (some v) w d).On K.getEdges :=
  ⟨made_good h (fun _ e => by cases e; exact hv) hw hd, Trace.edges_bare _, v, rfl⟩

theorem polyInit_eq {K : CellG} (h : K.Ready) {p g1 g2 q k1 k2 : Poly ℝ} (hg : p.grad = .ok (g1, g2)) (hq : p.antiLaplacian = .ok q)
    (hk : q.grad = .ok (k1, k2)) : LocPoly.init p (some K) = .ok ⟨p,
      some (Trace.made K.getEdges (some (K.samplesOf p.eval)) (some (K.normalOf g1.eval g2.eval)) (some (K.tangentOf g1.eval g2.eval))),
      some g1, some g2, some q, some (Trace.made K.getEdges (some (K.samplesOf q.eval)) (some (K.normalOf k1.eval k2.eval)) none)⟩ := by
  simp only [LocPoly.init, onBoundary_ok h, py_ok_bind, init_arr h (samples_len h _), hg, polyNormal_ok h hg, polyTangent_ok h hg,
    made_setWnd h _ _ _ (normal_len h _ _), made_setWtd h _ _ _ (tangent_len h _ _), hq, polyNormal_ok h hk]

/-- the Laplacian of the anti-Laplacian -/
theorem antilap_laplacian (p : Poly ℝ) (hp : Canonical p) (δ : ℝ) (hl : OnLattice δ p)
    (hδ : ∀ m ∈ p, ∀ n, n = m.alpha.x + m.alpha.y →
      ((4 ^ (n / 2 + 1) * (n / 2 + 1).factorial * (n + 1).descFactorial (n / 2 + 1) : ℕ) : ℝ) * (1 / 10 ^ 12) ≤ δ) :
    HasLaplacian Set.univ (alP p).eval p.eval := by
  obtain ⟨q, hq, h⟩ := C09_right_inverse_partial p hp δ hl hδ
  rw [antiLaplacian_ok] at hq
  cases hq
  have hc := (alP_canonical p).2
  refine ⟨(nz ((alP p).map Mono.dx)).eval, (nz ((alP p).map Mono.dy)).eval,
    fun x y _ => ⟨⟨hasDerivAt_dx hc x y, hasDerivAt_dy hc x y⟩, _, _, hasDerivAt_dx (nz_coef _) x y, hasDerivAt_dy (nz_coef _) x y, ?_⟩⟩
  rw [← h x y, deriv2_x hc, deriv2_y hc]

/-- C72: on a parameterized cell `LocalPolynomial(p, K)` succeeds for every polynomial without near-zero terms: all attributes are present, the
trace is that of `p` with its normal and tangential derivatives, the gradient is that of `p`, and the other trace is that of the
anti-Laplacian of `p` with its normal derivative. -/
theorem C72_traces {K : CellG} (h : K.Ready) (p : Poly ℝ) (hp : ∀ m ∈ p, (1 / 10 ^ 12 : ℝ) ≤ |m.coef|) :
    ∃ r g1 g2 q t s, LocPoly.init p (some K) = .ok r ∧ r.On K.getEdges ∧ r.exact = p ∧ r.grad1 = some g1 ∧ r.grad2 = some g2 ∧
      HasGradOn Set.univ p.eval g1.eval g2.eval ∧ r.trace = some t ∧ TraceOf K Set.univ p.eval true t ∧
      p.antiLaplacian = .ok q ∧ r.antilap = some q ∧ r.antilapTrace = some s ∧ TraceOf K Set.univ q.eval false s := by
  have hc := (alP_canonical p).2
  have hl : ∀ {a b : List ℝ}, some b = some a → b.length = K.numPts → a.length = K.numPts := fun e h => by cases e; exact h
  refine ⟨_, nz (p.map Mono.dx), nz (p.map Mono.dy), alP p, _, _, polyInit_eq h (grad_eq p) (antiLaplacian_ok p) (grad_eq _),
    ⟨⟨_, rfl, made_on h (samples_len h _) (fun _ e => hl e (normal_len h _ _)) fun _ e => hl e (tangent_len h _ _)⟩, ⟨_, rfl⟩, ⟨_, rfl⟩,
      ⟨_, rfl⟩, _, rfl, made_on h (samples_len h _) (fun _ e => hl e (normal_len h _ _)) fun _ e => by cases e⟩,
    rfl, rfl, rfl, fun x y _ => ⟨hasDerivAt_dx hp x y, hasDerivAt_dy hp x y⟩, rfl, ?_, antiLaplacian_ok p, rfl, rfl, ?_⟩
  · exact ⟨Trace.edges_bare _, rfl, fun _ _ => trivial, _, _, fun x y _ => ⟨hasDerivAt_dx hp x y, hasDerivAt_dy hp x y⟩, rfl, rfl⟩
  · exact ⟨Trace.edges_bare _, rfl, fun _ _ => trivial, _, _, fun x y _ => ⟨hasDerivAt_dx hc x y, hasDerivAt_dy hc x y⟩, rfl, rfl⟩

/-- C72: … so the object holds the data of `p`, including an anti-Laplacian, when the coefficients lie on a lattice that is coarse enough for
the degree (otherwise terms of the anti-Laplacian may be dropped, see C09). -/
theorem C72_holds_partial {K : CellG} (h : K.Ready) (p : Poly ℝ) (hp : Canonical p) (δ : ℝ) (hl : OnLattice δ p)
    (hδ : ∀ m ∈ p, ∀ n, n = m.alpha.x + m.alpha.y →
      ((4 ^ (n / 2 + 1) * (n / 2 + 1).factorial * (n + 1).descFactorial (n / 2 + 1) : ℕ) : ℝ) * (1 / 10 ^ 12) ≤ δ) :
    ∃ r, LocPoly.init p (some K) = .ok r ∧ r.On K.getEdges ∧ r.Holds K p.eval := by
  obtain ⟨r, g1, g2, q, t, s, hr, ho, e, e1, e2, hg, et, ht, eq, eq', es, hs⟩ := C72_traces h p hp.2
  rw [antiLaplacian_ok] at eq
  cases eq
  exact ⟨r, hr, ho, fun x y => by rw [e], ⟨g1, g2, e1, e2, hg⟩, ⟨t, et, ht⟩, _, eq', antilap_laplacian p hp δ hl hδ, s, es, hs⟩

/-- C72: without a cell there is the polynomial and nothing else; the operators then raise `AttributeError`. -/
theorem C72_without_cell (p : Poly ℝ) : ∃ r, LocPoly.init p none = .ok r ∧ r.exact = p ∧ ∀ o, r.add (.poly o) = .error .attributeError :=
  ⟨_, rfl, rfl, fun _ => rfl⟩

/-- C47 as stated is false for tiny coefficients: `LocalPolynomial` for the polynomial `1e-12`, times `1/2`, has the zero polynomial as its
exact form, though its trace is `5e-13`. -/
theorem C47_tiny_coefficient {K : CellG} (h : K.Ready) : ∃ p r t, LocPoly.init [⟨⟨0, 0⟩, 1 / 10 ^ 12⟩] (some K) = .ok p ∧
    p.mul (.num (1 / 2)) = .ok r ∧ r.exact = [] ∧ r.trace = some t ∧ t.values = some (K.samplesOf fun _ _ => 1 / 10 ^ 12 / 2) := by
  have hp : ∀ m ∈ ([⟨⟨0, 0⟩, 1 / 10 ^ 12⟩] : Poly ℝ), (1 / 10 ^ 12 : ℝ) ≤ |m.coef| := by
    intro m hm
    rw [List.mem_singleton.1 hm]
    exact le_abs_self _
  obtain ⟨p, -, -, -, t, -, hi, ho, he, -, -, -, et, ht, -⟩ := C72_traces h _ hp
  obtain ⟨r, hr, -, rc⟩ := poly_map (F := fun p => p.smul (1 / 2)) (fun _ => rfl) (fun t ht => trace_mul ht (1 / 2)) ho
  obtain ⟨u, v, w, hu, hv, hw, hc⟩ := rc.trace
  rw [et] at hu hv
  cases hu
  cases hv
  refine ⟨p, r, w, hi, hr, ?_, hw, ?_⟩
  · rw [rc.exact, he, smul_eq]
    norm_num [nz, Mono.smul, Mono.isZero, tol, abs_of_pos]
  · rw [hc.values, ht.2.1, combOpt, samplesOf_lin]
    congr 2
    funext x y
    simp [lin, Poly.eval, Mono.eval]
    ring

/-! ### a complete object: `u = x + 1` on the disc, `x` harmonic and `1` polynomial -/

/-- the polynomial `1` -/
def onePoly : Poly ℝ := [⟨⟨0, 0⟩, 1⟩]

theorem one_canonical : Canonical onePoly := ⟨by simp [onePoly], by simp only [onePoly, List.mem_singleton, forall_eq, tol]; norm_num⟩

theorem one_lattice : OnLattice 1 onePoly := fun m hm => by
  simp only [onePoly, List.mem_singleton] at hm; subst hm; exact ⟨1, by simp⟩

theorem one_alP : alP ([⟨⟨0, 0⟩, 1⟩] : Poly ℝ) = [⟨⟨2, 0⟩, 1/4⟩, ⟨⟨0, 2⟩, 1/4⟩] := by
  have hq : Canonical ([⟨⟨2, 0⟩, 1/4⟩, ⟨⟨0, 2⟩, 1/4⟩] : Poly ℝ) := by
    refine ⟨by simp; decide, ?_⟩
    intro m hm
    simp at hm
    rcases hm with rfl | rfl <;> norm_num [tol, abs_of_pos]
  have hz : ∀ a : MultiIndex, (Mono.mk a (1/4 : ℝ)).isZero = false := by
    intro a; norm_num [Mono.isZero, tol, abs_of_pos]
  have ho : addMonomial [] (⟨⟨0, 0⟩, 1⟩ : Mono ℝ) = [⟨⟨0, 0⟩, 1⟩] := by
    simp [addMonomial, one_not_isZero]
  have hm : mulP (rsq ℝ) [⟨⟨0, 0⟩, 1⟩] = rsq ℝ := by
    have : nz (prods (rsq ℝ) [⟨⟨0, 0⟩, 1⟩]) = rsq ℝ := by
      simp [prods, rsq, nz, Mono.times, one_not_isZero]
      exact ⟨rfl, rfl⟩
    rw [mulP, this, consolidate_eq_self rsq_canonical]
  have h0 : (⟨0, 0⟩ : MultiIndex).order = 0 := rfl
  have hs : smul (rsq ℝ) (1 / 4 / (1 + ((0 : ℕ) : ℝ))) = [⟨⟨2, 0⟩, 1/4⟩, ⟨⟨0, 2⟩, 1/4⟩] := by
    have : (1 / 4 / (1 + ((0 : ℕ) : ℝ))) = 1 / 4 := by norm_num
    rw [this]
    simp only [smul, rsq, addAll, List.map_cons, List.map_nil, Mono.smul, one_mul, List.foldl_cons, List.foldl_nil, addMonomial, hz]
    simp
  have hP : alMono (⟨⟨0, 0⟩, 1⟩ : Mono ℝ) = [⟨⟨2, 0⟩, 1/4⟩, ⟨⟨0, 2⟩, 1/4⟩] := by
    simp only [alMono, ho, hm, h0, hs, Nat.zero_div, alLoop]
  simp only [alP, List.foldl_cons, List.foldl_nil, hP, iadd, addAll, addMonomial, hz]
  simpa using consolidate_eq_self hq

/-- the polynomial `1` on any parameterized cell -/
theorem one_holds {K : CellG} (h : K.Ready) : ∃ r, LocPoly.init onePoly (some K) = .ok r ∧ r.On K.getEdges ∧ r.Holds K onePoly.eval :=
  C72_holds_partial h onePoly one_canonical 1 one_lattice (by
    intro m hm n hn
    simp only [onePoly, List.mem_singleton] at hm
    subst hm hn
    simp [Nat.descFactorial]
    norm_num)

example : ∃ r, LocPoly.init onePoly (some annulusCell) = .ok r ∧ r.On annulusCell.getEdges ∧ r.Holds annulusCell onePoly.eval :=
  one_holds annulus_ready.1

/-- the data of `x` as a harmonic function on a cell without holes -/
noncomputable def xHarm (K : CellG) : LocHarm where
  trace := Trace.made K.getEdges (some (K.samplesOf fun x _ => x)) (some (K.normalOf (fun _ _ => 1) fun _ _ => 0))
    (some (K.tangentOf (fun _ _ => 1) fun _ _ => 0))
  psi := some (Trace.made K.getEdges (some (K.samplesOf fun x _ => x)) none none)
  conj := some (Trace.made K.getEdges (some (K.samplesOf fun _ y => y)) none none)
  logCoef := some []
  biharm := some (some (Trace.made K.getEdges (some (K.samplesOf fun x _ => x ^ 3 / 6))
    (some (K.normalOf (fun x _ => x ^ 2 / 2) fun _ _ => 0)) none))

theorem x_cubed (x y : ℝ) : HasGrad (fun x _ => x ^ 3 / 6) x y (x ^ 2 / 2) 0 :=
  ⟨((hasDerivAt_pow 3 x).div_const 6).congr_deriv (by norm_num; ring), hasDerivAt_const _ _⟩

theorem xHarm_holds {K : CellG} (h : K.Ready) (h0 : K.numHoles = 0) :
    (xHarm K).On K.getEdges K.numHoles ∧ (xHarm K).Holds K Set.univ fun x _ => x := by
  have hl : ∀ {a b : List ℝ}, some b = some a → b.length = K.numPts → a.length = K.numPts := fun e h => by cases e; exact h
  refine ⟨⟨?_, ⟨_, rfl, ?_⟩, ⟨_, rfl, ?_⟩, ⟨[], rfl, h0.symm⟩, _, rfl, ?_⟩, ⟨⟨fun x _ => x, fun _ y => y, [], ?_, rfl, h0.symm, ?_, ⟨_, rfl, rfl⟩,
    _, rfl, rfl⟩, ⟨Trace.edges_bare _, rfl, fun _ _ => trivial, _, _, grad_x _, rfl, rfl⟩, _, _, _, rfl, rfl, rfl, ?_⟩⟩
  · exact made_on h (samples_len h _) (fun _ e => hl e (normal_len h _ _)) fun _ e => hl e (tangent_len h _ _)
  · exact made_on h (samples_len h _) (fun _ e => by cases e) fun _ e => by cases e
  · exact made_on h (samples_len h _) (fun _ e => by cases e) fun _ e => by cases e
  · exact made_on h (samples_len h _) (fun _ e => hl e (normal_len h _ _)) fun _ e => by cases e
  · exact ⟨fun _ _ => 1, fun _ _ => 0, grad_x _, by simpa using grad_y Set.univ⟩
  · intro x y _; simp [withLogs]
  · refine ⟨fun x _ => x ^ 3 / 6, _, _, ⟨fun x _ => x ^ 2 / 2, fun _ _ => 0, fun x y _ => ⟨x_cubed x y, x, 0, ?_, hasDerivAt_const _ _, by simp⟩⟩,
      fun x y _ => x_cubed x y, rfl, rfl⟩
    exact ((hasDerivAt_pow 2 x).div_const 2).congr_deriv (by norm_num)

/-- `x + 1` on the disc: a complete object, as the theorems about sums and multiples ask for -/
theorem disc_poisson : ∃ f : LocPoisson, f.On discCell ∧ f.Holds discCell Set.univ (fun x _ => x + 1) ∧ ∀ p ∈ f.polys, OnLattice (1 / 4) p := by
  obtain ⟨p, hp, ho, hh⟩ := one_holds disc_ready.1
  obtain ⟨xo, xh⟩ := xHarm_holds disc_ready.1 (by simp [discCell, CellG.numHoles])
  refine ⟨⟨some discCell, some p, some (xHarm discCell), none, none, none⟩, ⟨rfl, ⟨_, rfl, ho⟩, ⟨_, rfl, xo⟩, nofun, nofun, nofun⟩,
    ⟨_, _, _, _, rfl, rfl, xh, hh, fun x y _ => by simp [onePoly, Poly.eval, Mono.eval]⟩, ?_⟩
  rw [polyInit_eq disc_ready.1 (grad_eq _) (antiLaplacian_ok _) (grad_eq _)] at hp
  cases hp
  intro q hq
  have hd : ∀ m ∈ nz (onePoly.map Mono.dx) ++ nz (onePoly.map Mono.dy), m.coef = 0 := by
    intro m hm
    simp only [nz, List.mem_append, List.mem_filter, onePoly, List.map_cons, List.map_nil, List.mem_singleton] at hm
    rcases hm with ⟨rfl, -⟩ | ⟨rfl, -⟩ <;> simp [Mono.dx, Mono.dy]
  simp only [LocPoisson.polys, LocPoly.polys, Option.map_some, Option.getD_some, Option.toList_some, List.mem_cons, List.mem_append,
    List.not_mem_nil, or_false] at hq
  rcases hq with rfl | (rfl | rfl) | rfl
  · intro m hm
    simp only [onePoly, List.mem_singleton] at hm
    subst hm
    exact ⟨4, by norm_num⟩
  · exact fun m hm => ⟨0, by rw [hd m (List.mem_append_left _ hm)]; simp⟩
  · exact fun m hm => ⟨0, by rw [hd m (List.mem_append_right _ hm)]; simp⟩
  · intro m hm
    rw [onePoly, one_alP] at hm
    simp only [List.mem_cons, List.not_mem_nil, or_false] at hm
    rcases hm with rfl | rfl <;> exact ⟨1, by norm_num⟩

/-- … so its double holds `2 (x + 1)`, and the sum of the object with itself `(x + 1) + (x + 1)` -/
example : ∃ f r s : LocPoisson, f.On discCell ∧ f.mul (.num 2) = .ok r ∧ r.Holds discCell Set.univ (fun x _ => 2 * (x + 1)) ∧
    f.add (.poisson f) = .ok s ∧ s.Holds discCell Set.univ fun x _ => x + 1 + (x + 1) := by
  obtain ⟨f, ho, hh, hl⟩ := disc_poisson
  obtain ⟨r, hr, h1⟩ := (C47_multiples_partial ho hh (δ := 1 / 4) (by norm_num) hl 2).1 (by norm_num)
  obtain ⟨⟨s, hs, h2⟩, -⟩ := C47_functions_partial ho ho hh hh (δ := 1 / 4) (by norm_num) (by simpa using hl)
  exact ⟨f, r, s, ho, hr, h1, hs, h2⟩

end PFEM
