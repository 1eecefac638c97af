import Verif.Spec.Parts
import Verif.Props.AreaIntegral
import Verif.Props.DiscInner

/-!
Property theorems C102: inner products of local functions converge to the integrals over the region that the boundary of the cell encloses.
-/

namespace PFEM
open Set MeasureTheory Poly

/-! ### Green's identities -/

theorem SmoothLap.one {A : Set (ℝ × ℝ)} {k : ℕ} (hk : 1 ≤ k) {f f1 f2 l : ℝ → ℝ → ℝ} (h : SmoothLap A k f f1 f2 l) :
    SmoothLap A 1 f f1 f2 l :=
  have : ((1 : ℕ) : WithTop ℕ∞) ≤ (k : ℕ) := by exact_mod_cast hk
  ⟨fun q hq => (h.fn q hq).of_le this, fun q hq => (h.fn1 q hq).of_le this, fun q hq => (h.fn2 q hq).of_le this, h.grad, h.lap⟩

theorem poly_contDiff (p : Poly ℝ) (k : ℕ) : ContDiff ℝ k fun q : ℝ × ℝ => p.eval q.1 q.2 := by
  induction p with
  | nil => simpa [Poly.eval] using contDiff_const
  | cons m l ih =>
    have : (fun q : ℝ × ℝ => Poly.eval (m :: l) q.1 q.2) = fun q : ℝ × ℝ => m.coef * q.1 ^ m.alpha.x * q.2 ^ m.alpha.y + Poly.eval l q.1 q.2 := by
      funext q; rw [Poly.eval_cons, Mono.eval_eq]
    rw [this]
    exact ContDiff.add (by fun_prop) ih

/-- a polynomial with the gradient that the library computes -/
theorem poly_smoothLap {p f : Poly ℝ} (hp : p.Canonical) (hl : HasLaplacian univ p.eval f.eval) (A : Set (ℝ × ℝ)) (k : ℕ) :
    SmoothLap A k p.eval (nz (p.map Mono.dx)).eval (nz (p.map Mono.dy)).eval f.eval := by
  have hg : HasGradOn univ p.eval (nz (p.map Mono.dx)).eval (nz (p.map Mono.dy)).eval :=
    fun x y _ => ⟨hasDerivAt_dx hp.2 x y, hasDerivAt_dy hp.2 x y⟩
  refine ⟨fun q _ => (poly_contDiff _ k).contDiffAt, fun q _ => (poly_contDiff _ k).contDiffAt, fun q _ => (poly_contDiff _ k).contDiffAt,
    fun x y _ => hg x y trivial, fun x y _ => ?_⟩
  obtain ⟨u1, u2, h⟩ := hl
  have e : ∀ x y, u1 x y = (nz (p.map Mono.dx)).eval x y ∧ u2 x y = (nz (p.map Mono.dy)).eval x y := fun x y =>
    HasGrad.unique (h x y trivial).1 (hg x y trivial)
  obtain ⟨-, a, b, h1, h2, h3⟩ := h x y trivial
  simp only [(e _ _).1, (e _ _).2] at h1 h2
  exact ⟨a, b, h1, h2, h3⟩

theorem poly_lap {p : Poly ℝ} (hp : p.Canonical) (A : Set (ℝ × ℝ)) (k : ℕ) :
    ∃ l, SmoothLap A k p.eval (nz (p.map Mono.dx)).eval (nz (p.map Mono.dy)).eval l :=
  ⟨_, fun _ _ => (poly_contDiff _ k).contDiffAt, fun _ _ => (poly_contDiff _ k).contDiffAt, fun _ _ => (poly_contDiff _ k).contDiffAt,
    fun x y _ => ⟨hasDerivAt_dx hp.2 x y, hasDerivAt_dy hp.2 x y⟩,
    fun x y _ => ⟨_, _, hasDerivAt_x _ x y, hasDerivAt_y _ x y, rfl⟩⟩

section
variable {Cs : List PCurve} {S : Set (ℝ × ℝ)}

theorem mem_closedRegion {q : ℝ × ℝ} (h : q ∈ S) : q ∈ closedRegion Cs S := Or.inl (subset_closure h)

theorem curve_closedRegion {C : PCurve} (hC : C ∈ Cs) {s : ℝ} (hs : s ∈ Icc 0 (2 * Real.pi)) : (C.x s, C.y s) ∈ closedRegion Cs S :=
  Or.inr ⟨C, hC, s, hs, rfl⟩

/-- the flux of `g ∇f` -/
theorem first_green (hE : Encloses Cs S) {f f1 f2 l g g1 g2 m : ℝ → ℝ → ℝ} (hf : SmoothLap (closedRegion Cs S) 1 f f1 f2 l)
    (hg : SmoothLap (closedRegion Cs S) 1 g g1 g2 m) :
    IntegrableOn (fun z : ℝ × ℝ => g z.1 z.2 * l z.1 z.2 + (f1 z.1 z.2 * g1 z.1 z.2 + f2 z.1 z.2 * g2 z.1 z.2)) S ∧
    ∫ z in S, (g z.1 z.2 * l z.1 z.2 + (f1 z.1 z.2 * g1 z.1 z.2 + f2 z.1 z.2 * g2 z.1 z.2)) =
      (Cs.map fun C => C.flux (fun x y => f1 x y * g x y) fun x y => f2 x y * g x y).sum := by
  have h1 : ∀ q ∈ closedRegion Cs S, ContDiffAt ℝ 1 (fun q : ℝ × ℝ => f1 q.1 q.2 * g q.1 q.2) q := fun q hq =>
    (hf.fn1 q hq).mul (hg.fn q hq)
  have h2 : ∀ q ∈ closedRegion Cs S, ContDiffAt ℝ 1 (fun q : ℝ × ℝ => f2 q.1 q.2 * g q.1 q.2) q := fun q hq =>
    (hf.fn2 q hq).mul (hg.fn q hq)
  refine region_green hE (f := fun x y => f1 x y * g x y) (g := fun x y => f2 x y * g x y)
    (D := fun x y => g x y * l x y + (f1 x y * g1 x y + f2 x y * g2 x y)) (fun q hq => h1 q (Or.inl hq)) (fun q hq => h2 q (Or.inl hq))
    (fun C hC s hs => h1 _ (curve_closedRegion hC hs)) (fun C hC s hs => h2 _ (curve_closedRegion hC hs)) fun x y hxy => ?_
  obtain ⟨a, b, ha, hb, hab⟩ := hf.lap x y (mem_closedRegion hxy)
  obtain ⟨k1, k2⟩ := hg.grad x y (mem_closedRegion hxy)
  exact ⟨_, _, ha.fun_mul k1, hb.fun_mul k2, by simp only [← hab]; ring⟩

/-- continuous functions on the closed region are integrable -/
theorem region_integrable (hE : Encloses Cs S) {f : ℝ × ℝ → ℝ} (hf : ∀ q ∈ closedRegion Cs S, ContDiffAt ℝ 1 f q) : IntegrableOn f S := by
  obtain ⟨hm, hb⟩ := encloses_region hE
  have hc : IsCompact (closure S) := Metric.isCompact_of_isClosed_isBounded isClosed_closure hb.closure
  have hco : ContinuousOn f (closure S) := fun q hq => (hf q (Or.inl hq)).continuousAt.continuousWithinAt
  exact (hco.integrableOn_compact hc).mono_set subset_closure

end

/-! ### errors of order `k` -/

/-- a quantity computed from the sampled cell differs from `J` by at most `M / n^k` -/
def Err (K : CellG) (p : ℤ) (k : ℕ) (I : CellG → ℝ) (J : ℝ) : Prop :=
  ∃ M : ℝ, ∀ n d inside fuel K1, getQuadDict n p = .ok d → K.parameterize inside fuel d = some (.ok K1) → |I K1 - J| ≤ M / (n : ℝ) ^ k

theorem Err.add {K : CellG} {p : ℤ} {k : ℕ} {I I' : CellG → ℝ} {J J' : ℝ} (h : Err K p k I J) (h' : Err K p k I' J') :
    Err K p k (fun K1 => I K1 + I' K1) (J + J') := by
  obtain ⟨M, h⟩ := h
  obtain ⟨M', h'⟩ := h'
  refine ⟨M + M', fun n d inside fuel K1 hd hp => ?_⟩
  rw [add_div, show I K1 + I' K1 - (J + J') = (I K1 - J) + (I' K1 - J') by ring]
  exact (abs_add_le _ _).trans (add_le_add (h n d inside fuel K1 hd hp) (h' n d inside fuel K1 hd hp))

theorem Err.sub {K : CellG} {p : ℤ} {k : ℕ} {I I' : CellG → ℝ} {J J' : ℝ} (h : Err K p k I J) (h' : Err K p k I' J') :
    Err K p k (fun K1 => I K1 - I' K1) (J - J') := by
  obtain ⟨M, h⟩ := h
  obtain ⟨M', h'⟩ := h'
  refine ⟨M + M', fun n d inside fuel K1 hd hp => ?_⟩
  rw [add_div, show I K1 - I' K1 - (J - J') = (I K1 - J) - (I' K1 - J') by ring]
  exact (abs_sub _ _).trans (add_le_add (h n d inside fuel K1 hd hp) (h' n d inside fuel K1 hd hp))

/-- the integral of a polynomial, zero in case of failure -/
noncomputable def polySum (f : Poly ℝ) (K : CellG) : ℝ := match integratePoly f K with
  | .ok I => I
  | .error _ => 0

/-- the boundary integral of a product as an integral with the weights of the cell -/
theorem pair_integrate {K : CellG} (h : K.Ready) (hne : ∀ c ∈ K.components, c.edges ≠ []) (f1 f2 g : ℝ → ℝ → ℝ) :
    K.integrate (K.cols.map fun s => f1 s.x s.y * g s.x s.y * s.nx + f2 s.x s.y * g s.x s.y * s.ny) =
      .ok (pair K (K.normalOf f1 f2) (K.samplesOf g)) := by
  have e : List.zipWith (· * ·) (K.normalOf f1 f2) (K.samplesOf g) =
      K.cols.map fun s => (f1 s.x s.y * g s.x s.y * s.nx + f2 s.x s.y * g s.x s.y * s.ny) * s.dxNorm := by
    simp only [CellG.normalOf, CellG.samplesOf, List.zipWith_map_left, List.zipWith_map_right, List.zipWith_self]
    exact List.map_congr_left fun s _ => by ring
  rw [pair, e, ← cell_preweighted h hne (by simp)]
  simp only [CellG.integrate, h.guard, bind, Except.bind, h.multiplyByDxNorm (u := K.cols.map _) (by simp)]
  congr 1
  simp [List.zipWith_map_right, List.zipWith_self]

section
variable {K : CellG} {Cs : List PCurve} {S : Set (ℝ × ℝ)} (hK : K.Shaped) (hg : K.GoodDiaries) (hC : K.BoundaryCurves Cs)
  (hE : Encloses Cs S) {p : ℤ} {k : ℕ} (hr : K.SuitedRules p k Cs) (hk : 1 ≤ k)
include hK hg hC hE hr hk

theorem err_green {f f1 f2 l g g1 g2 m : ℝ → ℝ → ℝ} (hf : SmoothLap (closedRegion Cs S) k f f1 f2 l)
    (hg' : SmoothLap (closedRegion Cs S) k g g1 g2 m) : Err K p k (fun K1 => pair K1 (K1.normalOf f1 f2) (K1.samplesOf g))
      (∫ z in S, (g z.1 z.2 * l z.1 z.2 + (f1 z.1 z.2 * g1 z.1 z.2 + f2 z.1 z.2 * g2 z.1 z.2))) := by
  obtain ⟨M, hM⟩ := cell_order (density_flux (fun x y => f1 x y * g x y) fun x y => f2 x y * g x y) (flux_periodic (fun x y => f1 x y * g x y) fun x y => f2 x y * g x y) p hk hK hg hC hr
    (fun C hC' => flux_contDiff (f := fun x y => f1 x y * g x y) (g := fun x y => f2 x y * g x y) (boundary_smooth hC C hC') (boundary_cinf hC C hC')
      (fun s hs => (hf.fn1 _ (curve_closedRegion hC' hs)).mul (hg'.fn _ (curve_closedRegion hC' hs)))
      (fun s hs => (hf.fn2 _ (curve_closedRegion hC' hs)).mul (hg'.fn _ (curve_closedRegion hC' hs))))
  refine ⟨M, fun n d inside fuel K1 hd hp => ?_⟩
  obtain ⟨h1, I, hI, hb⟩ := hM n d inside fuel K1 hd hp
  obtain ⟨-, k2, -⟩ := cell_rel hd hK hp
  have := pair_integrate h1 (fun c hc => (k2 c hc).1) f1 f2 g
  rw [hI] at this
  cases this
  rw [(first_green hE (hf.one hk) (hg'.one hk)).2]
  exact hb

/-- the difference of two boundary integrals -/
theorem err_second {f f1 f2 l g g1 g2 : ℝ → ℝ → ℝ} (hf : SmoothLap (closedRegion Cs S) k f f1 f2 l)
    (hl : ∀ q ∈ closedRegion Cs S, ContDiffAt ℝ 1 (fun q : ℝ × ℝ => l q.1 q.2) q)
    (hg' : SmoothLap (closedRegion Cs S) k g g1 g2 fun _ _ => 0) :
    Err K p k (fun K1 => pair K1 (K1.normalOf f1 f2) (K1.samplesOf g) - pair K1 (K1.normalOf g1 g2) (K1.samplesOf f))
      (∫ z in S, g z.1 z.2 * l z.1 z.2) := by
  have h := (err_green hK hg hC hE hr hk hf hg').sub (err_green hK hg hC hE hr hk hg' hf)
  have hf' := hf.one hk
  have hg1 := hg'.one hk
  have i1 := region_integrable hE (f := fun z => g z.1 z.2 * l z.1 z.2) fun q hq => (hg1.fn q hq).mul (hl q hq)
  have i2 := region_integrable hE (f := fun z => f1 z.1 z.2 * g1 z.1 z.2 + f2 z.1 z.2 * g2 z.1 z.2)
    fun q hq => ((hf'.fn1 q hq).mul (hg1.fn1 q hq)).add ((hf'.fn2 q hq).mul (hg1.fn2 q hq))
  rw [integral_add i1 i2, add_sub_assoc] at h
  convert h using 1
  rw [eq_comm, add_eq_left, sub_eq_zero]
  congr 1
  funext z
  ring

theorem err_poly (f : Poly ℝ) : Err K p k (polySum f) (∫ q in S, f.eval q.1 q.2) := by
  obtain ⟨M, hM⟩ := C101_integral hK hg hC hE p hr hk f
  refine ⟨M, fun n d inside fuel K1 hd hp => ?_⟩
  obtain ⟨I, hI, hb⟩ := hM n d inside fuel K1 hd hp
  simp only [polySum, hI]
  exact hb

end

theorem polySum_ok {K : CellG} (h : K.Ready) (hne : ∀ c ∈ K.components, c.edges ≠ []) (f : Poly ℝ) :
    integratePoly f K = .ok (polySum f K) := by
  rw [polySum, integratePoly_ok h hne]

/-! ### products of local functions -/

/-- the four arrays of a harmonic part -/
structure Arrs where
  v : List ℝ
  n : List ℝ
  V : List ℝ
  N : List ℝ

/-- the arrays of the exact parts -/
def Parts.arrs (w : Parts) (K : CellG) : Arrs :=
  ⟨K.samplesOf w.φ, K.normalOf w.φ1 w.φ2, K.samplesOf w.Φ, K.normalOf w.Φ1 w.Φ2⟩

/-- the sum that `get_h1_semi_inner_prod` computes -/
noncomputable def h1Sum (K : CellG) (a b : Arrs) (w w' : Parts) (s : Poly ℝ) : ℝ :=
  pair K a.n b.v + pair K a.n (K.samplesOf w'.p.eval) + (pair K b.n (K.samplesOf w.p.eval) + polySum s K)

/-- the sum that `get_l2_inner_prod` computes -/
noncomputable def l2Sum (K : CellG) (a b : Arrs) (w w' : Parts) (s : Poly ℝ) : ℝ :=
  (pair K a.N b.v - pair K b.n a.V) +
    (pair K (K.normalOf (nz (w'.P.map Mono.dx)).eval (nz (w'.P.map Mono.dy)).eval) a.v - pair K a.n (K.samplesOf w'.P.eval)) +
    ((pair K (K.normalOf (nz (w.P.map Mono.dx)).eval (nz (w.P.map Mono.dy)).eval) b.v - pair K b.n (K.samplesOf w.P.eval)) + polySum s K)

/-- the polynomials whose integrals enter -/
structure Products (w w' : Parts) (s1 s0 : Poly ℝ) : Prop where
  h1 : ∃ m1 m2, (nz (w.p.map Mono.dx)).mul (nz (w'.p.map Mono.dx)) = .ok m1 ∧ (nz (w.p.map Mono.dy)).mul (nz (w'.p.map Mono.dy)) = .ok m2 ∧
    s1 = m1.add m2
  l2 : w.p.mul w'.p = .ok s0
  e1 : ∀ x y, s1.eval x y = (nz (w.p.map Mono.dx)).eval x y * (nz (w'.p.map Mono.dx)).eval x y +
      (nz (w.p.map Mono.dy)).eval x y * (nz (w'.p.map Mono.dy)).eval x y
  e0 : ∀ x y, s0.eval x y = w.p.eval x y * w'.p.eval x y

theorem products_exist {w w' : Parts} {δ ε : ℝ} (hp : OnLattice δ w.p) (hq : OnLattice ε w'.p) (hδ : 1 / 10 ^ 12 ≤ δ * ε) :
    ∃ s1 s0, Products w w' s1 s0 := by
  obtain ⟨p1, p2⟩ := lattice_dx hp
  obtain ⟨q1, q2⟩ := lattice_dx hq
  obtain ⟨m0, f0, -, g0⟩ := mul_lattice hδ hp hq
  obtain ⟨m1, f1, l1', g1⟩ := mul_lattice hδ p1 q1
  obtain ⟨m2, f2, l2', g2⟩ := mul_lattice hδ p2 q2
  exact ⟨m1.add m2, m0, ⟨m1, m2, f1, f2, rfl⟩, f0, fun x y => by rw [(C05_exact m1 m2 _ hδ l1' l2' x y).1, g1, g2], g0⟩

theorem antiPoly_eq {w : Parts} {A : Set (ℝ × ℝ)} {k : ℕ} (h : w.Good A k) : w.P = alP w.p := by
  have := h.antiPoly
  rw [antiLaplacian_ok] at this
  exact (Except.ok.inj this).symm

/-- what the products of two local functions compute -/
theorem products_eq {K : CellG} (h : K.Ready) (hne : ∀ c ∈ K.components, c.edges ≠ []) {w w' : Parts} {A : Set (ℝ × ℝ)} {k : ℕ}
    (hw : w.Good A k) (hw' : w'.Good A k) {s1 s0 : Poly ℝ} (hs : Products w w' s1 s0) {ε : ℝ} {F G : LocPoisson}
    (hF : F.Approximates K ε w) (hG : G.Approximates K ε w') :
    ∃ a b : Arrs, (Within ε a.v (w.arrs K).v ∧ Within ε a.n (w.arrs K).n ∧ Within ε a.V (w.arrs K).V ∧ Within ε a.N (w.arrs K).N) ∧
      (Within ε b.v (w'.arrs K).v ∧ Within ε b.n (w'.arrs K).n ∧ Within ε b.V (w'.arrs K).V ∧ Within ε b.N (w'.arrs K).N) ∧
      F.getH1 (.poisson G) = .ok (h1Sum K a b w w' s1) ∧ F.getL2 (.poisson G) = .ok (l2Sum K a b w w' s0) := by
  obtain ⟨f, v, n, V, N, a2, a7, ha⟩ := hF.harm
  obtain ⟨g, v', n', V', N', b2, b7, hb⟩ := hG.harm
  obtain ⟨o, a3, ho⟩ := hF.poly
  obtain ⟨o', b3, ho'⟩ := hG.poly
  rw [polyPart_init h] at ho ho'
  cases ho
  cases ho'
  refine ⟨⟨v, n, V, N⟩, ⟨v', n', V', N'⟩, ha, hb, ?_⟩
  have ap := polyPart_arrays h w.p
  have aq := polyPart_arrays h w'.p
  rw [← antiPoly_eq hw] at ap
  rw [← antiPoly_eq hw'] at aq
  obtain ⟨m1, m2, f1, f2, hs1⟩ := hs.h1
  have f0 := hs.l2
  have H1 := h1hh_ok h hne a7 b7
  have H2 := h1hp_ok h hne a7 aq
  have H3 := h1hp_ok h hne b7 ap
  have H4 : h1PolyPoly (polyPart K w.p) (polyPart K w'.p) K = .ok (polySum s1 K) := by
    rw [← polySum_ok h hne, hs1]
    simp only [h1PolyPoly, polyPart, Trace.attr, py_ok_bind, f1, f2]
  have L1 := l2hh_ok h hne a7 b7
  have L2 := l2hp_ok h hne a7 aq
  have L3 := l2hp_ok h hne b7 ap
  have L4 : l2PolyPoly (polyPart K w.p) (polyPart K w'.p) K = .ok (polySum s0 K) := by
    rw [← polySum_ok h hne]
    simp only [l2PolyPoly, polyPart, py_ok_bind, f0]
  obtain ⟨R1, R2⟩ := getH1_poisson hF.cell a2 a3 b2 b3 H1 H2 H3 H4 L1 L2 L3 L4
  refine ⟨R1, ?_⟩
  rw [R2, l2Sum, pair_comm K V, pair_comm K v, pair_comm K v']

section
variable {K : CellG} {Cs : List PCurve} {S : Set (ℝ × ℝ)} (hK : K.Shaped) (hg : K.GoodDiaries) (hC : K.BoundaryCurves Cs)
  (hE : Encloses Cs S) {p : ℤ} {k : ℕ} (hr : K.SuitedRules p k Cs) (hk : 1 ≤ k)

theorem four_sum (hE : Encloses Cs S) {f1 f2 f3 f4 : ℝ × ℝ → ℝ} (h1 : ∀ q ∈ closedRegion Cs S, ContDiffAt ℝ 1 f1 q)
    (h2 : ∀ q ∈ closedRegion Cs S, ContDiffAt ℝ 1 f2 q) (h3 : ∀ q ∈ closedRegion Cs S, ContDiffAt ℝ 1 f3 q)
    (h4 : ∀ q ∈ closedRegion Cs S, ContDiffAt ℝ 1 f4 q) :
      (∫ z in S, f1 z) + (∫ z in S, f2 z) + ((∫ z in S, f3 z) + ∫ z in S, f4 z) = ∫ z in S, (f1 z + f2 z + (f3 z + f4 z)) := by
  have i1 := region_integrable hE h1
  have i2 := region_integrable hE h2
  have i3 := region_integrable hE h3
  have i4 := region_integrable hE h4
  have i12 : IntegrableOn (fun z => f1 z + f2 z) S := i1.add i2
  have i34 : IntegrableOn (fun z => f3 z + f4 z) S := i3.add i4
  rw [integral_add i12 i34, integral_add i1 i2, integral_add i3 i4]

include hK hg hC hE hr hk

theorem err_products {w w' : Parts} (hw : w.Good (closedRegion Cs S) k) (hw' : w'.Good (closedRegion Cs S) k)
    {s1 s0 : Poly ℝ} (hs : Products w w' s1 s0) {u1 u2 v1 v2 : ℝ → ℝ → ℝ} (gu : HasGradOn S w.value u1 u2) (gv : HasGradOn S w'.value v1 v2) :
    Err K p k (fun K1 => h1Sum K1 (w.arrs K1) (w'.arrs K1) w w' s1) (∫ z in S, (u1 z.1 z.2 * v1 z.1 z.2 + u2 z.1 z.2 * v2 z.1 z.2)) ∧
    Err K p k (fun K1 => l2Sum K1 (w.arrs K1) (w'.arrs K1) w w' s0) (∫ z in S, w.value z.1 z.2 * w'.value z.1 z.2) := by
  have a5 := hw.harm
  have b5 := hw'.harm
  have a6 := hw.anti
  obtain ⟨lf, lp⟩ := poly_lap hw.canonical (closedRegion Cs S) k
  obtain ⟨lg, lq⟩ := poly_lap hw'.canonical (closedRegion Cs S) k
  have hP := antiPoly_eq hw
  have hQ := antiPoly_eq hw'
  have lP := poly_smoothLap (by rw [hP]; exact alP_canonical _) hw.antiExact (closedRegion Cs S) k
  have lQ := poly_smoothLap (by rw [hQ]; exact alP_canonical _) hw'.antiExact (closedRegion Cs S) k
  have cp : ∀ (p : Poly ℝ), ∀ q ∈ closedRegion Cs S, ContDiffAt ℝ 1 (fun q : ℝ × ℝ => p.eval q.1 q.2) q :=
    fun p q _ => (poly_contDiff p 1).contDiffAt
  have dt : ∀ {f f1 f2 l g g1 g2 m : ℝ → ℝ → ℝ}, SmoothLap (closedRegion Cs S) k f f1 f2 l → SmoothLap (closedRegion Cs S) k g g1 g2 m →
      ∀ q ∈ closedRegion Cs S, ContDiffAt ℝ 1 (fun z : ℝ × ℝ => f1 z.1 z.2 * g1 z.1 z.2 + f2 z.1 z.2 * g2 z.1 z.2) q :=
    fun hf hg q hq => (((hf.one hk).fn1 q hq).mul ((hg.one hk).fn1 q hq)).add (((hf.one hk).fn2 q hq).mul ((hg.one hk).fn2 q hq))
  have pr : ∀ {f f1 f2 l g g1 g2 m : ℝ → ℝ → ℝ}, SmoothLap (closedRegion Cs S) k f f1 f2 l → SmoothLap (closedRegion Cs S) k g g1 g2 m →
      ∀ q ∈ closedRegion Cs S, ContDiffAt ℝ 1 (fun z : ℝ × ℝ => f z.1 z.2 * g z.1 z.2) q :=
    fun hf hg q hq => ((hf.one hk).fn q hq).mul ((hg.one hk).fn q hq)
  have hm := (encloses_region hE).1
  constructor
  · have h := ((err_green hK hg hC hE hr hk a5 b5).add (err_green hK hg hC hE hr hk a5 lq)).add
      ((err_green hK hg hC hE hr hk b5 lp).add (err_poly hK hg hC hE hr hk s1))
    simp only [mul_zero, zero_add] at h
    rw [four_sum hE (dt a5 b5) (dt a5 lq) (dt b5 lp) (cp s1)] at h
    refine (congrArg (Err K p k _) ?_).mpr h
    refine setIntegral_congr_fun hm fun z hz => ?_
    have eu : u1 z.1 z.2 = w.φ1 z.1 z.2 + (nz (w.p.map Mono.dx)).eval z.1 z.2 ∧ u2 z.1 z.2 = w.φ2 z.1 z.2 + (nz (w.p.map Mono.dy)).eval z.1 z.2 := by
      have g1 := a5.grad z.1 z.2 (mem_closedRegion hz)
      have g2 := lp.grad z.1 z.2 (mem_closedRegion hz)
      exact HasGrad.unique (gu z.1 z.2 hz) ⟨g1.1.fun_add g2.1, g1.2.fun_add g2.2⟩
    have ev : v1 z.1 z.2 = w'.φ1 z.1 z.2 + (nz (w'.p.map Mono.dx)).eval z.1 z.2 ∧ v2 z.1 z.2 = w'.φ2 z.1 z.2 + (nz (w'.p.map Mono.dy)).eval z.1 z.2 := by
      have g1 := b5.grad z.1 z.2 (mem_closedRegion hz)
      have g2 := lq.grad z.1 z.2 (mem_closedRegion hz)
      exact HasGrad.unique (gv z.1 z.2 hz) ⟨g1.1.fun_add g2.1, g1.2.fun_add g2.2⟩
    simp only [hs.e1, eu.1, eu.2, ev.1, ev.2]
    ring
  · have h := ((err_second hK hg hC hE hr hk a6 (a5.one hk).fn b5).add (err_second hK hg hC hE hr hk lQ (cp _) a5)).add
      ((err_second hK hg hC hE hr hk lP (cp _) b5).add (err_poly hK hg hC hE hr hk s0))
    rw [four_sum hE (pr b5 a5) (pr a5 lq) (pr b5 lp) (cp s0)] at h
    refine (congrArg (Err K p k _) ?_).mpr h
    refine setIntegral_congr_fun hm fun z hz => ?_
    simp only [hs.e0, Parts.value]
    ring

end

/-! ### perturbed arrays -/

theorem dot_perturb {ε A B : ℝ} (hε : 0 ≤ ε) : ∀ {n n0 v v0 st : List ℝ}, Within ε n n0 → Within ε v v0 → (∀ x ∈ n0, |x| ≤ A) →
    (∀ x ∈ v0, |x| ≤ B) → (∀ x ∈ st, 0 ≤ x) → n0.length = v0.length → n0.length = st.length →
    |dot (List.zipWith (· * ·) n v) st - dot (List.zipWith (· * ·) n0 v0) st| ≤ (ε * A + ε * B + ε * ε) * st.sum := by
  intro n n0 v v0 st hn
  induction hn generalizing v v0 st with
  | nil =>
    intro hv _ _ _ h1 h2
    have : st = [] := List.length_eq_zero_iff.1 h2.symm
    simp [this, dot, entrywise]
  | @cons a a0 n n0 ha hn ih =>
    intro hv hA hB hst h1 h2
    cases hv with
    | nil => simp at h1
    | @cons b b0 v v0 hb hv =>
      cases st with
      | nil => simp at h2
      | cons t st =>
        have := ih (st := st) hv (fun x hx => hA x (by simp [hx])) (fun x hx => hB x (by simp [hx])) (fun x hx => hst x (by simp [hx]))
          (by simpa using h1) (by simpa using h2)
        simp only [dot, entrywise, List.zipWith_cons_cons, List.sum_cons] at this ⊢
        have ht : 0 ≤ t := hst t (by simp)
        have e1 : |a * b - a0 * b0| ≤ ε * A + ε * B + ε * ε := by
          have k1 : |a0| ≤ A := hA a0 (by simp)
          have k2 : |b0| ≤ B := hB b0 (by simp)
          have : a * b - a0 * b0 = a0 * (b - b0) + (a - a0) * b0 + (a - a0) * (b - b0) := by ring
          rw [this]
          refine (abs_add_le _ _).trans (add_le_add ((abs_add_le _ _).trans (add_le_add ?_ ?_)) ?_)
          · rw [abs_mul, mul_comm ε A]
            exact mul_le_mul k1 hb (abs_nonneg _) ((abs_nonneg _).trans k1)
          · rw [abs_mul]
            exact mul_le_mul ha k2 (abs_nonneg _) hε
          · rw [abs_mul]
            exact mul_le_mul ha hb (abs_nonneg _) hε
        have e2 : |a * b * t - a0 * b0 * t| ≤ (ε * A + ε * B + ε * ε) * t := by
          rw [← sub_mul, abs_mul, abs_of_nonneg ht]
          exact mul_le_mul_of_nonneg_right e1 ht
        rw [mul_add, add_sub_add_comm]
        exact (abs_add_le _ _).trans (add_le_add e2 this)

theorem steps_nonneg (K : CellG) : ∀ x ∈ steps K, 0 ≤ x := by
  intro x hx
  simp only [steps, List.mem_flatMap, List.mem_map] at hx
  obtain ⟨c, -, s, -, rfl⟩ := hx
  have := Real.pi_pos
  positivity

theorem steps_sum (K : CellG) : (steps K).sum ≤ 2 * Real.pi * (K.components.flatMap ContourG.edges).length := by
  unfold steps
  induction K.components with
  | nil => simp
  | cons c l ih =>
    simp only [List.flatMap_cons, List.sum_append, List.length_append, Nat.cast_add, mul_add]
    refine add_le_add ?_ ih
    rw [List.map_const', List.sum_replicate, nsmul_eq_mul]
    rcases Nat.eq_zero_or_pos c.cols.length with h | h
    · have := Real.pi_pos
      rw [h]
      simp only [Nat.cast_zero, zero_mul]
      positivity
    · have : (c.cols.length : ℝ) ≠ 0 := by positivity
      exact le_of_eq (by field_simp)

theorem edge_on {n p : ℤ} (hp : 2 ≤ p) {d : Quad × Quad} (hd : getQuadDict n p = .ok d) {q : EdgeG × ℤ} {C0 C : PCurve} (hC : q.1.Follows C0)
    (ho : C = oriented q.2 C0) (hdi : ∀ o ∈ q.1.diary, o.Good) {e' : EdgeG} (hs : SampledFrom d q e') {B : ℝ}
    (hB : ∀ t ∈ Icc 0 (2 * Real.pi), ‖Quad.kressW p.toNat t‖ ≤ B) {s : Sample} (hs' : s ∈ e'.cols) :
    ∃ t ∈ Icc 0 (2 * Real.pi), ∃ W, |W| ≤ max B 1 ∧ s = C.sample t W := by
  obtain ⟨e1, h1, h2⟩ := hs
  have key : ∃ acts : List EdgeAct, (∀ a ∈ acts, a.Good) ∧ e1.run acts = .ok e' ∧ acts.foldl (fun C a => a.act C) C0 = C := by
    by_cases hq : q.2 = -1
    · refine ⟨[.reverse], by simp [EdgeAct.Good], ?_, ?_⟩
      · rw [h2, if_pos hq]; rfl
      · rw [ho, oriented, if_pos hq]; rfl
    · refine ⟨[], by simp, ?_, ?_⟩
      · rw [h2, if_neg hq]; rfl
      · rw [ho, oriented, if_neg hq]; rfl
  obtain ⟨acts, hac, h3, h4⟩ := key
  obtain ⟨hn4, -, lam, W, hr, hpts⟩ := follows_pts hd hC hdi hac h1 h3
  rw [h4] at hpts
  have hc : e'.cols = (List.range (2 * n.toNat)).map fun j : ℕ => C.sample (lam ((j : ℕ) * (2 * Real.pi / (2 * n.toNat : ℕ))))
      (W ((j : ℕ) * (2 * Real.pi / (2 * n.toNat : ℕ)))) := by
    simp only [EdgeG.cols, hpts, Option.getD_some, PCurve.samples, List.range_succ, List.map_append, List.map_cons, List.map_nil,
      List.dropLast_concat, List.map_map]
    rfl
  rw [hc, List.mem_map] at hs'
  obtain ⟨j, hj, rfl⟩ := hs'
  have hj := List.mem_range.1 hj
  have hN : (0 : ℝ) < (2 * n.toNat : ℕ) := by exact_mod_cast (by omega : 0 < 2 * n.toNat)
  have hpi := Real.pi_pos
  have ht : (j : ℝ) * (2 * Real.pi / (2 * n.toNat : ℕ)) ∈ Icc 0 (2 * Real.pi) := by
    have hj' : (j : ℝ) ≤ (2 * n.toNat : ℕ) := by exact_mod_cast hj.le
    refine ⟨by positivity, ?_⟩
    rw [mul_div_assoc', div_le_iff₀ hN, mul_comm]
    exact mul_le_mul_of_nonneg_left hj' (by positivity)
  generalize q.1.quadType = qt at hr
  cases hr with
  | trap => exact ⟨_, ht, 1, by simp, rfl⟩
  | kress => exact ⟨_, kressT_mem (by omega) ht, _, (hB _ ht).trans (le_max_left _ _), rfl⟩

/-- the samples of a parameterized cell lie on its curves, and the weights of the rules are bounded -/
theorem samples_on {K : CellG} {Cs : List PCurve} (hK : K.Shaped) (hg : K.GoodDiaries) (hC : K.BoundaryCurves Cs) (p : ℤ) :
    ∃ B : ℝ, 0 ≤ B ∧ ∀ n d inside fuel K1, getQuadDict n p = .ok d → K.parameterize inside fuel d = some (.ok K1) →
      (∀ s ∈ K1.cols, ∃ C ∈ Cs, ∃ t ∈ Icc 0 (2 * Real.pi), ∃ W, |W| ≤ B ∧ s = C.sample t W) ∧ (steps K1).sum ≤ 2 * Real.pi * Cs.length := by
  by_cases hp : 2 ≤ p
  swap
  · refine ⟨0, le_rfl, fun n d inside fuel K1 hd _ => ?_⟩
    exact absurd ((C21_dict n p).1.1 ⟨d, hd⟩).2 hp
  have hc : ContinuousOn (Quad.kressW p.toNat) (Icc 0 (2 * Real.pi)) := fun t ht =>
    (kressW_contDiffAt (p := p.toNat) (by omega) (k := 0) ht).continuousAt.continuousWithinAt
  obtain ⟨B, hB⟩ := isCompact_Icc.exists_bound_of_continuousOn hc
  refine ⟨max B 1, le_max_of_le_right zero_le_one, fun n d inside fuel K1 hd h => ?_⟩
  obtain ⟨h1, h2, es, h3, h4⟩ := cell_rel hd hK h
  have hl : es.length = Cs.length := by rw [← h4.length_eq, hC.length_eq]
  constructor
  · intro s hs
    simp only [CellG.cols, List.mem_flatMap, ContourG.cols] at hs
    obtain ⟨c, hc, e, he, hs⟩ := hs
    have he' : e ∈ es := h3.mem_iff.1 (List.mem_flatMap.2 ⟨c, hc, he⟩)
    obtain ⟨i, hi, rfl⟩ := List.getElem_of_mem he'
    obtain ⟨e1, g1, g2⟩ := (List.forall₂_iff_get.1 h4).2 i (by rw [(List.forall₂_iff_get.1 h4).1]; exact hi) hi
    obtain ⟨C0, k1, k2⟩ := (List.forall₂_iff_get.1 hC).2 i (by rw [(List.forall₂_iff_get.1 h4).1]; exact hi) (by omega)
    rw [List.get_eq_getElem] at k2 g2
    rw [List.get_eq_getElem] at k2
    refine ⟨_, List.getElem_mem (by omega), edge_on hp hd k1 k2 ?_ ⟨e1, g1, g2⟩ hB hs⟩
    exact good_flat hg _ (List.get_mem _ _)
  · refine (steps_sum K1).trans ?_
    rw [h3.length_eq, hl]

theorem curves_bound {Cs : List PCurve} {G : PCurve → ℝ → ℝ} (h : ∀ C ∈ Cs, ContinuousOn (G C) (Icc 0 (2 * Real.pi))) :
    ∃ B : ℝ, ∀ C ∈ Cs, ∀ t ∈ Icc 0 (2 * Real.pi), |G C t| ≤ B := by
  induction Cs with
  | nil => exact ⟨0, by simp⟩
  | cons C Cs ih =>
    obtain ⟨A, hA⟩ := isCompact_Icc.exists_bound_of_continuousOn (h C (by simp))
    obtain ⟨B, hB⟩ := ih fun C hC => h C (by simp [hC])
    refine ⟨max A B, fun C' hC' t ht => ?_⟩
    rcases List.mem_cons.1 hC' with rfl | hC'
    · exact (hA t ht).trans (le_max_left _ _)
    · exact (hB C' hC' t ht).trans (le_max_right _ _)

/-- boundary integrals of products depend on the arrays in a stable way, with a constant that does not depend on the number of samples -/
theorem pair_near {K : CellG} {Cs : List PCurve} (hK : K.Shaped) (hg : K.GoodDiaries) (hC : K.BoundaryCurves Cs) (p : ℤ)
    {f1 f2 g : ℝ → ℝ → ℝ} (h1 : ∀ C ∈ Cs, C.ContinuousOnCurve f1) (h2 : ∀ C ∈ Cs, C.ContinuousOnCurve f2)
    (h3 : ∀ C ∈ Cs, C.ContinuousOnCurve g) :
    ∃ M : ℝ, ∀ n d inside fuel K1, getQuadDict n p = .ok d → K.parameterize inside fuel d = some (.ok K1) → ∀ ε, 0 ≤ ε → ε ≤ 1 →
      ∀ u v, Within ε u (K1.normalOf f1 f2) → Within ε v (K1.samplesOf g) →
        |pair K1 u v - pair K1 (K1.normalOf f1 f2) (K1.samplesOf g)| ≤ M * ε := by
  obtain ⟨B, hB, hS⟩ := samples_on hK hg hC p
  obtain ⟨A1, hA1⟩ := curves_bound (G := fun C s => f1 (C.x s) (C.y s) * C.dy s - f2 (C.x s) (C.y s) * C.dx s)
    fun C hC' => flux_continuous (boundary_smooth hC C hC') (h1 C hC') (h2 C hC')
  obtain ⟨A2, hA2⟩ := curves_bound (G := fun C s => g (C.x s) (C.y s))
    fun C hC' => onCurve_continuous (boundary_smooth hC C hC') (h3 C hC')
  have hpi := Real.pi_pos
  refine ⟨(|A1| * B + |A2| + 1) * (2 * Real.pi * Cs.length), fun n d inside fuel K1 hd h ε hε hε1 u v hu hv => ?_⟩
  obtain ⟨k1, k2⟩ := hS n d inside fuel K1 hd h
  have a1 : ∀ x ∈ K1.normalOf f1 f2, |x| ≤ |A1| * B := by
    intro x hx
    obtain ⟨s, hs, rfl⟩ := List.mem_map.1 hx
    obtain ⟨C, hC', t, ht, W, hW, rfl⟩ := k1 s hs
    have e := density_flux f1 f2 C t W
    beta_reduce at e
    have e' : (f1 (C.sample t W).x (C.sample t W).y * (C.sample t W).nx + f2 (C.sample t W).x (C.sample t W).y * (C.sample t W).ny) *
        (C.sample t W).dxNorm = (f1 (C.x t) (C.y t) * C.dy t - f2 (C.x t) (C.y t) * C.dx t) * W := by
      rw [← e]
      simp only [PCurve.sample]
      ring
    rw [e', abs_mul]
    exact mul_le_mul ((hA1 C hC' t ht).trans (le_abs_self _)) hW (abs_nonneg _) (abs_nonneg _)
  have a2 : ∀ x ∈ K1.samplesOf g, |x| ≤ |A2| := by
    intro x hx
    obtain ⟨s, hs, rfl⟩ := List.mem_map.1 hx
    obtain ⟨C, hC', t, ht, W, hW, rfl⟩ := k1 s hs
    exact (hA2 C hC' t ht).trans (le_abs_self _)
  have := dot_perturb hε hu hv a1 a2 (steps_nonneg K1) (by simp [CellG.normalOf, CellG.samplesOf])
    (by simp [CellG.normalOf, steps_length])
  have h0 : 0 ≤ (steps K1).sum := List.sum_nonneg (steps_nonneg K1)
  refine this.trans ?_
  have e1 : ε * (|A1| * B) + ε * |A2| + ε * ε ≤ (|A1| * B + |A2| + 1) * ε := by nlinarith
  calc _ ≤ (|A1| * B + |A2| + 1) * ε * (steps K1).sum := mul_le_mul_of_nonneg_right e1 h0
    _ ≤ (|A1| * B + |A2| + 1) * ε * (2 * Real.pi * Cs.length) := mul_le_mul_of_nonneg_left k2 (by positivity)
    _ = _ := by ring

theorem within_refl {ε : ℝ} (hε : 0 ≤ ε) (u : List ℝ) : Within ε u u := List.forall₂_same.2 fun _ _ => by simpa using hε

/-- the same for functions with gradients in the region -/
theorem lap_near {K : CellG} {Cs : List PCurve} {S : Set (ℝ × ℝ)} (hK : K.Shaped) (hg : K.GoodDiaries) (hC : K.BoundaryCurves Cs) (p : ℤ)
    {k : ℕ} {f f1 f2 l g g1 g2 m : ℝ → ℝ → ℝ} (hf : SmoothLap (closedRegion Cs S) k f f1 f2 l)
    (hg' : SmoothLap (closedRegion Cs S) k g g1 g2 m) :
    ∃ M : ℝ, ∀ n d inside fuel K1, getQuadDict n p = .ok d → K.parameterize inside fuel d = some (.ok K1) → ∀ ε, 0 ≤ ε → ε ≤ 1 →
      ∀ u v, Within ε u (K1.normalOf f1 f2) → Within ε v (K1.samplesOf g) →
        |pair K1 u v - pair K1 (K1.normalOf f1 f2) (K1.samplesOf g)| ≤ M * ε :=
  pair_near hK hg hC p (fun _ hC' _ hs => (hf.fn1 _ (curve_closedRegion hC' hs)).continuousAt)
    (fun _ hC' _ hs => (hf.fn2 _ (curve_closedRegion hC' hs)).continuousAt)
    fun _ hC' _ hs => (hg'.fn _ (curve_closedRegion hC' hs)).continuousAt

theorem sums_near {K : CellG} {Cs : List PCurve} {S : Set (ℝ × ℝ)} (hK : K.Shaped) (hg : K.GoodDiaries) (hC : K.BoundaryCurves Cs) (p : ℤ)
    {k : ℕ} {w w' : Parts} (hw : w.Good (closedRegion Cs S) k) (hw' : w'.Good (closedRegion Cs S) k) (s1 s0 : Poly ℝ) :
    ∃ M : ℝ, ∀ n d inside fuel K1, getQuadDict n p = .ok d → K.parameterize inside fuel d = some (.ok K1) → ∀ ε, 0 ≤ ε → ε ≤ 1 →
      ∀ a b : Arrs, (Within ε a.v (w.arrs K1).v ∧ Within ε a.n (w.arrs K1).n ∧ Within ε a.V (w.arrs K1).V ∧ Within ε a.N (w.arrs K1).N) →
      (Within ε b.v (w'.arrs K1).v ∧ Within ε b.n (w'.arrs K1).n ∧ Within ε b.V (w'.arrs K1).V ∧ Within ε b.N (w'.arrs K1).N) →
      |h1Sum K1 a b w w' s1 - h1Sum K1 (w.arrs K1) (w'.arrs K1) w w' s1| ≤ M * ε ∧
      |l2Sum K1 a b w w' s0 - l2Sum K1 (w.arrs K1) (w'.arrs K1) w w' s0| ≤ M * ε := by
  obtain ⟨lf, lp⟩ := poly_lap hw.canonical (closedRegion Cs S) k
  obtain ⟨lg, lq⟩ := poly_lap hw'.canonical (closedRegion Cs S) k
  have lP := poly_smoothLap (by rw [antiPoly_eq hw]; exact alP_canonical _) hw.antiExact (closedRegion Cs S) k
  have lQ := poly_smoothLap (by rw [antiPoly_eq hw']; exact alP_canonical _) hw'.antiExact (closedRegion Cs S) k
  obtain ⟨A1, h1⟩ := lap_near hK hg hC p hw.harm hw'.harm
  obtain ⟨A2, h2⟩ := lap_near hK hg hC p hw.harm lq
  obtain ⟨A3, h3⟩ := lap_near hK hg hC p hw'.harm lp
  obtain ⟨B1, g1⟩ := lap_near hK hg hC p hw.anti hw'.harm
  obtain ⟨B2, g2⟩ := lap_near hK hg hC p hw'.harm hw.anti
  obtain ⟨B3, g3⟩ := lap_near hK hg hC p lQ hw.harm
  obtain ⟨B4, g4⟩ := lap_near hK hg hC p hw.harm lQ
  obtain ⟨B5, g5⟩ := lap_near hK hg hC p lP hw'.harm
  obtain ⟨B6, g6⟩ := lap_near hK hg hC p hw'.harm lP
  refine ⟨max (A1 + A2 + A3) (B1 + B2 + B3 + B4 + B5 + B6), fun n d inside fuel K1 hd h ε hε hε1 a b ⟨a1, a2, a3, a4⟩ ⟨b1, b2, b3, b4⟩ => ?_⟩
  have r := within_refl hε
  have x1 := abs_le.1 (h1 n d inside fuel K1 hd h ε hε hε1 _ _ a2 b1)
  have x2 := abs_le.1 (h2 n d inside fuel K1 hd h ε hε hε1 _ _ a2 (r _))
  have x3 := abs_le.1 (h3 n d inside fuel K1 hd h ε hε hε1 _ _ b2 (r _))
  have y1 := abs_le.1 (g1 n d inside fuel K1 hd h ε hε hε1 _ _ a4 b1)
  have y2 := abs_le.1 (g2 n d inside fuel K1 hd h ε hε hε1 _ _ b2 a3)
  have y3 := abs_le.1 (g3 n d inside fuel K1 hd h ε hε hε1 _ _ (r _) a1)
  have y4 := abs_le.1 (g4 n d inside fuel K1 hd h ε hε hε1 _ _ a2 (r _))
  have y5 := abs_le.1 (g5 n d inside fuel K1 hd h ε hε hε1 _ _ (r _) b1)
  have y6 := abs_le.1 (g6 n d inside fuel K1 hd h ε hε hε1 _ _ b2 (r _))
  constructor
  · refine le_trans ?_ (mul_le_mul_of_nonneg_right (le_max_left _ _) hε)
    simp only [h1Sum, Parts.arrs]
    rw [abs_le]
    constructor <;> linarith
  · refine le_trans ?_ (mul_le_mul_of_nonneg_right (le_max_right _ _) hε)
    simp only [l2Sum, Parts.arrs]
    rw [abs_le]
    constructor <;> linarith

/-- C102: the inner products of two local functions converge to the integrals of `∇u · ∇v` and of `u v` over the region that the boundary
of the cell encloses, holes left out.  If the arrays of the harmonic parts are exact up to errors of size `ε`, then the errors of the
inner products are at most `M (1 / n^k + ε)`, with a constant `M` that depends on the cell and the functions but neither on `n` nor on `ε`;
`k` is the order of the rules of the edges.  Exact arrays are the case `ε = 0`. -/
theorem C102_inner_products {K : CellG} {Cs : List PCurve} {S : Set (ℝ × ℝ)} (hK : K.Shaped) (hg : K.GoodDiaries)
    (hC : K.BoundaryCurves Cs) (hE : Encloses Cs S) (p : ℤ) {k : ℕ} (hr : K.SuitedRules p k Cs) (hk : 1 ≤ k)
    {w w' : Parts} (hw : w.Good (closedRegion Cs S) k) (hw' : w'.Good (closedRegion Cs S) k)
    {δ δ' : ℝ} (hp : OnLattice δ w.p) (hq : OnLattice δ' w'.p) (hδ : 1 / 10 ^ 12 ≤ δ * δ')
    {u1 u2 v1 v2 : ℝ → ℝ → ℝ} (gu : HasGradOn S w.value u1 u2) (gv : HasGradOn S w'.value v1 v2) :
    ∃ M : ℝ, ∀ n d inside fuel K1, getQuadDict n p = .ok d → K.parameterize inside fuel d = some (.ok K1) → ∀ ε, 0 ≤ ε → ε ≤ 1 →
      ∀ F G : LocPoisson, F.Approximates K1 ε w → G.Approximates K1 ε w' → ∃ I J,
        F.getH1 (.poisson G) = .ok I ∧ |I - ∫ z in S, (u1 z.1 z.2 * v1 z.1 z.2 + u2 z.1 z.2 * v2 z.1 z.2)| ≤ M * (1 / (n : ℝ) ^ k + ε) ∧
        F.getL2 (.poisson G) = .ok J ∧ |J - ∫ z in S, w.value z.1 z.2 * w'.value z.1 z.2| ≤ M * (1 / (n : ℝ) ^ k + ε) := by
  obtain ⟨s1, s0, hs⟩ := products_exist hp hq hδ
  obtain ⟨⟨A, hA⟩, ⟨B, hB⟩⟩ := err_products hK hg hC hE hr hk hw hw' hs gu gv
  obtain ⟨D, hD⟩ := sums_near hK hg hC p hw hw' s1 s0
  refine ⟨|A| + |B| + |D|, fun n d inside fuel K1 hd h ε hε hε1 F G hF hG => ?_⟩
  obtain ⟨k1, k2, -⟩ := cell_rel hd hK h
  obtain ⟨a, b, ha, hb, e1, e2⟩ := products_eq k1 (fun c hc => (k2 c hc).1) hw hw' hs hF hG
  obtain ⟨d1, d2⟩ := hD n d inside fuel K1 hd h ε hε hε1 a b ha hb
  have c1 := hA n d inside fuel K1 hd h
  have c2 := hB n d inside fuel K1 hd h
  have hn : (0 : ℝ) < (n : ℝ) ^ k := by
    have := ((C21_dict n p).1.1 ⟨d, hd⟩).1
    have : (0 : ℝ) < n := by exact_mod_cast (by omega : (0 : ℤ) < n)
    positivity
  have hi : 0 ≤ 1 / (n : ℝ) ^ k := by positivity
  have z1 : D * ε ≤ |D| * ε := mul_le_mul_of_nonneg_right (le_abs_self _) hε
  have z2 : ∀ X : ℝ, X / (n : ℝ) ^ k ≤ |X| * (1 / (n : ℝ) ^ k) := fun X => by
    rw [mul_one_div]
    exact div_le_div_of_nonneg_right (le_abs_self _) hn.le
  have z3 := z2 A
  have z4 := z2 B
  have w1 := mul_nonneg (abs_nonneg A) hi
  have w2 := mul_nonneg (abs_nonneg B) hi
  have w3 := mul_nonneg (abs_nonneg D) hi
  have w4 := mul_nonneg (abs_nonneg A) hε
  have w5 := mul_nonneg (abs_nonneg B) hε
  have key : ∀ x y z X : ℝ, |x - y| ≤ D * ε → |y - z| ≤ X / (n : ℝ) ^ k → |X| ≤ |A| + |B| →
      |x - z| ≤ (|A| + |B| + |D|) * (1 / (n : ℝ) ^ k + ε) := by
    intro x y z X q1 q2 q3
    have q4 := z2 X
    have q5 : |X| * (1 / (n : ℝ) ^ k) ≤ (|A| + |B|) * (1 / (n : ℝ) ^ k) := mul_le_mul_of_nonneg_right q3 hi
    have := abs_sub_le x y z
    nlinarith
  exact ⟨_, _, e1, key _ _ _ A d1 c1 (by linarith [abs_nonneg B]), e2, key _ _ _ B d2 c2 (by linarith [abs_nonneg A])⟩

/-! ### an example: `x + 1` on the disc about `(2, 3)` -/

/-- `x` with the anti-Laplacian `x³/6`, and the constant 1 -/
noncomputable def xPlusOne : Parts where
  φ x _ := x
  φ1 _ _ := 1
  φ2 _ _ := 0
  Φ x _ := x ^ 3 / 6
  Φ1 x _ := x ^ 2 / 2
  Φ2 _ _ := 0
  p := onePoly
  P := alP onePoly

theorem xPlusOne_good (A : Set (ℝ × ℝ)) (k : ℕ) : xPlusOne.Good A k where
  harm := ⟨fun _ _ => contDiff_fst.contDiffAt, fun _ _ => contDiffAt_const, fun _ _ => contDiffAt_const,
    fun x y _ => ⟨hasDerivAt_id x, hasDerivAt_const y _⟩, fun x y _ => ⟨0, 0, hasDerivAt_const x _, hasDerivAt_const y _, by simp⟩⟩
  anti := ⟨fun _ _ => ContDiff.contDiffAt (by simp only [xPlusOne]; fun_prop), fun _ _ => ContDiff.contDiffAt (by simp only [xPlusOne]; fun_prop),
    fun _ _ => contDiffAt_const, fun x y _ => x_cubed x y, fun x y _ => ⟨x, 0,
      ((hasDerivAt_pow 2 x).div_const 2).congr_deriv (by norm_num), hasDerivAt_const y _, by simp [xPlusOne]⟩⟩
  canonical := one_canonical
  antiPoly := antiLaplacian_ok _
  antiExact := antilap_laplacian _ one_canonical 1 one_lattice fun m hm n hn => by
    simp only [onePoly, List.mem_singleton] at hm
    subst hm hn
    norm_num [Nat.factorial, Nat.descFactorial]

/-- every parameterized cell carries an object with the exact data -/
theorem xPlusOne_exists {K : CellG} (h : K.Ready) : ∃ F : LocPoisson, F.Approximates K 0 xPlusOne := by
  refine ⟨{ cell := some K, poly := some (polyPart K onePoly), harm := some (xHarm K) }, rfl, ⟨_, rfl, polyPart_init h _⟩,
    xHarm K, _, _, _, _, rfl, ⟨rfl, rfl, ⟨_, rfl, rfl, rfl⟩, ?_, ?_, ?_, ?_⟩, within_refl le_rfl _, within_refl le_rfl _,
    within_refl le_rfl _, within_refl le_rfl _⟩ <;> simp [CellG.samplesOf, CellG.normalOf, h.numPts]

theorem xPlusOne_grad (A : Set (ℝ × ℝ)) : HasGradOn A xPlusOne.value (fun _ _ => 1) fun _ _ => 0 := by
  have e : xPlusOne.value = fun x _ => x + 1 := by
    funext x y
    simp [Parts.value, xPlusOne, one_eval]
  rw [e]
  exact fun x y _ => ⟨(hasDerivAt_id x).add_const 1, hasDerivAt_const y _⟩

/-- C102: the computed energies of `x + 1` converge to `π` with every order. -/
example (k : ℕ) (hk : 1 ≤ k) : ∃ M : ℝ, ∀ n, 4 ≤ n → ∃ d inside K1, ∃ F : LocPoisson, ∃ I, getQuadDict n 2 = .ok d ∧
    (circleCell "trap").parameterize inside 8 d = some (.ok K1) ∧ F.Approximates K1 0 xPlusOne ∧ F.getH1 (.poisson F) = .ok I ∧
    |I - Real.pi| ≤ M / (n : ℝ) ^ k := by
  classical
  obtain ⟨h1, h2, h3, h4, h5⟩ := circleCell_ok "trap"
  obtain ⟨M, hM⟩ := C102_inner_products h1 h2 h3 circle_encloses 2 (k := k) (by
    simp only [CellG.SuitedRules, circleCell, List.flatMap_cons, List.flatMap_nil, List.zip_cons_cons, List.zip_nil_right,
      List.append_nil]
    exact .cons (.inr ⟨rfl, h4⟩) .nil) hk (xPlusOne_good _ k) (xPlusOne_good _ k) one_lattice one_lattice (by norm_num)
    (xPlusOne_grad _) (xPlusOne_grad _)
  refine ⟨M, fun n hn => ?_⟩
  obtain ⟨d, hd⟩ := (C21_dict n 2).1.2 ⟨hn, le_rfl⟩
  obtain ⟨K1, hK1⟩ := C87_circle hd (inside := fun _ q => decide ((q.1 - 2) ^ 2 + (q.2 - 3) ^ 2 < 1)) (fuel := 8) le_rfl
    (K := circleCell "trap") (c := { edges := [shiftedCircle "trap"], orients := [1] }) (e := shiftedCircle "trap") (a := Vert.mk' 2 3)
    rfl rfl rfl rfl (by simp [shiftedCircle, unitCircle, Curve.radius]; norm_num) rfl rfl rfl (by
      intro poly q hq
      simp only [Vert.mk', shiftedCircle, unitCircle, Curve.radius, Option.getD_none] at hq
      simp only [decide_eq_true_eq]
      norm_num at hq
      linarith)
  obtain ⟨F, hF⟩ := xPlusOne_exists (cell_rel hd h1 hK1).1
  obtain ⟨I, J, hI, hb, -⟩ := hM n d _ 8 K1 hd hK1 0 le_rfl zero_le_one F F hF hF
  refine ⟨d, _, K1, F, I, hd, hK1, hF, hI, ?_⟩
  simp only [mul_one, mul_zero, add_zero, solidDisc_area] at hb
  rwa [mul_one_div] at hb

end PFEM
