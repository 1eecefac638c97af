import Verif.Lemmas.DiscDirichlet
import Verif.Props.Bubble

/-!
Property theorems C81: on a disc the basis of the local Poisson space is made, its functions are polynomials, and the entries of the local
matrices and of the right-hand side are exact.
-/

namespace PFEM
open Nystrom Antilap Poly MeasureTheory LocSpaceG

namespace Poly2

/-- a Mathlib polynomial as a list of monomials -/
noncomputable def toList (w : Poly2) : Poly ℝ := w.support.toList.map fun m => ⟨⟨m 0, m 1⟩, MvPolynomial.coeff m w⟩

theorem toMv_toList (w : Poly2) : toMv (toList w) = w := by
  have e : ∀ m : Fin 2 →₀ ℕ, MultiIndex.fs ⟨m 0, m 1⟩ = m := fun m => by
    obtain ⟨a, rfl⟩ := MultiIndex.fs_surj m
    congr 1
    simp [MultiIndex.fs]
  conv_rhs => rw [MvPolynomial.as_sum w, ← Finset.sum_map_toList]
  simp only [toMv, toList, List.map_map]
  congr 1
  refine List.map_congr_left fun m _ => ?_
  simp [e]

theorem eval_toList (w : Poly2) (x y : ℝ) : (toList w).eval x y = ev w x y := by rw [eval_mv, toMv_toList]

theorem deg_toList (w : Poly2) {m : Mono ℝ} (hm : m ∈ toList w) : m.alpha.x + m.alpha.y ≤ w.totalDegree := by
  obtain ⟨a, ha, rfl⟩ := List.mem_map.1 hm
  have := MvPolynomial.le_totalDegree (Finset.mem_toList.1 ha)
  rwa [Finsupp.sum_fintype _ _ (fun _ => rfl), Fin.sum_univ_two] at this

theorem hasGrad (w : Poly2) : HasGradOn Set.univ (ev w) (ev (MvPolynomial.pderiv 0 w)) (ev (MvPolynomial.pderiv 1 w)) :=
  fun x y _ => ⟨mv_x w x y, mv_y w x y⟩

theorem hasLaplacian (w : Poly2) : HasLaplacian Set.univ (ev w) (ev (lap w)) :=
  ⟨_, _, fun x y _ => ⟨hasGrad w x y trivial, _, _, mv_x _ x y, mv_y _ x y, by simp only [lap, ev, map_add]⟩⟩

end Poly2

/-! ### the right-hand side -/

/-- the right-hand side for an object that stands for a polynomial -/
theorem disc_load {gmres : Gmres} (hx : Exact gmres) (hfd : Finds gmres) {K : CellG} {x0 y0 r : ℝ} {n : ℕ}
    (h : K.IsDisc x0 y0 r (2 * n)) (hc : Corners K) (hr : 1 / 10 ^ 14 ≤ r) (h4 : 4 ≤ n) (hn : n ≤ 2 * 10 ^ 7) {strategy pc : String} {s : Solver}
    (hs : init gmres K strategy pc = .ok s) {u f p P : Poly ℝ} (hu : PolyProblem u f p P) (hdu : ∀ m ∈ u, m.alpha.x + m.alpha.y + 1 < n)
    {δ ε : ℝ} (hp : OnLattice δ p) {g : Poly ℝ} (hg : OnLattice ε g) (hδ : 1 / 10 ^ 12 ≤ δ * ε) (hdg : ∀ m ∈ g, m.alpha.x + m.alpha.y + 1 < n)
    {q : Poly ℝ} (hq : g.antiLaplacian = .ok q) (hqe : HasLaplacian Set.univ q.eval g.eval)
    {tr : LocPoisson.TraceOr} (ht : tr.Gives K (K.samplesOf u.eval)) {ei eg : Bool}
    {F : LocPoisson} (hF : LocPoisson.init gmres (some s) f tr ei eg = .ok F) (D R : ℝ) :
    BilinForm.evalRhs ⟨D, R, g⟩ F = .ok (∫ z in disc x0 y0 r, g.eval z.1 z.2 * u.eval z.1 z.2) := by
  have hr0 : 0 < r := lt_of_lt_of_le (by norm_num) hr
  have hne := h.edges_ne
  have hd : ∀ w : Poly ℝ, (∀ m ∈ w, m.alpha.x + m.alpha.y + 1 < n) → DegLe ((n - 2 : ℕ) : ℤ) w := fun w hw m hm => by
    have := hw m hm
    simp only [MultiIndex.order]
    omega
  obtain ⟨k, φ, φ1, φ2, Φ, Φ1, Φ2, a1, a2, a3, a4, a5, a6, a7⟩ := disc_object hx hfd h hc hr h4 hn hs hu (hd u hdu) (by omega) ht hF
  obtain ⟨-, eP, dp, lp, lP⟩ := hu.parts (hd u hdu)
  rw [antiLaplacian_ok] at hq
  cases hq
  have dg := hd g hdg
  have dq : DegLe ((n - 2 + 2 : ℕ) : ℤ) (alP g) := deg_mono (by push_cast; omega) (deg_alP dg)
  have lq := (PolyFn.ofPoly dq).lap (f1 := (nz ((alP g).map Mono.dx)).eval) (f2 := (nz ((alP g).map Mono.dy)).eval)
    (fun x y _ => ⟨hasDerivAt_dx (alP_canonical g).2 x y, hasDerivAt_dy (alP_canonical g).2 x y⟩) hqe
  have ag := polyPart_arrays h.ready g
  obtain ⟨m0, f0, -, g0⟩ := mul_lattice hδ hp hg
  have L2 := l2hp_ok h.ready hne a7 ag
  have dm : DegLe ((n - 2 + (n - 2) : ℕ) : ℤ) m0 := by
    rw [Poly.mul_eq] at f0
    cases f0
    push_cast
    exact deg_mulP dp dg
  have L4 : l2PolyPoly (polyPart K p) (polyPart K g) K = .ok (∫ z in disc x0 y0 r, m0.eval z.1 z.2) := by
    rw [← C78_integral h hr0 (p := m0) fun m hm => by
      have := dm m hm
      simp only [MultiIndex.order] at this
      omega]
    simp only [l2PolyPoly, polyPart, py_ok_bind, f0]
  have e : BilinForm.evalRhs ⟨D, R, g⟩ F = .ok (pair K (K.samplesOf φ) (K.normalOf (nz ((alP g).map Mono.dx)).eval (nz ((alP g).map Mono.dy)).eval) -
      pair K (K.normalOf φ1 φ2) (K.samplesOf (alP g).eval) + ∫ z in disc x0 y0 r, m0.eval z.1 z.2) := by
    simp only [BilinForm.evalRhs, a1, Trace.attr, py_ok_bind, polyPart_init h.ready, LocPoisson.getL2, a2, a3, l2]
    rw [L2, py_ok_bind, L4, py_ok_bind]
  rw [e, pair_comm K (K.samplesOf φ), disc_green h hr0 (by omega) lq a5, disc_green h hr0 (by omega) a5 lq]
  have i1 := disc_integrable x0 y0 hr0 (a5.fn.mul (PolyFn.ofPoly dg))
  have i2 := disc_integrable x0 y0 hr0 ((lq.fn1.mul a5.fn1).add' (lq.fn2.mul a5.fn2))
  have i3 := disc_integrable x0 y0 hr0 (PolyFn.ofPoly dm)
  have e1 : (∫ z in disc x0 y0 r, ((alP g).eval z.1 z.2 * 0 + (φ1 z.1 z.2 * (nz ((alP g).map Mono.dx)).eval z.1 z.2 +
      φ2 z.1 z.2 * (nz ((alP g).map Mono.dy)).eval z.1 z.2))) =
      ∫ z in disc x0 y0 r, ((nz ((alP g).map Mono.dx)).eval z.1 z.2 * φ1 z.1 z.2 + (nz ((alP g).map Mono.dy)).eval z.1 z.2 * φ2 z.1 z.2) := by
    congr 1
    funext z
    ring
  rw [integral_add i1 i2, e1, add_sub_cancel_right, ← integral_add i1 i3]
  congr 2
  funext z
  rw [g0, a4]
  ring

/-! ### objects that stand for polynomials -/

/-- the hypotheses on the cell, the linear solver and the discretization -/
structure OnDisc (gmres : Gmres) (K : CellG) (s : Solver) (x0 y0 r : ℝ) (n : ℕ) : Prop where
  exact : Exact gmres
  finds : Finds gmres
  disc : K.IsDisc x0 y0 r (2 * n)
  corners : Corners K
  radius : 1 / 10 ^ 14 ≤ r
  low : 4 ≤ n
  high : n ≤ 2 * 10 ^ 7
  inside : ∀ y ∈ K.interior, (y.1 - x0) ^ 2 + (y.2 - y0) ^ 2 < r ^ 2
  solver : ∃ strategy pc, init gmres K strategy pc = .ok s

/-- the object was made for the polynomial `w` -/
def MadeFor (gmres : Gmres) (K : CellG) (s : Solver) (n : ℕ) (δ : ℝ) (F : LocPoisson) (w : Poly2) : Prop :=
  ∃ f p P tr ei eg, PolyProblem (Poly2.toList w) f p P ∧ w.totalDegree + 1 < n ∧ OnLattice δ p ∧ tr.Gives K (K.samplesOf (Poly2.ev w)) ∧
    LocPoisson.init gmres (some s) f tr ei eg = .ok F

section
variable {gmres : Gmres} {K : CellG} {s : Solver} {x0 y0 r : ℝ} {n : ℕ} {δ : ℝ}

theorem toList_eval (w : Poly2) : (Poly2.toList w).eval = Poly2.ev w := by funext x y; exact Poly2.eval_toList w x y

theorem MadeFor.products (h : OnDisc gmres K s x0 y0 r n) (hδ : 1 / 10 ^ 12 ≤ δ * δ) {F G : LocPoisson} {u v : Poly2}
    (hF : MadeFor gmres K s n δ F u) (hG : MadeFor gmres K s n δ G v) :
    F.getH1 (.poisson G) = .ok (Poly2.energy x0 y0 r u v) ∧ F.getL2 (.poisson G) = .ok (Poly2.mass x0 y0 r u v) := by
  obtain ⟨f, p, P, tr, ei, eg, a1, a2, a3, a4, a5⟩ := hF
  obtain ⟨f', p', P', tr', ei', eg', b1, b2, b3, b4, b5⟩ := hG
  obtain ⟨st, pc, hs⟩ := h.solver
  have := C78_inner_products h.exact h.finds h.disc h.corners h.radius h.low h.high hs a1 b1
    (fun m hm => by have := Poly2.deg_toList u hm; omega) (fun m hm => by have := Poly2.deg_toList v hm; omega) a3 b3 hδ
    (by rw [toList_eval]; exact a4) (by rw [toList_eval]; exact b4) a5 b5 (by rw [toList_eval]; exact Poly2.hasGrad u)
    (by rw [toList_eval]; exact Poly2.hasGrad v)
  rw [toList_eval, toList_eval] at this
  exact this

theorem MadeFor.load (h : OnDisc gmres K s x0 y0 r n) {F : LocPoisson} {u : Poly2} (hF : MadeFor gmres K s n δ F u) {ε : ℝ} {g q : Poly ℝ}
    (hg : OnLattice ε g) (hδ : 1 / 10 ^ 12 ≤ δ * ε) (hdg : ∀ m ∈ g, m.alpha.x + m.alpha.y + 1 < n) (hq : g.antiLaplacian = .ok q)
    (hqe : HasLaplacian Set.univ q.eval g.eval) (D R : ℝ) :
    BilinForm.evalRhs ⟨D, R, g⟩ F = .ok (Poly2.mass x0 y0 r (toMv g) u) := by
  obtain ⟨f, p, P, tr, ei, eg, a1, a2, a3, a4, a5⟩ := hF
  obtain ⟨st, pc, hs⟩ := h.solver
  have := disc_load h.exact h.finds h.disc h.corners h.radius h.low h.high hs a1
    (fun m hm => by have := Poly2.deg_toList u hm; omega) a3 hg hδ hdg hq hqe (by rw [toList_eval]; exact a4) a5 D R
  rw [this, toList_eval]
  simp only [Poly2.mass, eval_mv]

/-- an object can be made for every polynomial for which the polynomial operations are exact -/
theorem makeFor (h : OnDisc gmres K s x0 y0 r n) {w : Poly2} {f p P : Poly ℝ} (hw : PolyProblem (Poly2.toList w) f p P)
    (hd : w.totalDegree + 1 < n) (hp : OnLattice δ p) {tr : LocPoisson.TraceOr} (ht : tr.Gives K (K.samplesOf (Poly2.ev w))) (ei eg : Bool) :
    ∃ F, LocPoisson.init gmres (some s) f tr ei eg = .ok F ∧ MadeFor gmres K s n δ F w := by
  obtain ⟨st, pc, hs⟩ := h.solver
  obtain ⟨B, hB⟩ := C77_poisson x0 y0 h.radius hw.canonical hw.anti hw.antiExact hw.solution (by rw [toList_eval]; exact Poly2.hasGrad w)
    (d := w.totalDegree) (fun m hm => Poly2.deg_toList w hm)
  obtain ⟨F, hF, -⟩ := hB gmres K n st pc s tr h.exact h.finds h.disc h.corners h.low h.high hd hs (by rw [toList_eval]; exact ht) h.inside ei eg
  exact ⟨F, hF, f, p, P, tr, ei, eg, hw, hd, hp, ht, hF⟩

/-- harmonic polynomials -/
theorem harmonic_problem {w : Poly2} (hw : Poly2.lap w = 0) : PolyProblem (Poly2.toList w) [] [] [] := by
  have h := zero_problem
  have h0 := Poly2.hasLaplacian w
  rw [hw] at h0
  refine ⟨h.canonical, ?_, h.anti, h.antiExact, h.anti2, h.anti2Exact⟩
  rw [toList_eval]
  have e : Poly2.ev 0 = Poly.eval ([] : Poly ℝ) := by funext x y; simp [Poly2.ev, Poly.eval]
  rwa [e] at h0

/-- bubbles -/
theorem bubble_problem {w : Poly2} {m p P : Poly ℝ} (hc : Canonical m) (hp : m.antiLaplacian = .ok p) (hpe : HasLaplacian Set.univ p.eval m.eval)
    (hP : p.antiLaplacian = .ok P) (hPe : HasLaplacian Set.univ P.eval p.eval) (hw : ∀ x y, Poly2.ev (Poly2.lap w) x y = m.eval x y) :
    PolyProblem (Poly2.toList w) m p P := by
  refine ⟨hc, ?_, hp, hpe, hP, hPe⟩
  have h0 := Poly2.hasLaplacian w
  rw [toList_eval]
  have e : Poly2.ev (Poly2.lap w) = m.eval := by funext x y; exact hw x y
  rwa [e] at h0

theorem samples_circle (h : K.IsDisc x0 y0 r n) {f g : ℝ → ℝ → ℝ}
    (he : ∀ θ : ℝ, f (x0 + r * Real.cos θ) (y0 + r * Real.sin θ) = g (x0 + r * Real.cos θ) (y0 + r * Real.sin θ)) :
    K.samplesOf f = K.samplesOf g := by
  simp only [CellG.samplesOf, h.cols, List.map_map]
  exact List.map_congr_left fun j _ => he _

/-- the harmonic polynomial with the boundary values of a polynomial -/
theorem harmonic_extension (x0 y0 : ℝ) {r : ℝ} (hr : 0 < r) {p : Poly2} {d : ℕ} (hd : p.totalDegree ≤ d) :
    ∃ w : Poly2, w.totalDegree ≤ d ∧ Poly2.lap w = 0 ∧
      ∀ θ : ℝ, Poly2.ev w (x0 + r * Real.cos θ) (y0 + r * Real.sin θ) = Poly2.ev p (x0 + r * Real.cos θ) (y0 + r * Real.sin θ) := by
  by_cases h2 : 2 ≤ d
  · obtain ⟨e, rfl⟩ := Nat.exists_eq_add_of_le' h2
    obtain ⟨q, hq, hL⟩ := Poly2.exists_dirichlet x0 y0 hr (Poly2.degree_lap hd)
    refine ⟨p - Poly2.cap x0 y0 r * q, (MvPolynomial.totalDegree_sub _ _).trans (max_le hd ?_), ?_, fun θ => ?_⟩
    · refine (MvPolynomial.totalDegree_mul _ _).trans ?_
      have := Poly2.cap_degree x0 y0 r
      omega
    · have e : Poly2.lap (p - Poly2.cap x0 y0 r * q) = Poly2.lap p - Poly2.lap (Poly2.cap x0 y0 r * q) := by
        simp only [Poly2.lap, map_sub]
        ring
      rw [e, hL, sub_self]
    · have := Poly2.cap_vanish x0 y0 r q θ
      simp only [Poly2.ev, map_sub] at this ⊢
      rw [this, sub_zero]
  · refine ⟨p, hd, ?_, fun θ => rfl⟩
    have h1 : ∀ i j, MvPolynomial.pderiv j (MvPolynomial.pderiv i p) = 0 := fun i j => by
      have h0 := Poly2.degree_pderiv i (d := 0) (by omega : p.totalDegree ≤ 0 + 1)
      rw [MvPolynomial.totalDegree_eq_zero_iff_eq_C.1 (Nat.le_zero.1 h0), MvPolynomial.pderiv_C]
    rw [Poly2.lap, h1, h1, add_zero]

theorem degree_toMv {p : Poly ℝ} (h : ∀ m ∈ p, m.alpha.x + m.alpha.y + 1 < n) : (toMv p).totalDegree ≤ n - 2 := by
  refine totalDegree_toMv fun m hm => ?_
  have := h m hm
  simp only [MultiIndex.order]
  omega

/-- one edge function -/
theorem edge_disc {x : Ctx} (h : OnDisc x.gmres x.K x.nyst x0 y0 r n) (key : GlobalKey) {p : Poly ℝ} (hp : ∀ m ∈ p, m.alpha.x + m.alpha.y + 1 < n) :
    ∃ f w, edgeFun x 0 key p = .ok f ∧ Poly2.lap w = 0 ∧
      (∀ θ : ℝ, Poly2.ev w (x0 + r * Real.cos θ) (y0 + r * Real.sin θ) = p.eval (x0 + r * Real.cos θ) (y0 + r * Real.sin θ)) ∧ f.key = key ∧
      MadeFor x.gmres x.K x.nyst n δ f.val w := by
  have hr0 : 0 < r := lt_of_lt_of_le (by norm_num) h.radius
  obtain ⟨w, hd, hL, hw⟩ := harmonic_extension x0 y0 hr0 (degree_toMv hp)
  simp only [← eval_mv] at hw
  obtain ⟨e, he, hcol'⟩ := h.disc.getEdges
  have hcol := hcol'.trans h.disc.cols.symm
  obtain ⟨t, ht, hH⟩ := zeroTrace_ok (x := x) h.disc.ready
  obtain ⟨u, hu, hG⟩ := setPoly_ok hH (j := 0) (by rw [he]; simp) p
  have hv := hG.values
  rw [he] at hv
  simp only [List.length_singleton, List.replicate_one, List.set_cons_zero, List.zipWith_cons_cons, List.zipWith_nil_left, List.flatten_cons,
    List.flatten_nil, List.append_nil, hcol] at hv
  have hg : (LocPoisson.TraceOr.trace u).Gives x.K (x.K.samplesOf (Poly2.ev w)) := by
    refine ⟨?_, by simp [CellG.samplesOf, h.disc.ready.numPts]⟩
    rw [hv, samples_circle h.disc hw]
    rfl
  obtain ⟨F, hF, hM⟩ := makeFor (δ := δ) h (harmonic_problem hL) (by have := h.low; omega) (by intro m hm; cases hm) hg x.evalInt x.evalGrad
  refine ⟨⟨key, F⟩, w, ?_, hL, hw, rfl, hM⟩
  simp only [edgeFun, ht, py_ok_bind]
  rw [hu, py_ok_bind, hF, py_ok_bind]

theorem edges_disc {x : Ctx} (h : OnDisc x.gmres x.K x.nyst x0 y0 r n) : ∀ (l : List (GlobalKey × Poly ℝ)),
    (∀ kp ∈ l, ∀ m ∈ kp.2, m.alpha.x + m.alpha.y + 1 < n) → ∃ fs ws, edgeOn x 0 l = .ok fs ∧
      List.Forall₂ (fun kp w => Poly2.lap w = 0 ∧
        ∀ θ : ℝ, Poly2.ev w (x0 + r * Real.cos θ) (y0 + r * Real.sin θ) = kp.2.eval (x0 + r * Real.cos θ) (y0 + r * Real.sin θ)) l ws ∧
      List.Forall₂ (fun f w => MadeFor x.gmres x.K x.nyst n δ f.val w) fs ws
  | [], _ => ⟨[], [], rfl, .nil, .nil⟩
  | (key, p) :: l, hl => by
    obtain ⟨f, w, h1, h2, h3, -, h5⟩ := edge_disc (δ := δ) h key (hl (key, p) (by simp))
    obtain ⟨fs, ws, k1, k2, k3⟩ := edges_disc h l fun kp hk => hl kp (by simp [hk])
    refine ⟨f :: fs, w :: ws, ?_, .cons ⟨h2, h3⟩ k2, .cons h5 k3⟩
    simp only [edgeOn, h1, k1, py_ok_bind]

theorem bubble_order {deg i j k : ℕ} (hk : k < deg * (deg - 1) / 2) (h : (MultiIndex.mk i j).idx = k) : i + j + 2 ≤ deg := by
  have h1 := MultiIndex.two_idx ⟨i, j⟩
  simp only [MultiIndex.order] at h1
  by_contra hc
  obtain ⟨d, rfl⟩ : ∃ d, deg = d + 1 := ⟨deg - 1, by rcases deg with _ | d <;> simp at hk ⊢⟩
  have h2 : 2 * k < (d + 1) * d := by
    have := Nat.div_mul_le_self ((d + 1) * (d + 1 - 1)) 2
    simp only [Nat.add_sub_cancel] at this hk
    omega
  have h3 : d ≤ i + j := by omega
  have h4 : (d + 1) * d ≤ (i + j) * (i + j + 1) := by nlinarith
  omega

theorem degree_shifted (c : ℝ × ℝ) (a : ℝ) (i j : ℕ) : (Poly2.shifted c a i j).totalDegree ≤ i + j := by
  have h : ∀ (l : Fin 2) (b : ℝ) (k : ℕ), ((MvPolynomial.X l - MvPolynomial.C b : Poly2) ^ k).totalDegree ≤ k := fun l b k => by
    refine (MvPolynomial.totalDegree_pow _ _).trans ?_
    have : (MvPolynomial.X l - MvPolynomial.C b : Poly2).totalDegree ≤ 1 := (MvPolynomial.totalDegree_sub _ _).trans (by simp)
    nlinarith
  refine (MvPolynomial.totalDegree_mul _ _).trans ?_
  have := (MvPolynomial.totalDegree_mul ((MvPolynomial.X 0 - MvPolynomial.C c.1 : Poly2) ^ i) ((MvPolynomial.X 1 - MvPolynomial.C c.2) ^ j)).trans
    (add_le_add (h 0 c.1 i) (h 1 c.2 j))
  rw [MvPolynomial.totalDegree_C]
  omega

theorem ev_shifted (c : ℝ × ℝ) (a : ℝ) (i j : ℕ) (x y : ℝ) : Poly2.ev (Poly2.shifted c a i j) x y = a * ((x - c.1) ^ i * (y - c.2) ^ j) := by
  simp [Poly2.ev, Poly2.shifted]

/-- one bubble function -/
theorem bubble_disc {x : Ctx} (h : OnDisc x.gmres x.K x.nyst x0 y0 r n) {deg k : ℕ} (hdn : deg + 1 < n) (hk : k < deg * (deg - 1) / 2)
    (hb : BubbleExact x.centroid x.area δ k) :
    ∃ f w i j, bubbFun x k = .ok f ∧ (MultiIndex.mk i j).idx = k ∧ w.totalDegree ≤ deg ∧ Poly2.VanishOn x0 y0 r w ∧
      Poly2.lap w = Poly2.shifted x.centroid (-1 / x.area ^ 2) i j ∧ f.key = .ofBubb k ∧ MadeFor x.gmres x.K x.nyst n δ f.val w := by
  have hr0 : 0 < r := lt_of_lt_of_le (by norm_num) h.radius
  obtain ⟨i, j, m, p, P, h1, h2, h3, h4, h5, h6, h7, h8, h9⟩ := hb
  have hij := bubble_order hk h1
  obtain ⟨q, hq, hL⟩ := Poly2.exists_dirichlet x0 y0 hr0 (degree_shifted x.centroid (-1 / x.area ^ 2) i j)
  have hdeg : (Poly2.cap x0 y0 r * q).totalDegree ≤ deg := by
    refine (MvPolynomial.totalDegree_mul _ _).trans ?_
    have := Poly2.cap_degree x0 y0 r
    omega
  have hv := Poly2.cap_vanish x0 y0 r q
  have hg : (LocPoisson.TraceOr.value (.num 0)).Gives x.K (x.K.samplesOf (Poly2.ev (Poly2.cap x0 y0 r * q))) := by
    show _ = _
    rw [samples_circle h.disc (g := fun _ _ => 0) hv, CellG.samplesOf, h.disc.ready.numPts]
    simp
  obtain ⟨F, hF, hM⟩ := makeFor (δ := δ) h (bubble_problem h3 h5 h6 h7 h8 fun a b => by rw [hL, h4, ev_shifted]) (by omega) h9 hg x.evalInt x.evalGrad
  refine ⟨⟨.ofBubb (k : ℤ), F⟩, _, i, j, ?_, h1, hdeg, hv, hL, rfl, hM⟩
  rw [bubbFun, h2, py_ok_bind, hF, py_ok_bind]

theorem bubbles_disc {x : Ctx} (h : OnDisc x.gmres x.K x.nyst x0 y0 r n) {deg : ℕ} (hdn : deg + 1 < n) : ∀ (l : List ℕ),
    (∀ k ∈ l, k < deg * (deg - 1) / 2) → (∀ k ∈ l, BubbleExact x.centroid x.area δ k) → ∃ fs ws, ContourG.mapPy (bubbFun x) l = .ok fs ∧
      List.Forall₂ (fun (k : ℕ) w => w.totalDegree ≤ deg ∧ Poly2.VanishOn x0 y0 r w ∧ ∃ i j, (MultiIndex.mk i j).idx = k ∧
        Poly2.lap w = Poly2.shifted x.centroid (-1 / x.area ^ 2) i j) l ws ∧
      List.Forall₂ (fun f w => MadeFor x.gmres x.K x.nyst n δ f.val w) fs ws
  | [], _, _ => ⟨[], [], rfl, .nil, .nil⟩
  | k :: l, hl, hb => by
    obtain ⟨f, w, i, j, h1, h2, h3, h4, h5, -, h7⟩ := bubble_disc (δ := δ) h hdn (hl k (by simp)) (hb k (by simp))
    obtain ⟨fs, ws, k1, k2, k3⟩ := bubbles_disc h hdn l (fun k hk => hl k (by simp [hk])) fun k hk => hb k (by simp [hk])
    refine ⟨f :: fs, w :: ws, ?_, .cons ⟨h3, h4, i, j, h2, h5⟩ k2, .cons h7 k3⟩
    simp only [ContourG.mapPy, h1, k1, py_ok_bind]

/-- the whole basis -/
theorem disc_basis (hx : Exact gmres) (hfd : Finds gmres) (h : K.IsDisc x0 y0 r (2 * n)) (hc : Corners K) (hr : 1 / 10 ^ 14 ≤ r) (h4 : 4 ≤ n)
    (hn : n ≤ 2 * 10 ^ 7) (hin : ∀ y ∈ K.interior, (y.1 - x0) ^ 2 + (y.2 - y0) ^ 2 < r ^ 2) {ord : List ℤ → List ℤ} (hord : ord [] = [])
    {st : EdgeStore ℝ} {e : ℕ} (hl : (st e).isLoop = true) {b : EdgeSpace ℝ} (hb : b.edge = e) {deg : ℕ} (hd1 : 1 ≤ deg) (hdn : deg + 1 < n)
    (hp : ∀ p ∈ b.edgeTraces, ∀ m ∈ p, m.alpha.x + m.alpha.y + 1 < n)
    (hbub : ∀ k < deg * (deg - 1) / 2, BubbleExact (x0, y0) (Real.pi * r ^ 2) δ k) (ei eg : Bool) :
    ∃ s es bs us vs, basis gmres K ord st [e] [b] deg ei eg = .ok (es ++ bs) ∧ OnDisc gmres K s x0 y0 r n ∧
      List.Forall₂ (fun (p : Poly ℝ) u => Poly2.lap u = 0 ∧
        ∀ θ : ℝ, Poly2.ev u (x0 + r * Real.cos θ) (y0 + r * Real.sin θ) = p.eval (x0 + r * Real.cos θ) (y0 + r * Real.sin θ)) b.edgeTraces us ∧
      List.Forall₂ (fun (k : ℕ) v => v.totalDegree ≤ deg ∧ Poly2.VanishOn x0 y0 r v ∧ ∃ i j, (MultiIndex.mk i j).idx = k ∧
        Poly2.lap v = Poly2.shifted (x0, y0) (-1 / (Real.pi * r ^ 2) ^ 2) i j) (List.range (deg * (deg - 1) / 2)) vs ∧
      List.Forall₂ (fun f w => MadeFor gmres K s n δ f.val w) es us ∧ List.Forall₂ (fun f w => MadeFor gmres K s n δ f.val w) bs vs := by
  have hr0 : 0 < r := lt_of_lt_of_le (by norm_num) hr
  obtain ⟨s, hs⟩ := fft_init gmres h hr0 h4 hn
  obtain ⟨ha, hce⟩ := C80_disc h hr0 (by omega)
  have hK : s.ops.K = K := build_cell (init_parts hs).1
  have hon : OnDisc gmres K s x0 y0 r n := ⟨hx, hfd, h, hc, hr, h4, hn, hin, _, _, hs⟩
  set x : Ctx := ⟨gmres, s, (x0, y0), Real.pi * r ^ 2, ei, eg⟩ with hxd
  have hxK : x.K = K := hK
  have hon' : OnDisc x.gmres x.K x.nyst x0 y0 r n := by rw [hxK]; exact hon
  obtain ⟨bs, vs, b1, b2, b3⟩ := bubbles_disc (δ := δ) hon' hdn (List.range (deg * (deg - 1) / 2)) (fun k hk => List.mem_range.1 hk)
    fun k hk => hbub k (List.mem_range.1 hk)
  obtain ⟨es, us, e1, e2, e3⟩ := edges_disc (δ := δ) hon' ((b.edgeKeys st).zip b.edgeTraces) fun kp hk => hp _ (List.of_mem_zip hk).2
  rw [hxK] at b3 e3
  refine ⟨s, es, bs, us, vs, ?_, hon, ?_, b2, e3, b3⟩
  · have hB : bubbFuns x deg = .ok bs := by
      unfold bubbFuns
      split_ifs with h2
      · have : deg = 1 := by omega
        subst this
        simpa [ContourG.mapPy] using b1
      · exact b1
    have hV : vertFuns x ord st [e] [b] = .ok [] := by simp [vertFuns, LocSpace.vertIdxs, hl, hord, ContourG.mapPy]
    have hE : edgeFuns x st [e] [b] = .ok es := by
      have hi : pyIndexOf ([e].map fun e => (st e).idx) (st b.edge).idx = .ok 0 := by simp [hb, pyIndexOf]
      simp only [edgeFuns]
      rw [hi, py_ok_bind, e1, py_ok_bind, py_ok_bind, List.append_nil]
    rw [basis, if_neg (by omega), hce, py_ok_bind, ha, py_ok_bind, hs, py_ok_bind, Int.toNat_natCast]
    change Bind.bind (bubbFuns x deg) _ = _
    rw [hB, py_ok_bind, hV, py_ok_bind, hE, py_ok_bind,
      List.nil_append]
  · have hlen : (b.edgeKeys st).length = b.edgeTraces.length := by simp [EdgeSpace.edgeKeys, EdgeSpace.numEdgeFuns]
    have := List.map_snd_zip (l₁ := b.edgeKeys st) (l₂ := b.edgeTraces) (by omega)
    rw [← this, List.forall₂_map_left_iff]
    exact e2

end

/-- C81: on a disc bounded by one closed curve the basis of the local space is made; its edge functions are the harmonic polynomials with the
traces given by the edge space, its bubble functions the polynomials that vanish on the circle and have the shifted monomials as Laplacians;
and all inner products the code computes for them, as well as the right-hand side, are the integrals over the disc. -/
theorem C81_basis {gmres : Gmres} (hx : Exact gmres) (hfd : Finds gmres) {K : CellG} {x0 y0 r : ℝ} {n : ℕ} (h : K.IsDisc x0 y0 r (2 * n))
    (hc : Corners K) (hr : 1 / 10 ^ 14 ≤ r) (h4 : 4 ≤ n) (hn : n ≤ 2 * 10 ^ 7)
    (hin : ∀ y ∈ K.interior, (y.1 - x0) ^ 2 + (y.2 - y0) ^ 2 < r ^ 2) {ord : List ℤ → List ℤ} (hord : ord [] = [])
    {st : EdgeStore ℝ} {e : ℕ} (hl : (st e).isLoop = true) {b : EdgeSpace ℝ} (hb : b.edge = e) {deg : ℕ} (hd1 : 1 ≤ deg) (hdn : deg + 1 < n)
    (hp : ∀ p ∈ b.edgeTraces, ∀ m ∈ p, m.alpha.x + m.alpha.y + 1 < n) {δ : ℝ} (hδ : 1 / 10 ^ 12 ≤ δ * δ)
    (hbub : ∀ k < deg * (deg - 1) / 2, BubbleExact (x0, y0) (Real.pi * r ^ 2) δ k) (ei eg : Bool) :
    ∃ fs us vs, basis gmres K ord st [e] [b] deg ei eg = .ok fs ∧ fs.length = (us ++ vs).length ∧
      List.Forall₂ (fun (p : Poly ℝ) u => Poly2.lap u = 0 ∧
        ∀ θ : ℝ, Poly2.ev u (x0 + r * Real.cos θ) (y0 + r * Real.sin θ) = p.eval (x0 + r * Real.cos θ) (y0 + r * Real.sin θ)) b.edgeTraces us ∧
      List.Forall₂ (fun (k : ℕ) v => v.totalDegree ≤ deg ∧ Poly2.VanishOn x0 y0 r v ∧ ∃ i j, (MultiIndex.mk i j).idx = k ∧
        Poly2.lap v = Poly2.shifted (x0, y0) (-1 / (Real.pi * r ^ 2) ^ 2) i j) (List.range (deg * (deg - 1) / 2)) vs ∧
      (∀ f u g w, (f, u) ∈ fs.zip (us ++ vs) → (g, w) ∈ fs.zip (us ++ vs) →
        f.val.getH1 (.poisson g.val) = .ok (Poly2.energy x0 y0 r u w) ∧ f.val.getL2 (.poisson g.val) = .ok (Poly2.mass x0 y0 r u w)) ∧
      ∀ f u, (f, u) ∈ fs.zip (us ++ vs) → ∀ (B : BilinForm) (ε : ℝ) (q : Poly ℝ), OnLattice ε B.rhsPoly → 1 / 10 ^ 12 ≤ δ * ε →
        (∀ m ∈ B.rhsPoly, m.alpha.x + m.alpha.y + 1 < n) → B.rhsPoly.antiLaplacian = .ok q → HasLaplacian Set.univ q.eval B.rhsPoly.eval →
        B.evalRhs f.val = .ok (∫ z in disc x0 y0 r, B.rhsPoly.eval z.1 z.2 * Poly2.ev u z.1 z.2) := by
  obtain ⟨s, es, bs, us, vs, h1, h2, h3, h5, h6, h7⟩ := disc_basis hx hfd h hc hr h4 hn hin hord hl hb hd1 hdn hp hbub ei eg
  have hall := List.rel_append h6 h7
  have hmem : ∀ f u, (f, u) ∈ (es ++ bs).zip (us ++ vs) → MadeFor gmres K s n δ f.val u := fun f u hfu =>
    (List.forall₂_iff_zip.1 hall).2 hfu
  refine ⟨es ++ bs, us, vs, h1, hall.length_eq, h3, h5, fun f u g w hf hg => (hmem f u hf).products h2 hδ (hmem g w hg), ?_⟩
  intro f u hf B ε q k1 k2 k3 k4 k5
  rw [(hmem f u hf).load h2 k1 k2 k3 k4 k5]
  simp only [Poly2.mass, eval_mv]

/-! ### discs about the origin -/

theorem canonical_mono {a : MultiIndex} {κ : ℝ} (h : 1 / 10 ^ 12 ≤ |κ|) : Canonical [Mono.mk a κ] := by
  refine ⟨by simp, ?_⟩
  intro m hm
  rw [List.mem_singleton] at hm
  subst hm
  exact h

theorem alP_single {i j : ℕ} {κ δ : ℝ} (hδ : (denom (i + j) : ℝ) * tol ℝ ≤ δ) (hκ : tol ℝ ≤ |κ|) (hc : ∃ z : ℤ, κ = z * δ) :
    InA (fam ((i + j + 2 : ℕ) : ℤ) (δ / denom (i + j))) (alP [⟨⟨i, j⟩, κ⟩]) := by
  have hsep : Sep (fam ((i + j + 2 : ℕ) : ℤ) (δ / denom (i + j))) := by
    refine sep_fam ?_
    have hd0 : (0 : ℝ) < denom (i + j) := by exact_mod_cast Poly.denom_pos _
    rw [le_div_iff₀ hd0, mul_comm]
    exact hδ
  have hs := (alMono_spec (⟨⟨i, j⟩, κ⟩ : Mono ℝ) δ hκ hδ hc).2
  simp only [alP, List.foldl_cons, List.foldl_nil]
  refine (iadd_A hsep (fun _ h => by cases h) ?_).2
  simpa only [MultiIndex.order, Nat.cast_add, Nat.cast_ofNat] using hs

/-- the polynomial operations are exact if the centre is the origin and the coefficients are not too small -/
theorem bubble_origin {A : ℝ} (hA : 0 < A) {D i j : ℕ} (hD0 : 0 < D) (hD : denom (i + j) ∣ D)
    (h : denom (i + j + 2) * (1 / 10 ^ 12) ≤ 1 / (A ^ 2 * D)) : BubbleExact (0, 0) A (1 / (A ^ 2 * D)) (MultiIndex.mk i j).idx := by
  have hA2 : 0 < A ^ 2 := by positivity
  have hD' : (0 : ℝ) < D := by exact_mod_cast hD0
  have hD1 : (1 : ℝ) ≤ D := by exact_mod_cast hD0
  have hd1 : (1 : ℝ) ≤ denom (i + j + 2) := by exact_mod_cast Poly.denom_pos _
  have hd2 : (denom (i + j) : ℝ) ≤ D := by exact_mod_cast Nat.le_of_dvd hD0 hD
  have hk : (D : ℝ) * (1 / 10 ^ 12) ≤ 1 / A ^ 2 := by
    have : 1 / (A ^ 2 * D) * D = 1 / A ^ 2 := by field_simp
    rw [← this]
    nlinarith
  have ht : 1 / 10 ^ 12 ≤ 1 / A ^ 2 := by nlinarith
  have habs : |(-1 : ℝ) / A ^ 2| = 1 / A ^ 2 := by rw [neg_div, abs_neg, abs_of_pos (by positivity)]
  have hkept : ∀ (a : ℝ), 1 / 10 ^ 12 ≤ |a| → ∀ p ≤ i, ∀ q ≤ j, Kept (a * ((0 : ℝ) ^ p * 0 ^ q)) := by
    intro a ha p _ q _
    rcases p with _ | p
    · rcases q with _ | q
      · exact Or.inr (by simpa using ha)
      · exact Or.inl (by simp)
    · exact Or.inl (by simp)
  obtain ⟨m, h1, h2, h3⟩ := C80_monomial_partial (0, 0) A hA i j
    (fun p hp q hq => by simpa using hkept 1 (by norm_num) p hp q hq) (hkept _ (by rw [habs]; exact ht))
  have hm : m = [⟨⟨i, j⟩, -1 / A ^ 2⟩] := by
    refine h2.ext (canonical_mono (by rw [habs]; exact ht)) (coeffOf_of_toMv ?_)
    refine Poly2.ev_injective fun x y => ?_
    simp only [Poly2.ev, ← eval_mv, h3]
    rcases Nat.eq_zero_or_pos i with rfl | hi <;> rcases Nat.eq_zero_or_pos j with rfl | hj <;> 
      simp [Poly.eval, Mono.eval, *]
    ring
  have hl : OnLattice (1 / A ^ 2) m := by
    rw [hm]
    intro m' hm'
    rw [List.mem_singleton] at hm'
    subst hm'
    exact ⟨-1, by push_cast; ring⟩
  have hdm : ∀ m' ∈ m, (denom m'.alpha.order : ℝ) * tol ℝ ≤ 1 / A ^ 2 := by
    rw [hm]
    intro m' hm'
    rw [List.mem_singleton] at hm'
    subst hm'
    have : (denom (i + j) : ℝ) * (1 / 10 ^ 12) ≤ 1 / A ^ 2 := by nlinarith
    exact this
  have hal : InA (fam ((i + j + 2 : ℕ) : ℤ) (1 / A ^ 2 / denom (i + j))) (alP m) := by
    rw [hm]
    exact alP_single (hdm ⟨⟨i, j⟩, _⟩ (by rw [hm]; exact List.mem_singleton.2 rfl)) (by rw [habs]; exact ht) ⟨-1, by push_cast; ring⟩
  have hlat : OnLattice (1 / (A ^ 2 * D)) (alP m) ∧ ∀ m' ∈ alP m, m'.alpha.x + m'.alpha.y = i + j + 2 := by
    obtain ⟨k, hk⟩ := hD
    have hk0 : (k : ℝ) ≠ 0 := by
      rintro h0
      rw [Nat.cast_eq_zero.1 h0] at hk
      omega
    have hd0 : (denom (i + j) : ℝ) ≠ 0 := by exact_mod_cast (Poly.denom_pos _).ne'
    have key : ∀ m' ∈ alP m, m'.alpha.x + m'.alpha.y = i + j + 2 ∧ ∃ z : ℤ, m'.coef = z * (1 / A ^ 2 / denom (i + j)) := by
      intro m' hm'
      rcases mem_fam.1 (hal m' hm') with h0 | ⟨h1, h2⟩
      · have := (alP_canonical m).2 m' hm'
        rw [h0, abs_zero] at this
        exact absurd this (not_le.2 (by norm_num [tol]))
      · exact ⟨by simp only [MultiIndex.order] at h1; omega, h2⟩
    refine ⟨fun m' hm' => ?_, fun m' hm' => (key m' hm').1⟩
    obtain ⟨z, hz⟩ := (key m' hm').2
    refine ⟨z * k, ?_⟩
    rw [hz, hk]
    push_cast
    field_simp
  refine ⟨i, j, m, alP m, alP (alP m), rfl, h1, h2, h3, antiLaplacian_ok m, antilap_laplacian m h2 _ hl ?_, antiLaplacian_ok _,
    antilap_laplacian _ (alP_canonical m) _ hlat.1 ?_, hlat.1⟩
  · intro m' hm' n hn
    subst hn
    exact hdm m' hm'
  · intro m' hm' n hn
    subst hn
    rw [hlat.2 m' hm']
    exact h

/-- C81: the hypothesis on the bubbles of degree up to `deg` holds for a disc about the origin as soon as its radius is not too large for the degree. -/
theorem C81_origin {r : ℝ} (hr : 0 < r) {deg D : ℕ} (hD0 : 0 < D) (hD : ∀ d, d + 2 ≤ deg → denom d ∣ D)
    (h : ∀ d, d + 2 ≤ deg → denom (d + 2) * (1 / 10 ^ 12) ≤ 1 / ((Real.pi * r ^ 2) ^ 2 * D)) :
    ∀ k < deg * (deg - 1) / 2, BubbleExact (0, 0) (Real.pi * r ^ 2) (1 / ((Real.pi * r ^ 2) ^ 2 * D)) k := by
  intro k hk
  obtain ⟨α, -, hα⟩ := MultiIndex.setFromIdx_nat k
  have h1 := bubble_order (i := α.x) (j := α.y) hk hα
  have := bubble_origin (A := Real.pi * r ^ 2) (by positivity) hD0 (hD (α.x + α.y) h1) (h (α.x + α.y) h1)
  rwa [show (MultiIndex.mk α.x α.y).idx = k from hα] at this

/-! ### the hypotheses can be met -/

/-- a closed edge with two edge functions, whose traces are `x` and `x²` -/
noncomputable def loopSpace : EdgeSpace ℝ := ⟨0, [[⟨⟨1, 0⟩, 1⟩], [⟨⟨2, 0⟩, 1⟩]], []⟩

def loopStore : EdgeStore ℝ := fun _ => ⟨⟨0, 1, 0⟩, ⟨0, 1, 0⟩, 0, -1, some 0⟩

/-- the unit disc with 32 samples and polynomials of degree 3: two edge functions and three bubbles -/
example : ∃ fs, basis someGmres (sampledDiscIn 16) id loopStore [0] [loopSpace] (3 : ℕ) true true = .ok fs ∧ fs.length = 5 := by
  obtain ⟨h1, h2⟩ := sampledDiscIn_ok (n := 16) (by norm_num)
  have hpi := Real.pi_pos
  have hpi4 : Real.pi ^ 2 ≤ 16 := by nlinarith [Real.pi_le_four]
  have hle : (1 : ℝ) / 128 ≤ 1 / ((Real.pi * 1 ^ 2) ^ 2 * (8 : ℕ)) := by
    apply one_div_le_one_div_of_le (by positivity)
    push_cast
    nlinarith
  have hb := C81_origin (r := 1) one_pos (deg := 3) (D := 8) (by norm_num)
    (fun d hd => by have : d ≤ 1 := by omega
                    interval_cases d <;> decide) (fun d hd => by
      refine le_trans ?_ hle
      have e2 : denom (0 + 2) = 192 := by decide
      have e3 : denom (1 + 2) = 384 := by decide
      have : d = 0 ∨ d = 1 := by omega
      rcases this with rfl | rfl
      · rw [e2]; norm_num
      · rw [e3]; norm_num)
  obtain ⟨fs, us, vs, g1, g2, g3, g4, -⟩ := C81_basis someGmres_exact someGmres_finds h1 h2 (by norm_num) (by norm_num) (by norm_num)
    (by simp [sampledDiscIn]; norm_num) (ord := id) rfl (st := loopStore) (e := 0) (by simp [loopStore, EdgeRec.isLoop, PVert.dist2, tol])
    (b := loopSpace) rfl (deg := 3) (by norm_num) (by norm_num) (by simp [loopSpace]) (by nlinarith) hb true true
  refine ⟨fs, g1, ?_⟩
  have l1 := g3.length_eq
  have l2 := g4.length_eq
  simp only [loopSpace, List.length_cons, List.length_nil, List.length_range] at l1 l2
  rw [g2, List.length_append, ← l1, ← l2]

end PFEM
