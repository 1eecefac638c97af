import Verif.Lemmas.EllipseDirichlet
import Verif.Props.EllipseLoad
import Verif.Props.EllipseInterior

/-!
The local basis on an ellipse, for C125.
-/

namespace PFEM
open Nystrom Antilap Poly MeasureTheory LocSpaceG

/-! ### area and centre -/

/-- C125: on an ellipse the area is that of the ellipse and the centre is the centre. -/
theorem C125_centre {K : CellG} {x0 y0 a b : ℝ} {N : ℕ} (h : K.IsEllipse x0 y0 a b N) (ha : 0 < a) (hb : 0 < b) (hN : 2 < N) :
    area K = .ok (Real.pi * a * b) ∧ centroid K = .ok (x0, y0) := by
  constructor
  · have h1 := disc_area one_pos 0 0
    have e : ∀ x y, onePoly.eval x y = 1 := fun x y => by simp [onePoly, Poly.eval, Mono.eval]
    rw [C80_area h.ready h.edges_ne, C119_integral h ha hb (by simp [onePoly, hN]), ellipse_change x0 y0 ha hb]
    simp only [e] at h1 ⊢
    rw [integral_const_mul, h1]
    congr 1
    ring
  · have hN0 : (N : ℝ) ≠ 0 := by positivity
    have hd : ¬ (N : ℤ) ∣ 1 := by
      intro hd
      have := Int.le_of_dvd one_pos hd
      omega
    have hc := sum_cos_shift (by omega : 0 < N) hd 0
    have hs := sum_sin_shift (by omega : 0 < N) hd 0
    simp only [Int.cast_one, one_mul, zero_add] at hc hs
    rw [centroid, h.ready.getBoundaryPoints, py_ok_bind]
    dsimp only
    rw [h.cols]
    have key : ∀ (f : ℕ → ℝ) (a r : ℝ), ∑ j ∈ Finset.range N, f j = 0 →
        Np.mean ((List.range N).map fun j : ℕ => a + r * f j) = .ok a := by
      intro f a r hf
      have : ((List.range N).map fun j : ℕ => a + r * f j).sum = ∑ j ∈ Finset.range N, (a + r * f j) := by
        rw [Finset.sum_range, ← List.sum_ofFn, List.ofFn_eq_map, ← List.map_coe_finRange_eq_range, List.map_map]
        rfl
      rw [Np.mean, if_neg (by simp; omega), this, Finset.sum_add_distrib, ← Finset.mul_sum, hf]
      simp [hN0]
    rw [List.map_map, List.map_map]
    have h1 := key (fun j => Real.cos (2 * Real.pi * j / N)) x0 a hc
    have h2 := key (fun j => Real.sin (2 * Real.pi * j / N)) y0 b hs
    have e1 : (Sample.x ∘ ellipseSample x0 y0 a b N) = fun j : ℕ => x0 + a * Real.cos (2 * Real.pi * j / N) := rfl
    have e2 : (Sample.y ∘ ellipseSample x0 y0 a b N) = fun j : ℕ => y0 + b * Real.sin (2 * Real.pi * j / N) := rfl
    rw [e1, e2, h1, py_ok_bind, h2, py_ok_bind]

theorem fft_init_ellipse (gmres : Gmres) {K : CellG} {x0 y0 a b : ℝ} {n : ℕ} (h : K.IsEllipse x0 y0 a b (2 * n)) (ha : 0 < a) (hb : 0 < b)
    (h4 : 4 ≤ n) (hn : n ≤ 2 * 10 ^ 7) : ∃ s, init gmres K "fft" "jacobi" = .ok s := by
  obtain ⟨s, hs, -⟩ := C70_init gmres h.ready (h.even rfl h4 hn) h.edges_ne h.holes h.apart (h.simple ha hb)
  have hh : ¬ 0 < K.numHoles := by rw [h.numHoles]; omega
  obtain ⟨h1, h2, h3, -⟩ := init_parts hs
  rcases h2 with ⟨h2, -⟩ | ⟨-, h2⟩
  · exact absurd h2 hh
  · refine ⟨⟨s.ops, none, s.diag, "fft", none⟩, ?_⟩
    rw [h2] at h3
    simp only [init, h1, py_ok_bind, if_neg hh, h3]
    simp [hh]

/-! ### objects that stand for polynomials -/

/-- the hypotheses on the cell, the linear solver and the discretization -/
structure OnEllipse (gmres : Gmres) (K : CellG) (s : Solver) (x0 y0 a b : ℝ) (n : ℕ) : Prop where
  exact : Exact gmres
  finds : Finds gmres
  left : 0 < a
  right : 0 < b
  ellipse : K.IsEllipse x0 y0 a b (2 * n)
  spread : (2 * n : ℕ) / (4 * 10 ^ 6) ≤ min a b
  low : 4 ≤ n
  high : n ≤ 2 * 10 ^ 7
  fine : 4 * flatness a b ^ (2 * n - 1) ≤ 1 - flatness a b
  inside : ∀ y ∈ K.interior, y ∈ ellipseRegion x0 y0 a b
  solver : ∃ strategy pc, init gmres K strategy pc = .ok s

section
variable {gmres : Gmres} {K : CellG} {s : Solver} {x0 y0 a b : ℝ} {n : ℕ} {δ : ℝ}

/-- inner products exist -/
theorem MadeFor.products_exist (h : OnEllipse gmres K s x0 y0 a b n) (hδ : 1 / 10 ^ 12 ≤ δ * δ) {F G : LocPoisson} {u v : Poly2}
    (hF : MadeFor gmres K s n δ F u) (hG : MadeFor gmres K s n δ G v) :
    (∃ I, F.getH1 (.poisson G) = .ok I) ∧ ∃ J, F.getL2 (.poisson G) = .ok J := by
  obtain ⟨f, p, P, tr, ei, eg, a1, a2, a3, a4, a5⟩ := hF
  obtain ⟨f', p', P', tr', ei', eg', b1, b2, b3, b4, b5⟩ := hG
  obtain ⟨st, pc, hs⟩ := h.solver
  obtain ⟨M, hM⟩ := C119_inner_products x0 y0 h.left h.right a1 b1 (d := max u.totalDegree v.totalDegree)
    (fun m hm => (Poly2.deg_toList u hm).trans (le_max_left _ _)) (fun m hm => (Poly2.deg_toList v hm).trans (le_max_right _ _)) a3 b3 hδ
    (by rw [toList_eval]; exact Poly2.hasGrad u) (by rw [toList_eval]; exact Poly2.hasGrad v)
  obtain ⟨I, J, h1, h2, -⟩ := hM gmres K n st pc s tr tr' ei eg ei' eg' F G h.exact h.finds h.ellipse h.spread h.low h.high h.fine
    (by omega) hs (by rw [toList_eval]; exact a4) (by rw [toList_eval]; exact b4) a5 b5
  exact ⟨⟨I, h1⟩, J, h2⟩

/-- the right-hand side exists -/
theorem MadeFor.load_exists (h : OnEllipse gmres K s x0 y0 a b n) {F : LocPoisson} {u : Poly2} (hF : MadeFor gmres K s n δ F u) {ε : ℝ}
    {g q : Poly ℝ} (hg : OnLattice ε g) (hδ : 1 / 10 ^ 12 ≤ δ * ε) (hdg : ∀ m ∈ g, m.alpha.x + m.alpha.y + 1 < n)
    (hq : g.antiLaplacian = .ok q) (hqe : HasLaplacian Set.univ q.eval g.eval) (D R : ℝ) : ∃ J, BilinForm.evalRhs ⟨D, R, g⟩ F = .ok J := by
  obtain ⟨f, p, P, tr, ei, eg, a1, a2, a3, a4, a5⟩ := hF
  obtain ⟨st, pc, hs⟩ := h.solver
  obtain ⟨M, hM⟩ := ellipse_load x0 y0 h.left h.right a1 (d := u.totalDegree) (fun m hm => Poly2.deg_toList u hm) a3 hg hδ hq hqe
  obtain ⟨J, h1, -⟩ := hM gmres K n st pc s tr ei eg F h.exact h.finds h.ellipse h.spread h.low h.high h.fine a2 hdg hs
    (by rw [toList_eval]; exact a4) a5 D R
  exact ⟨J, h1⟩

/-- an object can be made for every polynomial for which the polynomial operations are exact -/
theorem makeFor_ellipse (h : OnEllipse gmres K s x0 y0 a b n) {w : Poly2} {f p P : Poly ℝ} (hw : PolyProblem (Poly2.toList w) f p P)
    (hd : w.totalDegree + 1 < n) (hp : OnLattice δ p) {tr : LocPoisson.TraceOr} (ht : tr.Gives K (K.samplesOf (Poly2.ev w))) (ei eg : Bool) :
    ∃ F, LocPoisson.init gmres (some s) f tr ei eg = .ok F ∧ MadeFor gmres K s n δ F w := by
  obtain ⟨st, pc, hs⟩ := h.solver
  obtain ⟨B, hB⟩ := C120_interior x0 y0 h.left h.right hw.canonical hw.anti hw.antiExact hw.solution
    (by rw [toList_eval]; exact Poly2.hasGrad w) (d := w.totalDegree) (fun m hm => Poly2.deg_toList w hm) one_pos
  obtain ⟨F, hF, -⟩ := hB gmres K n st pc s tr h.exact h.finds h.ellipse h.spread h.low h.high h.fine hd hs (by rw [toList_eval]; exact ht)
    h.inside ei eg
  exact ⟨F, hF, f, p, P, tr, ei, eg, hw, hd, hp, ht, hF⟩

theorem samples_ellipse {N : ℕ} (h : K.IsEllipse x0 y0 a b N) {f g : ℝ → ℝ → ℝ}
    (he : ∀ θ : ℝ, f (x0 + a * Real.cos θ) (y0 + b * Real.sin θ) = g (x0 + a * Real.cos θ) (y0 + b * Real.sin θ)) :
    K.samplesOf f = K.samplesOf g := by
  simp only [CellG.samplesOf, h.cols, List.map_map]
  exact List.map_congr_left fun j _ => he _

/-- the harmonic polynomial with the boundary values of a polynomial -/
theorem harmonic_extension_ellipse (x0 y0 : ℝ) {a b : ℝ} (ha : 0 < a) (hb : 0 < b) {p : Poly2} {d : ℕ} (hd : p.totalDegree ≤ d) :
    ∃ w : Poly2, w.totalDegree ≤ d ∧ Poly2.lap w = 0 ∧
      ∀ θ : ℝ, Poly2.ev w (x0 + a * Real.cos θ) (y0 + b * Real.sin θ) = Poly2.ev p (x0 + a * Real.cos θ) (y0 + b * Real.sin θ) := by
  by_cases h2 : 2 ≤ d
  · obtain ⟨e, rfl⟩ := Nat.exists_eq_add_of_le' h2
    obtain ⟨q, hq, hL⟩ := Poly2.Ell.exists_dirichlet x0 y0 ha hb (Poly2.degree_lap hd)
    refine ⟨p - Poly2.Ell.cap x0 y0 a b * q, (MvPolynomial.totalDegree_sub _ _).trans (max_le hd ?_), ?_, fun θ => ?_⟩
    · refine (MvPolynomial.totalDegree_mul _ _).trans ?_
      have := Poly2.Ell.cap_degree x0 y0 a b
      omega
    · have e : Poly2.lap (p - Poly2.Ell.cap x0 y0 a b * q) = Poly2.lap p - Poly2.lap (Poly2.Ell.cap x0 y0 a b * q) := by
        simp only [Poly2.lap, map_sub]
        ring
      rw [e, hL, sub_self]
    · have := Poly2.Ell.cap_vanish x0 y0 a b q θ
      simp only [Poly2.ev, map_sub] at this ⊢
      rw [this, sub_zero]
  · refine ⟨p, hd, ?_, fun θ => rfl⟩
    have h1 : ∀ i j, MvPolynomial.pderiv j (MvPolynomial.pderiv i p) = 0 := fun i j => by
      have h0 := Poly2.degree_pderiv i (d := 0) (by omega : p.totalDegree ≤ 0 + 1)
      rw [MvPolynomial.totalDegree_eq_zero_iff_eq_C.1 (Nat.le_zero.1 h0), MvPolynomial.pderiv_C]
    rw [Poly2.lap, h1, h1, add_zero]

/-- one edge function -/
theorem edge_ellipse {x : Ctx} (h : OnEllipse x.gmres x.K x.nyst x0 y0 a b n) (key : GlobalKey) {p : Poly ℝ}
    (hp : ∀ m ∈ p, m.alpha.x + m.alpha.y + 1 < n) :
    ∃ f w, edgeFun x 0 key p = .ok f ∧ MadeFor x.gmres x.K x.nyst n δ f.val w := by
  obtain ⟨w, hd, hL, hw⟩ := harmonic_extension_ellipse x0 y0 h.left h.right (degree_toMv hp)
  simp only [← eval_mv] at hw
  obtain ⟨e, he, hcol'⟩ := h.ellipse.getEdges
  have hcol := hcol'.trans h.ellipse.cols.symm
  obtain ⟨t, ht, hH⟩ := zeroTrace_ok (x := x) h.ellipse.ready
  obtain ⟨u, hu, hG⟩ := setPoly_ok hH (j := 0) (by rw [he]; simp) p
  have hv := hG.values
  rw [he] at hv
  simp only [List.length_singleton, List.replicate_one, List.set_cons_zero, List.zipWith_cons_cons, List.zipWith_nil_left, List.flatten_cons,
    List.flatten_nil, List.append_nil, hcol] at hv
  have hg : (LocPoisson.TraceOr.trace u).Gives x.K (x.K.samplesOf (Poly2.ev w)) := by
    refine ⟨?_, by simp [CellG.samplesOf, h.ellipse.ready.numPts]⟩
    rw [hv, samples_ellipse h.ellipse hw]
    rfl
  obtain ⟨F, hF, hM⟩ := makeFor_ellipse (δ := δ) h (harmonic_problem hL) (by have := h.low; omega) (by intro m hm; cases hm) hg x.evalInt x.evalGrad
  refine ⟨⟨key, F⟩, w, ?_, hM⟩
  simp only [edgeFun, ht, py_ok_bind]
  rw [hu, py_ok_bind, hF, py_ok_bind]

theorem edges_ellipse {x : Ctx} (h : OnEllipse x.gmres x.K x.nyst x0 y0 a b n) : ∀ (l : List (GlobalKey × Poly ℝ)),
    (∀ kp ∈ l, ∀ m ∈ kp.2, m.alpha.x + m.alpha.y + 1 < n) → ∃ fs, edgeOn x 0 l = .ok fs ∧ fs.length = l.length ∧
      ∀ f ∈ fs, ∃ w, MadeFor x.gmres x.K x.nyst n δ f.val w
  | [], _ => ⟨[], rfl, rfl, by simp⟩
  | (key, p) :: l, hl => by
    obtain ⟨f, w, h1, h2⟩ := edge_ellipse (δ := δ) h key (hl (key, p) (by simp))
    obtain ⟨fs, k1, k2, k3⟩ := edges_ellipse h l fun kp hk => hl kp (by simp [hk])
    refine ⟨f :: fs, ?_, by simp [k2], List.forall_mem_cons.2 ⟨⟨w, h2⟩, k3⟩⟩
    simp only [edgeOn, h1, k1, py_ok_bind]

/-- the data of a bubble function, which do not depend on the discretization: its Laplacian `m`, the anti-Laplacians `p`, `P` and the polynomial
`w` it stands for -/
structure BubbleData (x0 y0 a b δ : ℝ) (deg k : ℕ) (w : Poly2) (m p P : Poly ℝ) : Prop where
  made : centeredMonomial (x0, y0) (Real.pi * a * b) k = .ok m
  problem : PolyProblem (Poly2.toList w) m p P
  degree : w.totalDegree ≤ deg
  vanish : Poly2.Ell.VanishOn x0 y0 a b w
  lap : ∃ i j, (MultiIndex.mk i j).idx = k ∧ Poly2.lap w = Poly2.shifted (x0, y0) (-1 / (Real.pi * a * b) ^ 2) i j
  lattice : OnLattice δ p

theorem bubbleData (ha : 0 < a) (hb : 0 < b) {deg k : ℕ} (hk : k < deg * (deg - 1) / 2) (h : BubbleExact (x0, y0) (Real.pi * a * b) δ k) :
    ∃ w m p P, BubbleData x0 y0 a b δ deg k w m p P := by
  obtain ⟨i, j, m, p, P, h1, h2, h3, h4, h5, h6, h7, h8, h9⟩ := h
  have hij := bubble_order hk h1
  obtain ⟨q, hq, hL⟩ := Poly2.Ell.exists_dirichlet x0 y0 ha hb (degree_shifted (x0, y0) (-1 / (Real.pi * a * b) ^ 2) i j)
  have hdeg : (Poly2.Ell.cap x0 y0 a b * q).totalDegree ≤ deg := by
    refine (MvPolynomial.totalDegree_mul _ _).trans ?_
    have := Poly2.Ell.cap_degree x0 y0 a b
    omega
  exact ⟨_, m, p, P, h2, bubble_problem h3 h5 h6 h7 h8 fun a b => by rw [hL, h4, ev_shifted], hdeg, Poly2.Ell.cap_vanish x0 y0 a b q,
    ⟨i, j, h1, hL⟩, h9⟩

theorem BubbleData.gives {deg k N : ℕ} {w : Poly2} {m p P : Poly ℝ} (hb : BubbleData x0 y0 a b δ deg k w m p P) (h : K.IsEllipse x0 y0 a b N) :
    (LocPoisson.TraceOr.value (.num 0)).Gives K (K.samplesOf (Poly2.ev w)) := by
  show _ = _
  rw [samples_ellipse h (g := fun _ _ => 0) hb.vanish, CellG.samplesOf, h.ready.numPts]
  simp

/-- one bubble function -/
theorem bubble_ellipse {x : Ctx} (h : OnEllipse x.gmres x.K x.nyst x0 y0 a b n) (hc : x.centroid = (x0, y0)) (hA : x.area = Real.pi * a * b)
    {deg k : ℕ} (hdn : deg + 1 < n) {w : Poly2} {m p P : Poly ℝ} (hb : BubbleData x0 y0 a b δ deg k w m p P) :
    ∃ f, bubbFun x k = .ok f ∧ LocPoisson.init x.gmres (some x.nyst) m (.value (.num 0)) x.evalInt x.evalGrad = .ok f.val ∧
      MadeFor x.gmres x.K x.nyst n δ f.val w := by
  have := hb.degree
  obtain ⟨F, hF, hM⟩ := makeFor_ellipse (δ := δ) h hb.problem (by omega) hb.lattice (hb.gives h.ellipse) x.evalInt x.evalGrad
  refine ⟨⟨.ofBubb (k : ℤ), F⟩, ?_, hF, hM⟩
  rw [bubbFun, hc, hA, hb.made, py_ok_bind, hF, py_ok_bind]

theorem bubbles_ellipse {x : Ctx} (h : OnEllipse x.gmres x.K x.nyst x0 y0 a b n) (hc : x.centroid = (x0, y0)) (hA : x.area = Real.pi * a * b)
    {deg : ℕ} (hdn : deg + 1 < n) {w : ℕ → Poly2} {m p P : ℕ → Poly ℝ} : ∀ (l : List ℕ),
    (∀ k ∈ l, BubbleData x0 y0 a b δ deg k (w k) (m k) (p k) (P k)) → ∃ fs, ContourG.mapPy (bubbFun x) l = .ok fs ∧
      List.Forall₂ (fun (k : ℕ) f => LocPoisson.init x.gmres (some x.nyst) (m k) (.value (.num 0)) x.evalInt x.evalGrad = .ok f.val ∧
        MadeFor x.gmres x.K x.nyst n δ f.val (w k)) l fs
  | [], _ => ⟨[], rfl, .nil⟩
  | k :: l, hb => by
    obtain ⟨f, h1, h2⟩ := bubble_ellipse (δ := δ) h hc hA hdn (hb k (by simp))
    obtain ⟨fs, k1, k2⟩ := bubbles_ellipse h hc hA hdn l fun k hk => hb k (by simp [hk])
    refine ⟨f :: fs, ?_, .cons h2 k2⟩
    simp only [ContourG.mapPy, h1, k1, py_ok_bind]

/-- the whole basis -/
theorem ellipse_basis (hx : Exact gmres) (hfd : Finds gmres) (ha : 0 < a) (hb : 0 < b) (h : K.IsEllipse x0 y0 a b (2 * n))
    (hsp : (2 * n : ℕ) / (4 * 10 ^ 6) ≤ min a b) (h4 : 4 ≤ n) (hn : n ≤ 2 * 10 ^ 7) (hfi : 4 * flatness a b ^ (2 * n - 1) ≤ 1 - flatness a b)
    (hin : ∀ y ∈ K.interior, y ∈ ellipseRegion x0 y0 a b) {ord : List ℤ → List ℤ} (hord : ord [] = [])
    {st : EdgeStore ℝ} {e : ℕ} (hl : (st e).isLoop = true) {B : EdgeSpace ℝ} (hB : B.edge = e) {deg : ℕ} (hd1 : 1 ≤ deg) (hdn : deg + 1 < n)
    (hp : ∀ p ∈ B.edgeTraces, ∀ m ∈ p, m.alpha.x + m.alpha.y + 1 < n) {w : ℕ → Poly2} {m p P : ℕ → Poly ℝ}
    (hbub : ∀ k < deg * (deg - 1) / 2, BubbleData x0 y0 a b δ deg k (w k) (m k) (p k) (P k)) (ei eg : Bool) :
    ∃ s es bs, basis gmres K ord st [e] [B] deg ei eg = .ok (es ++ bs) ∧ OnEllipse gmres K s x0 y0 a b n ∧ es.length = B.edgeTraces.length ∧
      (∀ f ∈ es ++ bs, ∃ u, MadeFor gmres K s n δ f.val u) ∧
      List.Forall₂ (fun (k : ℕ) f => LocPoisson.init gmres (some s) (m k) (.value (.num 0)) ei eg = .ok f.val)
        (List.range (deg * (deg - 1) / 2)) bs := by
  obtain ⟨s, hs⟩ := fft_init_ellipse gmres h ha hb h4 hn
  obtain ⟨hA, hce⟩ := C125_centre h ha hb (by omega)
  have hK : s.ops.K = K := build_cell (init_parts hs).1
  have hon : OnEllipse gmres K s x0 y0 a b n := ⟨hx, hfd, ha, hb, h, hsp, h4, hn, hfi, hin, _, _, hs⟩
  set x : Ctx := ⟨gmres, s, (x0, y0), Real.pi * a * b, ei, eg⟩ with hxd
  have hxK : x.K = K := hK
  have hon' : OnEllipse x.gmres x.K x.nyst x0 y0 a b n := by rw [hxK]; exact hon
  obtain ⟨bs, b1, b2⟩ := bubbles_ellipse (δ := δ) hon' rfl rfl hdn (List.range (deg * (deg - 1) / 2)) fun k hk => hbub k (List.mem_range.1 hk)
  obtain ⟨es, e1, e2, e3⟩ := edges_ellipse (δ := δ) hon' ((B.edgeKeys st).zip B.edgeTraces) fun kp hk => hp _ (List.of_mem_zip hk).2
  rw [hxK] at e3 b2
  have hlen : (B.edgeKeys st).length = B.edgeTraces.length := by simp [EdgeSpace.edgeKeys, EdgeSpace.numEdgeFuns]
  refine ⟨s, es, bs, ?_, hon, by rw [e2, List.length_zip, hlen, min_self], ?_, b2.imp fun _ _ h => h.1⟩
  · have hB' : bubbFuns x deg = .ok bs := by
      unfold bubbFuns
      split_ifs with h2
      · have : deg = 1 := by omega
        subst this
        simpa [ContourG.mapPy] using b1
      · exact b1
    have hV : vertFuns x ord st [e] [B] = .ok [] := by simp [vertFuns, LocSpace.vertIdxs, hl, hord, ContourG.mapPy]
    have hE : edgeFuns x st [e] [B] = .ok es := by
      have hi : pyIndexOf ([e].map fun e => (st e).idx) (st B.edge).idx = .ok 0 := by simp [hB, pyIndexOf]
      simp only [edgeFuns]
      rw [hi, py_ok_bind, e1, py_ok_bind, py_ok_bind, List.append_nil]
    rw [basis, if_neg (by omega), hce, py_ok_bind, hA, py_ok_bind, hs, py_ok_bind, Int.toNat_natCast]
    change Bind.bind (bubbFuns x deg) _ = _
    rw [hB', py_ok_bind, hV, py_ok_bind, hE, py_ok_bind,
      List.nil_append]
  · intro f hf
    rcases List.mem_append.1 hf with hf | hf
    · exact e3 f hf
    · obtain ⟨i, hi, rfl⟩ := List.mem_iff_getElem.1 hf
      have := (List.forall₂_iff_get.1 b2).2 i (by rw [b2.length_eq]; exact hi) hi
      exact ⟨_, this.2⟩

end

end PFEM
