import Verif.Lemmas.PolyFn
import Verif.Props.InnerProd
import Verif.Props.DiscPoisson

/-!
Property theorems C78: on a disc, integrals of polynomials and inner products of local functions with polynomial data are exact.
-/

namespace PFEM
open Nystrom Antilap Poly MeasureTheory

/-! ### boundary sums on the disc -/

namespace CellG.IsDisc
variable {K : CellG} {x0 y0 r : ℝ} {N : ℕ}

theorem steps (h : K.IsDisc x0 y0 r N) : steps K = (List.range N).map fun _ => 2 * Real.pi / N := by
  obtain ⟨c, e, h1, h2, -, h4⟩ := h.circle
  simp only [PFEM.steps, h1, List.flatMap_cons, List.flatMap_nil, List.append_nil, ContourG.cols, h2, h4, List.map_map, List.length_map,
    List.length_range, List.length_singleton, Nat.cast_one, mul_one]
  rfl

theorem weights (h : K.IsDisc x0 y0 r N) : cellWeights K = (List.range N).map fun _ => 2 * Real.pi / N * r := by
  obtain ⟨c, e, h1, h2, -, h4⟩ := h.circle
  simp only [cellWeights, h1, List.flatMap_cons, List.flatMap_nil, List.append_nil, ContourG.cols, h2, h4, List.map_map, List.length_map,
    List.length_range, List.length_singleton, Nat.cast_one, mul_one]
  rfl

end CellG.IsDisc

theorem dot_range (N : ℕ) (a b : ℕ → ℝ) : dot ((List.range N).map a) ((List.range N).map b) = ∑ j ∈ Finset.range N, a j * b j := by
  rw [dot, entrywise, List.zipWith_map, List.zipWith_self]
  induction N with
  | zero => rfl
  | succ n ih => rw [List.range_succ, List.map_append, List.sum_append, ih, Finset.sum_range_succ]; simp

/-- the divergence theorem holds for the boundary sums of polynomial fields of degree at most `m` -/
theorem disc_flux {K : CellG} {x0 y0 r : ℝ} {N : ℕ} (h : K.IsDisc x0 y0 r N) (hr : 0 < r) {m : ℕ} (hm : m + 1 < N) {F G a b : ℝ → ℝ → ℝ}
    (hF : PolyFn m F) (hG : PolyFn m G) (ha : ∀ x y, HasDerivAt (fun s => F s y) (a x y) x) (hb : ∀ x y, HasDerivAt (fun s => G x s) (b x y) y) :
    dot (K.normalOf F G) (steps K) = ∫ p in disc x0 y0 r, (a p.1 p.2 + b p.1 p.2) := by
  have dF : Differentiable ℝ fun p : ℝ × ℝ => F p.1 p.2 := hF.contDiff.differentiable (by norm_num)
  have dG : Differentiable ℝ fun p : ℝ × ℝ => G p.1 p.2 := hG.contDiff.differentiable (by norm_num)
  have e : (fun p : ℝ × ℝ => a p.1 p.2 + b p.1 p.2) = fun p => fderiv ℝ (fun p : ℝ × ℝ => F p.1 p.2) p (1, 0) +
      fderiv ℝ (fun p : ℝ × ℝ => G p.1 p.2) p (0, 1) := by
    funext p
    rw [(ha p.1 p.2).unique (fderiv_x dF p.1 p.2), (hb p.1 p.2).unique (fderiv_y dG p.1 p.2)]
  rw [e, disc_divergence x0 y0 hr hF.contDiff hG.contDiff, ← trapezoid_real hm]
  · rw [CellG.normalOf, h.cols, h.steps, List.map_map, dot_range]
    refine Finset.sum_congr rfl fun j _ => ?_
    simp only [Function.comp_apply, circleSample]
    ring
  · have h1 := trigSpan_mul (hF.trig x0 y0 r) trigSpan_cos
    have h2 := trigSpan_mul (hG.trig x0 y0 r) trigSpan_sin
    convert (trigSpan (m + 1)).smul_mem (r : ℂ) ((trigSpan (m + 1)).add_mem h1 h2) using 1
    funext θ
    simp

theorem radial_poly {d : ℕ} {p : Poly ℝ} (h : DegLe d p) : PolyFn d (radial p) := by
  have hx : ∀ n, PolyFn n fun x _ => x ^ n := by
    intro n
    induction n with
    | zero => simpa using PolyFn.const 1
    | succ n ih => simpa only [pow_succ] using ih.mul PolyFn.x
  have hy : ∀ n, PolyFn n fun _ y => y ^ n := by
    intro n
    induction n with
    | zero => simpa using PolyFn.const 1
    | succ n ih => simpa only [pow_succ] using ih.mul PolyFn.y
  induction p with
  | nil =>
    have e : radial [] = fun _ _ => 0 := by funext x y; simp [radial]
    rw [e]
    exact (PolyFn.const 0).mono (by omega)
  | cons m p ih =>
    have hm := h m (by simp)
    simp only [MultiIndex.order] at hm
    have e : radial (m :: p) = fun x y => m.coef / (2 + (m.alpha.x + m.alpha.y : ℕ)) * (x ^ m.alpha.x * y ^ m.alpha.y) + radial p x y := by
      funext x y
      simp only [radial, List.map_cons, List.sum_cons]
      ring
    rw [e]
    exact ((((hx m.alpha.x).mul (hy m.alpha.y)).smul _).mono (by omega)).add' (ih fun n hn => h n (by simp [hn]))

/-- C78, polynomials: `integrate_poly_over_mesh_cell` is exact on a disc with more samples than the degree plus two. -/
theorem C78_integral {K : CellG} {x0 y0 r : ℝ} {N : ℕ} (h : K.IsDisc x0 y0 r N) (hr : 0 < r) {p : Poly ℝ}
    (hd : ∀ m ∈ p, m.alpha.x + m.alpha.y + 2 < N) : integratePoly p K = .ok (∫ z in disc x0 y0 r, p.eval z.1 z.2) := by
  rcases List.eq_nil_or_concat p with hp | ⟨q, m, hp⟩
  · subst hp
    have e : ∀ x y, radial [] x y = 0 := fun x y => by simp [radial]
    rw [integratePoly_ok h.ready h.edges_ne, h.cols, h.weights, List.map_map, dot_range]
    simp [e, Poly.eval]
  have hN : 2 < N := by
    have := hd m (by simp [hp])
    omega
  have hdeg : DegLe (N - 3 : ℕ) p := fun m hm => by
    have := hd m hm
    simp only [MultiIndex.order]
    omega
  have hR := radial_poly hdeg
  rw [integratePoly_ok h.ready h.edges_ne]
  have h1 : ∀ x y, ∃ d1 d2, HasDerivAt (fun s => (radialField p s y).1) d1 x ∧ HasDerivAt (fun t => (radialField p x t).2) d2 y ∧
      d1 + d2 = p.eval x y := C17_divergence p
  choose a b ha hb hab using h1
  have hflux := disc_flux h hr (m := N - 3 + 1) (by omega) (F := fun x y => (radialField p x y).1) (G := fun x y => (radialField p x y).2)
    (a := a) (b := b) ((PolyFn.x.mul hR).mono (by omega)) ((PolyFn.y.mul hR).mono (by omega)) ha hb
  simp only [hab] at hflux
  rw [← hflux, CellG.normalOf, h.cols, h.steps, h.weights, List.map_map, List.map_map, dot_range, dot_range]
  congr 1
  refine Finset.sum_congr rfl fun j _ => ?_
  simp only [Function.comp_apply, circleSample, radialField]
  ring

/-! ### Green's identities -/

theorem disc_integrable (x0 y0 : ℝ) {r : ℝ} (hr : 0 < r) {d : ℕ} {f : ℝ → ℝ → ℝ} (hf : PolyFn d f) :
    IntegrableOn (fun z : ℝ × ℝ => f z.1 z.2) (disc x0 y0 r) := by
  refine (hf.contDiff.continuous.continuousOn.integrableOn_compact (isCompact_Icc.prod isCompact_Icc)).mono_set
    (t := Set.Icc (x0 - r) (x0 + r) ×ˢ Set.Icc (y0 - r) (y0 + r)) fun z hz => ?_
  have hz : (z.1 - x0) ^ 2 + (z.2 - y0) ^ 2 < r ^ 2 := hz
  have h1 := abs_lt.1 (abs_lt_of_sq_lt_sq (by nlinarith [sq_nonneg (z.2 - y0)]) hr.le : |z.1 - x0| < r)
  have h2 := abs_lt.1 (abs_lt_of_sq_lt_sq (by nlinarith [sq_nonneg (z.1 - x0)]) hr.le : |z.2 - y0| < r)
  exact ⟨⟨by linarith, by linarith⟩, ⟨by linarith, by linarith⟩⟩

theorem disc_green {K : CellG} {x0 y0 r : ℝ} {N : ℕ} (h : K.IsDisc x0 y0 r N) (hr : 0 < r) {d e : ℕ} (hde : d + e + 1 < N)
    {f f1 f2 l g g1 g2 m : ℝ → ℝ → ℝ} (hf : PolyLap d f f1 f2 l) (hg : PolyLap e g g1 g2 m) :
    pair K (K.normalOf f1 f2) (K.samplesOf g) =
      ∫ z in disc x0 y0 r, (g z.1 z.2 * l z.1 z.2 + (f1 z.1 z.2 * g1 z.1 z.2 + f2 z.1 z.2 * g2 z.1 z.2)) := by
  obtain ⟨a, b, ha, hb, hab⟩ := hf.lap
  have h1 := disc_flux h hr hde (F := fun x y => f1 x y * g x y) (G := fun x y => f2 x y * g x y)
    (a := fun x y => a x y * g x y + f1 x y * g1 x y) (b := fun x y => b x y * g x y + f2 x y * g2 x y) (hf.fn1.mul hg.fn) (hf.fn2.mul hg.fn)
    (fun x y => (ha x y).fun_mul (hg.grad x y trivial).1) (fun x y => (hb x y).fun_mul (hg.grad x y trivial).2)
  have e1 : List.zipWith (· * ·) (K.normalOf f1 f2) (K.samplesOf g) = K.normalOf (fun x y => f1 x y * g x y) fun x y => f2 x y * g x y := by
    simp only [CellG.normalOf, CellG.samplesOf, List.zipWith_map_left, List.zipWith_map_right, List.zipWith_self]
    refine List.map_congr_left fun s _ => ?_
    ring
  rw [pair, e1, h1]
  congr 1
  funext z
  rw [← hab]
  ring

/-! ### the data of harmonic polynomials -/

open Polynomial in
/-- the arrays of the object made from a harmonic polynomial -/
theorem disc_harm {gmres : Gmres} (hx : Exact gmres) (hf : Finds gmres) {K : CellG} {x0 y0 r : ℝ} {n : ℕ} (h : K.IsDisc x0 y0 r (2 * n))
    (hc : Corners K) (hr : 1 / 10 ^ 14 ≤ r) (h4 : 4 ≤ n) (hn : n ≤ 2 * 10 ^ 7) {strategy pc : String} {s : Solver}
    (hs : init gmres K strategy pc = .ok s) (Q : ℂ[X]) (hQ : Q.natDegree + 1 < n) (hQ0 : (Q.coeff 0).im = 0) {t : Trace} (hto : t.On K.getEdges)
    (hv : t.values = some (K.samplesOf (rePoly Q x0 y0))) :
    ∃ k φ1 φ2 Φ Φ1 Φ2, LocHarm.init gmres t (some s) = .ok k ∧ PolyLap Q.natDegree (rePoly Q x0 y0) φ1 φ2 (fun _ _ => 0) ∧
      PolyLap (Q.natDegree + 2) Φ Φ1 Φ2 (rePoly Q x0 y0) ∧
      HarmArrays K k (K.samplesOf (rePoly Q x0 y0)) (K.normalOf φ1 φ2) (K.samplesOf Φ) (K.normalOf Φ1 Φ2) := by
  have hlen : ∀ g : ℝ → ℝ → ℝ, (K.samplesOf g).length = K.numPts := fun g => by simp [CellG.samplesOf, h.ready.numPts]
  have hnlen : ∀ g g' : ℝ → ℝ → ℝ, (K.normalOf g g').length = K.numPts := fun g g' => by simp [CellG.normalOf, h.ready.numPts]
  obtain ⟨k, hk, -, hkh⟩ := C76_harmonic hx hf h hc hr h4 hn hs Q hQ hto hv
  obtain ⟨-, -, -, φ1, φ2, hg, hwnd, -⟩ := hkh.trace
  obtain ⟨c, e, hcs, -⟩ := h.circle
  obtain ⟨R, hR, hRd⟩ := poly_integral Q
  obtain ⟨t3, t4⟩ := disc_trig h hcs R (by omega)
  have g3 := rePoly_grad Set.univ R x0 y0
  have g4 := imPoly_grad Set.univ R x0 y0
  have g1 := rePoly_grad Set.univ Q x0 y0
  have g2 := imPoly_grad Set.univ Q x0 y0
  rw [hR] at t3 t4 g3 g4
  have hK := (build_shape h.ready (init_parts hs).1).1
  subst hK
  obtain ⟨a, a', ha⟩ := simply_connected_eq (gmres := gmres) h.ready h.uniform hcs t3 t4 []
  have hconj : ConjugateOn Set.univ (rePoly Q x0 y0) (imPoly Q x0 y0) :=
    ⟨_, _, g1, by simpa using g2⟩
  rw [fromComponents_ok h.ready] at ha
  have hcj := disc_conj_poly hx hf h hc hr h4 hn hs Q (by omega) hQ0
  have hz : List.zipWith (fun x (q : Sample) => x - withLogs s.ops.K [] (fun _ _ => 0) q.x q.y) (s.ops.K.samplesOf (rePoly Q x0 y0)) s.ops.K.cols =
      s.ops.K.samplesOf (rePoly Q x0 y0) := by
    simp [CellG.samplesOf, List.zipWith_map_left, List.zipWith_self, withLogs]
  obtain ⟨k', w, d, hI, -, -, -, hB⟩ := C74_data h.ready h.edges_ne ⟨rfl, fun h0 => absurd h.numHoles h0⟩ hto hv hcj (hlen _)
    (by rw [h.numHoles]; rfl) (by rw [hz]; exact ha) (hlen _) (hnlen _ _)
  rw [hk] at hI
  cases hI
  have hlap0 : HasLaplacian Set.univ (rePoly Q x0 y0) fun _ _ => 0 := by
    have d1 := rePoly_grad Set.univ (derivative Q) x0 y0
    have d2 := imPoly_grad Set.univ (derivative Q) x0 y0
    refine ⟨_, _, fun x y _ => ⟨g1 x y trivial, _, _, (d1 x y trivial).1, (d2 x y trivial).2.fun_neg, ?_⟩⟩
    ring
  have hpQ := PolyFn.complex x0 y0 Q
  have hpR := PolyFn.complex x0 y0 R
  have hΦ : PolyFn (Q.natDegree + 2) (compPot (fun x y => rePoly R x0 y0 x y - a) fun x y => imPoly R x0 y0 x y - a') := by
    have q1 : PolyFn (Q.natDegree + 1) fun x y => rePoly R x0 y0 x y - a := (hpR.1.sub (PolyFn.const a)).mono (by simp; omega)
    have q2 : PolyFn (Q.natDegree + 1) fun x y => imPoly R x0 y0 x y - a' := (hpR.2.sub (PolyFn.const a')).mono (by simp; omega)
    exact (((PolyFn.x.mul q1).add' (PolyFn.y.mul q2)).smul 0.25).mono (by omega)
  exact ⟨k, φ1, φ2, _, _, _, hk, hpQ.1.lap hg hlap0, hΦ.lap (compPot_grad (g3.shift a) (g4.shift a')) (compPot_laplacian hconj (g3.shift a) (g4.shift a')),
    hB.values, hwnd, hB.biharm, hlen _, hnlen _ _, hlen _, hnlen _ _⟩

/-! ### the data of polynomials -/

theorem lattice_dx {δ : ℝ} {p : Poly ℝ} (h : OnLattice δ p) : OnLattice δ (nz (p.map Mono.dx)) ∧ OnLattice δ (nz (p.map Mono.dy)) := by
  constructor
  · intro m hm
    obtain ⟨h1, -⟩ := List.mem_filter.1 hm
    obtain ⟨m', hm', rfl⟩ := List.mem_map.1 h1
    obtain ⟨k, hk⟩ := h m' hm'
    unfold Mono.dx
    split_ifs
    · exact ⟨0, by simp⟩
    · exact ⟨k * m'.alpha.x, by simp [hk]; ring⟩
  · intro m hm
    obtain ⟨h1, -⟩ := List.mem_filter.1 hm
    obtain ⟨m', hm', rfl⟩ := List.mem_map.1 h1
    obtain ⟨k, hk⟩ := h m' hm'
    unfold Mono.dy
    split_ifs
    · exact ⟨0, by simp⟩
    · exact ⟨k * m'.alpha.y, by simp [hk]; ring⟩

/-- the arrays of the polynomial part -/
theorem polyPart_arrays {K : CellG} (h : K.Ready) (p : Poly ℝ) : PolyArrays K (polyPart K p) (K.samplesOf p.eval) (K.samplesOf (alP p).eval)
    (K.normalOf (nz ((alP p).map Mono.dx)).eval (nz ((alP p).map Mono.dy)).eval) (nz (p.map Mono.dx)) (nz (p.map Mono.dy)) :=
  ⟨⟨_, rfl, rfl⟩, ⟨_, rfl, rfl, rfl⟩, rfl, rfl, by simp [CellG.samplesOf, h.numPts], by simp [CellG.samplesOf, h.numPts],
    by simp [CellG.normalOf, h.numPts]⟩

/-- what is known about a solved problem -/
theorem PolyProblem.parts {u f p P : Poly ℝ} (hu : PolyProblem u f p P) {d : ℕ} (hd : DegLe d u) :
    p = alP f ∧ P = alP p ∧ DegLe d p ∧ PolyLap d p.eval (nz (p.map Mono.dx)).eval (nz (p.map Mono.dy)).eval f.eval ∧
      PolyLap (d + 2) P.eval (nz (P.map Mono.dx)).eval (nz (P.map Mono.dy)).eval p.eval := by
  obtain ⟨hc, hs, ha, hae, hb, hbe⟩ := hu
  rw [antiLaplacian_ok] at ha hb
  cases ha
  cases hb
  have hdf := deg_of_lap hc (totalDegree_toMv hd) (lap_of_hasLaplacian hs).symm
  have hdp : DegLe d (alP f) := deg_mono (by omega) (deg_alP hdf)
  have hdP : DegLe ((d + 2 : ℕ) : ℤ) (alP (alP f)) := deg_mono (by push_cast; omega) (deg_alP hdp)
  refine ⟨rfl, rfl, hdp, (PolyFn.ofPoly hdp).lap (fun x y _ => ⟨?_, ?_⟩) hae, (PolyFn.ofPoly hdP).lap (fun x y _ => ⟨?_, ?_⟩) hbe⟩
  · exact hasDerivAt_dx (alP_canonical f).2 x y
  · exact hasDerivAt_dy (alP_canonical f).2 x y
  · exact hasDerivAt_dx (alP_canonical _).2 x y
  · exact hasDerivAt_dy (alP_canonical _).2 x y

open Polynomial in
/-- everything about the object that stands for `u`: its harmonic part `φ` with the anti-Laplacian `Φ`, its polynomial part -/
theorem disc_object {gmres : Gmres} (hx : Exact gmres) (hfd : Finds gmres) {K : CellG} {x0 y0 r : ℝ} {n : ℕ} (h : K.IsDisc x0 y0 r (2 * n))
    (hc : Corners K) (hr : 1 / 10 ^ 14 ≤ r) (h4 : 4 ≤ n) (hn : n ≤ 2 * 10 ^ 7) {strategy pc : String} {s : Solver}
    (hs : init gmres K strategy pc = .ok s) {u f p P : Poly ℝ} (hu : PolyProblem u f p P) {d : ℕ} (hd : DegLe d u) (hdn : d + 1 < n)
    {tr : LocPoisson.TraceOr} (hv : tr.Gives K (K.samplesOf u.eval)) {ei eg : Bool} {F : LocPoisson}
    (hF : LocPoisson.init gmres (some s) f tr ei eg = .ok F) :
    ∃ k φ φ1 φ2 Φ Φ1 Φ2, F.cell = some K ∧ F.harm = some k ∧ F.poly = some (polyPart K p) ∧ (∀ x y, u.eval x y = φ x y + p.eval x y) ∧
      PolyLap d φ φ1 φ2 (fun _ _ => 0) ∧ PolyLap (d + 2) Φ Φ1 Φ2 φ ∧
      HarmArrays K k (K.samplesOf φ) (K.normalOf φ1 φ2) (K.samplesOf Φ) (K.normalOf Φ1 Φ2) := by
  obtain ⟨e1, e2, hdp, -, -⟩ := hu.parts hd
  obtain ⟨Q, hQd, hQ0, hQu⟩ := difference_harmonic hu.solution hu.antiExact hd hdp x0 y0
  have hK := (build_shape h.ready (init_parts hs).1).1
  obtain ⟨k, hk, c1, c2, c3⟩ := poissonInit_parts h.ready hK hv hF
  have e : List.zipWith (· - ·) (K.samplesOf u.eval) (K.samplesOf (alP f).eval) = K.samplesOf (rePoly Q x0 y0) := by
    rw [← e1]
    simp only [CellG.samplesOf, List.zipWith_map_left, List.zipWith_map_right, List.zipWith_self, hQu]
  rw [e] at hk
  obtain ⟨k', φ1, φ2, Φ, Φ1, Φ2, hk', l1, l2, ha⟩ := disc_harm hx hfd h hc hr h4 hn hs Q (by omega) hQ0
    (made_on h.ready (v := K.samplesOf (rePoly Q x0 y0)) (by simp [CellG.samplesOf, h.ready.numPts]) (w := none) (d := none) nofun nofun) rfl
  rw [hk] at hk'
  cases hk'
  refine ⟨k, _, φ1, φ2, Φ, Φ1, Φ2, c1, c3, by rw [e1]; exact c2, fun x y => ?_, ?_, ?_, ha⟩
  · rw [← hQu]
    ring
  · exact ⟨l1.fn.mono hQd, l1.fn1.mono hQd, l1.fn2.mono hQd, l1.grad, l1.lap⟩
  · exact ⟨l2.fn.mono (by omega), l2.fn1.mono (by omega), l2.fn2.mono (by omega), l2.grad, l2.lap⟩

/-- C78: on a disc the inner products of local functions that stand for polynomials `u`, `v` are exactly the integrals of `∇u · ∇v` and of
`u v` over the disc, if the discretization is fine enough for the degrees and the coefficients of the polynomial parts lie on lattices that
are coarse enough for products to be exact (see C06). -/
theorem C78_inner_products {gmres : Gmres} (hx : Exact gmres) (hfd : Finds gmres) {K : CellG} {x0 y0 r : ℝ} {n : ℕ}
    (h : K.IsDisc x0 y0 r (2 * n)) (hc : Corners K) (hr : 1 / 10 ^ 14 ≤ r) (h4 : 4 ≤ n) (hn : n ≤ 2 * 10 ^ 7) {strategy pc : String} {s : Solver}
    (hs : init gmres K strategy pc = .ok s) {u f p P v g q Q : Poly ℝ} (hu : PolyProblem u f p P) (hv : PolyProblem v g q Q)
    (hdu : ∀ m ∈ u, m.alpha.x + m.alpha.y + 1 < n) (hdv : ∀ m ∈ v, m.alpha.x + m.alpha.y + 1 < n)
    {δ ε : ℝ} (hp : OnLattice δ p) (hq : OnLattice ε q) (hδ : 1 / 10 ^ 12 ≤ δ * ε)
    {tr tr' : LocPoisson.TraceOr} (ht : tr.Gives K (K.samplesOf u.eval)) (ht' : tr'.Gives K (K.samplesOf v.eval)) {ei eg ei' eg' : Bool}
    {F G : LocPoisson} (hF : LocPoisson.init gmres (some s) f tr ei eg = .ok F) (hG : LocPoisson.init gmres (some s) g tr' ei' eg' = .ok G)
    {u1 u2 v1 v2 : ℝ → ℝ → ℝ} (gu : HasGradOn Set.univ u.eval u1 u2) (gv : HasGradOn Set.univ v.eval v1 v2) :
    F.getH1 (.poisson G) = .ok (∫ z in disc x0 y0 r, (u1 z.1 z.2 * v1 z.1 z.2 + u2 z.1 z.2 * v2 z.1 z.2)) ∧
    F.getL2 (.poisson G) = .ok (∫ z in disc x0 y0 r, u.eval z.1 z.2 * v.eval z.1 z.2) := by
  have hr0 : 0 < r := lt_of_lt_of_le (by norm_num) hr
  have hne := h.edges_ne
  have hd : ∀ w : Poly ℝ, (∀ m ∈ w, m.alpha.x + m.alpha.y + 1 < n) → DegLe ((n - 2 : ℕ) : ℤ) w := fun w hw m hm => by
    have := hw m hm
    simp only [MultiIndex.order]
    omega
  obtain ⟨k, φ, φ1, φ2, Φ, Φ1, Φ2, a1, a2, a3, a4, a5, a6, a7⟩ := disc_object hx hfd h hc hr h4 hn hs hu (hd u hdu) (by omega) ht hF
  obtain ⟨k', ψ, ψ1, ψ2, Ψ, Ψ1, Ψ2, b1, b2, b3, b4, b5, b6, b7⟩ := disc_object hx hfd h hc hr h4 hn hs hv (hd v hdv) (by omega) ht' hG
  obtain ⟨-, eP, dp, lp, lP⟩ := hu.parts (hd u hdu)
  obtain ⟨-, eQ, dq, lq, lQ⟩ := hv.parts (hd v hdv)
  have ap := polyPart_arrays h.ready p
  have aq := polyPart_arrays h.ready q
  rw [← eP] at ap
  rw [← eQ] at aq
  have green : ∀ {d e : ℕ} {f f1 f2 l g g1 g2 m : ℝ → ℝ → ℝ}, PolyLap d f f1 f2 l → PolyLap e g g1 g2 m → d + e + 1 < 2 * n →
      pair K (K.normalOf f1 f2) (K.samplesOf g) =
        ∫ z in disc x0 y0 r, (g z.1 z.2 * l z.1 z.2 + (f1 z.1 z.2 * g1 z.1 z.2 + f2 z.1 z.2 * g2 z.1 z.2)) :=
    fun h1 h2 h3 => disc_green h hr0 h3 h1 h2
  have hdot : ∀ {d e : ℕ} {f f1 f2 l g g1 g2 m : ℝ → ℝ → ℝ}, PolyLap d f f1 f2 l → PolyLap e g g1 g2 m →
      PolyFn (d + e) fun x y => f1 x y * g1 x y + f2 x y * g2 x y := fun h1 h2 => (h1.fn1.mul h2.fn1).add' (h1.fn2.mul h2.fn2)
  -- the difference of two boundary integrals
  have second : ∀ {d e : ℕ} {f f1 f2 l g g1 g2 : ℝ → ℝ → ℝ} {dl : ℕ}, PolyLap d f f1 f2 l → PolyLap e g g1 g2 (fun _ _ => 0) → PolyFn dl l →
      d + e + 1 < 2 * n → pair K (K.normalOf f1 f2) (K.samplesOf g) - pair K (K.normalOf g1 g2) (K.samplesOf f) =
        ∫ z in disc x0 y0 r, g z.1 z.2 * l z.1 z.2 := by
    intro d e f f1 f2 l g g1 g2 dl hf hg hl hde
    have i1 := disc_integrable x0 y0 hr0 (hg.fn.mul hl)
    have i2 := disc_integrable x0 y0 hr0 (hdot hf hg)
    rw [green hf hg hde, green hg hf (by omega), integral_add i1 i2, add_sub_assoc, add_eq_left, sub_eq_zero]
    congr 1
    funext z
    ring
  -- products of polynomials
  obtain ⟨p1, p2⟩ := lattice_dx hp
  obtain ⟨q1, q2⟩ := lattice_dx hq
  obtain ⟨m0, f0, -, g0⟩ := mul_lattice hδ hp hq
  obtain ⟨m1, f1, l1', g1⟩ := mul_lattice hδ p1 q1
  obtain ⟨m2, f2, l2', g2⟩ := mul_lattice hδ p2 q2
  have hgrad : ∀ x y, (m1.add m2).eval x y = (nz (p.map Mono.dx)).eval x y * (nz (q.map Mono.dx)).eval x y +
      (nz (p.map Mono.dy)).eval x y * (nz (q.map Mono.dy)).eval x y := fun x y => by
    rw [(C05_exact m1 m2 _ hδ l1' l2' x y).1, g1, g2]
  have hint : ∀ w : Poly ℝ, DegLe ((n - 2 + (n - 2) : ℕ) : ℤ) w → integratePoly w K = .ok (∫ z in disc x0 y0 r, w.eval z.1 z.2) := by
    intro w hw
    refine C78_integral h hr0 fun m hm => ?_
    have := hw m hm
    simp only [MultiIndex.order] at this
    omega
  have dm : ∀ {a b c : Poly ℝ}, a.mul b = .ok c → DegLe ((n - 2 : ℕ) : ℤ) a → DegLe ((n - 2 : ℕ) : ℤ) b → DegLe ((n - 2 + (n - 2) : ℕ) : ℤ) c := by
    intro a b c e ha hb
    rw [Poly.mul_eq] at e
    cases e
    push_cast
    exact deg_mulP ha hb
  have dd : ∀ {w : Poly ℝ}, DegLe ((n - 2 : ℕ) : ℤ) w → DegLe ((n - 2 : ℕ) : ℤ) (nz (w.map Mono.dx)) ∧ DegLe ((n - 2 : ℕ) : ℤ) (nz (w.map Mono.dy)) :=
    fun hw => ⟨deg_mono (by omega) (deg_dx hw), deg_mono (by omega) (deg_dy hw)⟩
  have dsum : DegLe ((n - 2 + (n - 2) : ℕ) : ℤ) (m1.add m2) := by
    rw [Poly.add_eq]
    exact deg_consolidate (deg_nz (deg_append (dm f1 (dd dp).1 (dd dq).1) (dm f2 (dd dp).2 (dd dq).2)))
  -- the eight products
  have H1 := h1hh_ok h.ready hne a7 b7
  have H2 := h1hp_ok h.ready hne a7 aq
  have H3 := h1hp_ok h.ready hne b7 ap
  have H4 : h1PolyPoly (polyPart K p) (polyPart K q) K = .ok (∫ z in disc x0 y0 r, (m1.add m2).eval z.1 z.2) := by
    rw [← hint _ dsum]
    simp only [h1PolyPoly, polyPart, Trace.attr, py_ok_bind, f1, f2]
  have L1 := l2hh_ok h.ready hne a7 b7
  have L2 := l2hp_ok h.ready hne a7 aq
  have L3 := l2hp_ok h.ready hne b7 ap
  have L4 : l2PolyPoly (polyPart K p) (polyPart K q) K = .ok (∫ z in disc x0 y0 r, m0.eval z.1 z.2) := by
    rw [← hint _ (dm f0 dp dq)]
    simp only [l2PolyPoly, polyPart, py_ok_bind, f0]
  obtain ⟨R1, R2⟩ := getH1_poisson a1 a2 a3 b2 b3 H1 H2 H3 H4 L1 L2 L3 L4
  rw [R1, R2]
  -- gradients
  have eu : ∀ x y, u1 x y = φ1 x y + (nz (p.map Mono.dx)).eval x y ∧ u2 x y = φ2 x y + (nz (p.map Mono.dy)).eval x y := fun x y => by
    refine HasGrad.unique (gu x y trivial) ?_
    have e : u.eval = fun x y => φ x y + p.eval x y := by funext a b; exact a4 a b
    rw [e]
    exact ⟨(a5.grad x y trivial).1.fun_add (lp.grad x y trivial).1, (a5.grad x y trivial).2.fun_add (lp.grad x y trivial).2⟩
  have ev : ∀ x y, v1 x y = ψ1 x y + (nz (q.map Mono.dx)).eval x y ∧ v2 x y = ψ2 x y + (nz (q.map Mono.dy)).eval x y := fun x y => by
    refine HasGrad.unique (gv x y trivial) ?_
    have e : v.eval = fun x y => ψ x y + q.eval x y := by funext a b; exact b4 a b
    rw [e]
    exact ⟨(b5.grad x y trivial).1.fun_add (lq.grad x y trivial).1, (b5.grad x y trivial).2.fun_add (lq.grad x y trivial).2⟩
  have four : ∀ {d1 d2 d3 d4 : ℕ} {f1 f2 f3 f4 : ℝ → ℝ → ℝ}, PolyFn d1 f1 → PolyFn d2 f2 → PolyFn d3 f3 → PolyFn d4 f4 →
      (∫ z in disc x0 y0 r, f1 z.1 z.2) + (∫ z in disc x0 y0 r, f2 z.1 z.2) +
        ((∫ z in disc x0 y0 r, f3 z.1 z.2) + ∫ z in disc x0 y0 r, f4 z.1 z.2) =
      ∫ z in disc x0 y0 r, (f1 z.1 z.2 + f2 z.1 z.2 + (f3 z.1 z.2 + f4 z.1 z.2)) := by
    intro d1 d2 d3 d4 f1 f2 f3 f4 h1 h2 h3 h4
    rw [integral_add (disc_integrable x0 y0 hr0 (h1.add h2)) (disc_integrable x0 y0 hr0 (h3.add h4)),
      integral_add (disc_integrable x0 y0 hr0 h1) (disc_integrable x0 y0 hr0 h2),
      integral_add (disc_integrable x0 y0 hr0 h3) (disc_integrable x0 y0 hr0 h4)]
  constructor
  · congr 1
    rw [green a5 b5 (by omega), green a5 lq (by omega), green b5 lp (by omega)]
    simp only [mul_zero, zero_add]
    rw [four (hdot a5 b5) (hdot a5 lq) (hdot b5 lp) (PolyFn.ofPoly dsum)]
    congr 1
    funext z
    rw [hgrad, (eu _ _).1, (eu _ _).2, (ev _ _).1, (ev _ _).2]
    ring
  · congr 1
    rw [pair_comm K (K.samplesOf Φ), second a6 b5 a5.fn (by omega), pair_comm K (K.samplesOf φ), second lQ a5 lq.fn (by omega),
      pair_comm K (K.samplesOf ψ), second lP b5 lp.fn (by omega)]
    rw [four (b5.fn.mul a5.fn) (a5.fn.mul lq.fn) (b5.fn.mul lp.fn) (PolyFn.ofPoly (dm f0 dp dq))]
    congr 1
    funext z
    rw [g0, a4, b4]
    ring

/-! ### an example: `u = x²/2` and `v = y²/2` on the unit disc -/

noncomputable def halfX2 : Poly ℝ := [⟨⟨2, 0⟩, 1 / 2⟩]

noncomputable def halfY2 : Poly ℝ := [⟨⟨0, 2⟩, 1 / 2⟩]

theorem halfX2_eval : halfX2.eval = fun x _ => x ^ 2 / 2 := by
  funext x y
  simp [Poly.eval, Mono.eval_eq, halfX2]
  ring

theorem halfY2_eval : halfY2.eval = fun _ y => y ^ 2 / 2 := by
  funext x y
  simp [Poly.eval, Mono.eval_eq, halfY2]
  ring

theorem halfX2_grad : HasGradOn Set.univ halfX2.eval (fun x _ => x) fun _ _ => 0 := by
  rw [halfX2_eval]
  intro x y _
  exact ⟨((hasDerivAt_pow 2 x).div_const 2).congr_deriv (by norm_num), hasDerivAt_const y _⟩

theorem halfY2_grad : HasGradOn Set.univ halfY2.eval (fun _ _ => 0) fun _ y => y := by
  rw [halfY2_eval]
  intro x y _
  exact ⟨hasDerivAt_const x _, ((hasDerivAt_pow 2 y).div_const 2).congr_deriv (by norm_num)⟩

theorem one_eval : onePoly.eval = fun _ _ => 1 := by
  funext x y
  simp [Poly.eval, Mono.eval_eq, onePoly]

theorem one_lattice' : OnLattice (1 / 4) (alP onePoly) := by
  intro m hm
  rw [onePoly, one_alP] at hm
  simp only [List.mem_cons, List.not_mem_nil, or_false] at hm
  rcases hm with rfl | rfl <;> exact ⟨1, by norm_num⟩

theorem one_problem {u : Poly ℝ} (hu : HasLaplacian Set.univ u.eval onePoly.eval) : PolyProblem u onePoly (alP onePoly) (alP (alP onePoly)) := by
  refine ⟨one_canonical, hu, antiLaplacian_ok _, antilap_laplacian _ one_canonical 1 one_lattice ?_, antiLaplacian_ok _,
    antilap_laplacian _ (alP_canonical _) (1 / 4) one_lattice' ?_⟩
  · intro m hm n hn
    simp only [onePoly, List.mem_singleton] at hm
    subst hm hn
    norm_num [Nat.factorial, Nat.descFactorial]
  · intro m hm n hn
    rw [onePoly, one_alP] at hm
    simp only [List.mem_cons, List.not_mem_nil, or_false] at hm
    rcases hm with rfl | rfl <;> subst hn <;> norm_num [Nat.factorial, Nat.descFactorial]

example : integratePoly halfX2 (sampledDisc 16) = .ok (∫ z in disc 0 0 1, z.1 ^ 2 / 2) := by
  rw [C78_integral (sampledDisc_ok (by norm_num)).1 one_pos (by simp [halfX2]), halfX2_eval]

example : ∃ s F G, init someGmres (sampledDisc 16) "direct" "jacobi" = .ok s ∧
    LocPoisson.init someGmres (some s) onePoly (.value (.arr ((sampledDisc 16).samplesOf fun x _ => x ^ 2 / 2))) false false = .ok F ∧
    LocPoisson.init someGmres (some s) onePoly (.value (.arr ((sampledDisc 16).samplesOf fun _ y => y ^ 2 / 2))) false false = .ok G ∧
    F.getH1 (.poisson F) = .ok (Real.pi / 4) ∧ F.getH1 (.poisson G) = .ok 0 ∧
    F.getL2 (.poisson G) = .ok (∫ z in disc 0 0 1, z.1 ^ 2 / 2 * (z.2 ^ 2 / 2)) := by
  obtain ⟨hd, hc⟩ := sampledDisc_ok (n := 16) (by norm_num)
  obtain ⟨s, hs, -⟩ := C70_init someGmres hd.ready (hd.even rfl (by norm_num) (by norm_num)) hd.edges_ne hd.holes hd.apart (hd.simple one_pos)
  have hx := one_problem (u := halfX2) ⟨_, _, fun x y _ => ⟨halfX2_grad x y trivial, 1, 0, hasDerivAt_id x, hasDerivAt_const y _, by simp [one_eval]⟩⟩
  have hy := one_problem (u := halfY2) ⟨_, _, fun x y _ => ⟨halfY2_grad x y trivial, 0, 1, hasDerivAt_const x _, hasDerivAt_id y, by simp [one_eval]⟩⟩
  have gx : (LocPoisson.TraceOr.value (.arr ((sampledDisc 16).samplesOf fun x _ => x ^ 2 / 2))).Gives (sampledDisc 16)
      ((sampledDisc 16).samplesOf halfX2.eval) := ⟨by rw [halfX2_eval], by rw [halfX2_eval]; simp [CellG.samplesOf, hd.ready.numPts]⟩
  have gy : (LocPoisson.TraceOr.value (.arr ((sampledDisc 16).samplesOf fun _ y => y ^ 2 / 2))).Gives (sampledDisc 16)
      ((sampledDisc 16).samplesOf halfY2.eval) := ⟨by rw [halfY2_eval], by rw [halfY2_eval]; simp [CellG.samplesOf, hd.ready.numPts]⟩
  have dx : ∀ m ∈ halfX2, m.alpha.x + m.alpha.y + 1 < 16 := by simp [halfX2]
  have dy : ∀ m ∈ halfY2, m.alpha.x + m.alpha.y + 1 < 16 := by simp [halfY2]
  have hin : (sampledDisc 16).interior = [] := rfl
  obtain ⟨B, hB⟩ := C77_poisson 0 0 (r := 1) (by norm_num) hx.canonical hx.anti hx.antiExact hx.solution halfX2_grad (d := 2) (by simp [halfX2])
  obtain ⟨F, hF, -⟩ := hB someGmres (sampledDisc 16) 16 _ _ s _
    someGmres_exact someGmres_finds hd hc (by norm_num) (by norm_num) (by norm_num) hs gx (by rw [hin]; simp) false false
  obtain ⟨B', hB'⟩ := C77_poisson 0 0 (r := 1) (by norm_num) hy.canonical hy.anti hy.antiExact hy.solution halfY2_grad (d := 2) (by simp [halfY2])
  obtain ⟨G, hG, -⟩ := hB' someGmres (sampledDisc 16) 16 _ _ s _
    someGmres_exact someGmres_finds hd hc (by norm_num) (by norm_num) (by norm_num) hs gy (by rw [hin]; simp) false false
  obtain ⟨a1, -⟩ := C78_inner_products someGmres_exact someGmres_finds hd hc (by norm_num) (by norm_num) (by norm_num) hs hx hx dx dx
    one_lattice' one_lattice' (by norm_num) gx gx hF hF halfX2_grad halfX2_grad
  obtain ⟨b1, b2⟩ := C78_inner_products someGmres_exact someGmres_finds hd hc (by norm_num) (by norm_num) (by norm_num) hs hx hy dx dy
    one_lattice' one_lattice' (by norm_num) gx gy hF hG halfX2_grad halfY2_grad
  refine ⟨s, F, G, hs, hF, hG, ?_, ?_, ?_⟩
  · rw [a1]
    congr 1
    simp only [mul_zero, add_zero]
    rw [disc_polar (g := fun z => z.1 * z.1) (by fun_prop) one_pos]
    have e : ∀ ρ : ℝ, ∫ θ in -Real.pi..Real.pi, ρ * (ρ * Real.cos θ * (ρ * Real.cos θ)) = ρ ^ 3 * Real.pi := fun ρ => by
      rw [show (fun θ => ρ * (ρ * Real.cos θ * (ρ * Real.cos θ))) = fun θ => ρ ^ 3 * Real.cos θ ^ 2 by funext θ; ring,
        intervalIntegral.integral_const_mul, integral_cos_sq]
      simp
    simp only [e]
    rw [intervalIntegral.integral_mul_const, integral_pow]
    norm_num
    ring
  · rw [b1]
    simp
  · rw [b2, halfX2_eval, halfY2_eval]

end PFEM
