import Verif.Props.RingDirichlet
import Verif.Props.RingSolveEnergy

/-!
Property theorem C138: energy inner products of solutions with polynomial data on both circles of a ring.
-/

namespace PFEM
open Nystrom Antilap Polynomial MeasureTheory

variable {x0 y0 a b : ℝ}

theorem ringEnergy_congr {g1 g2 k1 k2 g1' g2' k1' k2' : ℝ → ℝ → ℝ} (hg : ∀ x y, (x, y) ∈ ring x0 y0 a b → g1 x y = g1' x y ∧ g2 x y = g2' x y)
    (hk : ∀ x y, (x, y) ∈ ring x0 y0 a b → k1 x y = k1' x y ∧ k2 x y = k2' x y) :
    ringEnergy x0 y0 a b g1 g2 k1 k2 = ringEnergy x0 y0 a b g1' g2' k1' k2' := by
  unfold ringEnergy
  refine setIntegral_congr_fun (ring_open x0 y0 a b).measurableSet fun p hp => ?_
  rw [(hg p.1 p.2 hp).1, (hg p.1 p.2 hp).2, (hk p.1 p.2 hp).1, (hk p.1 p.2 hp).2]

theorem ring_rhs_add (n d : ℕ) (A : ℝ) (Q R : ℂ[X]) : ringRhsBound a b n d A Q R = ringRhsBound a b n d 0 Q R + 2 * Real.pi * |A| * Real.log (b / a) := by
  simp [ringRhsBound]

/-- C138: energy inner products on a ring of the solutions `w` and `w'` of two Poisson problems with polynomial right-hand sides and polynomial boundary values on
each circle (see C137).  If the anti-Laplacians of the right-hand sides are exact (see C09) and their coefficients lie on lattices that are coarse enough, then there
is a constant `M` such that for every admissible number `2n` of samples on each circle `get_h1_semi_inner_prod` returns the integral of `grad w · grad w'` over the
ring up to `M n² (τ + (a/b)^2n)`.  Here `τ` bounds the residuals of the linear solver for right-hand sides with entries up to `M`. -/
theorem C138_energy (x0 y0 : ℝ) (ha : 1 / 10 ^ 14 ≤ a) (hab : a < b) {u v f p u' v' f' q : Poly ℝ} (hp : f.antiLaplacian = .ok p)
    (hq : f'.antiLaplacian = .ok q) (hpf : HasLaplacian Set.univ p.eval f.eval) (hqf : HasLaplacian Set.univ q.eval f'.eval) {d : ℕ}
    (hdu : ∀ m ∈ u, m.alpha.x + m.alpha.y ≤ d) (hdv : ∀ m ∈ v, m.alpha.x + m.alpha.y ≤ d) (hdf : ∀ m ∈ f, m.alpha.x + m.alpha.y + 2 ≤ d)
    (hdu' : ∀ m ∈ u', m.alpha.x + m.alpha.y ≤ d) (hdv' : ∀ m ∈ v', m.alpha.x + m.alpha.y ≤ d) (hdf' : ∀ m ∈ f', m.alpha.x + m.alpha.y + 2 ≤ d)
    {w w' g1 g2 k1 k2 : ℝ → ℝ → ℝ} (hw : RingSolution x0 y0 a b f.eval u.eval v.eval w) (hw' : RingSolution x0 y0 a b f'.eval u'.eval v'.eval w')
    (hg : HasGradOn (ring x0 y0 a b) w g1 g2) (hk : HasGradOn (ring x0 y0 a b) w' k1 k2)
    {δ ε : ℝ} (lp : Poly.OnLattice δ p) (lq : Poly.OnLattice ε q) (hδ : 1 / 10 ^ 12 ≤ δ * ε) :
    ∃ M : ℝ, ∀ (gmres : Gmres) (tol : List ℝ → ℝ) (τ : ℝ) (K : CellG) (n : ℕ) (strategy pc : String) (s : Nystrom.Solver) (tr tr' : LocPoisson.TraceOr)
      (ei eg ei' eg' : Bool) (F G : LocPoisson), ResidualWithin gmres tol → 0 ≤ τ → (∀ rhs, (∀ t ∈ rhs, |t| ≤ M) → tol rhs ≤ τ) →
      K.IsAnnulus x0 y0 a b (2 * n) → 4 ≤ n → n ≤ 2 * 10 ^ 7 → 4 * ringConst a b * (a / b) ^ (2 * n) ≤ 1 → d + 1 < n →
      init gmres K strategy pc = .ok s → tr.Gives K (K.samplesOf w) → tr'.Gives K (K.samplesOf w') →
      LocPoisson.init gmres (some s) f tr ei eg = .ok F → LocPoisson.init gmres (some s) f' tr' ei' eg' = .ok G →
      ∃ I, F.getH1 (.poisson G) = .ok I ∧ |I - ringEnergy x0 y0 a b g1 g2 k1 k2| ≤ M * (n ^ 2 * (τ + (a / b) ^ (2 * n))) := by
  have hp0 := hp
  have hq0 := hq
  rw [Poly.antiLaplacian_ok] at hp hq
  cases hp
  cases hq
  have ha0 : 0 < a := lt_of_lt_of_le (by positivity) ha
  have hb0 : 0 < b := ha0.trans hab
  have hpg : ∀ f : Poly ℝ, HasGradOn Set.univ (Poly.alP f).eval (Poly.nz ((Poly.alP f).map Mono.dx)).eval (Poly.nz ((Poly.alP f).map Mono.dy)).eval :=
    fun f x y _ => ⟨Poly.hasDerivAt_dx (Poly.alP_canonical f).2 x y, Poly.hasDerivAt_dy (Poly.alP_canonical f).2 x y⟩
  obtain ⟨A, Q, R, hQ, hR, hsol⟩ := ring_solution x0 y0 ha0 hab hpf (PolyFn.ofPoly (alP_degree hdf)) (polyFn_of_degrees hdu) (polyFn_of_degrees hdv)
  obtain ⟨B, S, T, hS, hT, hsol'⟩ := ring_solution x0 y0 ha0 hab hqf (PolyFn.ofPoly (alP_degree hdf')) (polyFn_of_degrees hdu') (polyFn_of_degrees hdv')
  have hgr := ring_gradient_formula x0 y0 A Q R
  have hkr := ring_gradient_formula x0 y0 B S T
  have hgu := fun (x y : ℝ) (h : (x, y) ∈ ring x0 y0 a b) =>
    gradient_unique (ring_open x0 y0 a b) (fun x y h => C137_unique hb0 hw hsol x y (ring_subset _ _ _ _ h)) hg
    (fun x y h => ⟨(hpg f x y trivial).1.fun_add (hgr x y (ring_off ha0 (ring_subset _ _ _ _ h))).1,
      (hpg f x y trivial).2.fun_add (hgr x y (ring_off ha0 (ring_subset _ _ _ _ h))).2⟩) h
  have hku := fun (x y : ℝ) (h : (x, y) ∈ ring x0 y0 a b) =>
    gradient_unique (ring_open x0 y0 a b) (fun x y h => C137_unique hb0 hw' hsol' x y (ring_subset _ _ _ _ h)) hk
    (fun x y h => ⟨(hpg f' x y trivial).1.fun_add (hkr x y (ring_off ha0 (ring_subset _ _ _ _ h))).1,
      (hpg f' x y trivial).2.fun_add (hkr x y (ring_off ha0 (ring_subset _ _ _ _ h))).2⟩) h
  rw [ringEnergy_congr hgu hku]
  have deg : ∀ {P : Poly ℝ}, Poly.DegLe d P → ∀ c ∈ P, c.alpha.x + c.alpha.y ≤ d := by
    intro P hP c hc
    have := hP c hc
    simp only [MultiIndex.order] at this
    exact_mod_cast this
  have dp := alP_degree hdf
  have dq := alP_degree hdf'
  obtain ⟨Mp, hMp0, hMp⟩ := ring_poly_bounded x0 y0 ha0 hab dp
  obtain ⟨Mq, hMq0, hMq⟩ := ring_poly_bounded x0 y0 ha0 hab dq
  obtain ⟨M1, hM10, hM1⟩ := ring_flux_const ha0 hab Q R d
  obtain ⟨M2, hM20, hM2⟩ := ring_flux_const ha0 hab S T d
  have hB : 0 ≤ ringBound B S T a b := by
    have := ringSum_nonneg (Q := S) (R := T) ha0 hb0
    rw [ringBound]
    positivity
  have hlog : 0 < Real.log (b / a) := Real.log_pos ((one_lt_div ha0).2 hab)
  obtain ⟨LA, hLA, hLA0⟩ : ∃ c, c = 2 * Real.pi * |A| * Real.log (b / a) ∧ 0 ≤ c := ⟨_, rfl, by positivity⟩
  obtain ⟨LB, hLB, hLB0⟩ : ∃ c, c = 2 * Real.pi * |B| * Real.log (b / a) ∧ 0 ≤ c := ⟨_, rfl, by positivity⟩
  have hpi := Real.pi_pos
  refine ⟨4 * Real.pi * (ringBound B S T a b + Mq) * M1 + 4 * Real.pi * Mp * M2 + M1 + M2 + LA + LB,
    fun gmres tol τ K n strategy pc s tr tr' ei eg ei' eg' F G hg' hτ htol h h4 hn hs hdn hi htr htr' hF hG => ?_⟩
  rw [ring_samples_congr h (fun x y e => (hw.outer x y e).trans (hsol.outer x y e).symm) fun x y e => (hw.inner x y e).trans (hsol.inner x y e).symm] at htr
  rw [ring_samples_congr h (fun x y e => (hw'.outer x y e).trans (hsol'.outer x y e).symm) fun x y e => (hw'.inner x y e).trans (hsol'.inner x y e).symm] at htr'
  set N := (n : ℝ) ^ 2 * (τ + (a / b) ^ (2 * n)) with hN
  have hN0 : 0 ≤ N := by positivity
  obtain ⟨j1, j2⟩ := hM1 n τ (by omega) (by omega) hτ
  obtain ⟨j3, j4⟩ := hM2 n τ (by omega) (by omega) hτ
  have c1 : 0 ≤ 4 * Real.pi * (ringBound B S T a b + Mq) * M1 := by positivity
  have c2 : 0 ≤ 4 * Real.pi * Mp * M2 := by positivity
  obtain ⟨I, hI, hI'⟩ := C134_energy hg' h ha hab h4 hn hs hi (d := d) (e := d) (m := d) (by omega)
    (by omega) hdn hQ hR hS hT (τ := τ) (τ' := τ)
    (fun rhs _ hr => htol rhs fun t ht => (hr t ht).trans (by rw [ring_rhs_add, ← hLA]; linarith))
    (fun rhs _ hr => htol rhs fun t ht => (hr t ht).trans (by rw [ring_rhs_add, ← hLB]; linarith))
    hp0 hq0 (deg dp) (deg dq) (Poly.alP_canonical f).2 (Poly.alP_canonical f').2
    lp lq hδ hMp0 hMq0 (hMp K _ h) (hMq K _ h) (hpg f) (hpg f') hgr hkr htr htr' hF hG
  refine ⟨I, hI, ?_⟩
  rw [h.numPts] at hI'
  refine hI'.trans ?_
  calc _ ≤ 4 * Real.pi * (ringBound B S T a b + Mq) * (M1 * N) + 4 * Real.pi * Mp * (M2 * N) := by gcongr
    _ = (4 * Real.pi * (ringBound B S T a b + Mq) * M1 + 4 * Real.pi * Mp * M2) * N := by ring
    _ ≤ _ := mul_le_mul_of_nonneg_right (by linarith) hN0

/-! ### the hypotheses can be met: the energy of the bubble function with `Δw = 1` and `w = 0` on both circles of the ring between the circles of radius 1 and 2
about `(2, 3)`, 64 samples on each -/

example : ∃ w g1 g2 : ℝ → ℝ → ℝ, RingSolution 2 3 1 2 (fun _ _ => 1) (fun _ _ => 0) (fun _ _ => 0) w ∧ HasGradOn (ring 2 3 1 2) w g1 g2 ∧
    ∃ q inside K s F I M, getQuadDict 32 2 = .ok q ∧ ringOfCircles.parameterize inside 8 q = some (.ok K) ∧
    init someGmres { K with interior := [] } "direct" "jacobi" = .ok s ∧
    LocPoisson.init someGmres (some s) onePoly (.value (.arr (K.samplesOf fun _ _ => 0))) false false = .ok F ∧
    F.getH1 (.poisson F) = .ok I ∧ |I - ringEnergy 2 3 1 2 g1 g2 g1 g2| ≤ M * (32 ^ 2 * (1 / 2) ^ 64) := by
  classical
  have hx := one_problem (u := halfX2) ⟨_, _, fun x y _ => ⟨halfX2_grad x y trivial, 1, 0, hasDerivAt_id x, hasDerivAt_const y _, by simp [one_eval]⟩⟩
  have z0 : Poly.eval ([] : Poly ℝ) = fun _ _ => 0 := by
    funext x y
    simp [Poly.eval]
  obtain ⟨w, hw⟩ := C137_exists 2 3 (a := 1) (b := 2) one_pos (by norm_num) (u := []) (v := []) hx.antiExact
  obtain ⟨g1, g2, hL⟩ := hw.laplacian
  have hG : HasGradOn (ring 2 3 1 2) w g1 g2 := fun x y h => (hL x y h).1
  obtain ⟨M0, hM⟩ := C137_interior 2 3 (a := 1) (b := 2) (by norm_num) (by norm_num) hx.anti hx.antiExact (d := 2)
    (by simp) (by simp) (by simp [onePoly]) hw hG (δ := 1 / 2) (by norm_num)
  obtain ⟨M, hE⟩ := C138_energy 2 3 (a := 1) (b := 2) (by norm_num) (by norm_num) hx.anti hx.anti hx.antiExact hx.antiExact (d := 2)
    (by simp) (by simp) (by simp [onePoly]) (by simp) (by simp) (by simp [onePoly]) hw hw hG hG one_lattice' one_lattice' (by norm_num)
  rw [one_eval, z0] at hw
  refine ⟨w, g1, g2, hw, hG, ?_⟩
  obtain ⟨q, hd⟩ := (C21_dict 32 2).1.2 ⟨by norm_num, le_rfl⟩
  obtain ⟨K, hK, h0⟩ := C114_annulus hd (inside := fun _ q => decide ((q.1 - 2) ^ 2 + (q.2 - 3) ^ 2 < 1)) (fuel := 8) (by norm_num)
    (K := ringOfCircles) (e := circleAt 2) (f := circleAt 1) (v := Vert.mk' 2 3) (a := 1) (b := 2) rfl rfl rfl rfl rfl rfl rfl rfl rfl
    (by norm_num) (by norm_num) rfl rfl rfl rfl rfl rfl (by intro poly; simp [Vert.mk'])
  set K1 : CellG := { K with interior := [] } with hK1
  have h : K1.IsAnnulus 2 3 1 2 (2 * 32) := ⟨⟨h0.ready.ready, h0.ready.numPts, h0.ready.startIdx⟩, h0.circles, h0.vertices⟩
  have hc : ringConst 1 2 = 241 / 3 := by norm_num [ringConst]
  obtain ⟨s, hs, -⟩ := C70_init someGmres h.ready (h.even rfl (by norm_num) (by norm_num)) h.edges_ne (h.holes one_pos two_pos)
    (h.apart one_pos (by norm_num)) (h.simple one_pos (by norm_num))
  have hres : ResidualWithin someGmres fun _ => 0 := by
    intro A b M x hx
    have := someGmres_exact A b M x hx
    exact ⟨b, this, List.forall₂_same.2 fun u _ => by simp⟩
  have gx : (LocPoisson.TraceOr.value (.arr (K1.samplesOf fun _ _ => 0))).Gives K1 (K1.samplesOf w) :=
    ⟨by rw [ring_samples_congr h (v := fun _ _ => 0) hw.outer hw.inner], by simp [CellG.samplesOf, h.ready.numPts]⟩
  obtain ⟨F, h1, -⟩ := hM someGmres _ 0 K1 32 _ _ s _ hres someGmres_finds le_rfl (fun _ _ => le_rfl) h (by norm_num) (by norm_num)
    (by rw [hc]; norm_num) (by norm_num) hs gx (by simp [hK1]) false false
  obtain ⟨I, hI, hI'⟩ := hE someGmres _ 0 K1 32 _ _ s _ _ _ _ _ _ F F hres le_rfl (fun _ _ => le_rfl) h (by norm_num) (by norm_num)
    (by rw [hc]; norm_num) (by norm_num) hs gx gx h1 h1
  refine ⟨q, _, K, s, F, I, M, hd, hK, hs, h1, hI, ?_⟩
  rw [zero_add] at hI'
  exact_mod_cast hI'

end PFEM
