import Verif.Props.RingPoisson
import Verif.Props.RingSolve

/-!
Property theorem C136: energy inner products of functions with polynomial solutions on rings.
-/

namespace PFEM
open Nystrom Antilap Polynomial

variable {x0 y0 a b : ℝ}

/-- the error of C134 for fixed data: a constant times `n²` times the residual plus a power -/
theorem ring_flux_const (ha : 0 < a) (hab : a < b) (Q R : ℂ[X]) (d : ℕ) : ∃ M : ℝ, 0 ≤ M ∧ ∀ (n : ℕ) (τ : ℝ), 1 ≤ n → d < n → 0 ≤ τ →
    ringFluxErr (2 * (2 * n)) a b n d τ Q R ≤ M * (n ^ 2 * (τ + (a / b) ^ (2 * n))) ∧ ringRhsBound a b n d 0 Q R ≤ M := by
  have hb : 0 < b := ha.trans hab
  obtain ⟨q0, q1, -⟩ := ring_ratio ha hab
  have hq : 0 < 1 - a / b := by linarith
  have hC : 0 ≤ ringConst a b := by unfold ringConst; positivity
  have hden : 0 < 2 * Real.pi * Real.log (b / a) := mul_pos Real.two_pi_pos (Real.log_pos ((one_lt_div ha).2 hab))
  have hS := ringSum_nonneg (Q := Q) (R := R) ha hb
  set D := 2 * Real.pi * Real.log (b / a) with hD
  set S := ringSum Q R a b with hSd
  set C := ringConst a b with hCd
  obtain ⟨c2, hc2, hc20⟩ : ∃ c, c = C * (5 * ((b / a) ^ d / (1 - a / b)) * S) ∧ 0 ≤ c := ⟨_, rfl, by positivity⟩
  obtain ⟨k1, hk1, hk10⟩ : ∃ c, c = 8 * (C + c2) + 1 / D ∧ 0 ≤ c := ⟨_, rfl, by positivity⟩
  obtain ⟨k3, hk3, hk30⟩ : ∃ c, c = (3 + 5 * (1 / (1 - a / b))) * S ∧ 0 ≤ c := ⟨_, rfl, by positivity⟩
  refine ⟨k1 + k3, by positivity, fun n τ hn hd hτ => ⟨?_, ?_⟩⟩
  · have hn1 : (1 : ℝ) ≤ n := by exact_mod_cast hn
    have hn2 : (1 : ℝ) ≤ (n : ℝ) ^ 2 := one_le_pow₀ hn1
    have hX : 0 ≤ (a / b) ^ (2 * n) := by positivity
    have hpw := ring_power ha hab (by omega : d ≤ 2 * n)
    have e : ringFluxErr (2 * (2 * n)) a b n d τ Q R = Real.sqrt (4 * n) * (4 * n) / 2 * (C * τ + c2 * (a / b) ^ (2 * n)) + 1 / D * τ := by
      rw [ringFluxErr, ringLogErr, hpw, hc2, ← hD, ← hSd, ← hCd, show ((2 * (2 * n) : ℕ) : ℝ) = 4 * n by push_cast; ring]
      ring
    have hsq : Real.sqrt (4 * n) ≤ 4 * n := by
      rw [Real.sqrt_le_left (by positivity)]
      nlinarith
    rw [e]
    calc _ ≤ 4 * n * (4 * n) / 2 * (C * τ + c2 * (a / b) ^ (2 * n)) + 1 / D * τ * n ^ 2 := by
          refine add_le_add ?_ (le_mul_of_one_le_right (by positivity) hn2)
          gcongr
      _ ≤ k1 * (n ^ 2 * (τ + (a / b) ^ (2 * n))) := by
          have h2 : 0 ≤ 8 * (n : ℝ) ^ 2 * (C * (a / b) ^ (2 * n) + c2 * τ) + 1 / D * n ^ 2 * (a / b) ^ (2 * n) := by positivity
          refine le_of_le_of_eq (le_add_of_nonneg_right h2) ?_
          rw [hk1]
          ring
      _ ≤ _ := by gcongr; linarith
  · have hp1 : (a / b) ^ (2 * n - d) ≤ 1 := pow_le_one₀ (by positivity) q1.le
    calc ringRhsBound a b n d 0 Q R = (3 + 5 * ((a / b) ^ (2 * n - d) / (1 - a / b))) * S := by
          rw [ringRhsBound, abs_zero, mul_zero, zero_mul, add_zero]
      _ ≤ k3 := by rw [hk3]; gcongr
      _ ≤ _ := by linarith

theorem ring_poly_bounded (x0 y0 : ℝ) (ha : 0 < a) (hab : a < b) {P : Poly ℝ} {d : ℕ} (hP : Poly.DegLe d P) : ∃ M : ℝ, 0 ≤ M ∧
    ∀ (K : CellG) (N : ℕ), K.IsAnnulus x0 y0 a b N → ∀ t ∈ K.samplesOf P.eval, |t| ≤ M := by
  obtain ⟨M, hM⟩ := (isCompact_Icc (a := (x0 - b, y0 - b)) (b := (x0 + b, y0 + b))).exists_bound_of_continuousOn
    (f := fun p : ℝ × ℝ => P.eval p.1 p.2) (PolyFn.ofPoly hP).contDiff.continuous.continuousOn
  refine ⟨|M|, abs_nonneg _, fun K N h t ht => ?_⟩
  obtain ⟨s, hs, rfl⟩ := List.mem_map.1 ht
  refine (hM (s.x, s.y) ?_).trans (le_abs_self _)
  rw [h.cols, List.mem_append] at hs
  rcases hs with hs | hs <;> obtain ⟨j, -, rfl⟩ := List.mem_map.1 hs <;> simp only [circleSample, holeSample] <;>
    have c1 := Real.neg_one_le_cos (2 * Real.pi * j / N) <;> have c2 := Real.cos_le_one (2 * Real.pi * j / N) <;>
    have c3 := Real.neg_one_le_sin (2 * Real.pi * j / N) <;> have c4 := Real.sin_le_one (2 * Real.pi * j / N) <;>
    refine ⟨⟨?_, ?_⟩, ⟨?_, ?_⟩⟩ <;> dsimp only <;> nlinarith

/-- C136: energy inner products on a ring for polynomial solutions `u` and `v` of two Poisson problems.  If the anti-Laplacians of the right-hand sides are exact
(see C09) and their coefficients lie on lattices that are coarse enough, then there is a constant `M` such that for every admissible number `2n` of samples on
each circle `get_h1_semi_inner_prod` returns the integral of `grad u · grad v` over the ring up to `M n² (τ + (a/b)^2n)`.  Here `τ` bounds the residuals of the
linear solver for right-hand sides with entries up to `M`. -/
theorem C136_energy (x0 y0 : ℝ) (ha : 1 / 10 ^ 14 ≤ a) (hab : a < b) {u v f f' p q : Poly ℝ} (hcf : Poly.Canonical f) (hcf' : Poly.Canonical f')
    (hp : f.antiLaplacian = .ok p) (hq : f'.antiLaplacian = .ok q) (hpf : HasLaplacian Set.univ p.eval f.eval) (hqf : HasLaplacian Set.univ q.eval f'.eval)
    (huf : HasLaplacian Set.univ u.eval f.eval) (hvf : HasLaplacian Set.univ v.eval f'.eval) {g1 g2 k1 k2 : ℝ → ℝ → ℝ}
    (hg : HasGradOn Set.univ u.eval g1 g2) (hk : HasGradOn Set.univ v.eval k1 k2) {d : ℕ} (hd : ∀ m ∈ u, m.alpha.x + m.alpha.y ≤ d)
    (hd' : ∀ m ∈ v, m.alpha.x + m.alpha.y ≤ d) {δ ε : ℝ} (lp : Poly.OnLattice δ p) (lq : Poly.OnLattice ε q) (hδ : 1 / 10 ^ 12 ≤ δ * ε) :
    ∃ M : ℝ, ∀ (gmres : Gmres) (tol : List ℝ → ℝ) (τ : ℝ) (K : CellG) (n : ℕ) (strategy pc : String) (s : Nystrom.Solver) (tr tr' : LocPoisson.TraceOr)
      (ei eg ei' eg' : Bool) (F G : LocPoisson), ResidualWithin gmres tol → 0 ≤ τ → (∀ rhs, (∀ t ∈ rhs, |t| ≤ M) → tol rhs ≤ τ) →
      K.IsAnnulus x0 y0 a b (2 * n) → 4 ≤ n → n ≤ 2 * 10 ^ 7 → 4 * ringConst a b * (a / b) ^ (2 * n) ≤ 1 → d + 1 < n →
      init gmres K strategy pc = .ok s → tr.Gives K (K.samplesOf u.eval) → tr'.Gives K (K.samplesOf v.eval) →
      LocPoisson.init gmres (some s) f tr ei eg = .ok F → LocPoisson.init gmres (some s) f' tr' ei' eg' = .ok G →
      ∃ I, F.getH1 (.poisson G) = .ok I ∧ |I - ringEnergy x0 y0 a b g1 g2 k1 k2| ≤ M * (n ^ 2 * (τ + (a / b) ^ (2 * n))) := by
  have hp0 := hp
  have hq0 := hq
  rw [Poly.antiLaplacian_ok] at hp hq
  cases hp
  cases hq
  have ha0 : 0 < a := lt_of_lt_of_le (by positivity) ha
  have hb0 : 0 < b := ha0.trans hab
  have part : ∀ {u f : Poly ℝ}, Poly.Canonical f → HasLaplacian Set.univ (Poly.alP f).eval f.eval → HasLaplacian Set.univ u.eval f.eval →
      (∀ m ∈ u, m.alpha.x + m.alpha.y ≤ d) → Poly.DegLe d (Poly.alP f) ∧ ∃ Q : ℂ[X], Q.natDegree ≤ d ∧
        ∀ x y, (Poly.alP f).eval x y + ringData 0 Q 0 x0 y0 x y = u.eval x y := by
    intro u f hcf hpf huf hd
    have hdu : Poly.DegLe d u := fun m hm => by
      have := hd m hm
      simp only [MultiIndex.order]
      omega
    have hdf := Poly.deg_of_lap hcf (Poly.totalDegree_toMv hdu) (lap_of_hasLaplacian huf).symm
    have hdp : Poly.DegLe d (Poly.alP f) := Poly.deg_mono (by omega) (Poly.deg_alP hdf)
    obtain ⟨Q, hQd, -, hQu⟩ := difference_harmonic huf hpf hdu hdp x0 y0
    refine ⟨hdp, Q, hQd, fun x y => ?_⟩
    rw [ringData, laurent, eval_zero, add_zero, zero_mul, zero_add]
    have := hQu x y
    rw [rePoly] at this
    linarith
  obtain ⟨dp, Q, hQ, hu⟩ := part hcf hpf huf hd
  obtain ⟨dq, S, hS, hv⟩ := part hcf' hqf hvf hd'
  have hpg : ∀ f : Poly ℝ, HasGradOn Set.univ (Poly.alP f).eval (Poly.nz ((Poly.alP f).map Mono.dx)).eval (Poly.nz ((Poly.alP f).map Mono.dy)).eval :=
    fun f x y _ => ⟨Poly.hasDerivAt_dx (Poly.alP_canonical f).2 x y, Poly.hasDerivAt_dy (Poly.alP_canonical f).2 x y⟩
  have hgr : ∀ {u f : Poly ℝ} {g1 g2 : ℝ → ℝ → ℝ} {Q : ℂ[X]}, (∀ x y, (Poly.alP f).eval x y + ringData 0 Q 0 x0 y0 x y = u.eval x y) →
      HasGradOn Set.univ u.eval g1 g2 → RingGradient 0 Q 0 x0 y0 (fun x y => g1 x y - (Poly.nz ((Poly.alP f).map Mono.dx)).eval x y)
        (fun x y => g2 x y - (Poly.nz ((Poly.alP f).map Mono.dy)).eval x y) := by
    intro u f g1 g2 Q hu hg x y _
    have e : ringData 0 Q 0 x0 y0 = fun x y => u.eval x y - (Poly.alP f).eval x y := by
      funext x y
      rw [← hu x y]
      ring
    rw [e]
    exact ⟨(hg x y trivial).1.sub (hpg f x y trivial).1, (hg x y trivial).2.sub (hpg f x y trivial).2⟩
  have deg : ∀ {P : Poly ℝ}, Poly.DegLe d P → ∀ c ∈ P, c.alpha.x + c.alpha.y ≤ d := by
    intro P hP c hc
    have := hP c hc
    simp only [MultiIndex.order] at this
    exact_mod_cast this
  obtain ⟨Mp, hMp0, hMp⟩ := ring_poly_bounded x0 y0 ha0 hab dp
  obtain ⟨Mq, hMq0, hMq⟩ := ring_poly_bounded x0 y0 ha0 hab dq
  obtain ⟨M1, hM10, hM1⟩ := ring_flux_const ha0 hab Q 0 d
  obtain ⟨M2, hM20, hM2⟩ := ring_flux_const ha0 hab S 0 d
  have hB : 0 ≤ ringBound 0 S 0 a b := by
    have := ringSum_nonneg (Q := S) (R := 0) ha0 hb0
    rw [ringBound, abs_zero, zero_mul, zero_add]
    exact this
  have hpi := Real.pi_pos
  refine ⟨4 * Real.pi * (ringBound 0 S 0 a b + Mq) * M1 + 4 * Real.pi * Mp * M2 + M1 + M2,
    fun gmres tol τ K n strategy pc s tr tr' ei eg ei' eg' F G hg' hτ htol h h4 hn hs hdn hi htr htr' hF hG => ?_⟩
  set N := (n : ℝ) ^ 2 * (τ + (a / b) ^ (2 * n)) with hN
  have hN0 : 0 ≤ N := by positivity
  obtain ⟨j1, j2⟩ := hM1 n τ (by omega) (by omega) hτ
  obtain ⟨j3, j4⟩ := hM2 n τ (by omega) (by omega) hτ
  have c1 : 0 ≤ 4 * Real.pi * (ringBound 0 S 0 a b + Mq) * M1 := by positivity
  have c2 : 0 ≤ 4 * Real.pi * Mp * M2 := by positivity
  obtain ⟨I, hI, hI'⟩ := C134_energy hg' h ha hab h4 hn hs hi (A := 0) (B := 0) (Q := Q) (R := 0) (S := S) (T := 0) (d := d) (e := d) (m := d) (by omega)
    (by omega) hdn hQ (by simp) hS (by simp) (τ := τ) (τ' := τ) (fun rhs _ hr => htol rhs fun t ht => (hr t ht).trans (by linarith))
    (fun rhs _ hr => htol rhs fun t ht => (hr t ht).trans (by linarith)) hp0 hq0 (deg dp) (deg dq) (Poly.alP_canonical f).2 (Poly.alP_canonical f').2
    lp lq hδ hMp0 hMq0 (hMp K _ h) (hMq K _ h) (hpg f) (hpg f') (hgr hu hg) (hgr hv hk) (by simpa only [hu] using htr) (by simpa only [hv] using htr') hF hG
  refine ⟨I, hI, ?_⟩
  simp only [add_sub_cancel] at hI'
  rw [h.numPts] at hI'
  refine hI'.trans ?_
  calc _ ≤ 4 * Real.pi * (ringBound 0 S 0 a b + Mq) * (M1 * N) + 4 * Real.pi * Mp * (M2 * N) := by gcongr
    _ ≤ _ := by nlinarith

/-! ### the hypotheses can be met: `Δu = 1`, `u = x²/2`, on the ring between the circles of radius 1 and 2 about `(2, 3)` with 64 samples on each -/

example : ∃ q inside K s F I M, getQuadDict 32 2 = .ok q ∧ ringOfCircles.parameterize inside 8 q = some (.ok K) ∧
    init someGmres { K with interior := [] } "direct" "jacobi" = .ok s ∧
    LocPoisson.init someGmres (some s) onePoly (.value (.arr (K.samplesOf fun x _ => x ^ 2 / 2))) false false = .ok F ∧
    F.getH1 (.poisson F) = .ok I ∧ |I - ringEnergy 2 3 1 2 (fun x _ => x) (fun _ _ => 0) (fun x _ => x) (fun _ _ => 0)| ≤ M * (32 ^ 2 * (1 / 2) ^ 64) := by
  classical
  obtain ⟨q, hd⟩ := (C21_dict 32 2).1.2 ⟨by norm_num, le_rfl⟩
  obtain ⟨K, hK, h0⟩ := C114_annulus hd (inside := fun _ q => decide ((q.1 - 2) ^ 2 + (q.2 - 3) ^ 2 < 1)) (fuel := 8) (by norm_num)
    (K := ringOfCircles) (e := circleAt 2) (f := circleAt 1) (v := Vert.mk' 2 3) (a := 1) (b := 2) rfl rfl rfl rfl rfl rfl rfl rfl rfl
    (by norm_num) (by norm_num) rfl rfl rfl rfl rfl rfl (by intro poly; simp [Vert.mk'])
  set K1 : CellG := { K with interior := [] } with hK1
  have h : K1.IsAnnulus 2 3 1 2 (2 * 32) := ⟨⟨h0.ready.ready, h0.ready.numPts, h0.ready.startIdx⟩, h0.circles, h0.vertices⟩
  have hc : ringConst 1 2 = 241 / 3 := by norm_num [ringConst]
  obtain ⟨s, hs, -⟩ := C70_init someGmres h.ready (h.even rfl (by norm_num) (by norm_num)) h.edges_ne (h.holes one_pos two_pos)
    (h.apart one_pos (by norm_num)) (h.simple one_pos (by norm_num))
  have hres : ResidualWithin someGmres fun _ => 0 := by
    intro A b M x hx
    have := someGmres_exact A b M x hx
    exact ⟨b, this, List.forall₂_same.2 fun u _ => by simp⟩
  have hx := one_problem (u := halfX2) ⟨_, _, fun x y _ => ⟨halfX2_grad x y trivial, 1, 0, hasDerivAt_id x, hasDerivAt_const y _, by simp [one_eval]⟩⟩
  have gx : (LocPoisson.TraceOr.value (.arr (K1.samplesOf fun x _ => x ^ 2 / 2))).Gives K1 (K1.samplesOf halfX2.eval) :=
    ⟨by rw [halfX2_eval], by rw [halfX2_eval]; simp [CellG.samplesOf, h.ready.numPts]⟩
  obtain ⟨M0, hM⟩ := C135_interior 2 3 (a := 1) (b := 2) (by norm_num) (by norm_num) hx.canonical hx.anti hx.antiExact hx.solution halfX2_grad (d := 2)
    (by simp [halfX2]) (δ := 1 / 2) (by norm_num)
  obtain ⟨F, h1, -⟩ := hM someGmres _ 0 K1 32 _ _ s _ hres someGmres_finds le_rfl (fun _ _ => le_rfl) h (by norm_num) (by norm_num)
    (by rw [hc]; norm_num) (by norm_num) hs gx (by simp [hK1]) false false
  obtain ⟨M, hE⟩ := C136_energy 2 3 (a := 1) (b := 2) (by norm_num) (by norm_num) hx.canonical hx.canonical hx.anti hx.anti hx.antiExact hx.antiExact
    hx.solution hx.solution halfX2_grad halfX2_grad (d := 2) (by simp [halfX2]) (by simp [halfX2]) one_lattice' one_lattice' (by norm_num)
  obtain ⟨I, hI, hI'⟩ := hE someGmres _ 0 K1 32 _ _ s _ _ _ _ _ _ F F hres le_rfl (fun _ _ => le_rfl) h (by norm_num) (by norm_num)
    (by rw [hc]; norm_num) (by norm_num) hs gx gx h1 h1
  refine ⟨q, _, K, s, F, I, M, hd, hK, hs, h1, hI, ?_⟩
  rw [zero_add] at hI'
  exact_mod_cast hI'

end PFEM
