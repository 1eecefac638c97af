import Verif.Lemmas.PolyDegree
import Verif.Props.DiscCell

/-!
Property theorems C77: on a disc the Poisson problem with a polynomial solution is solved exactly on the boundary and, inside, up to the
quadrature error of Cauchy's formula.
-/

namespace PFEM
open Nystrom Antilap Poly

/-! ### the derivative of Cauchy's formula on a circle -/

open Polynomial in
theorem circle_two {N : ℕ} {c : ℂ} {r : ℝ} (hr : 0 < r) {Q : ℂ[X]} (hQ : Q.natDegree < N) {ζ : ℂ} (hζ : ‖ζ - c‖ < r) :
    cauchySum (circleNodes c r N) ((circleNodes c r N).map fun p => Q.eval p.1) 2 ζ =
      (derivative Q).eval ζ / (1 - ((ζ - c) / r) ^ N) + Q.eval ζ * (N * ((ζ - c) / r) ^ (N - 1) / r) / (1 - ((ζ - c) / r) ^ N) ^ 2 := by
  have hN0 : N ≠ 0 := by omega
  have hoff : ∀ p ∈ circleNodes c r N, p.1 ≠ ζ := by
    intro p hp e
    obtain ⟨j, -, rfl⟩ := List.mem_map.1 hp
    have : ‖ζ - c‖ = r := by
      rw [← e]
      have h1 : ‖Complex.exp (2 * Real.pi * Complex.I * (j / N))‖ = 1 := by
        rw [show 2 * Real.pi * Complex.I * (j / N) = ((2 * Real.pi * (j / N) : ℝ) : ℂ) * Complex.I by push_cast; ring]
        exact Complex.norm_exp_ofReal_mul_I _
      simp only [add_sub_cancel_left]
      rw [norm_mul, h1, Complex.norm_real, mul_one, Real.norm_of_nonneg hr.le]
    linarith
  have hlt : ‖((ζ - c) / (r : ℂ)) ^ N‖ < 1 := by
    rw [norm_pow, norm_div, Complex.norm_real, Real.norm_of_nonneg hr.le]
    exact pow_lt_one₀ (by positivity) ((div_lt_one hr).2 hζ) hN0
  have hden : (1 : ℂ) - ((ζ - c) / r) ^ N ≠ 0 := by
    intro e0
    rw [← sub_eq_zero.1 e0] at hlt
    simp at hlt
  have h1 := cauchySum_deriv (circleNodes c r N) 1 hoff ((circleNodes c r N).map fun p => Q.eval p.1)
  have h2 : HasDerivAt (fun z : ℂ => Q.eval z / (1 - ((z - c) / r) ^ N))
      (((derivative Q).eval ζ * (1 - ((ζ - c) / r) ^ N) - Q.eval ζ * -(N * ((ζ - c) / r) ^ (N - 1) * (1 / r))) / (1 - ((ζ - c) / r) ^ N) ^ 2) ζ := by
    have h3 : HasDerivAt (fun z : ℂ => (1 : ℂ) - ((z - c) / r) ^ N) (-(N * ((ζ - c) / r) ^ (N - 1) * (1 / r))) ζ :=
      ((((hasDerivAt_id ζ).sub_const c).div_const (r : ℂ)).fun_pow N).const_sub 1
    exact (Q.hasDerivAt ζ).fun_div h3 hden
  have h4 : (cauchySum (circleNodes c r N) ((circleNodes c r N).map fun p => Q.eval p.1) 1) =ᶠ[nhds ζ]
      fun z : ℂ => Q.eval z / (1 - ((z - c) / r) ^ N) := by
    have : {z : ℂ | ‖z - c‖ < r} ∈ nhds ζ := (isOpen_lt (continuous_norm.comp (continuous_id.sub continuous_const)) continuous_const).mem_nhds hζ
    filter_upwards [this] with z hz
    exact C57_circle hr hQ hz
  have h5 := h1.unique (h2.congr_of_eventuallyEq h4)
  simp only [Nat.cast_one, one_mul, Nat.reduceAdd] at h5
  rw [h5]
  field_simp
  ring

open Polynomial in
theorem circle_two_error {N : ℕ} {c : ℂ} {r : ℝ} (hr : 0 < r) {Q : ℂ[X]} (hQ : Q.natDegree < N) {ζ : ℂ} (hζ : ‖ζ - c‖ < r) :
    ‖cauchySum (circleNodes c r N) ((circleNodes c r N).map fun p => Q.eval p.1) 2 ζ - (derivative Q).eval ζ‖ ≤
      ‖(derivative Q).eval ζ‖ * ((‖ζ - c‖ / r) ^ N / (1 - (‖ζ - c‖ / r) ^ N)) +
      ‖Q.eval ζ‖ * (N * (‖ζ - c‖ / r) ^ (N - 1) / r / (1 - (‖ζ - c‖ / r) ^ N) ^ 2) := by
  have hN0 : N ≠ 0 := by omega
  rw [circle_two hr hQ hζ]
  set e : ℂ := ((ζ - c) / r) ^ N with he
  have hnorm : ‖e‖ = (‖ζ - c‖ / r) ^ N := by
    rw [he, norm_pow, norm_div, Complex.norm_real, Real.norm_of_nonneg hr.le]
  have hlt : ‖e‖ < 1 := by
    rw [hnorm]
    exact pow_lt_one₀ (by positivity) ((div_lt_one hr).2 hζ) hN0
  have hden : (1 : ℂ) - e ≠ 0 := by
    intro e0
    rw [← sub_eq_zero.1 e0] at hlt
    simp at hlt
  have hge : 1 - ‖e‖ ≤ ‖(1 : ℂ) - e‖ := by
    have := norm_sub_norm_le (1 : ℂ) e
    simpa using this
  have hpos : 0 < 1 - ‖e‖ := by linarith
  rw [← hnorm]
  have e1 : (derivative Q).eval ζ / (1 - e) + Q.eval ζ * (N * ((ζ - c) / r) ^ (N - 1) / r) / (1 - e) ^ 2 - (derivative Q).eval ζ =
      (derivative Q).eval ζ * (e / (1 - e)) + Q.eval ζ * ((N * ((ζ - c) / r) ^ (N - 1) / r) / (1 - e) ^ 2) := by
    field_simp
    ring
  rw [e1]
  refine (norm_add_le _ _).trans (add_le_add ?_ ?_)
  · rw [norm_mul, norm_div]
    refine mul_le_mul_of_nonneg_left ?_ (norm_nonneg _)
    exact div_le_div_of_nonneg_left (norm_nonneg _) hpos hge
  · rw [norm_mul, norm_div, norm_div, norm_mul, norm_pow, norm_pow, norm_div, Complex.norm_real, Real.norm_of_nonneg hr.le, Complex.norm_natCast]
    refine mul_le_mul_of_nonneg_left ?_ (norm_nonneg _)
    exact div_le_div_of_nonneg_left (by positivity) (by positivity) (pow_le_pow_left₀ hpos.le hge 2)

/-! ### the disc -/

theorem CellG.IsDisc.getEdges {K : CellG} {x0 y0 r : ℝ} {N : ℕ} (h : K.IsDisc x0 y0 r N) :
    ∃ e, K.getEdges = [e] ∧ e.cols = (List.range N).map (circleSample x0 y0 r N) := by
  obtain ⟨c, e, h1, h2, -, h3⟩ := h.circle
  exact ⟨e, by simp [CellG.getEdges, h1, h2], h3⟩

theorem CellG.IsDisc.equal {K : CellG} {x0 y0 r : ℝ} {N : ℕ} (h : K.IsDisc x0 y0 r N) : K.EqualEdges N := by
  obtain ⟨e, h1, h2⟩ := h.getEdges
  refine ⟨by simp [h1], fun d hd => ?_⟩
  rw [h1, List.mem_singleton] at hd
  subst hd
  simp [h2]

theorem CellG.IsDisc.nodes {K : CellG} {x0 y0 r : ℝ} {N : ℕ} (h : K.IsDisc x0 y0 r N) : K.nodes = circleNodes ⟨x0, y0⟩ r N := by
  obtain ⟨e, h1, h2⟩ := h.getEdges
  unfold CellG.nodes circleNodes
  rw [h1, List.flatMap_singleton, h2, List.map_map]
  refine List.map_congr_left fun j _ => ?_
  have he : Complex.exp (2 * Real.pi * Complex.I * (j / N)) = ⟨Real.cos (2 * Real.pi * j / N), Real.sin (2 * Real.pi * j / N)⟩ := by
    rw [show 2 * Real.pi * Complex.I * (j / N) = ((2 * Real.pi * j / N : ℝ) : ℂ) * Complex.I by push_cast; ring, Complex.exp_mul_I]
    generalize 2 * Real.pi * j / N = θ
    apply Complex.ext <;> simp [Complex.cos_ofReal_re, Complex.sin_ofReal_re]
  have hw : (2 * Real.pi / N : ℂ) = ((2 * Real.pi / N : ℝ) : ℂ) := by push_cast; rfl
  rw [he, hw]
  simp only [Function.comp, circleSample, List.length_map, List.length_range]
  ext1
  · apply Complex.ext <;> simp
  · apply Complex.ext <;> simp <;> ring

/-- a point inside the disc -/
theorem CellG.IsDisc.off {K : CellG} {x0 y0 r : ℝ} {N : ℕ} (h : K.IsDisc x0 y0 r N) {y : ℝ × ℝ} (hy : (y.1 - x0) ^ 2 + (y.2 - y0) ^ 2 < r ^ 2) :
    K.Off y := by
  refine ⟨fun s hs e => ?_, ?_⟩
  · rw [h.cols] at hs
    obtain ⟨j, -, rfl⟩ := List.mem_map.1 hs
    rw [← e] at hy
    simp only [circleSample, add_sub_cancel_left] at hy
    have := Real.sin_sq_add_cos_sq (2 * Real.pi * j / N)
    nlinarith
  · obtain ⟨c, e, h1, -⟩ := h.circle
    simp [h1]

/-! ### polynomials with a given Laplacian -/

theorem lap_of_hasLaplacian {p q : Poly ℝ} (h : HasLaplacian Set.univ p.eval q.eval) : Lap (toMv p) = toMv q := by
  obtain ⟨u1, u2, hu⟩ := h
  have e : p.eval = fun x y => MvPolynomial.eval ![x, y] (toMv p) := by funext x y; exact eval_mv p x y
  have h1 : ∀ x y, u1 x y = MvPolynomial.eval ![x, y] (MvPolynomial.pderiv 0 (toMv p)) := fun x y =>
    ((hu x y trivial).1.1).unique (by rw [e]; exact mv_x _ x y)
  have h2 : ∀ x y, u2 x y = MvPolynomial.eval ![x, y] (MvPolynomial.pderiv 1 (toMv p)) := fun x y =>
    ((hu x y trivial).1.2).unique (by rw [e]; exact mv_y _ x y)
  refine MvPolynomial.funext fun v => ?_
  obtain ⟨x, y, rfl⟩ : ∃ x y, v = ![x, y] := ⟨v 0, v 1, by funext i; fin_cases i <;> rfl⟩
  obtain ⟨-, a, b, ha, hb, hab⟩ := hu x y trivial
  rw [← eval_mv, ← hab, Lap, map_add]
  congr 1
  · refine HasDerivAt.unique ?_ ha
    simp only [h1]
    exact mv_x _ x y
  · refine HasDerivAt.unique ?_ hb
    simp only [h2]
    exact mv_y _ x y

open Polynomial in
/-- two polynomials with the same Laplacian differ by a harmonic polynomial -/
theorem difference_harmonic {u p f : Poly ℝ} (hu : HasLaplacian Set.univ u.eval f.eval) (hp : HasLaplacian Set.univ p.eval f.eval) {d : ℕ}
    (hdu : DegLe d u) (hdp : DegLe d p) (x0 y0 : ℝ) : ∃ Q : ℂ[X], Q.natDegree ≤ d ∧ (Q.coeff 0).im = 0 ∧
      ∀ x y, u.eval x y - p.eval x y = rePoly Q x0 y0 x y := by
  have hL : Lap (toMv u - toMv p) = 0 := by
    have h1 := lap_of_hasLaplacian hu
    have h2 := lap_of_hasLaplacian hp
    simp only [Lap, map_sub] at h1 h2 ⊢
    linear_combination h1 - h2
  obtain ⟨R, hR, hRe⟩ := harmonic_re hL
  set z0 : ℂ := ⟨x0, y0⟩ with hz0
  set S := R.comp (X + C z0) with hS
  have hev : ∀ x y : ℝ, S.eval (⟨x - x0, y - y0⟩ : ℂ) = R.eval ⟨x, y⟩ := by
    intro x y
    rw [hS, eval_comp, eval_add, eval_X, eval_C]
    congr 1
    apply Complex.ext <;> simp [hz0]
  have hSd : S.natDegree ≤ d := by
    rw [hS, natDegree_comp, natDegree_X_add_C, mul_one]
    refine hR.trans ((MvPolynomial.totalDegree_sub _ _).trans (max_le (totalDegree_toMv hdu) (totalDegree_toMv hdp)))
  refine ⟨S - C (Complex.I * (S.coeff 0).im), natDegree_sub_C.le.trans hSd, by simp, fun x y => ?_⟩
  rw [rePoly, eval_sub, hev, eval_C, Complex.sub_re, ← hRe, map_sub, eval_mv, eval_mv]
  simp

/-! ### the stored conjugate -/

theorem harmInit_conj {gmres : Gmres} {t : Trace} {s : Solver} {K : CellG} (h : K.Ready) (hK : s.ops.K = K) {r : LocHarm} {v c a : List ℝ}
    (hr : LocHarm.init gmres t (some s) = .ok r) (hv : t.values = some v) (hc : conjugate gmres s v = .ok (c, a)) (hl : c.length = K.numPts) :
    r.conj = some (Trace.made K.getEdges (some c) none none) := by
  subst hK
  unfold LocHarm.init at hr
  obtain ⟨v', hv', hr⟩ := bind_ok hr
  obtain ⟨w, -, hr⟩ := bind_ok hr
  obtain ⟨t1, ht1, hr⟩ := bind_ok hr
  obtain ⟨⟨c', a'⟩, hc', hr⟩ := bind_ok hr
  obtain ⟨conj, hconj, hr⟩ := bind_ok hr
  obtain ⟨lam, -, hr⟩ := bind_ok hr
  obtain ⟨u, -, hr⟩ := bind_ok hr
  obtain ⟨psi, -, hr⟩ := bind_ok hr
  obtain ⟨w2, -, hr⟩ := bind_ok hr
  obtain ⟨w3, -, hr⟩ := bind_ok hr
  obtain ⟨t2, ht2, hr⟩ := bind_ok hr
  obtain ⟨⟨P, Pn⟩, -, hr⟩ := bind_ok hr
  obtain ⟨b, -, hr⟩ := bind_ok hr
  obtain ⟨b2, -, hr⟩ := bind_ok hr
  cases hr
  rw [hv] at hv'
  cases hv'
  rw [hc] at hc'
  cases hc'
  rw [init_arr h hl] at hconj
  cases hconj
  rfl

theorem norm_mk (a b : ℝ) : ‖(⟨a, b⟩ : ℂ)‖ = Real.sqrt (a ^ 2 + b ^ 2) := by
  rw [Complex.norm_def, Complex.normSq_mk]
  congr 1
  ring

open Polynomial in
/-- the parts of the object on the disc -/
theorem disc_parts {gmres : Gmres} (hx : Exact gmres) (hf : Finds gmres) {K : CellG} {x0 y0 r : ℝ} {n : ℕ} (h : K.IsDisc x0 y0 r (2 * n))
    (hc : Corners K) (hr : 1 / 10 ^ 14 ≤ r) (h4 : 4 ≤ n) (hn : n ≤ 2 * 10 ^ 7) {strategy pc : String} {s : Solver}
    (hs : init gmres K strategy pc = .ok s) {u f : Poly ℝ} {Q : ℂ[X]} (hQ : Q.natDegree + 1 < n) (hQ0 : (Q.coeff 0).im = 0)
    (hQu : ∀ x y, u.eval x y - (alP f).eval x y = rePoly Q x0 y0 x y) {tr : LocPoisson.TraceOr} (hv : tr.Gives K (K.samplesOf u.eval))
    (hin : ∀ y ∈ K.interior, (y.1 - x0) ^ 2 + (y.2 - y0) ^ 2 < r ^ 2) :
    ∃ k : LocHarm, k.Holds K Set.univ (rePoly Q x0 y0) ∧
      LocHarm.init gmres (Trace.made K.getEdges (some (K.samplesOf fun x y => u.eval x y - (alP f).eval x y)) none none) (some s) = .ok k ∧
      (∀ ei eg, LocPoisson.init gmres (some s) f tr ei eg = (if ei || eg then
        LocPoisson.computeInterior { cell := some K, poly := some (polyPart K (alP f)), harm := some k } eg
        else .ok { cell := some K, poly := some (polyPart K (alP f)), harm := some k })) ∧
      LocPoisson.Parts { cell := some K, poly := some (polyPart K (alP f)), harm := some k } K (alP f) (nz ((alP f).map Mono.dx))
        (nz ((alP f).map Mono.dy)) [] (K.samplesOf (rePoly Q x0 y0)) (K.samplesOf (imPoly Q x0 y0)) := by
  have hK := (build_shape h.ready (init_parts hs).1).1
  have e : List.zipWith (· - ·) (K.samplesOf u.eval) (K.samplesOf (alP f).eval) = K.samplesOf (rePoly Q x0 y0) := by
    simp only [CellG.samplesOf, List.zipWith_map_left, List.zipWith_map_right, List.zipWith_self, hQu]
  have e' : (fun x y => u.eval x y - (alP f).eval x y) = rePoly Q x0 y0 := by funext x y; exact hQu x y
  have hlen : ∀ g : ℝ → ℝ → ℝ, (K.samplesOf g).length = K.numPts := fun g => by simp [CellG.samplesOf, h.ready.numPts]
  obtain ⟨k, hk, -, hkh⟩ := C76_harmonic hx hf h hc hr h4 hn hs Q hQ
    (made_on h.ready (v := K.samplesOf (rePoly Q x0 y0)) (hlen _) (w := none) (d := none) nofun nofun) rfl
  have hcj := harmInit_conj h.ready hK hk rfl (disc_conj_poly hx hf h hc hr h4 hn hs Q (by omega) hQ0) (hlen _)
  refine ⟨k, hkh, by rw [e']; exact hk, fun ei eg => ?_, ?_⟩
  · rw [poissonInit_eq gmres h.ready hK f hv, e, hk, py_ok_bind]
  · obtain ⟨⟨ψ, ψ', a, -, ha, hal, hw, ⟨t, ht, htv⟩, -⟩, -, -⟩ := hkh
    have ha0 : a = [] := by
      rw [h.numHoles] at hal
      exact List.length_eq_zero_iff.1 hal
    subst ha0
    have hψ : ψ = rePoly Q x0 y0 := by
      funext x y
      rw [hw x y trivial]
      simp [withLogs]
    rw [hψ] at htv
    obtain ⟨c, e, h1, -⟩ := h.circle
    exact ⟨rfl, ⟨_, rfl, rfl, rfl, rfl⟩, ⟨k, t, _, rfl, ha, ht, htv, hcj, rfl⟩, hal, hlen _, hlen _, by simp [h1], fun y hy => h.off (hin y hy)⟩

open Polynomial in
/-- C77: solving the Poisson problem on a disc for a polynomial solution `u`.  If the anti-Laplacian of the right-hand side is exact (see C09),
there is a constant such that for every number `2n` of samples with `n` large enough for the degree, the object is made, has exactly the given
boundary values and, if interior values are requested, these differ from those of `u` at a point at distance `ρ r` from the centre by at most
this constant times `ρ^2n / (1 - ρ^2n)`, and the partial derivatives by at most the constant times
`ρ^2n / (1 - ρ^2n) + 2n ρ^(2n-1) / (1 - ρ^2n)²`. -/
theorem C77_poisson (x0 y0 : ℝ) {r : ℝ} (hr : 1 / 10 ^ 14 ≤ r) {u f p : Poly ℝ} (hcf : Canonical f) (hp : antiLaplacian f = .ok p)
    (hpf : HasLaplacian Set.univ p.eval f.eval) (huf : HasLaplacian Set.univ u.eval f.eval) {g1 g2 : ℝ → ℝ → ℝ}
    (hg : HasGradOn Set.univ u.eval g1 g2) {d : ℕ} (hd : ∀ m ∈ u, m.alpha.x + m.alpha.y ≤ d) :
    ∃ B : ℝ, ∀ (gmres : Gmres) (K : CellG) (n : ℕ) (strategy pc : String) (s : Solver) (tr : LocPoisson.TraceOr), Exact gmres → Finds gmres →
      K.IsDisc x0 y0 r (2 * n) → Corners K → 4 ≤ n → n ≤ 2 * 10 ^ 7 → d + 1 < n → init gmres K strategy pc = .ok s →
      tr.Gives K (K.samplesOf u.eval) → (∀ y ∈ K.interior, (y.1 - x0) ^ 2 + (y.2 - y0) ^ 2 < r ^ 2) → ∀ ei eg, ∃ F,
      LocPoisson.init gmres (some s) f tr ei eg = .ok F ∧ F.traceValues = .ok (K.samplesOf u.eval) ∧
      ((ei || eg) = true → ∃ U : ℝ × ℝ → ℝ, F.intVals = some (K.interior.map U) ∧ ∀ y ∈ K.interior,
        |U y - u.eval y.1 y.2| ≤ B * (discRatio x0 y0 r y ^ (2 * n) / (1 - discRatio x0 y0 r y ^ (2 * n)))) ∧
      (eg = true → ∃ V1 V2 : ℝ × ℝ → ℝ, F.intGrad1 = some (K.interior.map V1) ∧ F.intGrad2 = some (K.interior.map V2) ∧ ∀ y ∈ K.interior,
        ∀ e, e = B * (discRatio x0 y0 r y ^ (2 * n) / (1 - discRatio x0 y0 r y ^ (2 * n)) +
          2 * n * discRatio x0 y0 r y ^ (2 * n - 1) / (1 - discRatio x0 y0 r y ^ (2 * n)) ^ 2) →
        |V1 y - g1 y.1 y.2| ≤ e ∧ |V2 y - g2 y.1 y.2| ≤ e) := by
  rw [antiLaplacian_ok] at hp
  cases hp
  have hr0 : 0 < r := lt_of_lt_of_le (by norm_num) hr
  have hdu : DegLe d u := fun m hm => by
    have := hd m hm
    simp only [MultiIndex.order]
    omega
  have hdf := deg_of_lap hcf (totalDegree_toMv hdu) (lap_of_hasLaplacian huf).symm
  have hdp : DegLe d (alP f) := deg_mono (by omega) (deg_alP hdf)
  obtain ⟨Q, hQd, hQ0, hQu⟩ := difference_harmonic huf hpf hdu hdp x0 y0
  -- the polynomial in `z`
  set z0 : ℂ := ⟨x0, y0⟩ with hz0
  set R := Q.comp (X - C z0) with hR
  have hRe : ∀ x y : ℝ, R.eval (⟨x, y⟩ : ℂ) = Q.eval ⟨x - x0, y - y0⟩ := by
    intro x y
    rw [hR, eval_comp, eval_sub, eval_X, eval_C]
    congr 1
  have hRd : R.natDegree ≤ d := by
    rw [hR, natDegree_comp, natDegree_X_sub_C, mul_one]
    exact hQd
  -- the constant
  have hcomp : IsCompact (Metric.closedBall z0 r) := isCompact_closedBall z0 r
  obtain ⟨B1, hB1⟩ := hcomp.exists_bound_of_continuousOn (f := fun z => R.eval z) R.continuous.continuousOn
  obtain ⟨B2, hB2⟩ := hcomp.exists_bound_of_continuousOn (f := fun z => (derivative R).eval z) (derivative R).continuous.continuousOn
  have hz : z0 ∈ Metric.closedBall z0 r := Metric.mem_closedBall_self hr0.le
  have hB10 : 0 ≤ B1 := (norm_nonneg _).trans (hB1 z0 hz)
  have hB20 : 0 ≤ B2 := (norm_nonneg _).trans (hB2 z0 hz)
  refine ⟨B1 + B2 + B1 / r, ?_⟩
  intro gmres K n strategy pc s tr hx hf h hc h4 hn hdn hs hv hin ei eg
  obtain ⟨k, hkh, hk, hi, hparts⟩ := disc_parts hx hf h hc hr h4 hn hs (u := u) (f := f) (Q := Q) (by omega) hQ0 hQu hv hin
  have hci := computeInterior_ok h.ready h.equal hparts eg
  have hdist : ∀ y : ℝ × ℝ, ‖(⟨y.1, y.2⟩ : ℂ) - z0‖ = Real.sqrt ((y.1 - x0) ^ 2 + (y.2 - y0) ^ 2) := fun y => norm_mk _ _
  have hball : ∀ y ∈ K.interior, ‖(⟨y.1, y.2⟩ : ℂ) - z0‖ < r := fun y hy => by
    rw [hdist, Real.sqrt_lt' hr0]
    exact hin y hy
  have hrat : ∀ y : ℝ × ℝ, ‖(⟨y.1, y.2⟩ : ℂ) - z0‖ / r = discRatio x0 y0 r y := fun y => by rw [hdist]; rfl
  have hrat0 : ∀ y ∈ K.interior, 0 ≤ discRatio x0 y0 r y ∧ discRatio x0 y0 r y ^ (2 * n) < 1 := fun y hy => by
    rw [← hrat]
    exact ⟨by positivity, pow_lt_one₀ (by positivity) ((div_lt_one hr0).2 (hball y hy)) (by omega)⟩
  have hmem : ∀ y ∈ K.interior, (⟨y.1, y.2⟩ : ℂ) ∈ Metric.closedBall z0 r := fun y hy => by
    rw [Metric.mem_closedBall, dist_eq_norm]
    exact (hball y hy).le
  have hre : (fun x y => (R.eval (⟨x, y⟩ : ℂ)).re) = rePoly Q x0 y0 := by funext x y; rw [hRe]; rfl
  have him : (fun x y => (R.eval (⟨x, y⟩ : ℂ)).im) = imPoly Q x0 y0 := by funext x y; rw [hRe]; rfl
  have hF : ∃ F, LocPoisson.init gmres (some s) f tr ei eg = .ok F := by
    rw [hi]
    split_ifs
    · exact ⟨_, hci⟩
    · exact ⟨_, rfl⟩
  obtain ⟨F, hF⟩ := hF
  have hK := (build_shape h.ready (init_parts hs).1).1
  refine ⟨F, hF, ?_, fun hei => ?_, fun heg => ?_⟩
  · subst hK
    exact C75_trace h.ready hv hF
  · rw [hi, if_pos hei, hci] at hF
    cases hF
    refine ⟨_, rfl, fun y hy => ?_⟩
    obtain ⟨U, hU, hUe⟩ := C57_disc h.ready h.equal hr0 h.nodes (Q := R) (by omega) (f := _) (by rw [hre, him]; exact hparts)
    obtain ⟨s', hs', hs''⟩ := hU eg
    rw [hci] at hs'
    cases hs'
    have hUy := List.map_inj_left.1 (Option.some.inj hs'') y hy
    rw [hUy]
    have h5 := hUe y.1 y.2 (hball y hy)
    have hu1 : (alP f).eval y.1 y.2 + (R.eval (⟨y.1, y.2⟩ : ℂ)).re = u.eval y.1 y.2 := by
      have h1 := hQu y.1 y.2
      have h2 := congrFun (congrFun hre y.1) y.2
      rw [h2]
      linarith
    rw [hu1, hrat] at h5
    obtain ⟨k1, k2⟩ := hrat0 y hy
    refine h5.trans (mul_le_mul_of_nonneg_right ?_ (div_nonneg (pow_nonneg k1 _) (by linarith)))
    have := hB1 _ (hmem y hy)
    have : 0 ≤ B1 / r := by positivity
    linarith [hB1 _ (hmem y hy)]
  · have hei : (ei || eg) = true := by simp [heg]
    rw [hi, if_pos hei, hci] at hF
    cases hF
    subst heg
    refine ⟨_, _, rfl, rfl, fun y hy e he => ?_⟩
    have hval := nodes_values h.equal h.nodes R
    rw [hre, him] at hval
    obtain ⟨k1, k2⟩ := hrat0 y hy
    have herr := circle_two_error hr0 (N := 2 * n) (Q := R) (by omega) (hball y hy)
    rw [hrat] at herr
    have hle : ‖(derivative R).eval (⟨y.1, y.2⟩ : ℂ)‖ * (discRatio x0 y0 r y ^ (2 * n) / (1 - discRatio x0 y0 r y ^ (2 * n))) +
        ‖R.eval (⟨y.1, y.2⟩ : ℂ)‖ * ((2 * n : ℕ) * discRatio x0 y0 r y ^ (2 * n - 1) / r / (1 - discRatio x0 y0 r y ^ (2 * n)) ^ 2) ≤ e := by
      have c1 : 0 ≤ discRatio x0 y0 r y ^ (2 * n) / (1 - discRatio x0 y0 r y ^ (2 * n)) := div_nonneg (pow_nonneg k1 _) (by linarith)
      have c2 : 0 ≤ 2 * n * discRatio x0 y0 r y ^ (2 * n - 1) / (1 - discRatio x0 y0 r y ^ (2 * n)) ^ 2 := by positivity
      rw [he, mul_add]
      refine add_le_add (mul_le_mul_of_nonneg_right ?_ c1) ?_
      · have : 0 ≤ B1 / r := by positivity
        linarith [hB2 _ (hmem y hy)]
      · have e1 : ((2 * n : ℕ) : ℝ) * discRatio x0 y0 r y ^ (2 * n - 1) / r / (1 - discRatio x0 y0 r y ^ (2 * n)) ^ 2 =
            1 / r * (2 * n * discRatio x0 y0 r y ^ (2 * n - 1) / (1 - discRatio x0 y0 r y ^ (2 * n)) ^ 2) := by
          push_cast
          ring
        rw [e1, ← mul_assoc]
        refine mul_le_mul_of_nonneg_right ?_ c2
        have h6 : ‖R.eval (⟨y.1, y.2⟩ : ℂ)‖ * (1 / r) ≤ B1 / r := by
          rw [mul_one_div]
          exact div_le_div_of_nonneg_right (hB1 _ (hmem y hy)) hr0.le
        linarith
    have hgr : HasGrad u.eval y.1 y.2 ((nz ((alP f).map Mono.dx)).eval y.1 y.2 + ((derivative R).eval (⟨y.1, y.2⟩ : ℂ)).re)
        ((nz ((alP f).map Mono.dy)).eval y.1 y.2 + -((derivative R).eval (⟨y.1, y.2⟩ : ℂ)).im) := by
      have hc1 := hasDerivAt_dx (alP_canonical f).2 y.1 y.2
      have hc2 := hasDerivAt_dy (alP_canonical f).2 y.1 y.2
      have hc3 := re_grad (R.hasDerivAt (⟨y.1, y.2⟩ : ℂ))
      rw [hre] at hc3
      have hue : u.eval = fun a b => (alP f).eval a b + rePoly Q x0 y0 a b := by
        funext a b
        have := hQu a b
        linarith
      rw [hue]
      exact ⟨hc1.fun_add hc3.1, hc2.fun_add hc3.2⟩
    obtain ⟨q1, q2⟩ := HasGrad.unique (hg y.1 y.2 trivial) hgr
    simp only [if_true, logs1, logs2, List.zipWith_nil_left, List.sum_nil, add_zero]
    rw [hval, h.nodes, q1, q2]
    constructor
    · rw [add_sub_add_left_eq_sub, ← Complex.sub_re]
      exact (Complex.abs_re_le_norm _).trans (herr.trans hle)
    · rw [show ∀ a b c : ℝ, a - b - (a + -c) = -(b - c) by intros; ring, abs_neg, ← Complex.sub_im]
      exact (Complex.abs_im_le_norm _).trans (herr.trans hle)

/-- C77: under the same hypotheses the object holds exactly the data of `u`, boundary values and derivatives of both parts, conjugate and
anti-Laplacians, if the anti-Laplacian of the polynomial part is exact too. -/
theorem C77_holds {gmres : Gmres} (hx : Exact gmres) (hfd : Finds gmres) {K : CellG} {x0 y0 r : ℝ} {n : ℕ} (h : K.IsDisc x0 y0 r (2 * n))
    (hc : Corners K) (hr : 1 / 10 ^ 14 ≤ r) (h4 : 4 ≤ n) (hn : n ≤ 2 * 10 ^ 7) {strategy pc : String} {s : Solver}
    (hs : init gmres K strategy pc = .ok s) {u f p : Poly ℝ} (hcf : Canonical f) (hp : antiLaplacian f = .ok p)
    (hpf : HasLaplacian Set.univ p.eval f.eval) (huf : HasLaplacian Set.univ u.eval f.eval) (hd : ∀ m ∈ u, m.alpha.x + m.alpha.y + 1 < n)
    {δ : ℝ} (hl : OnLattice δ p) (hδ : ∀ m ∈ p, ∀ n, n = m.alpha.x + m.alpha.y →
      ((4 ^ (n / 2 + 1) * (n / 2 + 1).factorial * (n + 1).descFactorial (n / 2 + 1) : ℕ) : ℝ) * (1 / 10 ^ 12) ≤ δ)
    {tr : LocPoisson.TraceOr} (hv : tr.Gives K (K.samplesOf u.eval)) :
    (∃ F, LocPoisson.init gmres (some s) f tr false false = .ok F) ∧
    ∀ ei eg F, LocPoisson.init gmres (some s) f tr ei eg = .ok F → F.Holds K Set.univ u.eval ∧ F.traceValues = .ok (K.samplesOf u.eval) := by
  rw [antiLaplacian_ok] at hp
  cases hp
  have hdu : DegLe ((n - 2 : ℕ) : ℤ) u := fun m hm => by
    have := hd m hm
    simp only [MultiIndex.order]
    omega
  have hdf := deg_of_lap hcf (totalDegree_toMv hdu) (lap_of_hasLaplacian huf).symm
  have hdp : DegLe ((n - 2 : ℕ) : ℤ) (alP f) := deg_mono (by omega) (deg_alP hdf)
  obtain ⟨Q, hQd, hQ0, hQu⟩ := difference_harmonic huf hpf hdu hdp x0 y0
  have e' : (fun x y => u.eval x y - (alP f).eval x y) = rePoly Q x0 y0 := by funext x y; exact hQu x y
  have hK := (build_shape h.ready (init_parts hs).1).1
  obtain ⟨k, hk, -, hkh⟩ := C76_harmonic hx hfd h hc hr h4 hn hs Q (by omega)
    (made_on h.ready (v := K.samplesOf (rePoly Q x0 y0)) (by simp [CellG.samplesOf, h.ready.numPts]) (w := none) (d := none) nofun nofun) rfl
  exact C75_holds_partial h.ready hK δ hl hδ hv (r := k) (by rw [e']; exact hk) (by rw [e']; exact hkh)

/-! ### an example: `Δu = 2`, `u = x²`, on the unit disc with 32 samples and the interior point `(1/2, 0)` -/

/-- the unit disc with an interior point -/
noncomputable def sampledDiscIn (n : ℕ) : CellG := { sampledDisc n with interior := [(1 / 2, 0)] }

theorem sampledDiscIn_ok {n : ℕ} (hn : 0 < n) : (sampledDiscIn n).IsDisc 0 0 1 (2 * n) ∧ Corners (sampledDiscIn n) := by
  obtain ⟨⟨⟨h1, h2, h3⟩, h4⟩, h5, h6⟩ := sampledDisc_ok hn
  exact ⟨⟨⟨h1, h2, h3⟩, h4⟩, h5, h6⟩

noncomputable def xSquared : Poly ℝ := [⟨⟨2, 0⟩, 1⟩]

noncomputable def constTwo : Poly ℝ := [⟨⟨0, 0⟩, 2⟩]

example : ∃ p, antiLaplacian constTwo = .ok p ∧ ∃ (s : Solver) (F : LocPoisson) (U : ℝ × ℝ → ℝ) (B : ℝ),
    LocPoisson.init someGmres (some s) constTwo (.value (.arr ((sampledDiscIn 16).samplesOf fun x _ => x ^ 2))) true false = .ok F ∧
    F.intVals = some [U (1 / 2, 0)] ∧ |U (1 / 2, 0) - 1 / 4| ≤ B * ((1 / 2) ^ 32 / (1 - (1 / 2) ^ 32)) := by
  have hc2 : Canonical constTwo := canonical_singleton (by norm_num [tol, abs_of_pos])
  have hu : xSquared.eval = fun x _ => x ^ 2 := by
    funext x y
    simp [Poly.eval, Mono.eval_eq, xSquared]
  have hf2 : constTwo.eval = fun _ _ => 2 := by
    funext x y
    simp [Poly.eval, Mono.eval_eq, constTwo]
  have hpf : HasLaplacian Set.univ (alP constTwo).eval constTwo.eval :=
    antilap_laplacian _ hc2 2 (by intro m hm; simp [constTwo] at hm; subst hm; exact ⟨1, by norm_num⟩) (by
      intro m hm n hn
      simp [constTwo] at hm
      subst hm
      simp at hn
      subst hn
      norm_num [Nat.factorial, Nat.descFactorial])
  have hg : HasGradOn Set.univ xSquared.eval (fun x _ => 2 * x) fun _ _ => 0 := by
    rw [hu]
    intro x y _
    exact ⟨by simpa using hasDerivAt_pow 2 x, hasDerivAt_const y _⟩
  have huf : HasLaplacian Set.univ xSquared.eval constTwo.eval := by
    refine ⟨_, _, fun x y _ => ⟨hg x y trivial, 2, 0, ?_, hasDerivAt_const y _, by rw [hf2]; norm_num⟩⟩
    simpa using (hasDerivAt_id x).const_mul 2
  obtain ⟨hd, hc⟩ := sampledDiscIn_ok (n := 16) (by norm_num)
  obtain ⟨s, hs, -⟩ := C70_init someGmres hd.ready (hd.even rfl (by norm_num) (by norm_num)) hd.edges_ne hd.holes hd.apart (hd.simple one_pos)
  obtain ⟨B, hB⟩ := C77_poisson 0 0 (r := 1) (by norm_num) hc2 (antiLaplacian_ok _) hpf huf hg (d := 2) (by simp [xSquared])
  have hin : (sampledDiscIn 16).interior = [(1 / 2, 0)] := rfl
  obtain ⟨F, h1, -, h3, -⟩ := hB someGmres (sampledDiscIn 16) 16 _ _ s (.value (.arr ((sampledDiscIn 16).samplesOf fun x _ => x ^ 2)))
    someGmres_exact someGmres_finds hd hc (by norm_num) (by norm_num) (by norm_num) hs
    ⟨by rw [hu], by rw [hu]; simp [CellG.samplesOf, hd.ready.numPts]⟩ (by rw [hin]; norm_num) true false
  obtain ⟨U, hU, hUe⟩ := h3 rfl
  refine ⟨_, antiLaplacian_ok _, s, F, U, B, h1, by rw [hU, hin]; rfl, ?_⟩
  have := hUe (1 / 2, 0) (by rw [hin]; simp)
  rw [hu] at this
  have hrat : discRatio 0 0 1 (1 / 2, 0) = 1 / 2 := by
    simp only [discRatio]
    rw [show ((1 / 2 : ℝ) - 0) ^ 2 + (0 - 0) ^ 2 = (1 / 2) ^ 2 by ring, Real.sqrt_sq (by norm_num)]
    norm_num
  rw [hrat] at this
  dsimp only at this
  rwa [show ((1 : ℝ) / 2) ^ 2 = 1 / 4 by norm_num] at this

end PFEM
