import Verif.Props.RingInterior
import Verif.Props.EllipseInterior
import Verif.Props.RingNeumann

/-!
Property theorem C135: Poisson problems with polynomial solutions on rings.
-/

namespace PFEM
open Nystrom Antilap Polynomial

variable {x0 y0 a b : ℝ}

theorem ring_power (ha : 0 < a) (hab : a < b) {n d : ℕ} (hd : d ≤ 2 * n) : (a / b) ^ (2 * n - d) = (b / a) ^ d * (a / b) ^ (2 * n) := by
  have hb : 0 < b := ha.trans hab
  have h : (a / b) ^ (2 * n) = (a / b) ^ (2 * n - d) * (a / b) ^ d := by rw [← pow_add, Nat.sub_add_cancel hd]
  rw [h, mul_comm ((b / a) ^ d), mul_assoc, ← mul_pow, div_mul_div_cancel₀ hb.ne', div_self ha.ne', one_pow, mul_one]

/-- the errors of C133 for fixed data: a constant times the residual and powers -/
theorem ring_errors (ha : 0 < a) (hab : a < b) (Q R : ℂ[X]) (d : ℕ) {δ : ℝ} (hδ : 0 < δ) : ∃ M : ℝ, 0 ≤ M ∧ ∀ (n : ℕ) (σ τ : ℝ), 1 ≤ n → d < n → σ ≤ τ → 0 ≤ τ →
    ringValueErr a b δ n d σ Q R ≤ M * (τ + (a / b) ^ (2 * n) + (1 - δ / b) ^ (2 * n)) ∧
    ringGradErr a b δ n d σ Q R ≤ M * (τ + (a / b) ^ (2 * n) + n * (1 - δ / b) ^ (2 * n)) ∧
    (3 + 5 * ((a / b) ^ (2 * n - d) / (1 - a / b))) * ringSum Q R a b ≤ M := by
  have hb : 0 < b := ha.trans hab
  obtain ⟨q0, q1, -⟩ := ring_ratio ha hab
  have hq : 0 < 1 - a / b := by linarith
  have hC : 0 ≤ ringConst a b := by unfold ringConst; positivity
  have hden : 0 < 2 * Real.pi * Real.log (b / a) := mul_pos Real.two_pi_pos (Real.log_pos ((one_lt_div ha).2 hab))
  have hS := ringSum_nonneg (Q := Q) (R := R) ha hb
  have hS' := ringSum_nonneg (Q := derivative Q) (R := -(derivative R * X ^ 2)) ha hb
  have hΛ : 0 ≤ max |Real.log a| |Real.log b| := (abs_nonneg _).trans (le_max_left _ _)
  set Λ := max |Real.log a| |Real.log b| with hΛd
  set D := 2 * Real.pi * Real.log (b / a) with hD
  set S := ringSum Q R a b with hSd
  set S' := ringSum (derivative Q) (-(derivative R * X ^ 2)) a b with hSd'
  set C := ringConst a b with hCd
  obtain ⟨c1, hc1, hc10⟩ : ∃ c, c = C + Λ / D ∧ 0 ≤ c := ⟨_, rfl, by positivity⟩
  obtain ⟨c2, hc2, hc20⟩ : ∃ c, c = C * (5 * ((b / a) ^ d / (1 - a / b)) * S) ∧ 0 ≤ c := ⟨_, rfl, by positivity⟩
  obtain ⟨k1, hk1, hk10⟩ : ∃ c, c = 4 * (b / δ) * (c1 + c2 + S) + Λ / D ∧ 0 ≤ c := ⟨_, rfl, by positivity⟩
  obtain ⟨k2, hk2, hk20⟩ : ∃ c, c = 4 * (b / δ ^ 2) * (c1 + c2) + (2 * (b / δ) * S' + 8 * (1 / a) * (b / δ) ^ 2 * S) + 1 / D / a ∧ 0 ≤ c :=
    ⟨_, rfl, by positivity⟩
  obtain ⟨k3, hk3, hk30⟩ : ∃ c, c = (3 + 5 * (1 / (1 - a / b))) * S ∧ 0 ≤ c := ⟨_, rfl, by positivity⟩
  refine ⟨k1 + k2 + k3, by positivity, fun n σ τ hn hd hσ hτ => ?_⟩
  have hn1 : (1 : ℝ) ≤ n := by exact_mod_cast hn
  have hX : 0 ≤ (a / b) ^ (2 * n) := by positivity
  have hY : 0 ≤ (1 - δ / b) ^ (2 * n) := by rw [pow_mul]; positivity
  have hpw := ring_power ha hab (by omega : d ≤ 2 * n)
  have hp1 : (a / b) ^ (2 * n - d) ≤ 1 := pow_le_one₀ (by positivity) q1.le
  have hP : ringPairErr a b n d σ Q R ≤ c1 * τ + c2 * (a / b) ^ (2 * n) := by
    have e : ringPairErr a b n d σ Q R = c1 * σ + c2 * (a / b) ^ (2 * n) := by
      rw [ringPairErr, ringLogErr, hpw, hc1, hc2, ← hΛd, ← hD, ← hSd, ← hCd]
      ring
    rw [e]
    gcongr
  have hL : ringLogErr a b σ ≤ 1 / D * τ := by
    rw [ringLogErr, ← hD, div_mul_eq_mul_div, one_mul]
    gcongr
  refine ⟨?_, ?_, ?_⟩
  · have h1 : ringValueErr a b δ n d σ Q R ≤ 4 * (b / δ) * (c1 * τ + c2 * (a / b) ^ (2 * n) + S * (1 - δ / b) ^ (2 * n)) + 1 / D * τ * Λ := by
      unfold ringValueErr
      gcongr
    have h2 : 0 ≤ 4 * (b / δ) * (c1 * ((a / b) ^ (2 * n) + (1 - δ / b) ^ (2 * n)) + c2 * (τ + (1 - δ / b) ^ (2 * n)) + S * (τ + (a / b) ^ (2 * n))) +
        Λ / D * ((a / b) ^ (2 * n) + (1 - δ / b) ^ (2 * n)) := by positivity
    calc _ ≤ k1 * (τ + (a / b) ^ (2 * n) + (1 - δ / b) ^ (2 * n)) := by
          refine h1.trans (le_of_le_of_eq (le_add_of_nonneg_right h2) ?_)
          rw [hk1]
          ring
      _ ≤ _ := by gcongr; linarith
  · have h1 : ringGradErr a b δ n d σ Q R ≤ 4 * (b / δ ^ 2) * (c1 * τ + c2 * (a / b) ^ (2 * n)) +
        (2 * (b / δ) * S' * n + 8 * (n / a) * (b / δ) ^ 2 * S) * (1 - δ / b) ^ (2 * n) + 1 / D * τ / a := by
      have hn2 : 2 * (b / δ) * S' ≤ 2 * (b / δ) * S' * n := le_mul_of_one_le_right (by positivity) hn1
      refine add_le_add (add_le_add ?_ (mul_le_mul_of_nonneg_right (add_le_add hn2 le_rfl) hY)) ?_ <;> gcongr
    have h2 : 0 ≤ 4 * (b / δ ^ 2) * (c1 * ((a / b) ^ (2 * n) + n * (1 - δ / b) ^ (2 * n)) + c2 * (τ + n * (1 - δ / b) ^ (2 * n))) +
        (2 * (b / δ) * S' + 8 * (1 / a) * (b / δ) ^ 2 * S) * (τ + (a / b) ^ (2 * n)) + 1 / D / a * ((a / b) ^ (2 * n) + n * (1 - δ / b) ^ (2 * n)) := by
      positivity
    calc _ ≤ k2 * (τ + (a / b) ^ (2 * n) + n * (1 - δ / b) ^ (2 * n)) := by
          refine h1.trans (le_of_le_of_eq (le_add_of_nonneg_right h2) ?_)
          rw [hk2]
          ring
      _ ≤ _ := by gcongr; linarith
  · calc _ ≤ k3 := by rw [hk3]; gcongr
      _ ≤ _ := by linarith

/-- C135: solving the Poisson problem on a ring for a polynomial solution `u`.  If the anti-Laplacian of the right-hand side is exact (see C09), then for every
distance `δ` there is a constant `M` such that for every admissible number `2n` of samples on each circle the object is made and has exactly the given boundary
values.  If interior values are requested, these differ from those of `u` by at most `M (τ + (a/b)^2n + (1 - δ/b)^2n)` at all points at distance at least `δ` from
the two circles, and the partial derivatives by at most `M (τ + (a/b)^2n + n (1 - δ/b)^2n)`.  Here `τ` bounds the residuals of the linear solver for right-hand
sides with entries up to `M`. -/
theorem C135_interior (x0 y0 : ℝ) (ha : 1 / 10 ^ 14 ≤ a) (hab : a < b) {u f p : Poly ℝ} (hcf : Poly.Canonical f) (hp : f.antiLaplacian = .ok p)
    (hpf : HasLaplacian Set.univ p.eval f.eval) (huf : HasLaplacian Set.univ u.eval f.eval) {g1 g2 : ℝ → ℝ → ℝ}
    (hg : HasGradOn Set.univ u.eval g1 g2) {d : ℕ} (hd : ∀ m ∈ u, m.alpha.x + m.alpha.y ≤ d) {δ : ℝ} (hδ : 0 < δ) :
    ∃ M : ℝ, ∀ (gmres : Gmres) (tol : List ℝ → ℝ) (τ : ℝ) (K : CellG) (n : ℕ) (strategy pc : String) (s : Nystrom.Solver) (tr : LocPoisson.TraceOr),
      ResidualWithin gmres tol → Finds gmres → 0 ≤ τ → (∀ rhs, (∀ t ∈ rhs, |t| ≤ M) → tol rhs ≤ τ) →
      K.IsAnnulus x0 y0 a b (2 * n) → 4 ≤ n → n ≤ 2 * 10 ^ 7 → 4 * ringConst a b * (a / b) ^ (2 * n) ≤ 1 → d < n →
      init gmres K strategy pc = .ok s → tr.Gives K (K.samplesOf u.eval) → (∀ y ∈ K.interior, y ∈ ring x0 y0 a b) → ∀ ei eg, ∃ F,
      LocPoisson.init gmres (some s) f tr ei eg = .ok F ∧ F.traceValues = .ok (K.samplesOf u.eval) ∧
      ((ei || eg) = true → ∃ U : ℝ × ℝ → ℝ, F.intVals = some (K.interior.map U) ∧ ∀ y ∈ K.interior, a + δ ≤ radius x0 y0 y → radius x0 y0 y ≤ b - δ →
        |U y - u.eval y.1 y.2| ≤ M * (τ + (a / b) ^ (2 * n) + (1 - δ / b) ^ (2 * n))) ∧
      (eg = true → ∃ V1 V2 : ℝ × ℝ → ℝ, F.intGrad1 = some (K.interior.map V1) ∧ F.intGrad2 = some (K.interior.map V2) ∧ ∀ y ∈ K.interior,
        a + δ ≤ radius x0 y0 y → radius x0 y0 y ≤ b - δ →
          |V1 y - g1 y.1 y.2| ≤ M * (τ + (a / b) ^ (2 * n) + n * (1 - δ / b) ^ (2 * n)) ∧
          |V2 y - g2 y.1 y.2| ≤ M * (τ + (a / b) ^ (2 * n) + n * (1 - δ / b) ^ (2 * n))) := by
  have hp0 := hp
  rw [Poly.antiLaplacian_ok] at hp
  cases hp
  have ha0 : 0 < a := lt_of_lt_of_le (by positivity) ha
  have hdu : Poly.DegLe d u := fun m hm => by
    have := hd m hm
    simp only [MultiIndex.order]
    omega
  have hdf := Poly.deg_of_lap hcf (Poly.totalDegree_toMv hdu) (lap_of_hasLaplacian huf).symm
  have hdp : Poly.DegLe d (Poly.alP f) := Poly.deg_mono (by omega) (Poly.deg_alP hdf)
  obtain ⟨Q, hQd, -, hQu⟩ := difference_harmonic huf hpf hdu hdp x0 y0
  have hu : ∀ x y, (Poly.alP f).eval x y + ringData 0 Q 0 x0 y0 x y = u.eval x y := fun x y => by
    rw [ringData, laurent, eval_zero, add_zero, zero_mul, zero_add]
    have := hQu x y
    rw [rePoly] at this
    linarith
  obtain ⟨M, hM0, hM⟩ := ring_errors ha0 hab Q 0 d hδ
  refine ⟨M, fun gmres tol τ K n strategy pc s tr hg' hf hτ htol h h4 hn hs hdn hi hv hin ei eg => ?_⟩
  have hpg : HasGradOn Set.univ (Poly.alP f).eval (Poly.nz ((Poly.alP f).map Mono.dx)).eval (Poly.nz ((Poly.alP f).map Mono.dy)).eval := fun x y _ =>
    ⟨Poly.hasDerivAt_dx (Poly.alP_canonical f).2 x y, Poly.hasDerivAt_dy (Poly.alP_canonical f).2 x y⟩
  have hgr : RingGradient 0 Q 0 x0 y0 (fun x y => g1 x y - (Poly.nz ((Poly.alP f).map Mono.dx)).eval x y)
      (fun x y => g2 x y - (Poly.nz ((Poly.alP f).map Mono.dy)).eval x y) := fun x y _ => by
    have e : ringData 0 Q 0 x0 y0 = fun x y => u.eval x y - (Poly.alP f).eval x y := by
      funext x y
      rw [← hu x y]
      ring
    rw [e]
    exact ⟨(hg x y trivial).1.sub (hpg x y trivial).1, (hg x y trivial).2.sub (hpg x y trivial).2⟩
  have hv' : tr.Gives K (K.samplesOf fun x y => (Poly.alP f).eval x y + ringData 0 Q 0 x0 y0 x y) := by simpa only [hu] using hv
  obtain ⟨rhs, F, r1, r2, h1, h2, h3, h5⟩ := C133_interior hg' hf h ha hab h4 hn hs hi hdn hQd (by simp) hp0 hv' hin hpg hgr ei eg
  have hrhs : tol rhs ≤ τ := htol rhs fun t ht => by
    have := r2 t ht
    rw [abs_zero, mul_zero, zero_mul, add_zero] at this
    exact this.trans (hM n 0 0 (by omega) hdn le_rfl le_rfl).2.2
  obtain ⟨e1, e2, -⟩ := hM n _ τ (by omega) hdn hrhs hτ
  simp only [hu] at h2
  refine ⟨F, h1, h2, fun hei => ?_, fun heg => ?_⟩
  · obtain ⟨U, hU, hUe⟩ := h3 hei
    refine ⟨U, hU, fun y hy y1 y2 => ?_⟩
    have := hUe δ hδ y hy y1 y2
    rw [hu] at this
    exact this.trans e1
  · obtain ⟨V1, V2, hV1, hV2, hVe⟩ := h5 heg
    refine ⟨V1, V2, hV1, hV2, fun y hy y1 y2 => ?_⟩
    obtain ⟨k1, k2⟩ := hVe δ hδ y hy y1 y2
    rw [add_sub_cancel] at k1 k2
    exact ⟨k1.trans e2, k2.trans e2⟩

/-! ### the hypotheses can be met: `Δu = 1`, `u = x²/2`, on the ring between the circles of radius 1 and 2 about `(2, 3)` with 64 samples on each, at
`(7/2, 3)` -/

example : ∃ q inside K s F U V1 V2 M, getQuadDict 32 2 = .ok q ∧ ringOfCircles.parameterize inside 8 q = some (.ok K) ∧
    init someGmres { K with interior := [(7 / 2, 3)] } "direct" "jacobi" = .ok s ∧
    LocPoisson.init someGmres (some s) onePoly (.value (.arr (K.samplesOf fun x _ => x ^ 2 / 2))) true true = .ok F ∧
    F.intVals = some [U] ∧ F.intGrad1 = some [V1] ∧ F.intGrad2 = some [V2] ∧ |U - 49 / 8| ≤ M * ((1 / 2) ^ 64 + (3 / 4) ^ 64) ∧
    |V1 - 7 / 2| ≤ M * ((1 / 2) ^ 64 + 32 * (3 / 4) ^ 64) ∧ |V2| ≤ M * ((1 / 2) ^ 64 + 32 * (3 / 4) ^ 64) := by
  classical
  obtain ⟨q, hd⟩ := (C21_dict 32 2).1.2 ⟨by norm_num, le_rfl⟩
  obtain ⟨K, hK, h0⟩ := C114_annulus hd (inside := fun _ q => decide ((q.1 - 2) ^ 2 + (q.2 - 3) ^ 2 < 1)) (fuel := 8) (by norm_num)
    (K := ringOfCircles) (e := circleAt 2) (f := circleAt 1) (v := Vert.mk' 2 3) (a := 1) (b := 2) rfl rfl rfl rfl rfl rfl rfl rfl rfl
    (by norm_num) (by norm_num) rfl rfl rfl rfl rfl rfl (by intro poly; simp [Vert.mk'])
  set K1 : CellG := { K with interior := [(7 / 2, 3)] } with hK1
  have h : K1.IsAnnulus 2 3 1 2 (2 * 32) := ⟨⟨h0.ready.ready, h0.ready.numPts, h0.ready.startIdx⟩, h0.circles, h0.vertices⟩
  have hc : ringConst 1 2 = 241 / 3 := by norm_num [ringConst]
  obtain ⟨s, hs, -⟩ := C70_init someGmres h.ready (h.even rfl (by norm_num) (by norm_num)) h.edges_ne (h.holes one_pos two_pos)
    (h.apart one_pos (by norm_num)) (h.simple one_pos (by norm_num))
  have hres : ResidualWithin someGmres fun _ => 0 := by
    intro A b M x hx
    have := someGmres_exact A b M x hx
    exact ⟨b, this, List.forall₂_same.2 fun u _ => by simp⟩
  have hx := one_problem (u := halfX2) ⟨_, _, fun x y _ => ⟨halfX2_grad x y trivial, 1, 0, hasDerivAt_id x, hasDerivAt_const y _, by simp [one_eval]⟩⟩
  have gx : (LocPoisson.TraceOr.value (.arr (K1.samplesOf fun x _ => x ^ 2 / 2))).Gives K1 (K1.samplesOf halfX2.eval) :=
    ⟨by rw [halfX2_eval], by rw [halfX2_eval]; simp [CellG.samplesOf, h.ready.numPts]⟩
  have hin : ∀ y ∈ K1.interior, y ∈ ring 2 3 1 2 := by
    intro y hy
    simp only [hK1, List.mem_singleton] at hy
    subst hy
    constructor <;> norm_num
  obtain ⟨M, hM⟩ := C135_interior 2 3 (a := 1) (b := 2) (by norm_num) (by norm_num) hx.canonical hx.anti hx.antiExact hx.solution halfX2_grad (d := 2)
    (by simp [halfX2]) (δ := 1 / 2) (by norm_num)
  obtain ⟨F, h1, -, h2, h3⟩ := hM someGmres _ 0 K1 32 _ _ s _ hres someGmres_finds le_rfl (fun _ _ => le_rfl) h (by norm_num) (by norm_num)
    (by rw [hc]; norm_num) (by norm_num) hs gx hin true true
  obtain ⟨U, hU, hUe⟩ := h2 rfl
  obtain ⟨V1, V2, hV1, hV2, hVe⟩ := h3 rfl
  have hr : radius 2 3 (7 / 2, 3) = 3 / 2 := by
    rw [radius, show ((7 / 2 : ℝ) - 2) ^ 2 + ((3 : ℝ) - 3) ^ 2 = (3 / 2) ^ 2 by norm_num, Real.sqrt_sq (by norm_num)]
  have e1 := hUe (7 / 2, 3) (by simp [hK1]) (by rw [hr]; norm_num) (by rw [hr]; norm_num)
  obtain ⟨e2, e3⟩ := hVe (7 / 2, 3) (by simp [hK1]) (by rw [hr]; norm_num) (by rw [hr]; norm_num)
  have r1 : (1 : ℝ) - 1 / 2 / 2 = 3 / 4 := by norm_num
  have n1 : ((32 : ℕ) : ℝ) = 32 := by norm_num
  rw [r1, zero_add] at e1 e2 e3
  rw [n1] at e2 e3
  rw [halfX2_eval] at e1
  refine ⟨q, _, K, s, F, U (7 / 2, 3), V1 (7 / 2, 3), V2 (7 / 2, 3), M, hd, hK, hs, h1, hU, hV1, hV2, ?_, e2, by simpa only [sub_zero] using e3⟩
  convert e1 using 3
  norm_num

end PFEM
