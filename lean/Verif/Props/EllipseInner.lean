import Verif.Props.EllipseHarm
import Verif.Props.AreaInner

/-!
Property theorem C119: on an ellipse the inner products of local functions with polynomial data converge geometrically.
-/

namespace PFEM
open Nystrom Antilap Poly MeasureTheory

/-- polynomials are bounded on an ellipse, whatever the number of samples -/
theorem polyfn_small (x0 y0 a b : ℝ) {d : ℕ} {f : ℝ → ℝ → ℝ} (hf : PolyFn d f) :
    ∃ B : ℝ, 0 ≤ B ∧ ∀ K N, CellG.IsEllipse K x0 y0 a b N → Small B (K.samplesOf f) := by
  obtain ⟨B, hB⟩ := (isCompact_Icc.prod isCompact_Icc : IsCompact (Set.Icc (x0 - |a|) (x0 + |a|) ×ˢ Set.Icc (y0 - |b|) (y0 + |b|))).exists_bound_of_continuousOn
    hf.contDiff.continuous.continuousOn
  refine ⟨|B|, abs_nonneg _, fun K N h => ellipse_small h fun t => ?_⟩
  have h1 : |a * Real.cos t| ≤ |a| := by
    rw [abs_mul]
    have := Real.abs_cos_le_one t
    nlinarith [abs_nonneg a]
  have h2 : |b * Real.sin t| ≤ |b| := by
    rw [abs_mul]
    have := Real.abs_sin_le_one t
    nlinarith [abs_nonneg b]
  have h1 := abs_le.1 h1
  have h2 := abs_le.1 h2
  have := hB (x0 + a * Real.cos t, y0 + b * Real.sin t) ⟨⟨by linarith, by linarith⟩, ⟨by linarith, by linarith⟩⟩
  rw [Real.norm_eq_abs] at this
  exact this.trans (le_abs_self _)

open Polynomial in
/-- everything about the object that stands for `u`: its harmonic part `φ` with the anti-Laplacian `Φ`, its polynomial part -/
theorem ellipse_object {a b : ℝ} (ha : 0 < a) (hb : 0 < b) (x0 y0 : ℝ) {u f p P : Poly ℝ} (hu : PolyProblem u f p P) {d : ℕ} (hd : DegLe d u) :
    ∃ C : ℝ, 0 ≤ C ∧ ∀ (gmres : Gmres) (K : CellG) (n : ℕ) (strategy pc : String) (s : Solver) (tr : LocPoisson.TraceOr) (ei eg : Bool)
    (F : LocPoisson), Exact gmres → Finds gmres → K.IsEllipse x0 y0 a b (2 * n) →
    (2 * n : ℕ) / (4 * 10 ^ 6) ≤ min a b → 4 ≤ n → n ≤ 2 * 10 ^ 7 → 4 * flatness a b ^ (2 * n - 1) ≤ 1 - flatness a b →
    init gmres K strategy pc = .ok s → d + 1 < n → tr.Gives K (K.samplesOf u.eval) → LocPoisson.init gmres (some s) f tr ei eg = .ok F →
    ∃ w : Parts, w.p = p ∧ w.P = P ∧ w.Good ∅ 1 ∧ F.Approximates K (C * flatness a b ^ (2 * n - d)) w ∧
      (∀ x y, u.eval x y = w.φ x y + p.eval x y) ∧ PolyLap d w.φ w.φ1 w.φ2 (fun _ _ => 0) ∧ PolyLap (d + 2) w.Φ w.Φ1 w.Φ2 w.φ ∧
      Small C (K.samplesOf w.φ) ∧ Small C (K.normalOf w.φ1 w.φ2) ∧ Small C (K.samplesOf w.Φ) ∧ Small C (K.normalOf w.Φ1 w.Φ2) := by
  obtain ⟨e1, e2, hdp, -, -⟩ := hu.parts hd
  obtain ⟨Q, hQd, -, hQu⟩ := difference_harmonic hu.solution hu.antiExact hd hdp x0 y0
  obtain ⟨C, hC0, hC⟩ := ellipse_harm ha hb x0 y0 Q
  refine ⟨C, hC0, fun gmres K n strategy pc s tr ei eg F hx hfd h hab h4 hn hN hs hdn hv hF => ?_⟩
  have hK := (build_shape h.ready (init_parts hs).1).1
  obtain ⟨k, hk, c1, c2, c3⟩ := poissonInit_parts h.ready hK hv hF
  have e : List.zipWith (· - ·) (K.samplesOf u.eval) (K.samplesOf (alP f).eval) = K.samplesOf (rePoly Q x0 y0) := by
    rw [← e1]
    simp only [CellG.samplesOf, List.zipWith_map_left, List.zipWith_map_right, List.zipWith_self, hQu]
  rw [e] at hk
  obtain ⟨k', n', V, W, φ1, φ2, Φ, Φ1, Φ2, hk', l1, l2, har, w1, w2, w3, s1, s2, s3, s4⟩ := hC gmres K n strategy pc s _ hx hfd h hab h4 hn hN hs
    (by omega) (made_on h.ready (v := K.samplesOf (rePoly Q x0 y0)) (by simp [CellG.samplesOf, h.ready.numPts]) (w := none) (d := none) nofun nofun) rfl
  rw [hk] at hk'
  cases hk'
  have hf1 := flatness_lt ha hb
  have hf0 := flatness_nonneg ha hb
  have hε : C * flatness a b ^ (2 * n - Q.natDegree) ≤ C * flatness a b ^ (2 * n - d) := by
    refine mul_le_mul_of_nonneg_left (pow_le_pow_of_le_one hf0 hf1.le (by omega)) hC0
  have hε0 : 0 ≤ C * flatness a b ^ (2 * n - d) := by positivity
  refine ⟨⟨rePoly Q x0 y0, φ1, φ2, Φ, Φ1, Φ2, p, P⟩, rfl, rfl, ⟨?_, ?_, ?_, hu.anti2, hu.anti2Exact⟩, ⟨c1, ?_, ?_⟩, fun x y => ?_, ?_, ?_, s1, s2, s3, s4⟩
  · exact ⟨nofun, nofun, nofun, nofun, nofun⟩
  · exact ⟨nofun, nofun, nofun, nofun, nofun⟩
  · rw [e1]
    exact alP_canonical _
  · exact ⟨_, c2, by rw [e1]; exact polyPart_init h.ready _⟩
  · exact ⟨k, _, n', V, W, c3, har, within_refl hε0 _, w1.mono hε, w2.mono hε, w3.mono hε⟩
  · change u.eval x y = rePoly Q x0 y0 x y + p.eval x y
    rw [← hQu]
    ring
  · exact ⟨l1.fn.mono hQd, l1.fn1.mono hQd, l1.fn2.mono hQd, l1.grad, l1.lap⟩
  · exact ⟨l2.fn.mono (by omega), l2.fn1.mono (by omega), l2.fn2.mono (by omega), l2.grad, l2.lap⟩

/-- the sums of exact arrays are exact -/
theorem ellipse_sums {K : CellG} {x0 y0 a b : ℝ} {n : ℕ} (h : K.IsEllipse x0 y0 a b (2 * n)) (ha : 0 < a) (hb : 0 < b) {d : ℕ} (hdn : d + 1 < n)
    {u f v g : Poly ℝ} {w w' : Parts} (hu : PolyProblem u f w.p w.P) (hv : PolyProblem v g w'.p w'.P) (hdu : DegLe d u) (hdv : DegLe d v)
    (eu : ∀ x y, u.eval x y = w.φ x y + w.p.eval x y) (ev : ∀ x y, v.eval x y = w'.φ x y + w'.p.eval x y)
    (a5 : PolyLap d w.φ w.φ1 w.φ2 fun _ _ => 0) (b5 : PolyLap d w'.φ w'.φ1 w'.φ2 fun _ _ => 0)
    (a6 : PolyLap (d + 2) w.Φ w.Φ1 w.Φ2 w.φ) {s1 s0 : Poly ℝ} (hs : Products w w' s1 s0)
    {u1 u2 v1 v2 : ℝ → ℝ → ℝ} (gu : HasGradOn Set.univ u.eval u1 u2) (gv : HasGradOn Set.univ v.eval v1 v2) :
    h1Sum K (w.arrs K) (w'.arrs K) w w' s1 = (∫ z in ellipseRegion x0 y0 a b, (u1 z.1 z.2 * v1 z.1 z.2 + u2 z.1 z.2 * v2 z.1 z.2)) ∧
    l2Sum K (w.arrs K) (w'.arrs K) w w' s0 = ∫ z in ellipseRegion x0 y0 a b, u.eval z.1 z.2 * v.eval z.1 z.2 := by
  obtain ⟨-, -, dp, lp, lP⟩ := hu.parts hdu
  obtain ⟨-, -, dq, lq, lQ⟩ := hv.parts hdv
  have green : ∀ {d e : ℕ} {f f1 f2 l g g1 g2 m : ℝ → ℝ → ℝ}, PolyLap d f f1 f2 l → PolyLap e g g1 g2 m → d + e + 1 < 2 * n →
      pair K (K.normalOf f1 f2) (K.samplesOf g) =
        ∫ z in ellipseRegion x0 y0 a b, (g z.1 z.2 * l z.1 z.2 + (f1 z.1 z.2 * g1 z.1 z.2 + f2 z.1 z.2 * g2 z.1 z.2)) :=
    fun h1 h2 h3 => ellipse_green h ha hb h3 h1 h2
  have hdot : ∀ {d e : ℕ} {f f1 f2 l g g1 g2 m : ℝ → ℝ → ℝ}, PolyLap d f f1 f2 l → PolyLap e g g1 g2 m →
      PolyFn (d + e) fun x y => f1 x y * g1 x y + f2 x y * g2 x y := fun h1 h2 => (h1.fn1.mul h2.fn1).add' (h1.fn2.mul h2.fn2)
  have integ : ∀ {d : ℕ} {f : ℝ → ℝ → ℝ}, PolyFn d f → IntegrableOn (fun z : ℝ × ℝ => f z.1 z.2) (ellipseRegion x0 y0 a b) :=
    fun hf => ellipse_integrable x0 y0 ha hb hf
  -- the difference of two boundary integrals
  have second : ∀ {d e : ℕ} {f f1 f2 l g g1 g2 : ℝ → ℝ → ℝ} {dl : ℕ}, PolyLap d f f1 f2 l → PolyLap e g g1 g2 (fun _ _ => 0) → PolyFn dl l →
      d + e + 1 < 2 * n → pair K (K.normalOf f1 f2) (K.samplesOf g) - pair K (K.normalOf g1 g2) (K.samplesOf f) =
        ∫ z in ellipseRegion x0 y0 a b, g z.1 z.2 * l z.1 z.2 := by
    intro d e f f1 f2 l g g1 g2 dl hf hg hl hde
    have i1 := integ (hg.fn.mul hl)
    have i2 := integ (hdot hf hg)
    rw [green hf hg hde, green hg hf (by omega), integral_add i1 i2, add_sub_assoc, add_eq_left, sub_eq_zero]
    congr 1
    funext z
    ring
  -- products of polynomials
  have hint : ∀ w : Poly ℝ, DegLe ((d + d : ℕ) : ℤ) w → polySum w K = ∫ z in ellipseRegion x0 y0 a b, w.eval z.1 z.2 := by
    intro w hw
    have := C119_integral h ha hb (p := w) fun m hm => by
      have := hw m hm
      simp only [MultiIndex.order] at this
      omega
    rw [polySum_ok h.ready h.edges_ne] at this
    exact Except.ok.inj this
  have dm : ∀ {a b c : Poly ℝ}, a.mul b = .ok c → DegLe (d : ℤ) a → DegLe (d : ℤ) b → DegLe ((d + d : ℕ) : ℤ) c := by
    intro a b c e ha hb
    rw [Poly.mul_eq] at e
    cases e
    push_cast
    exact deg_mulP ha hb
  have dd : ∀ {w : Poly ℝ}, DegLe (d : ℤ) w → DegLe (d : ℤ) (nz (w.map Mono.dx)) ∧ DegLe (d : ℤ) (nz (w.map Mono.dy)) :=
    fun hw => ⟨deg_mono (by omega) (deg_dx hw), deg_mono (by omega) (deg_dy hw)⟩
  obtain ⟨m1, m2, f1, f2, hs1⟩ := hs.h1
  have dsum : DegLe ((d + d : ℕ) : ℤ) s1 := by
    rw [hs1, Poly.add_eq]
    exact deg_consolidate (deg_nz (deg_append (dm f1 (dd dp).1 (dd dq).1) (dm f2 (dd dp).2 (dd dq).2)))
  -- gradients
  have eu' : ∀ x y, u1 x y = w.φ1 x y + (nz (w.p.map Mono.dx)).eval x y ∧ u2 x y = w.φ2 x y + (nz (w.p.map Mono.dy)).eval x y := fun x y => by
    refine HasGrad.unique (gu x y trivial) ?_
    have e : u.eval = fun x y => w.φ x y + w.p.eval x y := by funext a b; exact eu a b
    rw [e]
    exact ⟨(a5.grad x y trivial).1.fun_add (lp.grad x y trivial).1, (a5.grad x y trivial).2.fun_add (lp.grad x y trivial).2⟩
  have ev' : ∀ x y, v1 x y = w'.φ1 x y + (nz (w'.p.map Mono.dx)).eval x y ∧ v2 x y = w'.φ2 x y + (nz (w'.p.map Mono.dy)).eval x y := fun x y => by
    refine HasGrad.unique (gv x y trivial) ?_
    have e : v.eval = fun x y => w'.φ x y + w'.p.eval x y := by funext a b; exact ev a b
    rw [e]
    exact ⟨(b5.grad x y trivial).1.fun_add (lq.grad x y trivial).1, (b5.grad x y trivial).2.fun_add (lq.grad x y trivial).2⟩
  have four : ∀ {d1 d2 d3 d4 : ℕ} {f1 f2 f3 f4 : ℝ → ℝ → ℝ}, PolyFn d1 f1 → PolyFn d2 f2 → PolyFn d3 f3 → PolyFn d4 f4 →
      (∫ z in ellipseRegion x0 y0 a b, f1 z.1 z.2) + (∫ z in ellipseRegion x0 y0 a b, f2 z.1 z.2) +
        ((∫ z in ellipseRegion x0 y0 a b, f3 z.1 z.2) + ∫ z in ellipseRegion x0 y0 a b, f4 z.1 z.2) =
      ∫ z in ellipseRegion x0 y0 a b, (f1 z.1 z.2 + f2 z.1 z.2 + (f3 z.1 z.2 + f4 z.1 z.2)) := by
    intro d1 d2 d3 d4 f1 f2 f3 f4 h1 h2 h3 h4
    rw [integral_add (integ (h1.add h2)) (integ (h3.add h4)), integral_add (integ h1) (integ h2), integral_add (integ h3) (integ h4)]
  constructor
  · simp only [h1Sum, Parts.arrs]
    rw [green a5 b5 (by omega), green a5 lq (by omega), green b5 lp (by omega), hint _ dsum]
    simp only [mul_zero, zero_add]
    rw [four (hdot a5 b5) (hdot a5 lq) (hdot b5 lp) (PolyFn.ofPoly dsum)]
    congr 1
    funext z
    rw [hs.e1, (eu' _ _).1, (eu' _ _).2, (ev' _ _).1, (ev' _ _).2]
    ring
  · simp only [l2Sum, Parts.arrs]
    rw [second a6 b5 a5.fn (by omega), second lQ a5 lq.fn (by omega), second lP b5 lp.fn (by omega), hint _ (dm hs.l2 dp dq)]
    rw [four (b5.fn.mul a5.fn) (a5.fn.mul lq.fn) (b5.fn.mul lp.fn) (PolyFn.ofPoly (dm hs.l2 dp dq))]
    congr 1
    funext z
    rw [hs.e0, eu, ev]
    ring

/-- sums of perturbed arrays -/
theorem pair_small {K : CellG} (hE : (K.components.flatMap ContourG.edges).length = 1) {C ε : ℝ} (hε : 0 ≤ ε) (hεC : ε ≤ C) {u u0 v v0 : List ℝ}
    (hu : Within ε u u0) (hv : Within ε v v0) (su : Small C u0) (sv : Small C v0) (lu : u0.length = K.cols.length) (lv : v0.length = K.cols.length) :
    |pair K u v - pair K u0 v0| ≤ 6 * Real.pi * C * ε := by
  have h1 := dot_perturb hε hu hv su sv (steps_nonneg K) (lu.trans lv.symm) (by rw [steps_length, lu])
  have h2 := steps_sum K
  rw [hE, Nat.cast_one, mul_one] at h2
  have hpi := Real.pi_pos
  have hC : 0 ≤ C := hε.trans hεC
  have h3 : ε * C + ε * C + ε * ε ≤ 3 * C * ε := by nlinarith
  have h4 : 0 ≤ 3 * C * ε := by positivity
  calc _ ≤ _ := h1
    _ ≤ 3 * C * ε * (2 * Real.pi) := mul_le_mul h3 h2 (List.sum_nonneg (steps_nonneg K)) h4
    _ = _ := by ring

/-- C119: on an ellipse with the half-axes `a`, `b` the inner products of local functions that stand for polynomials `u`, `v` of degree at most `d`
converge to the integrals of `∇u · ∇v` and of `u v` over the ellipse: with `N = 2n` samples the errors are at most `M r^(N-d)`, where
`r = |a-b| / (a+b)` and `M` depends on the ellipse and the polynomials, but not on the number of samples. -/
theorem C119_inner_products (x0 y0 : ℝ) {a b : ℝ} (ha : 0 < a) (hb : 0 < b) {u f p P v g q Q : Poly ℝ} (hu : PolyProblem u f p P)
    (hv : PolyProblem v g q Q) {d : ℕ} (hdu : ∀ m ∈ u, m.alpha.x + m.alpha.y ≤ d) (hdv : ∀ m ∈ v, m.alpha.x + m.alpha.y ≤ d)
    {δ ε : ℝ} (hp : OnLattice δ p) (hq : OnLattice ε q) (hδ : 1 / 10 ^ 12 ≤ δ * ε)
    {u1 u2 v1 v2 : ℝ → ℝ → ℝ} (gu : HasGradOn Set.univ u.eval u1 u2) (gv : HasGradOn Set.univ v.eval v1 v2) :
    ∃ M : ℝ, ∀ (gmres : Gmres) (K : CellG) (n : ℕ) (strategy pc : String) (s : Solver) (tr tr' : LocPoisson.TraceOr) (ei eg ei' eg' : Bool)
      (F G : LocPoisson), Exact gmres → Finds gmres → K.IsEllipse x0 y0 a b (2 * n) → (2 * n : ℕ) / (4 * 10 ^ 6) ≤ min a b → 4 ≤ n →
      n ≤ 2 * 10 ^ 7 → 4 * flatness a b ^ (2 * n - 1) ≤ 1 - flatness a b → d + 1 < n → init gmres K strategy pc = .ok s →
      tr.Gives K (K.samplesOf u.eval) → tr'.Gives K (K.samplesOf v.eval) → LocPoisson.init gmres (some s) f tr ei eg = .ok F →
      LocPoisson.init gmres (some s) g tr' ei' eg' = .ok G →
      ∃ I J, F.getH1 (.poisson G) = .ok I ∧ F.getL2 (.poisson G) = .ok J ∧
        |I - ∫ z in ellipseRegion x0 y0 a b, (u1 z.1 z.2 * v1 z.1 z.2 + u2 z.1 z.2 * v2 z.1 z.2)| ≤ M * flatness a b ^ (2 * n - d) ∧
        |J - ∫ z in ellipseRegion x0 y0 a b, u.eval z.1 z.2 * v.eval z.1 z.2| ≤ M * flatness a b ^ (2 * n - d) := by
  have hd : ∀ w : Poly ℝ, (∀ m ∈ w, m.alpha.x + m.alpha.y ≤ d) → DegLe (d : ℤ) w := fun w hw m hm => by
    have := hw m hm
    simp only [MultiIndex.order]
    omega
  obtain ⟨C1, c1, hC1⟩ := ellipse_object ha hb x0 y0 hu (hd u hdu)
  obtain ⟨C2, c2, hC2⟩ := ellipse_object ha hb x0 y0 hv (hd v hdv)
  obtain ⟨-, -, -, lp, lP⟩ := hu.parts (hd u hdu)
  obtain ⟨-, -, -, lq, lQ⟩ := hv.parts (hd v hdv)
  obtain ⟨B1, n1, hB1⟩ := polyfn_small x0 y0 a b lp.fn
  obtain ⟨B2, n2, hB2⟩ := polyfn_small x0 y0 a b lP.fn
  obtain ⟨B3, n3, hB3⟩ := polyfn_small x0 y0 a b lP.fn1
  obtain ⟨B4, n4, hB4⟩ := polyfn_small x0 y0 a b lP.fn2
  obtain ⟨D1, m1, hD1⟩ := polyfn_small x0 y0 a b lq.fn
  obtain ⟨D2, m2, hD2⟩ := polyfn_small x0 y0 a b lQ.fn
  obtain ⟨D3, m3, hD3⟩ := polyfn_small x0 y0 a b lQ.fn1
  obtain ⟨D4, m4, hD4⟩ := polyfn_small x0 y0 a b lQ.fn2
  have hm : 0 < max a b := lt_of_lt_of_le ha (le_max_left _ _)
  obtain ⟨C, hC, k1, k2, k3, k4, k5, k6, k7, k8⟩ : ∃ C, 0 ≤ C ∧ C1 ≤ C ∧ C2 ≤ C ∧ B1 ≤ C ∧ B2 ≤ C ∧ 2 * (B3 + B4) * max a b ≤ C ∧ D1 ≤ C ∧ D2 ≤ C ∧
      2 * (D3 + D4) * max a b ≤ C := by
    have x1 : 0 ≤ 2 * (B3 + B4) * max a b := by positivity
    have x2 : 0 ≤ 2 * (D3 + D4) * max a b := by positivity
    refine ⟨C1 + C2 + B1 + B2 + 2 * (B3 + B4) * max a b + D1 + D2 + 2 * (D3 + D4) * max a b, ?_, ?_, ?_, ?_, ?_, ?_, ?_, ?_, ?_⟩ <;> linarith
  refine ⟨36 * Real.pi * C * C, fun gmres K n strategy pc s tr tr' ei eg ei' eg' F G hx hfd h hab h4 hn hN hdn hs ht ht' hF hG => ?_⟩
  obtain ⟨w, rfl, rfl, gw, aF, eu, a5, a6, s1, s2, s3, s4⟩ := hC1 gmres K n strategy pc s tr ei eg F hx hfd h hab h4 hn hN hs hdn ht hF
  obtain ⟨w', rfl, rfl, gw', aG, ev, b5, -, t1, t2, t3, t4⟩ := hC2 gmres K n strategy pc s tr' ei' eg' G hx hfd h hab h4 hn hN hs hdn ht' hG
  obtain ⟨z1, z0, hs'⟩ := products_exist hp hq hδ
  obtain ⟨x1, x2⟩ := ellipse_sums h ha hb hdn hu hv (hd u hdu) (hd v hdv) eu ev a5 b5 a6 hs' gu gv
  have hf1 := flatness_lt ha hb
  have hf0 := flatness_nonneg ha hb
  set ρ := flatness a b ^ (2 * n - d) with hρ
  have hρ0 : 0 ≤ ρ := by positivity
  have hρ1 : ρ ≤ 1 := pow_le_one₀ hf0 hf1.le
  have aF' : F.Approximates K (C * ρ) w := by
    obtain ⟨y1, y2, k, v, n, V, N, y3, y4, y5, y6, y7, y8⟩ := aF
    have hle : C1 * ρ ≤ C * ρ := mul_le_mul_of_nonneg_right k1 hρ0
    exact ⟨y1, y2, k, v, n, V, N, y3, y4, y5.mono hle, y6.mono hle, y7.mono hle, y8.mono hle⟩
  have aG' : G.Approximates K (C * ρ) w' := by
    obtain ⟨y1, y2, k, v, n, V, N, y3, y4, y5, y6, y7, y8⟩ := aG
    have hle : C2 * ρ ≤ C * ρ := mul_le_mul_of_nonneg_right k2 hρ0
    exact ⟨y1, y2, k, v, n, V, N, y3, y4, y5.mono hle, y6.mono hle, y7.mono hle, y8.mono hle⟩
  obtain ⟨A, B, ⟨A1, A2, A3, A4⟩, ⟨E1, E2, E3, E4⟩, r1, r2⟩ := products_eq h.ready h.edges_ne gw gw' hs' aF' aG'
  have hε0 : 0 ≤ C * ρ := by positivity
  have hεC : C * ρ ≤ C := by nlinarith
  have hE : (K.components.flatMap ContourG.edges).length = 1 := h.oneEdge
  have hbd := h.bounded ha hb
  have hl : ∀ f, (K.samplesOf f).length = K.cols.length := fun f => by simp [CellG.samplesOf]
  have hl' : ∀ f g, (K.normalOf f g).length = K.cols.length := fun f g => by simp [CellG.normalOf]
  have near := fun {u u0 v v0 : List ℝ} (hu : Within (C * ρ) u u0) (hv : Within (C * ρ) v v0) (su : Small C u0) (sv : Small C v0)
    (lu : u0.length = K.cols.length) (lv : v0.length = K.cols.length) => abs_le.1 (pair_small hE hε0 hεC hu hv su sv lu lv)
  have r := within_refl hε0
  have sp := (hB1 K _ h).mono k3
  have sP := (hB2 K _ h).mono k4
  have sN := (normal_small hbd ((hB3 K _ h).mono (show B3 ≤ B3 + B4 by linarith)) ((hB4 K _ h).mono (show B4 ≤ B3 + B4 by linarith))).mono k5
  have sq := (hD1 K _ h).mono k6
  have sQ := (hD2 K _ h).mono k7
  have sM := (normal_small hbd ((hD3 K _ h).mono (show D3 ≤ D3 + D4 by linarith)) ((hD4 K _ h).mono (show D4 ≤ D3 + D4 by linarith))).mono k8
  refine ⟨_, _, r1, r2, ?_, ?_⟩
  · rw [← x1]
    have y1 := near A2 E1 (s2.mono k1) (t1.mono k2) (hl' _ _) (hl _)
    have y2 := near A2 (r _) (s2.mono k1) sq (hl' _ _) (hl _)
    have y3 := near E2 (r _) (t2.mono k2) sp (hl' _ _) (hl _)
    simp only [h1Sum, Parts.arrs] at y1 y2 y3 ⊢
    have : 0 ≤ 6 * Real.pi * C * (C * ρ) := by have := Real.pi_pos; positivity
    rw [abs_le]
    constructor <;> linarith
  · rw [← x2]
    have y1 := near A4 E1 (s4.mono k1) (t1.mono k2) (hl' _ _) (hl _)
    have y2 := near E2 A3 (t2.mono k2) (s3.mono k1) (hl' _ _) (hl _)
    have y3 := near (r _) A1 sM (s1.mono k1) (hl' _ _) (hl _)
    have y4 := near A2 (r _) (s2.mono k1) sQ (hl' _ _) (hl _)
    have y5 := near (r _) E1 sN (t1.mono k2) (hl' _ _) (hl _)
    have y6 := near E2 (r _) (t2.mono k2) sP (hl' _ _) (hl _)
    simp only [l2Sum, Parts.arrs] at y1 y2 y3 y4 y5 y6 ⊢
    rw [abs_le]
    constructor <;> linarith

/-! ### the hypotheses can be met -/

/-- the ellipse with half-axes 2 and 1 about `(2, 3)`, with 64 samples, and its solver -/
theorem someEllipse_solver : ∃ d inside K s, getQuadDict 32 2 = .ok d ∧ ellipseCell.parameterize inside 8 d = some (.ok K) ∧
    K.IsEllipse 2 3 2 1 (2 * 32) ∧ init someGmres K "direct" "jacobi" = .ok s := by
  classical
  obtain ⟨d, hd⟩ := (C21_dict 32 2).1.2 ⟨by norm_num, le_rfl⟩
  obtain ⟨K, hK⟩ := C106_parameterize hd (inside := fun _ q => decide (((q.1 - 2) / 2) ^ 2 + ((q.2 - 3) / 1) ^ 2 < 1)) (fuel := 8) le_rfl
    (K := ellipseCell) (c := { edges := [someEllipse], orients := [1] }) (e := someEllipse) (v := Vert.mk' 2 3) (a := 2) (b := 1)
    (by norm_num) (by norm_num) rfl rfl rfl rfl rfl rfl rfl rfl rfl (by
      intro poly q hq
      simp only [Vert.mk'] at hq
      simp only [decide_eq_true_eq]
      linarith)
  obtain ⟨h, -⟩ := C106_ellipse hd (a := 2) (b := 1) (e := someEllipse) (v := Vert.mk' 2 3) (by norm_num) (by norm_num) rfl rfl rfl rfl rfl rfl rfl
    rfl rfl hK
  have h : K.IsEllipse 2 3 2 1 (2 * 32) := h
  obtain ⟨s, hs, -⟩ := C70_init someGmres h.ready (h.even rfl (by norm_num) (by norm_num)) h.edges_ne h.holes h.apart
    (h.simple (by norm_num) (by norm_num))
  exact ⟨d, _, K, s, hd, hK, h, hs⟩

/-- C119, polynomials: the integral of `x²/2` over that ellipse -/
example : ∃ d inside K, getQuadDict 32 2 = .ok d ∧ ellipseCell.parameterize inside 8 d = some (.ok K) ∧
    integratePoly halfX2 K = .ok (∫ z in ellipseRegion 2 3 2 1, z.1 ^ 2 / 2) := by
  obtain ⟨d, inside, K, s, hd, hK, h, -⟩ := someEllipse_solver
  refine ⟨d, inside, K, hd, hK, ?_⟩
  rw [C119_integral h (by norm_num) (by norm_num) (by simp [halfX2]), halfX2_eval]

/-- C52, stability: the data of `x` and `y`, and data that differ from them by `1/1000` -/
example : ∃ d inside K s P W P' W', getQuadDict 32 2 = .ok d ∧ ellipseCell.parameterize inside 8 d = some (.ok K) ∧
    antilaplacian someGmres s (K.samplesOf fun x _ => x) (K.samplesOf fun _ y => y) [] = .ok (P, W) ∧
    antilaplacian someGmres s (K.samplesOf fun x _ => x + 1 / 1000) (K.samplesOf fun _ y => y - 1 / 1000) [] = .ok (P', W') ∧
    Within (1 / 50) P P' ∧ Within (9 / 500) W W' := by
  obtain ⟨d, inside, K, s, hd, hK, h, hs⟩ := someEllipse_solver
  have hK' := (build_shape h.ready (init_parts hs).1).1
  subst hK'
  have hlen : ∀ g : ℝ → ℝ → ℝ, (s.ops.K.samplesOf g).length = s.ops.K.numPts := fun g => by simp [CellG.samplesOf, h.ready.numPts]
  have hne : s.ops.K.numPts ≠ 0 := by rw [h.numPts]; norm_num
  obtain ⟨P, W, hP, -⟩ := antilap_total (gmres := someGmres) (a := []) h.ready hne h.numHoles (hlen fun x _ => x) (hlen fun _ y => y)
  obtain ⟨P', W', hP', -⟩ := antilap_total (gmres := someGmres) (a := []) h.ready hne h.numHoles (hlen fun x _ => x + 1 / 1000)
    (hlen fun _ y => y - 1 / 1000)
  have hw : ∀ f g : ℝ → ℝ → ℝ, (∀ x y, |f x y - g x y| ≤ 1 / 1000) → Within (1 / 1000) (s.ops.K.samplesOf f) (s.ops.K.samplesOf g) := by
    intro f g hfg
    unfold Within CellG.samplesOf
    rw [List.forall₂_map_left_iff, List.forall₂_map_right_iff, List.forall₂_same]
    exact fun z _ => hfg _ _
  obtain ⟨w1, w2⟩ := C52_stable h.ready h.numHoles (h.bounded (by norm_num) (by norm_num)) (hw _ _ fun x y => by norm_num) (hw _ _ fun x y => by norm_num)
    (hlen _) (hlen _) hP hP'
  rw [h.oneEdge] at w1 w2
  refine ⟨d, inside, s.ops.K, s, P, W, P', W', hd, hK, hP, hP', w1.mono ?_, w2.mono ?_⟩
  · norm_num
  · norm_num

/-- C119: `x²/2` and `y²/2` -/
example : ∃ d inside K s F G M I J, getQuadDict 32 2 = .ok d ∧ ellipseCell.parameterize inside 8 d = some (.ok K) ∧
    init someGmres K "direct" "jacobi" = .ok s ∧
    LocPoisson.init someGmres (some s) onePoly (.value (.arr (K.samplesOf fun x _ => x ^ 2 / 2))) false false = .ok F ∧
    LocPoisson.init someGmres (some s) onePoly (.value (.arr (K.samplesOf fun _ y => y ^ 2 / 2))) false false = .ok G ∧
    F.getH1 (.poisson G) = .ok I ∧ F.getL2 (.poisson G) = .ok J ∧ |I| ≤ M * (1 / 3) ^ 62 ∧
    |J - ∫ z in ellipseRegion 2 3 2 1, z.1 ^ 2 / 2 * (z.2 ^ 2 / 2)| ≤ M * (1 / 3) ^ 62 := by
  obtain ⟨d, inside, K, s, hd, hK, h, hs⟩ := someEllipse_solver
  have hfl : flatness 2 1 = 1 / 3 := by norm_num [flatness]
  have hx := one_problem (u := halfX2) ⟨_, _, fun x y _ => ⟨halfX2_grad x y trivial, 1, 0, hasDerivAt_id x, hasDerivAt_const y _, by simp [one_eval]⟩⟩
  have hy := one_problem (u := halfY2) ⟨_, _, fun x y _ => ⟨halfY2_grad x y trivial, 0, 1, hasDerivAt_const x _, hasDerivAt_id y, by simp [one_eval]⟩⟩
  have gx : (LocPoisson.TraceOr.value (.arr (K.samplesOf fun x _ => x ^ 2 / 2))).Gives K (K.samplesOf halfX2.eval) :=
    ⟨by rw [halfX2_eval], by rw [halfX2_eval]; simp [CellG.samplesOf, h.ready.numPts]⟩
  have gy : (LocPoisson.TraceOr.value (.arr (K.samplesOf fun _ y => y ^ 2 / 2))).Gives K (K.samplesOf halfY2.eval) :=
    ⟨by rw [halfY2_eval], by rw [halfY2_eval]; simp [CellG.samplesOf, h.ready.numPts]⟩
  have hK' := (build_shape h.ready (init_parts hs).1).1
  have made : ∀ {u : Poly ℝ} {tr : LocPoisson.TraceOr}, PolyProblem u onePoly (alP onePoly) (alP (alP onePoly)) → DegLe (2 : ℕ) u →
      tr.Gives K (K.samplesOf u.eval) → ∃ F, LocPoisson.init someGmres (some s) onePoly tr false false = .ok F := by
    intro u tr hu hdeg ht
    obtain ⟨e1, -, hdp, -, -⟩ := hu.parts hdeg
    obtain ⟨Q, hQd, -, hQu⟩ := difference_harmonic hu.solution hu.antiExact hdeg hdp 2 3
    have e : List.zipWith (· - ·) (K.samplesOf u.eval) (K.samplesOf (alP onePoly).eval) = K.samplesOf (rePoly Q 2 3) := by
      simp only [CellG.samplesOf, List.zipWith_map_left, List.zipWith_map_right, List.zipWith_self, hQu]
    obtain ⟨k, -, hk, -⟩ := C106_normal someGmres_exact someGmres_finds h (by norm_num) (by norm_num) (by norm_num) (by norm_num)
      (by norm_num) (by rw [hfl]; norm_num) hs Q (by omega)
      (made_on h.ready (v := K.samplesOf (rePoly Q 2 3)) (by simp [CellG.samplesOf, h.ready.numPts]) (w := none) (d := none) nofun nofun) rfl
    rw [poissonInit_eq someGmres h.ready hK' onePoly ht, e, hk]
    exact ⟨_, rfl⟩
  obtain ⟨F, hF⟩ := made hx (by simp [DegLe, halfX2, MultiIndex.order]) gx
  obtain ⟨G, hG⟩ := made hy (by simp [DegLe, halfY2, MultiIndex.order]) gy
  obtain ⟨M, hM⟩ := C119_inner_products 2 3 (a := 2) (b := 1) (by norm_num) (by norm_num) hx hy (d := 2) (by simp [halfX2]) (by simp [halfY2])
    one_lattice' one_lattice' (by norm_num) halfX2_grad halfY2_grad
  obtain ⟨I, J, h1, h2, h3, h4⟩ := hM someGmres K 32 _ _ s _ _ _ _ _ _ F G someGmres_exact someGmres_finds h (by norm_num) (by norm_num) (by norm_num)
    (by rw [hfl]; norm_num) (by norm_num) hs gx gy hF hG
  refine ⟨d, inside, K, s, F, G, M, I, J, hd, hK, hs, hF, hG, h1, h2, ?_, ?_⟩
  · simpa [hfl] using h3
  · rw [halfX2_eval, halfY2_eval, hfl] at h4
    exact h4

end PFEM
