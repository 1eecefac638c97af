import Verif.Props.EllipseCauchy
import Verif.Props.InteriorConv

/-!
Property theorem C120: inside an ellipse the values and gradients of local functions with polynomial solutions converge geometrically.
-/

namespace PFEM
open Nystrom Antilap Poly

theorem ellipseInner_in {x0 y0 a b δ : ℝ} {y : ℝ × ℝ} (h : y ∈ ellipseInner x0 y0 a b δ) : EllIn a b δ ⟨y.1 - x0, y.2 - y0⟩ := by
  refine ⟨h.1, fun t => ?_⟩
  rw [show (⟨y.1 - x0, y.2 - y0⟩ : ℂ) - ⟨a * Real.cos t, b * Real.sin t⟩ =
    ⟨y.1 - (x0 + a * Real.cos t), y.2 - (y0 + b * Real.sin t)⟩ by apply Complex.ext <;> simp <;> ring, norm_mk]
  exact Real.le_sqrt_of_sq_le (h.2 t)

theorem region_norm {a b : ℝ} (ha : 0 < a) (hb : 0 < b) {η : ℂ} (h : (η.re / a) ^ 2 + (η.im / b) ^ 2 < 1) : ‖η‖ ≤ max a b := by
  have hm : 0 < max a b := lt_of_lt_of_le ha (le_max_left _ _)
  have h1 : η.re ^ 2 ≤ (η.re / a) ^ 2 * max a b ^ 2 := by
    have e : η.re ^ 2 = (η.re / a) ^ 2 * a ^ 2 := by field_simp
    rw [e]
    exact mul_le_mul_of_nonneg_left (pow_le_pow_left₀ ha.le (le_max_left _ _) 2) (sq_nonneg _)
  have h2 : η.im ^ 2 ≤ (η.im / b) ^ 2 * max a b ^ 2 := by
    have e : η.im ^ 2 = (η.im / b) ^ 2 * b ^ 2 := by field_simp
    rw [e]
    exact mul_le_mul_of_nonneg_left (pow_le_pow_left₀ hb.le (le_max_right _ _) 2) (sq_nonneg _)
  rw [Complex.norm_def, Real.sqrt_le_left hm.le, Complex.normSq_apply]
  nlinarith [mul_nonneg (sub_nonneg.2 h.le) (sq_nonneg (max a b))]

/-- a point inside the ellipse is off the samples -/
theorem CellG.IsEllipse.off {K : CellG} {x0 y0 a b : ℝ} {N : ℕ} (h : K.IsEllipse x0 y0 a b N) (ha : 0 < a) (hb : 0 < b) {y : ℝ × ℝ}
    (hy : y ∈ ellipseRegion x0 y0 a b) : K.Off y := by
  refine ⟨fun s hs e => ?_, ?_⟩
  · rw [h.cols] at hs
    obtain ⟨j, -, rfl⟩ := List.mem_map.1 hs
    rw [← e] at hy
    have hy : ((x0 + a * Real.cos (2 * Real.pi * j / N) - x0) / a) ^ 2 + ((y0 + b * Real.sin (2 * Real.pi * j / N) - y0) / b) ^ 2 < 1 := hy
    rw [add_sub_cancel_left, add_sub_cancel_left, mul_div_cancel_left₀ _ ha.ne', mul_div_cancel_left₀ _ hb.ne'] at hy
    have := Real.sin_sq_add_cos_sq (2 * Real.pi * j / N)
    linarith
  · obtain ⟨c, e, h1, -⟩ := h.ellipse
    simp [h1]

open Polynomial in
theorem ellipse_cauchySum {K : CellG} {x0 y0 a b : ℝ} {N : ℕ} (h : K.IsEllipse x0 y0 a b N) (ha : 0 < a) (hb : 0 < b) (Q : ℂ[X]) (m : ℕ) (y : ℝ × ℝ) :
    cauchySum K.nodes (List.zipWith Complex.mk (K.samplesOf (rePoly Q x0 y0)) (K.samplesOf (imPoly Q x0 y0))) m ⟨y.1, y.2⟩ =
      ellSum a b N Q m ⟨y.1 - x0, y.2 - y0⟩ := by
  have e : List.zipWith Complex.mk (K.samplesOf (rePoly Q x0 y0)) (K.samplesOf (imPoly Q x0 y0)) = (List.range N).map fun j => Q.eval (ellPt a b N j) := by
    rw [CellG.samplesOf, CellG.samplesOf, List.zipWith_map, List.zipWith_self, h.cols, List.map_map]
    refine List.map_congr_left fun j _ => ?_
    simp only [Function.comp, rePoly, imPoly, ellipseSample, add_sub_cancel_left, ellPt]
  rw [e, h.nodes ha hb, ellSum, cauchySum, cauchySum, List.zipWith_map, List.zipWith_map]
  congr 3
  funext j k
  rw [show (⟨x0, y0⟩ : ℂ) + ellPt a b N j - ⟨y.1, y.2⟩ = ellPt a b N j - ⟨y.1 - x0, y.2 - y0⟩ by apply Complex.ext <;> simp <;> ring]

theorem ellInc_norm {a b : ℝ} (ha : 0 < a) (hb : 0 < b) (N j : ℕ) : ‖ellInc a b N j‖ ≤ 2 * Real.pi / N * max a b := by
  have h1 := ellipse_norm hb ha (2 * Real.pi * j / N)
  have hpi := Real.pi_pos
  rw [max_comm, norm_mk] at h1
  rw [ellInc, norm_mk]
  have e : (2 * Real.pi / N * (-a * Real.sin (2 * Real.pi * j / N))) ^ 2 + (2 * Real.pi / N * (b * Real.cos (2 * Real.pi * j / N))) ^ 2 =
      (2 * Real.pi / N) ^ 2 * ((b * Real.cos (2 * Real.pi * j / N)) ^ 2 + (a * Real.sin (2 * Real.pi * j / N)) ^ 2) := by ring
  rw [e, Real.sqrt_mul (by positivity), Real.sqrt_sq (by positivity)]
  exact mul_le_mul_of_nonneg_left h1 (by positivity)

open Polynomial in
/-- the errors of the sums with a conjugate that is within `ε` of the exact one -/
theorem ellipse_sum_error {K : CellG} {x0 y0 a b δ : ℝ} {N : ℕ} (h : K.IsEllipse x0 y0 a b N) (ha : 0 < a) (hb : 0 < b) (hδ : 0 < δ) {Q : ℂ[X]}
    (hQ : Q.natDegree < N) (hN : 1 < N) {B D ε : ℝ} (hB : ∀ z : ℂ, ‖z‖ ≤ max a b → ‖Q.eval z‖ ≤ B)
    (hD : ∀ z : ℂ, ‖z‖ ≤ max a b → ‖(derivative Q).eval z‖ ≤ D) (hε : 0 ≤ ε) {v : List ℝ} (hv : Within ε v (K.samplesOf (imPoly Q x0 y0))) {y : ℝ × ℝ}
    (hy : y ∈ ellipseInner x0 y0 a b δ) :
    ‖cauchySum K.nodes (List.zipWith Complex.mk (K.samplesOf (rePoly Q x0 y0)) v) 1 ⟨y.1, y.2⟩ - Q.eval ⟨y.1 - x0, y.2 - y0⟩‖ ≤
      2 * ε * max a b / δ + B * (2 / (1 - ellipseRate a b δ)) * ellipseRate a b δ ^ N ∧
    ‖cauchySum K.nodes (List.zipWith Complex.mk (K.samplesOf (rePoly Q x0 y0)) v) 2 ⟨y.1, y.2⟩ - (derivative Q).eval ⟨y.1 - x0, y.2 - y0⟩‖ ≤
      2 * ε * max a b / δ ^ 2 + (D * (2 / (1 - ellipseRate a b δ)) * ellipseRate a b δ ^ N +
        B * (4 / (δ * (1 - ellipseRate a b (δ / 2)))) * ellipseRate a b (δ / 2) ^ N) := by
  have hm : 0 < max a b := lt_of_lt_of_le ha (le_max_left _ _)
  have hNr : (0 : ℝ) < N := by exact_mod_cast (by omega : 0 < N)
  have hpi := Real.pi_pos
  have hin := ellipseInner_in hy
  set η : ℂ := ⟨y.1 - x0, y.2 - y0⟩ with hη
  have hnη : ‖η‖ ≤ max a b := region_norm ha hb hin.1
  have hr : Within ε (K.samplesOf (rePoly Q x0 y0)) (K.samplesOf (rePoly Q x0 y0)) := within_refl hε _
  have hpert : ∀ m : ℕ, ‖cauchySum K.nodes (List.zipWith Complex.mk (K.samplesOf (rePoly Q x0 y0)) v) m ⟨y.1, y.2⟩ - ellSum a b N Q m η‖ ≤
      2 * ε * max a b / δ ^ m := by
    intro m
    have := cauchy_perturb (nodes := K.nodes) (ζ := ⟨y.1, y.2⟩) (m := m) (B := 2 * Real.pi / N * max a b / δ ^ m) (ε := ε) (by
      intro p hp
      rw [h.nodes ha hb] at hp
      obtain ⟨j, -, rfl⟩ := List.mem_map.1 hp
      dsimp only
      rw [show (⟨x0, y0⟩ : ℂ) + ellPt a b N j - ⟨y.1, y.2⟩ = -(η - ellPt a b N j) by apply Complex.ext <;> simp [hη] <;> ring, norm_neg]
      exact div_le_div₀ (by positivity) (ellInc_norm ha hb N j) (by positivity) (pow_le_pow_left₀ hδ.le (hin.2 _) m)) (by positivity) hε
      (within_mk hr hv)
    rw [ellipse_cauchySum h ha hb, ← hη] at this
    refine this.trans (le_of_eq ?_)
    rw [h.nodes ha hb, List.length_map, List.length_range]
    field_simp
  obtain ⟨r0, r1, -⟩ := hin.rate ha hb hδ
  have hu := ellSum_unit ha hb hδ (N := N) (by omega) hin
  have hu2 := ellSum_two_unit ha hb hδ (N := N) (by omega) hin
  have n1 := hB η hnη
  have n2 := hD η hnη
  have hB0 : 0 ≤ B := (norm_nonneg _).trans n1
  have hD0 : 0 ≤ D := (norm_nonneg _).trans n2
  constructor
  · refine (norm_sub_le_norm_sub_add_norm_sub _ (ellSum a b N Q 1 η) _).trans (add_le_add (by simpa using hpert 1) ?_)
    rw [ellSum_one ha hb hδ hQ hN hin, show Q.eval η * ellSum a b N 1 1 η - Q.eval η = Q.eval η * (ellSum a b N 1 1 η - 1) by ring, norm_mul,
      mul_assoc B]
    exact mul_le_mul n1 hu (norm_nonneg _) hB0
  · refine (norm_sub_le_norm_sub_add_norm_sub _ (ellSum a b N Q 2 η) _).trans (add_le_add (hpert 2) ?_)
    rw [ellSum_two ha hb hδ hQ hN hin, show (derivative Q).eval η * ellSum a b N 1 1 η + Q.eval η * ellSum a b N 1 2 η - (derivative Q).eval η =
      (derivative Q).eval η * (ellSum a b N 1 1 η - 1) + Q.eval η * ellSum a b N 1 2 η by ring, mul_assoc B, mul_assoc D]
    refine (norm_add_le _ _).trans (add_le_add ?_ ?_)
    · rw [norm_mul]
      exact mul_le_mul n2 hu (norm_nonneg _) hD0
    · rw [norm_mul]
      exact mul_le_mul n1 hu2 (norm_nonneg _) hB0

open Polynomial in
/-- the parts of the object on the ellipse -/
theorem ellipse_parts {gmres : Gmres} {K : CellG} {x0 y0 a b : ℝ} {n : ℕ} (h : K.IsEllipse x0 y0 a b (2 * n))
    (ha : 0 < a) (hb : 0 < b) (h4 : 4 ≤ n) {strategy pc : String} {s : Solver} (hs : init gmres K strategy pc = .ok s)
    {u f : Poly ℝ} {Q : ℂ[X]} (hQu : ∀ x y, u.eval x y - (alP f).eval x y = rePoly Q x0 y0 x y)
    {tr : LocPoisson.TraceOr} (hv : tr.Gives K (K.samplesOf u.eval)) (hin : ∀ y ∈ K.interior, y ∈ ellipseRegion x0 y0 a b) {v : List ℝ}
    (hc : conjugate gmres s (K.samplesOf (rePoly Q x0 y0)) = .ok (v, [])) (hvl : v.length = K.numPts) :
    ∃ k : LocHarm, (∀ ei eg, LocPoisson.init gmres (some s) f tr ei eg = (if ei || eg then
        LocPoisson.computeInterior { cell := some K, poly := some (polyPart K (alP f)), harm := some k } eg
        else .ok { cell := some K, poly := some (polyPart K (alP f)), harm := some k })) ∧
      LocPoisson.Parts { cell := some K, poly := some (polyPart K (alP f)), harm := some k } K (alP f) (nz ((alP f).map Mono.dx))
        (nz ((alP f).map Mono.dy)) [] (K.samplesOf (rePoly Q x0 y0)) v := by
  have hK := (build_shape h.ready (init_parts hs).1).1
  have e : List.zipWith (· - ·) (K.samplesOf u.eval) (K.samplesOf (alP f).eval) = K.samplesOf (rePoly Q x0 y0) := by
    simp only [CellG.samplesOf, List.zipWith_map_left, List.zipWith_map_right, List.zipWith_self, hQu]
  have hlen : ∀ g : ℝ → ℝ → ℝ, (K.samplesOf g).length = K.numPts := fun g => by simp [CellG.samplesOf, h.ready.numPts]
  have hto := made_on h.ready (v := K.samplesOf (rePoly Q x0 y0)) (hlen _) (w := none) (d := none) nofun nofun
  obtain ⟨ct, ed, hcs, -⟩ := h.ellipse
  subst hK
  have hz : List.zipWith (fun x (q : Sample) => x - withLogs s.ops.K [] (fun _ _ => 0) q.x q.y) (s.ops.K.samplesOf (rePoly Q x0 y0)) s.ops.K.cols =
      s.ops.K.samplesOf (rePoly Q x0 y0) := by
    simp [CellG.samplesOf, List.zipWith_map_left, List.zipWith_self, withLogs]
  have hne : s.ops.K.numPts ≠ 0 := by rw [h.numPts]; omega
  obtain ⟨P, W, hP, hPl, hWl⟩ := antilap_total (gmres := gmres) (a := []) h.ready hne h.numHoles (hlen (rePoly Q x0 y0)) hvl
  obtain ⟨k, _, _, hk, -, -, -, hBt⟩ := C74_data h.ready h.edges_ne ⟨rfl, fun h0 => absurd h.numHoles h0⟩ hto rfl hc hvl
    (by rw [h.numHoles]; rfl) (by rw [hz]; exact hP) hPl hWl
  obtain ⟨t, ht, htv⟩ := hBt.psi
  obtain ⟨t', ht', htv'⟩ := hBt.conj
  rw [hz] at htv
  refine ⟨k, fun ei eg => ?_, rfl, ⟨_, rfl, rfl, rfl, rfl⟩, ⟨k, t, t', rfl, hBt.logCoef, ht, htv, ht', htv'⟩, by rw [h.numHoles]; rfl, hlen _, hvl,
    by simp [hcs], fun y hy => h.off ha hb (hin y hy)⟩
  rw [poissonInit_eq gmres h.ready rfl f hv, e, hk, py_ok_bind]

open Polynomial in
/-- C120: solving the Poisson problem on an ellipse for a polynomial solution `u`.  If the anti-Laplacian of the right-hand side is exact (see
C09), then for every distance `δ` there is a constant such that for every admissible number `2n` of samples the object is made, has exactly the
given boundary values and, if interior values are requested, these differ from those of `u` by at most this constant times
`(1 - δ/(a+b))^2n` at all points at distance at least `δ` from the ellipse, and the partial derivatives by at most the constant times
`(1 - δ/(2(a+b)))^2n`. -/
theorem C120_interior (x0 y0 : ℝ) {a b : ℝ} (ha : 0 < a) (hb : 0 < b) {u f p : Poly ℝ} (hcf : Canonical f) (hp : antiLaplacian f = .ok p)
    (hpf : HasLaplacian Set.univ p.eval f.eval) (huf : HasLaplacian Set.univ u.eval f.eval) {g1 g2 : ℝ → ℝ → ℝ}
    (hg : HasGradOn Set.univ u.eval g1 g2) {d : ℕ} (hd : ∀ m ∈ u, m.alpha.x + m.alpha.y ≤ d) {δ : ℝ} (hδ : 0 < δ) :
    ∃ M : ℝ, ∀ (gmres : Gmres) (K : CellG) (n : ℕ) (strategy pc : String) (s : Solver) (tr : LocPoisson.TraceOr), Exact gmres → Finds gmres →
      K.IsEllipse x0 y0 a b (2 * n) → (2 * n : ℕ) / (4 * 10 ^ 6) ≤ min a b → 4 ≤ n → n ≤ 2 * 10 ^ 7 →
      4 * flatness a b ^ (2 * n - 1) ≤ 1 - flatness a b → d + 1 < n → init gmres K strategy pc = .ok s → tr.Gives K (K.samplesOf u.eval) →
      (∀ y ∈ K.interior, y ∈ ellipseRegion x0 y0 a b) → ∀ ei eg, ∃ F,
      LocPoisson.init gmres (some s) f tr ei eg = .ok F ∧ F.traceValues = .ok (K.samplesOf u.eval) ∧
      ((ei || eg) = true → ∃ U : ℝ × ℝ → ℝ, F.intVals = some (K.interior.map U) ∧ ∀ y ∈ K.interior, y ∈ ellipseInner x0 y0 a b δ →
        |U y - u.eval y.1 y.2| ≤ M * ellipseRate a b δ ^ (2 * n)) ∧
      (eg = true → ∃ V1 V2 : ℝ × ℝ → ℝ, F.intGrad1 = some (K.interior.map V1) ∧ F.intGrad2 = some (K.interior.map V2) ∧ ∀ y ∈ K.interior,
        y ∈ ellipseInner x0 y0 a b δ → |V1 y - g1 y.1 y.2| ≤ M * ellipseRate a b (δ / 2) ^ (2 * n) ∧
          |V2 y - g2 y.1 y.2| ≤ M * ellipseRate a b (δ / 2) ^ (2 * n)) := by
  rw [antiLaplacian_ok] at hp
  cases hp
  have hdu : DegLe d u := fun m hm => by
    have := hd m hm
    simp only [MultiIndex.order]
    omega
  have hdf := deg_of_lap hcf (totalDegree_toMv hdu) (lap_of_hasLaplacian huf).symm
  have hdp : DegLe d (alP f) := deg_mono (by omega) (deg_alP hdf)
  obtain ⟨Q, hQd, -, hQu⟩ := difference_harmonic huf hpf hdu hdp x0 y0
  obtain ⟨C0, hC0⟩ := ellipse_conj_bounded ha hb Q
  have hm : 0 < max a b := lt_of_lt_of_le ha (le_max_left _ _)
  have hab0 : 0 < a + b := by linarith
  set S := coeffSum Q (max a b) with hS
  have hS0 : 0 ≤ S := coeffSum_nonneg Q hm.le
  set D := coeffSum (derivative Q) (max a b) with hD
  have hD0 : 0 ≤ D := coeffSum_nonneg _ hm.le
  have hf1 := flatness_lt ha hb
  have hf0 := flatness_nonneg ha hb
  set B := S + |C0| with hB
  have hB0 : 0 ≤ B := by positivity
  set e1 := 6 * S / (1 - flatness a b) ^ 2 with he1
  have he10 : 0 ≤ e1 := by positivity
  have hE : ∀ N, ellErr a b N Q.natDegree S = e1 * flatness a b ^ (N - Q.natDegree) := fun N => by rw [ellErr, he1]; ring
  have hθ : 1 - ellipseRate a b δ = δ / (a + b) := by rw [ellipseRate]; ring
  have hθ' : 1 - ellipseRate a b (δ / 2) = δ / 2 / (a + b) := by rw [ellipseRate]; ring
  set q1 := 2 * e1 * max a b / δ with hq1
  set q2 := B * (2 / (δ / (a + b))) with hq2
  set q3 := 2 * e1 * max a b / δ ^ 2 with hq3
  set q4 := D * (2 / (δ / (a + b))) with hq4
  set q5 := B * (4 / (δ * (δ / 2 / (a + b)))) with hq5
  have p1 : 0 ≤ q1 := by positivity
  have p2 : 0 ≤ q2 := by positivity
  have p3 : 0 ≤ q3 := by positivity
  have p4 : 0 ≤ q4 := by positivity
  have p5 : 0 ≤ q5 := by positivity
  refine ⟨q1 + q2 + q3 + q4 + q5, ?_⟩
  intro gmres K n strategy pc s tr hx hf h hab h4 hn hN hdn hs hv hin ei eg
  obtain ⟨c, v, hc, hcj, hcw⟩ := hC0 gmres K x0 y0 n strategy pc s hx hf h hab h4 hn hN hs (by omega)
  rw [hE] at hcw
  have hlen : ∀ g : ℝ → ℝ → ℝ, (K.samplesOf g).length = K.numPts := fun g => by simp [CellG.samplesOf, h.ready.numPts]
  have hvl : v.length = K.numPts := by rw [← hlen]; exact List.Forall₂.length_eq hcw
  obtain ⟨k, hi, hparts⟩ := ellipse_parts h ha hb h4 hs (u := u) (f := f) (Q := Q) hQu hv hin hcj hvl
  have hci := computeInterior_ok h.ready h.equal hparts eg
  -- the polynomial with the constant of the conjugate
  set Q' : ℂ[X] := Q + Polynomial.C (⟨0, c⟩ : ℂ) with hQ'
  have hre : rePoly Q' x0 y0 = rePoly Q x0 y0 := by
    funext x y
    simp [rePoly, hQ']
  have him : imPoly Q' x0 y0 = fun x y => imPoly Q x0 y0 x y + c := by
    funext x y
    simp [imPoly, hQ']
  have hder : derivative Q' = derivative Q := by simp [hQ']
  have hbd : ∀ z : ℂ, ‖z‖ ≤ max a b → ‖Q'.eval z‖ ≤ B := by
    intro z hz
    rw [hQ', eval_add, eval_C]
    refine (norm_add_le _ _).trans (add_le_add (eval_norm_le Q hz) ?_)
    rw [norm_mk, show (0 : ℝ) ^ 2 + c ^ 2 = c ^ 2 by ring, Real.sqrt_sq_eq_abs]
    exact hc.trans (le_abs_self _)
  have hbd' : ∀ z : ℂ, ‖z‖ ≤ max a b → ‖(derivative Q').eval z‖ ≤ D := fun z hz => by
    rw [hder]
    exact eval_norm_le _ hz
  have hε : 0 ≤ e1 * flatness a b ^ (2 * n - Q.natDegree) := by positivity
  have herr : ∀ y ∈ ellipseInner x0 y0 a b δ,
      ‖cauchySum K.nodes (List.zipWith Complex.mk (K.samplesOf (rePoly Q x0 y0)) v) 1 ⟨y.1, y.2⟩ - Q'.eval ⟨y.1 - x0, y.2 - y0⟩‖ ≤
        (q1 + q2 + q3 + q4 + q5) * ellipseRate a b δ ^ (2 * n) ∧
      ‖cauchySum K.nodes (List.zipWith Complex.mk (K.samplesOf (rePoly Q x0 y0)) v) 2 ⟨y.1, y.2⟩ - (derivative Q').eval ⟨y.1 - x0, y.2 - y0⟩‖ ≤
        (q1 + q2 + q3 + q4 + q5) * ellipseRate a b (δ / 2) ^ (2 * n) := by
    intro y hy
    obtain ⟨r0, r1, r2⟩ := (ellipseInner_in hy).rate ha hb hδ
    obtain ⟨k1, k2⟩ := ellipse_sum_error h ha hb hδ (Q := Q') (by rw [hQ', natDegree_add_C]; omega) (by omega) hbd hbd' hε
      (by rw [him]; exact hcw) hy
    rw [hre] at k1 k2
    rw [hθ] at k1 k2
    rw [hθ'] at k2
    rw [← hq2] at k1
    rw [← hq4, ← hq5] at k2
    have t1 : flatness a b ^ (2 * n - Q.natDegree) ≤ ellipseRate a b δ ^ (2 * n) := by
      refine (pow_le_pow_left₀ hf0 r2 _).trans ?_
      rw [← pow_mul]
      exact pow_le_pow_of_le_one r0 r1.le (by omega)
    have t2 : ellipseRate a b δ ^ (2 * n) ≤ ellipseRate a b (δ / 2) ^ (2 * n) := by
      refine pow_le_pow_left₀ r0 ?_ _
      rw [ellipseRate, ellipseRate]
      have : δ / 2 / (a + b) ≤ δ / (a + b) := div_le_div_of_nonneg_right (by linarith) hab0.le
      linarith
    have t0 : 0 ≤ ellipseRate a b δ ^ (2 * n) := by positivity
    have x1 : 2 * (e1 * flatness a b ^ (2 * n - Q.natDegree)) * max a b / δ = q1 * flatness a b ^ (2 * n - Q.natDegree) := by rw [hq1]; ring
    have x2 : 2 * (e1 * flatness a b ^ (2 * n - Q.natDegree)) * max a b / δ ^ 2 = q3 * flatness a b ^ (2 * n - Q.natDegree) := by rw [hq3]; ring
    rw [x1] at k1
    rw [x2] at k2
    clear_value q1 q2 q3 q4 q5
    generalize flatness a b ^ (2 * n - Q.natDegree) = φ at *
    generalize ellipseRate a b δ ^ (2 * n) = θ at *
    generalize ellipseRate a b (δ / 2) ^ (2 * n) = θ' at *
    have m1 := mul_le_mul_of_nonneg_left t1 p1
    have m2 := mul_le_mul_of_nonneg_left (t1.trans t2) p3
    have m3 := mul_le_mul_of_nonneg_left t2 p4
    have t0' := t0.trans t2
    have z1 := mul_nonneg p3 t0
    have z2 := mul_nonneg p4 t0
    have z3 := mul_nonneg p5 t0
    have z4 := mul_nonneg p1 t0'
    have z5 := mul_nonneg p2 t0'
    exact ⟨k1.trans (by linarith), k2.trans (by linarith)⟩
  have hF : ∃ F, LocPoisson.init gmres (some s) f tr ei eg = .ok F := by
    rw [hi]
    split_ifs
    · exact ⟨_, hci⟩
    · exact ⟨_, rfl⟩
  obtain ⟨F, hF⟩ := hF
  have hK := (build_shape h.ready (init_parts hs).1).1
  refine ⟨F, hF, ?_, fun hei => ?_, fun heg => ?_⟩
  · subst hK
    exact C75_trace h.ready hv hF
  · rw [hi, if_pos hei, hci] at hF
    cases hF
    refine ⟨_, rfl, fun y _ hy => ?_⟩
    have k1 := (Complex.abs_re_le_norm _).trans (herr y hy).1
    rw [Complex.sub_re] at k1
    have e2 : (Q'.eval (⟨y.1 - x0, y.2 - y0⟩ : ℂ)).re = u.eval y.1 y.2 - (alP f).eval y.1 y.2 := by
      rw [hQu, ← hre]
      rfl
    rw [e2] at k1
    refine le_trans (le_of_eq ?_) k1
    congr 1
    simp only [cauchyValue, withLogs, List.zipWith_nil_left, List.sum_nil, add_zero]
    ring
  · have hei : (ei || eg) = true := by simp [heg]
    rw [hi, if_pos hei, hci] at hF
    cases hF
    subst heg
    refine ⟨_, _, rfl, rfl, fun y _ hy => ?_⟩
    have k2 := (herr y hy).2
    have r2 := (Complex.abs_re_le_norm _).trans k2
    have r3 := (Complex.abs_im_le_norm _).trans k2
    rw [Complex.sub_re] at r2
    rw [Complex.sub_im] at r3
    have hgr : HasGrad u.eval y.1 y.2 ((nz ((alP f).map Mono.dx)).eval y.1 y.2 + rePoly (derivative Q') x0 y0 y.1 y.2)
        ((nz ((alP f).map Mono.dy)).eval y.1 y.2 + -imPoly (derivative Q') x0 y0 y.1 y.2) := by
      have hc1 := hasDerivAt_dx (alP_canonical f).2 y.1 y.2
      have hc2 := hasDerivAt_dy (alP_canonical f).2 y.1 y.2
      have hc3 := rePoly_grad Set.univ Q' x0 y0 y.1 y.2 trivial
      rw [hre] at hc3
      have hue : u.eval = fun a b => (alP f).eval a b + rePoly Q x0 y0 a b := by
        funext a b
        have := hQu a b
        linarith
      rw [hue]
      exact ⟨hc1.fun_add hc3.1, hc2.fun_add hc3.2⟩
    obtain ⟨u1, u2⟩ := HasGrad.unique (hg y.1 y.2 trivial) hgr
    simp only [if_true, logs1, logs2, List.zipWith_nil_left, List.sum_nil, add_zero]
    rw [u1, u2]
    constructor
    · refine le_trans (le_of_eq ?_) r2
      rw [rePoly]
      congr 1
      ring
    · refine le_trans (le_of_eq ?_) r3
      rw [← abs_neg, imPoly]
      congr 1
      ring

/-! ### the hypotheses can be met: `Δu = 1`, `u = x²/2`, on the ellipse with half-axes 2 and 1 about `(2, 3)` with 64 samples, at its centre -/

example : ∃ d inside K s F U V1 V2 M, getQuadDict 32 2 = .ok d ∧ ellipseCell.parameterize inside 8 d = some (.ok K) ∧
    init someGmres { K with interior := [(2, 3)] } "direct" "jacobi" = .ok s ∧
    LocPoisson.init someGmres (some s) onePoly (.value (.arr (K.samplesOf fun x _ => x ^ 2 / 2))) true true = .ok F ∧
    F.intVals = some [U] ∧ F.intGrad1 = some [V1] ∧ F.intGrad2 = some [V2] ∧ |U - 2| ≤ M * (2 / 3) ^ 64 ∧ |V1 - 2| ≤ M * (5 / 6) ^ 64 ∧
    |V2| ≤ M * (5 / 6) ^ 64 := by
  obtain ⟨d, inside, K, -, hd, hK, h0, -⟩ := someEllipse_solver
  set K1 : CellG := { K with interior := [(2, 3)] } with hK1
  have h : K1.IsEllipse 2 3 2 1 (2 * 32) := ⟨⟨h0.ready.ready, h0.ready.numPts, h0.ready.startIdx⟩, h0.ellipse, h0.vertex⟩
  obtain ⟨s, hs, -⟩ := C70_init someGmres h.ready (h.even rfl (by norm_num) (by norm_num)) h.edges_ne h.holes h.apart
    (h.simple (by norm_num) (by norm_num))
  have hfl : flatness 2 1 = 1 / 3 := by norm_num [flatness]
  have hx := one_problem (u := halfX2) ⟨_, _, fun x y _ => ⟨halfX2_grad x y trivial, 1, 0, hasDerivAt_id x, hasDerivAt_const y _, by simp [one_eval]⟩⟩
  have gx : (LocPoisson.TraceOr.value (.arr (K1.samplesOf fun x _ => x ^ 2 / 2))).Gives K1 (K1.samplesOf halfX2.eval) :=
    ⟨by rw [halfX2_eval], by rw [halfX2_eval]; simp [CellG.samplesOf, h.ready.numPts]⟩
  have hreg : ((2, 3) : ℝ × ℝ) ∈ ellipseRegion 2 3 2 1 := by
    change (((2 : ℝ) - 2) / 2) ^ 2 + ((3 - 3) / 1) ^ 2 < 1
    norm_num
  have hinn : ((2, 3) : ℝ × ℝ) ∈ ellipseInner 2 3 2 1 1 := by
    refine ⟨hreg, fun t => ?_⟩
    have := Real.sin_sq_add_cos_sq t
    dsimp only
    nlinarith [sq_nonneg (Real.cos t)]
  obtain ⟨M, hM⟩ := C120_interior 2 3 (a := 2) (b := 1) (by norm_num) (by norm_num) hx.canonical hx.anti hx.antiExact hx.solution halfX2_grad (d := 2)
    (by simp [halfX2]) (δ := 1) one_pos
  obtain ⟨F, h1, -, h2, h3⟩ := hM someGmres K1 32 _ _ s _ someGmres_exact someGmres_finds h (by norm_num) (by norm_num) (by norm_num)
    (by rw [hfl]; norm_num) (by norm_num) hs gx (by simpa [hK1] using hreg) true true
  obtain ⟨U, hU, hUe⟩ := h2 rfl
  obtain ⟨V1, V2, hV1, hV2, hVe⟩ := h3 rfl
  have e1 := hUe (2, 3) (by simp [hK1]) hinn
  obtain ⟨e2, e3⟩ := hVe (2, 3) (by simp [hK1]) hinn
  have r1 : ellipseRate 2 1 1 = 2 / 3 := by norm_num [ellipseRate]
  have r2 : ellipseRate 2 1 (1 / 2) = 5 / 6 := by norm_num [ellipseRate]
  rw [r1, halfX2_eval] at e1
  rw [r2] at e2 e3
  refine ⟨d, inside, K, s, F, U (2, 3), V1 (2, 3), V2 (2, 3), M, hd, hK, hs, h1, hU, hV1, hV2, ?_, e2, by simpa using e3⟩
  convert e1 using 3
  norm_num

end PFEM
