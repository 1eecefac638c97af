import Verif.Props.EllipseSolve

/-!
The hypotheses of C125 can be met: the ellipse with the half-axes 2 and 1 about the origin, and the unit circle.
-/

namespace PFEM
namespace SolverG

open LocSpaceG Finset Nystrom

/-- C125: sufficient conditions for the exactness of the polynomial operations behind the bubbles on an ellipse about the origin -/
theorem C125_origin {a b : ℝ} (ha : 0 < a) (hb : 0 < b) {deg D : ℕ} (hD0 : 0 < D) (hD : ∀ d, d + 2 ≤ deg → Poly.denom d ∣ D)
    (h : ∀ d, d + 2 ≤ deg → Poly.denom (d + 2) * (1 / 10 ^ 12) ≤ 1 / ((Real.pi * a * b) ^ 2 * D)) :
    ∀ k < deg * (deg - 1) / 2, BubbleExact (0, 0) (Real.pi * a * b) (1 / ((Real.pi * a * b) ^ 2 * D)) k := by
  intro k hk
  obtain ⟨α, -, hα⟩ := MultiIndex.setFromIdx_nat k
  have h1 := bubble_order (i := α.x) (j := α.y) hk hα
  have := bubble_origin (A := Real.pi * a * b) (by have := Real.pi_pos; positivity) hD0 (hD (α.x + α.y) h1) (h (α.x + α.y) h1)
  rwa [show (MultiIndex.mk α.x α.y).idx = k from hα] at this

/-- ellipses about the origin with 64 samples and one interior point -/
theorem originEllipse {a b : ℝ} (ha : 1 / 10 ^ 11 ≤ a) (hb : 1 / 10 ^ 11 ≤ b) : ∃ K : CellG, K.IsEllipse 0 0 a b (2 * 32) ∧ K.interior = [(0, 0)] := by
  obtain ⟨d, hd⟩ := (C21_dict 32 2).1.2 ⟨by norm_num, le_rfl⟩
  let e : EdgeG := { someEllipse with opts := { someEllipse.opts with a := some a, b := some b }, diary := [.translate (Vert.mk' 0 0)] }
  obtain ⟨K, hK⟩ := C106_parameterize hd (inside := fun _ _ => true) (fuel := 8) le_rfl
    (K := { components := [{ edges := [e], orients := [1] }] }) (c := { edges := [e], orients := [1] }) (e := e) (v := Vert.mk' 0 0) ha hb
    rfl rfl rfl rfl rfl rfl rfl rfl rfl (fun _ _ _ => rfl)
  obtain ⟨h0, -⟩ := C106_ellipse hd (a := a) (b := b) (e := e) (v := Vert.mk' 0 0) (lt_of_lt_of_le (by positivity) ha)
    (lt_of_lt_of_le (by positivity) hb) rfl rfl rfl rfl rfl rfl rfl rfl rfl hK
  exact ⟨{ K with interior := [(0, 0)] }, ⟨⟨h0.ready.ready, h0.ready.numPts, h0.ready.startIdx⟩, h0.ellipse, h0.vertex⟩, rfl⟩

noncomputable def ellEnv (K : CellG) : Env where
  gmres := someGmres
  geo := fun _ _ => .ok K
  ord := List.dedup
  perm := CellTopo.getEdges
  evalInt := true
  evalGrad := false

theorem ell_mesh {K : CellG} {a b : ℝ} (h : K.IsEllipse 0 0 a b (2 * 32)) (hi : K.interior = [(0, 0)])
    (hab : (64 : ℝ) / (4 * 10 ^ 6) ≤ min a b) (hfi : 4 * flatness a b ^ (2 * 32 - 1) ≤ 1 - flatness a b) :
    EllipseMesh loopSetup (ellEnv K) K 0 0 a b 32 := by
  refine ⟨rfl, rfl, ⟨0, rfl, loop_isLoop, Or.inr (by simp [loopSetup, loopStore]), by simp [loopSetup, loopSpace]⟩, fun _ _ _ _ => rfl, someGmres_exact,
    someGmres_finds, h, ?_, by norm_num, by norm_num, hfi, ?_, by decide⟩
  · norm_num at hab ⊢
    exact hab
  · rw [hi]
    simp [ellipseRegion]

/-- `-Δu + u = f` with the solution `u = 4 - x² - 4 y²` -/
noncomputable def ellForm : BilinForm := ⟨1, 1, [⟨⟨0, 0⟩, 14⟩, ⟨⟨2, 0⟩, -1⟩, ⟨⟨0, 2⟩, -4⟩]⟩

theorem ell_load {δ : ℝ} (hδ : 1 / 10 ^ 12 ≤ δ) : LoadExact ellForm 32 δ := by
  have hmem : ∀ m ∈ ellForm.rhsPoly, m = ⟨⟨0, 0⟩, 14⟩ ∨ m = ⟨⟨2, 0⟩, -1⟩ ∨ m = ⟨⟨0, 2⟩, -4⟩ := by
    intro m hm
    simpa [ellForm] using hm
  have hl : Poly.OnLattice 1 ellForm.rhsPoly := by
    intro m hm
    rcases hmem m hm with rfl | rfl | rfl
    · exact ⟨14, by norm_num⟩
    · exact ⟨-1, by norm_num⟩
    · exact ⟨-4, by norm_num⟩
  refine ⟨1, _, hl, by linarith, ?_, Poly.antiLaplacian_ok _, antilap_laplacian _ ⟨?_, ?_⟩ 1 hl ?_⟩
  · intro m hm
    rcases hmem m hm with rfl | rfl | rfl <;> norm_num
  · simp only [ellForm, List.pairwise_cons]
    decide
  · intro m hm
    rcases hmem m hm with rfl | rfl | rfl <;> norm_num [tol]
  · intro m hm n hn
    rcases hmem m hm with rfl | rfl | rfl <;> subst hn <;> norm_num [Nat.factorial, Nat.descFactorial]

/-- `4 - x² - 4 y²` -/
noncomputable def ellSol : Poly2 := 4 - MvPolynomial.X 0 ^ 2 - 4 * MvPolynomial.X 1 ^ 2

theorem ell_pde : Pde ellForm ellSol ∧ Poly2.Ell.VanishOn 0 0 2 1 ellSol ∧ ellSol.totalDegree ≤ 3 := by
  have e4 : (4 : Poly2) = MvPolynomial.C 4 := (map_ofNat _ 4).symm
  refine ⟨fun x y => ?_, fun θ => ?_, ?_⟩
  · have h2 : ∀ i : Fin 2, (MvPolynomial.pderiv i) (2 : Poly2) = 0 := fun i => by
      rw [show (2 : Poly2) = MvPolynomial.C 2 from (map_ofNat _ 2).symm, MvPolynomial.pderiv_C]
    simp [ellForm, ellSol, e4, Poly2.ev, Poly2.lap, Poly.eval, Mono.eval_eq, MvPolynomial.pderiv_X, h2]
    ring
  · have := Real.sin_sq_add_cos_sq θ
    simp [ellSol, e4, Poly2.ev]
    nlinarith
  · have h : ∀ i : Fin 2, (MvPolynomial.X i ^ 2 : Poly2).totalDegree ≤ 3 := fun i => by
      rw [MvPolynomial.totalDegree_X_pow]; norm_num
    rw [ellSol, e4]
    refine (MvPolynomial.totalDegree_sub _ _).trans (max_le ((MvPolynomial.totalDegree_sub _ _).trans (max_le ?_ (h 0))) ?_)
    · simp
    · refine (MvPolynomial.totalDegree_mul _ _).trans ?_
      rw [MvPolynomial.totalDegree_C, MvPolynomial.totalDegree_X_pow]
      norm_num

theorem ell_bubbles {a b : ℝ} (ha : 0 < a) (hb : 0 < b) (hab : a * b ≤ 2) : 1 / 10 ^ 12 ≤ 1 / ((Real.pi * a * b) ^ 2 * (8 : ℕ)) ∧
    1 / 10 ^ 12 ≤ 1 / ((Real.pi * a * b) ^ 2 * (8 : ℕ)) * (1 / ((Real.pi * a * b) ^ 2 * (8 : ℕ))) ∧
    ∀ k < 3 * (3 - 1) / 2, BubbleExact (0, 0) (Real.pi * a * b) (1 / ((Real.pi * a * b) ^ 2 * (8 : ℕ))) k := by
  have hpi := Real.pi_pos
  have hA : 0 < Real.pi * a * b := by positivity
  have hA8 : Real.pi * a * b ≤ 8 := by
    have := Real.pi_le_four
    have : 0 < a * b := by positivity
    nlinarith
  have hle : (1 : ℝ) / 512 ≤ 1 / ((Real.pi * a * b) ^ 2 * (8 : ℕ)) := by
    apply one_div_le_one_div_of_le (by positivity)
    push_cast
    nlinarith
  refine ⟨le_trans (by norm_num) hle, by nlinarith, C125_origin ha hb (deg := 3) (D := 8) (by norm_num) (fun d hd => by
    have : d ≤ 1 := by omega
    interval_cases d <;> decide) fun d hd => ?_⟩
  refine le_trans ?_ hle
  have e2 : Poly.denom (0 + 2) = 192 := by decide
  have e3 : Poly.denom (1 + 2) = 384 := by decide
  have : d = 0 ∨ d = 1 := by omega
  rcases this with rfl | rfl
  · rw [e2]; norm_num
  · rw [e3]; norm_num

/-- C125 applies to the ellipse with the half-axes 2 and 1 with 64 samples, bubbles of degree 3 and two edge functions: for
`-Δu + u = 14 - x² - 4 y²` the Galerkin solution is `4 - x² - 4 y²`, and the errors of the system are at most `M 3^(-61)`. -/
example : ∃ (K : CellG) (M : ℝ) (R : State) (v : ℕ → Poly2), K.IsEllipse 0 0 2 1 64 ∧ assemble (ellEnv K) ellForm loopSetup.s0 none = .ok R ∧
    R.NearGalerkin loopSetup ellForm 0 0 2 1 v (M * (1 / 3) ^ 61) ∧
    (M * (1 / 3) ^ 61 ≤ 1 → ∃ x, R.Solves x ∧ ∀ X Y, (X / 2) ^ 2 + Y ^ 2 ≤ 1 → |Poly2.ev (R.combine v x) X Y - (4 - X ^ 2 - 4 * Y ^ 2)| ≤ M * (1 / 3) ^ 61) := by
  obtain ⟨K, hK, hi⟩ := originEllipse (a := 2) (b := 1) (by norm_num) (by norm_num)
  have hfl : flatness 2 1 = 1 / 3 := by norm_num [flatness]
  obtain ⟨b0, b1, b2⟩ := ell_bubbles (a := 2) (b := 1) (by norm_num) (by norm_num) (by norm_num)
  obtain ⟨w, M, hw, hM⟩ := C125_ellipse 0 0 (a := 2) (b := 1) (by norm_num) (by norm_num) (B := ellForm) (p := 3) (by norm_num [ellForm]) (by norm_num [ellForm]) b1 b2
    (ell_load b0)
  have hload : ∀ m ∈ ellForm.rhsPoly, m.alpha.x + m.alpha.y + 1 < 32 := by
    obtain ⟨_, _, -, -, h, -⟩ := ell_load b0
    exact h
  obtain ⟨R, v, h1, -, h3, h4⟩ := hM loopSetup (ellEnv K) K 32 loopSetup.s0 none rfl (ell_mesh hK hi (by norm_num) (by rw [hfl]; norm_num)) hload
    .refl (by rw [loop_num]; norm_num)
  obtain ⟨p1, p2, p3⟩ := ell_pde
  have hwu : w = ellSol := hw.unique (by norm_num) (by norm_num) (by norm_num [ellForm]) (by norm_num [ellForm])
    (C125_poly (by norm_num) (by norm_num) p1 p2 p3)
  rw [hfl] at h3 h4
  refine ⟨K, M, R, v, hK, h1, h3, fun hs => ?_⟩
  obtain ⟨⟨x, hx⟩, h5⟩ := h4 hs
  refine ⟨x, hx, fun X Y hXY => ?_⟩
  have := (h5 x hx).2.2 X Y (by simpa using hXY)
  rw [hwu] at this
  have e : Poly2.ev ellSol X Y = 4 - X ^ 2 - 4 * Y ^ 2 := by
    simp [ellSol, Poly2.ev]
  rwa [e] at this

/-- On the unit circle the bound is 0, so that the last part of C125 applies for every `M`: the Galerkin solution is found exactly. -/
example : ∃ (K : CellG) (R : State) (v : ℕ → Poly2) (w : Poly2) (x : ℕ → ℝ), K.IsEllipse 0 0 1 1 64 ∧
    assemble (ellEnv K) ellForm loopSetup.s0 none = .ok R ∧ GalerkinSol ellForm 0 0 1 1 3 w ∧ R.Solves x ∧
    ∀ X Y, X ^ 2 + Y ^ 2 ≤ 1 → Poly2.ev (R.combine v x) X Y = Poly2.ev w X Y := by
  obtain ⟨K, hK, hi⟩ := originEllipse (a := 1) (b := 1) (by norm_num) (by norm_num)
  have hfl : flatness 1 1 = 0 := by norm_num [flatness]
  obtain ⟨b0, b1, b2⟩ := ell_bubbles (a := 1) (b := 1) (by norm_num) (by norm_num) (by norm_num)
  obtain ⟨w, M, hw, hM⟩ := C125_ellipse 0 0 (a := 1) (b := 1) (by norm_num) (by norm_num) (B := ellForm) (p := 3) (by norm_num [ellForm]) (by norm_num [ellForm]) b1 b2
    (ell_load b0)
  have hload : ∀ m ∈ ellForm.rhsPoly, m.alpha.x + m.alpha.y + 1 < 32 := by
    obtain ⟨_, _, -, -, h, -⟩ := ell_load b0
    exact h
  obtain ⟨R, v, h1, -, -, h4⟩ := hM loopSetup (ellEnv K) K 32 loopSetup.s0 none rfl (ell_mesh hK hi (by norm_num) (by rw [hfl]; norm_num)) hload
    .refl (by rw [loop_num]; norm_num)
  rw [hfl] at h4
  obtain ⟨⟨x, hx⟩, h5⟩ := h4 (by norm_num)
  refine ⟨K, R, v, w, x, hK, h1, hw, hx, fun X Y hXY => ?_⟩
  have := (h5 x hx).2.2 X Y (by simpa using hXY)
  norm_num at this
  exact sub_eq_zero.1 this

end SolverG
end PFEM
