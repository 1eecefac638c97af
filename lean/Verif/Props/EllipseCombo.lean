import Verif.Spec.EllipseCombo
import Verif.Props.DiscCombo
import Verif.Props.EllipseSolve

/-!
Property theorem C126: on an ellipse the values and gradients that users see of the computed solution converge.
-/

namespace PFEM
namespace SolverG

open LocSpaceG Finset Nystrom Poly

theorem rate_nonneg (a b δ : ℝ) (n : ℕ) : 0 ≤ ellipseRate a b δ ^ (2 * n) := by
  rw [pow_mul]
  positivity

/-- one constant bounds the errors of all objects made for a polynomial -/
theorem made_rate_ellipse (x0 y0 : ℝ) {a b : ℝ} (ha : 0 < a) (hb : 0 < b) {w : Poly2} {f p P : Poly ℝ} (hw : PolyProblem (Poly2.toList w) f p P)
    {η : ℝ} (hη : 0 < η) : ∃ C : ℝ, 0 ≤ C ∧ ∀ (gmres : Gmres) (K : CellG) (s : Nystrom.Solver) (n : ℕ) (tr : LocPoisson.TraceOr) (ei eg : Bool)
      (F : LocPoisson), OnEllipse gmres K s x0 y0 a b n → w.totalDegree + 1 < n → tr.Gives K (K.samplesOf (Poly2.ev w)) →
      LocPoisson.init gmres (some s) f tr ei eg = .ok F → F.traceValues = .ok (K.samplesOf (Poly2.ev w)) ∧
      ((ei || eg) = true → F.Near .interior K (ellipseInner x0 y0 a b η) (Poly2.ev w) (C * ellipseRate a b η ^ (2 * n))) ∧
      (eg = true → F.Near .gradient1 K (ellipseInner x0 y0 a b η) (Poly2.ev (MvPolynomial.pderiv 0 w)) (C * ellipseRate a b (η / 2) ^ (2 * n)) ∧
        F.Near .gradient2 K (ellipseInner x0 y0 a b η) (Poly2.ev (MvPolynomial.pderiv 1 w)) (C * ellipseRate a b (η / 2) ^ (2 * n))) := by
  obtain ⟨M, hM⟩ := C120_interior x0 y0 ha hb hw.canonical hw.anti hw.antiExact hw.solution (by rw [toList_eval]; exact Poly2.hasGrad w)
    (d := w.totalDegree) (fun m hm => Poly2.deg_toList w hm) hη
  refine ⟨|M|, abs_nonneg M, ?_⟩
  intro gmres K s n tr ei eg F h hd ht hF
  obtain ⟨st, pc, hs⟩ := h.solver
  obtain ⟨F', hF', h1, h2, h3⟩ := hM gmres K n st pc s tr h.exact h.finds h.ellipse h.spread h.low h.high h.fine hd hs
    (by rw [toList_eval]; exact ht) h.inside ei eg
  rw [hF] at hF'
  cases hF'
  rw [toList_eval] at h1 h2
  have hle : ∀ δ, M * ellipseRate a b δ ^ (2 * n) ≤ |M| * ellipseRate a b δ ^ (2 * n) := fun δ =>
    mul_le_mul_of_nonneg_right (le_abs_self M) (rate_nonneg a b δ n)
  refine ⟨h1, fun he => ?_, fun he => ?_⟩
  · obtain ⟨U, k1, k2⟩ := h2 he
    exact ⟨U, k1, fun y hy hA => (k2 y hy hA).trans (hle _)⟩
  · obtain ⟨V1, V2, k1, k2, k3⟩ := h3 he
    exact ⟨⟨V1, k1, fun y hy hA => (k3 y hy hA).1.trans (hle _)⟩, V2, k2, fun y hy hA => (k3 y hy hA).2.trans (hle _)⟩

/-- sums of arrays -/
theorem near_sum {K : CellG} {A : Set (ℝ × ℝ)} {i : Item} (hsz : i.size K = K.interior.length) {w0 w : LocPoisson} {fs : List Fn} {u : List ℝ}
    (hw : ∃ v, w.item i = some v ∧ v.length = i.size K)
    (hent : ∀ k, w.entry i k = w0.entry i k + (fs.map fun f => used u (glob f) * f.val.entry i k).sum) {ε0 : ℝ}
    (h0 : w0.Near i K A (fun _ _ => 0) ε0) {g : Fn → ℝ → ℝ → ℝ} {ε : Fn → ℝ}
    (hf : ∀ f ∈ fs, used u (glob f) ≠ 0 → f.val.Near i K A (g f) (ε f)) :
    w.Near i K A (fun x y => (fs.map fun f => used u (glob f) * g f x y).sum) (ε0 + (fs.map fun f => |used u (glob f)| * ε f).sum) := by
  obtain ⟨vs, hvs, hvl⟩ := hw
  rw [hsz] at hvl
  obtain ⟨U0, hU0, hb0⟩ := h0
  choose! U hU hb using hf
  have hg : ∀ (k : ℕ) (hk : k < K.interior.length) (F : LocPoisson) (V : ℝ × ℝ → ℝ), F.item i = some (K.interior.map V) →
      F.entry i k = V K.interior[k] := by
    intro k hk F V hF
    simp only [LocPoisson.entry, hF, Option.getD_some]
    rw [List.getD_eq_getElem _ _ (by simpa using hk), List.getElem_map]
  refine ⟨fun y => U0 y + (fs.map fun f => used u (glob f) * U f y).sum, ?_, fun y hy hA => ?_⟩
  · rw [hvs]
    congr 1
    refine List.ext_getElem (by simp [hvl]) fun k h1 h2 => ?_
    have hk : k < K.interior.length := by rw [← hvl]; exact h1
    have e := hent k
    have e1 : w.entry i k = vs[k] := by
      simp only [LocPoisson.entry, hvs, Option.getD_some]
      rw [List.getD_eq_getElem _ _ h1]
    rw [e1, hg k hk w0 U0 hU0] at e
    rw [e, List.getElem_map]
    congr 2
    refine List.map_congr_left fun f hf => ?_
    by_cases hz : used u (glob f) = 0
    · rw [hz, zero_mul, zero_mul]
    · rw [hg k hk _ _ (hU f hf hz)]
  · rw [add_sub_assoc]
    have h1 := hb0 y hy hA
    rw [sub_zero] at h1
    refine (abs_add_le _ _).trans (add_le_add h1 ?_)
    rw [sum_map_sub']
    refine abs_sum_fs fs fun f hf => ?_
    rw [← mul_sub, abs_mul]
    by_cases hz : used u (glob f) = 0
    · rw [hz, abs_zero, zero_mul, zero_mul]
    · exact mul_le_mul_of_nonneg_left (hb f hf hz y hy hA) (abs_nonneg _)

theorem used_near (u : List ℝ) (i : ℕ) : |used u i - u.getD i 0| ≤ 1 / 10 ^ 4 := by
  unfold used
  split_ifs with h
  · rw [zero_sub, abs_neg]
    exact h.le
  · rw [sub_self, abs_zero]
    positivity

/-- from coefficients to functions -/
theorem near_final {N : ℕ} {y x : Fin N → ℝ} {g : Fin N → ℝ} {W : Fin N → ℝ} {θ : ℝ} (hx : ∀ k, |x k - y k| ≤ θ) (hg : ∀ k, |g k| ≤ W k) :
    |∑ k, x k * g k - ∑ k, y k * g k| ≤ θ * ∑ k, W k := by
  rw [← Finset.sum_sub_distrib, Finset.mul_sum]
  refine (Finset.abs_sum_le_sum_abs _ _).trans (Finset.sum_le_sum fun k _ => ?_)
  rw [← sub_mul, abs_mul]
  exact mul_le_mul (hx k) (hg k) (abs_nonneg _) ((abs_nonneg _).trans (hx k))

/-- C126: on meshes that consist of one ellipse, the function that `linear_combo` gives for the coefficients that `solve` computes is zero on
the boundary, and at distance at least `η` from the ellipse its values differ from those of the exact Galerkin solution `w` by at most
`M (r ^ (2 n - p) + (1 - η/(a+b)) ^ 2n + 1e-4)`, its partial derivatives by at most `M (r ^ (2 n - p) + (1 - η/(2(a+b))) ^ 2n + 1e-4)`, where
`r = |a - b| / (a + b)`, `2 n` is the number of samples and `M` does not depend on `n`.  (`1e-4` is the threshold below which coefficients are dropped.) -/
theorem C126_solution (x0 y0 : ℝ) {a b : ℝ} (ha : 0 < a) (hb : 0 < b) {B : BilinForm} (hD : 0 < B.diffusion) (hR : 0 ≤ B.reaction) {p : ℕ} {δ : ℝ}
    (hδ : 1 / 10 ^ 12 ≤ δ * δ) (hbub : ∀ k < p * (p - 1) / 2, BubbleExact (x0, y0) (Real.pi * a * b) δ k) {n0 : ℕ} (hB : LoadExact B n0 δ)
    {η : ℝ} (hη : 0 < η) :
    ∃ (w : Poly2) (M : ℝ), GalerkinSol B x0 y0 a b p w ∧
      ∀ (S : Setup ℝ) (E : Env) (K : CellG) (n : ℕ) (s : GlobFunSp ℝ) (spsolve : (ℕ → ℕ → ℝ) → (ℕ → ℝ) → ℕ → List ℝ), S.p = p →
        EllipseMesh S E K x0 y0 a b n → (∀ m ∈ B.rhsPoly, m.alpha.x + m.alpha.y + 1 < n) → E.evalInt = true → S.Hist s → 0 < S.s0.numFuns →
        SolvesSystems spsolve → M * flatness a b ^ (2 * n - p) ≤ 1 →
        ∃ R x, init E B s = .ok R ∧ (solve spsolve R).soln = some x ∧ x.length = R.numFuns ∧ ∀ c ∈ S.m.cellIdxList,
          ∃ F, linearCombo E (solve spsolve R) c x = .ok F ∧ (∃ vs, F.traceValues = .ok vs ∧ vs.length = K.numPts ∧ ∀ v ∈ vs, v = 0) ∧
            F.Near .interior K (ellipseInner x0 y0 a b η) (Poly2.ev w)
              (M * (flatness a b ^ (2 * n - p) + ellipseRate a b η ^ (2 * n) + 1 / 10 ^ 4)) ∧
            (E.evalGrad = true →
              F.Near .gradient1 K (ellipseInner x0 y0 a b η) (Poly2.ev (MvPolynomial.pderiv 0 w))
                (M * (flatness a b ^ (2 * n - p) + ellipseRate a b (η / 2) ^ (2 * n) + 1 / 10 ^ 4)) ∧
              F.Near .gradient2 K (ellipseInner x0 y0 a b η) (Poly2.ev (MvPolynomial.pderiv 1 w))
                (M * (flatness a b ^ (2 * n - p) + ellipseRate a b (η / 2) ^ (2 * n) + 1 / 10 ^ 4))) := by
  classical
  obtain ⟨u, m, p', P, y, w, M, hM0, hw, hwy, hdat, hcore⟩ := ellipse_core x0 y0 ha hb hD hR hδ hbub hB
  have hrate : ∀ k : Fin (p * (p - 1) / 2), ∃ C : ℝ, 0 ≤ C ∧ _ := fun k => made_rate_ellipse x0 y0 ha hb (hdat k k.2).problem hη
  choose C hC0 hC using hrate
  obtain ⟨C', hC'0, hC'⟩ := made_rate_ellipse x0 y0 ha hb (w := 0) (harmonic_problem (by simp [Poly2.lap])) hη
  have hbd : ∀ k : Fin (p * (p - 1) / 2), ∃ W : ℝ, 0 ≤ W ∧ ∀ X Y, ((X - x0) / a) ^ 2 + ((Y - y0) / b) ^ 2 ≤ 1 →
      |Poly2.ev (u k) X Y| ≤ W ∧ ∀ i, |Poly2.ev (MvPolynomial.pderiv i (u k)) X Y| ≤ W := fun k => by
    obtain ⟨W0, g0, h0⟩ := bounded_ellipse x0 y0 ha hb (u k)
    obtain ⟨W1, g1, h1⟩ := bounded_ellipse x0 y0 ha hb (MvPolynomial.pderiv 0 (u k))
    obtain ⟨W2, g2, h2⟩ := bounded_ellipse x0 y0 ha hb (MvPolynomial.pderiv 1 (u k))
    refine ⟨W0 + W1 + W2, by positivity, fun X Y hXY => ⟨(h0 X Y hXY).trans (by linarith), fun i => ?_⟩⟩
    fin_cases i
    · exact (h1 X Y hXY).trans (by linarith)
    · exact (h2 X Y hXY).trans (by linarith)
  choose W hW0 hW using hbd
  set WW := ∑ k, W k with hWW
  have hWW0 : 0 ≤ WW := Finset.sum_nonneg fun k _ => hW0 k
  set CC := C' + ∑ k, (|y k| + 1) * C k with hCC
  have hCC0 : 0 ≤ CC := add_nonneg hC'0 (Finset.sum_nonneg fun k _ => mul_nonneg (by positivity) (hC0 k))
  refine ⟨w, M + CC + (1 + M) * WW, hw, ?_⟩
  intro S E K n s spsolve hSp h hdg hei hs h0 hsp hsm
  have hρ0 : 0 ≤ flatness a b ^ (2 * n - p) := pow_nonneg (flatness_nonneg ha hb) _
  obtain ⟨R, v, bs, z, hA, -, -, hL, hon, hini, hsto, hsolve⟩ := hcore S E K n s none hSp h hdg hs h0
  obtain ⟨fs, hloc, hperm, hfs⟩ := hsto hei
  set ρ := flatness a b ^ (2 * n - p) with hρ
  have hMρ : M * ρ ≤ 1 := le_trans (mul_le_mul_of_nonneg_right (by nlinarith [mul_nonneg hM0 hWW0]) hρ0) hsm
  obtain ⟨hex, hall⟩ := hsolve hMρ
  obtain ⟨g1, g2⟩ := hsp R.globMat R.globRhs R.numFuns hex
  set x := spsolve R.globMat R.globRhs R.numFuns with hx
  obtain ⟨-, hbz, hco, -⟩ := hall (fun i => x.getD i 0) g2
  have hNb : numBubbles S = p * (p - 1) / 2 := by rw [numBubbles, hSp]
  have hbl : bs.length = p * (p - 1) / 2 := by rw [hL.len, hNb]
  refine ⟨R, x, hA, rfl, g1, fun c hc => ?_⟩
  obtain ⟨e, c', k, he, hm, hst, hcl, hk, hp⟩ := h.loop.cell
  rw [hcl, List.mem_singleton] at hc
  subst hc
  have hac : S.m.cellIdxList[0]? = some c := by rw [hcl]; rfl
  have hlf : LogsFit E.gmres K := fun hn => absurd h.ellipse.numHoles hn
  obtain ⟨D, hDv, hl, hw', -⟩ := C84_combo h.loop.cells h.loop.fits hei hs hA (t := R.space) .refl hac (fun c k b K' hk hg => by
    rw [h.geo c k b hk] at hg
    cases hg
    exact hlf) (u := x) (by rw [g1, hL.num])
  rw [hloc] at hl
  simp only [List.getElem?_cons_zero, Option.some.injEq, Prod.mk.injEq] at hl
  obtain ⟨hK, hfD⟩ := hl
  rw [← hK] at hw'
  -- the function the sum starts from
  obtain ⟨s0, hs0⟩ := fft_init_ellipse E.gmres h.ellipse ha hb h.low h.high
  have hon0 : OnEllipse E.gmres K s0 x0 y0 a b n :=
    ⟨h.exact, h.finds, ha, hb, h.ellipse, h.spread, h.low, h.high, h.fine, h.inside, _, _, hs0⟩
  have hgz : (LocPoisson.TraceOr.value (.num 0)).Gives K (K.samplesOf (Poly2.ev 0)) := by
    show _ = _
    simp [CellG.samplesOf, h.ellipse.ready.numPts, Poly2.ev]
  have hd0 : (0 : Poly2).totalDegree + 1 < n := by
    have := h.low
    simp
    omega
  obtain ⟨w0, hw0, -⟩ := makeFor_ellipse (δ := δ) hon0 (w := 0) (f := []) (p := []) (P := []) (harmonic_problem (by simp [Poly2.lap]))
    hd0 (by intro m hm; cases hm) hgz true true
  obtain ⟨-, z1, z2⟩ := hC' _ _ _ _ _ _ _ _ hon0 hd0 hgz hw0
  obtain ⟨F, hF, hWh, hent, vt, hvt, hvl, hvk⟩ := hw' w0 (by rw [zeroFn, hs0, py_ok_bind]; exact hw0)
  -- objects
  have hub : ∀ f ∈ fs, used x (glob f) ≠ 0 → ∃ k : Fin (p * (p - 1) / 2), glob f = bubbleNum S k ∧
      LocPoisson.init E.gmres (some z) (m k) (.value (.num 0)) E.evalInt E.evalGrad = .ok f.val := by
    intro f hf hne
    have hlt : glob f < R.numFuns := List.mem_range.1 (hperm.subset (List.mem_map_of_mem hf))
    have hnb : ¬ S.BoundaryNumber (glob f) := by
      intro hb
      have : x.getD (glob f) 0 = 0 := hbz _ hlt hb
      rw [used, this, ite_self] at hne
      exact hne rfl
    obtain ⟨k, hk, e1, e2⟩ := hfs f hf hnb
    exact ⟨⟨k, by omega⟩, e1, by rw [e2]; exact hini k hk⟩
  have hdn : ∀ k : Fin (p * (p - 1) / 2), (u k).totalDegree + 1 < n := fun k => by
    have h1 := (hdat k k.2).degree
    have h2 := h.degree
    omega
  have hobj := fun (k : Fin (p * (p - 1) / 2)) f (hf : LocPoisson.init E.gmres (some z) (m k) (.value (.num 0)) E.evalInt E.evalGrad = .ok f) =>
    hC k _ _ _ _ _ _ _ f hon (hdn k) ((hdat k k.2).gives h.ellipse) hf
  -- bubble numbers
  let kk : ℕ → ℕ := fun i => if h : ∃ k < p * (p - 1) / 2, bubbleNum S k = i then h.choose else 0
  have hkk : ∀ k : Fin (p * (p - 1) / 2), kk (bubbleNum S k) = k := by
    intro k
    have hex : ∃ k' < p * (p - 1) / 2, bubbleNum S k' = bubbleNum S k := ⟨k, k.2, rfl⟩
    simp only [kk]
    rw [dif_pos hex]
    exact hL.inj _ (by rw [hNb]; exact hex.choose_spec.1) k (by rw [hNb]; exact k.2) hex.choose_spec.2
  have hsum : ∀ φ : ℕ → ℝ, (∀ i, used x i = 0 → φ i = 0) → (fs.map fun f => φ (glob f)).sum = ∑ k : Fin (p * (p - 1) / 2), φ (bubbleNum S k) := by
    intro φ hφ
    rw [sum_fs hperm φ, hL.sum φ fun i hi hb => hφ i (by
      have : x.getD i 0 = 0 := hbz i hi hb
      rw [used, this, ite_self]), hNb, Finset.sum_range]
  have hxy : ∀ k : Fin (p * (p - 1) / 2), |used x (bubbleNum S k) - y k| ≤ 1 / 10 ^ 4 + M * ρ := fun k => by
    have e1 := used_near x (bubbleNum S k)
    have e2 := hco k
    have e3 : used x (bubbleNum S k) - y k = (used x (bubbleNum S k) - x.getD (bubbleNum S k) 0) + (x.getD (bubbleNum S k) 0 - y k) := by ring
    rw [e3]
    exact (abs_add_le _ _).trans (add_le_add e1 e2)
  have hux : ∀ k : Fin (p * (p - 1) / 2), |used x (bubbleNum S k)| ≤ |y k| + 1 := fun k => by
    have e2 := hco k
    have e3 : x.getD (bubbleNum S k) 0 = (x.getD (bubbleNum S k) 0 - y k) + y k := by ring
    refine (used_le x _).trans ?_
    rw [e3]
    refine (abs_add_le _ _).trans ?_
    have : |x.getD (bubbleNum S k) 0 - y k| ≤ M * ρ := e2
    linarith
  -- one array
  have key : ∀ (i : Item) (L : Poly2 →ₗ[ℝ] Poly2) (q : ℝ), i.size K = K.interior.length → 0 ≤ q →
      w0.Near i K (ellipseInner x0 y0 a b η) (fun _ _ => 0) (C' * q) →
      (∀ (k : Fin (p * (p - 1) / 2)) f, LocPoisson.init E.gmres (some z) (m k) (.value (.num 0)) E.evalInt E.evalGrad = .ok f →
        f.Near i K (ellipseInner x0 y0 a b η) (Poly2.ev (L (u k))) (C k * q)) →
      (∀ (k : Fin (p * (p - 1) / 2)) X Y, ((X - x0) / a) ^ 2 + ((Y - y0) / b) ^ 2 ≤ 1 → |Poly2.ev (L (u k)) X Y| ≤ W k) →
      F.Near i K (ellipseInner x0 y0 a b η) (Poly2.ev (L w)) ((M + CC + (1 + M) * WW) * (ρ + q + 1 / 10 ^ 4)) := by
    intro i L q hsz hq hz hob hWL
    obtain ⟨U, hU, hUb⟩ := near_sum (i := i) hsz (hWh.items i) (fs := fs) (u := x) (w0 := w0) (fun k => by
      rw [hent i k, hfD, List.map_map]
      rfl) hz (g := fun f => Poly2.ev (L (u (kk (glob f))))) (ε := fun f => (if h : kk (glob f) < p * (p - 1) / 2 then C ⟨_, h⟩ else 0) * q) (fun f hf hne => by
      obtain ⟨k, e1, e2⟩ := hub f hf hne
      have e3 : kk (glob f) = k := by rw [e1, hkk]
      beta_reduce
      rw [e3, dif_pos k.2]
      exact hob k _ e2)
    refine ⟨U, hU, fun Y hY hYA => ?_⟩
    have e1 := hUb Y hY hYA
    beta_reduce at e1
    rw [hsum (fun i => used x i * Poly2.ev (L (u (kk i))) Y.1 Y.2) fun i hi => by rw [hi, zero_mul],
      hsum (fun i => |used x i| * ((if h : kk i < p * (p - 1) / 2 then C ⟨_, h⟩ else 0) * q)) fun i hi => by rw [hi, abs_zero, zero_mul]] at e1
    simp only [hkk, Fin.is_lt, dif_pos, Fin.eta] at e1
    have e2 : Poly2.ev (L w) Y.1 Y.2 = ∑ k, y k * Poly2.ev (L (u k)) Y.1 Y.2 := by
      rw [hwy, map_sum]
      simp only [map_smul, Poly2.ev, map_sum, MvPolynomial.smul_eval]
    have e3 := near_final (x := fun k => used x (bubbleNum S k)) (y := y) (g := fun k => Poly2.ev (L (u k)) Y.1 Y.2) (W := W) hxy
      fun k => hWL k Y.1 Y.2 (le_of_lt hYA.1)
    have e4 : ∑ k : Fin (p * (p - 1) / 2), |used x (bubbleNum S k)| * (C k * q) ≤ (∑ k, (|y k| + 1) * C k) * q := by
      rw [Finset.sum_mul]
      refine Finset.sum_le_sum fun k _ => ?_
      rw [mul_assoc]
      exact mul_le_mul_of_nonneg_right (hux k) (mul_nonneg (hC0 k) hq)
    rw [e2]
    refine (abs_sub_le _ _ _).trans ((add_le_add e1 e3).trans ?_)
    rw [← hWW]
    have e5 : C' * q + ∑ k : Fin (p * (p - 1) / 2), |used x (bubbleNum S k)| * (C k * q) ≤ CC * q := by
      rw [hCC, add_mul]
      linarith
    have t1 := mul_nonneg hM0 hWW0
    have t2 := mul_nonneg hM0 hρ0
    nlinarith [mul_nonneg hCC0 hρ0, mul_nonneg hM0 hq, mul_nonneg hWW0 hq, mul_nonneg t1 hq, mul_nonneg t1 hρ0, mul_nonneg hWW0 hρ0]
  have hz0 : Poly2.ev 0 = fun _ _ => 0 := by
    funext x y
    simp [Poly2.ev]
  refine ⟨F, hF, ⟨vt, hvt, hvl, fun y hy => ?_⟩, ?_, fun heg => ⟨?_, ?_⟩⟩
  · obtain ⟨k, hk, rfl⟩ := List.mem_iff_getElem.1 hy
    have e := hvk k
    rw [List.getD_eq_getElem _ _ hk] at e
    rw [e]
    refine List.sum_eq_zero fun t ht => ?_
    obtain ⟨l, hl, rfl⟩ := List.mem_map.1 ht
    by_cases hz : used x l.glob = 0
    · rw [hz, zero_mul]
    obtain ⟨z', A, -, -, hst'⟩ := hDv.stands
    obtain ⟨j, -, e2⟩ := hub ⟨l.key, D.obj l.glob⟩ (by rw [hfD]; exact List.mem_map_of_mem hl) hz
    have h3 := (hst' l hl).trace
    have h4 := (hobj j _ e2).1
    rw [← hK] at h3
    have h5 := h4.symm.trans h3
    rw [← Except.ok.inj h5, samples_ellipse h.ellipse (g := fun _ _ => 0) (hdat j j.2).vanish, CellG.samplesOf]
    rw [List.getD_eq_getElem?_getD, List.getElem?_map]
    cases K.cols[k]? <;> simp
  · refine key .interior LinearMap.id _ rfl (rate_nonneg a b η n) ?_ (fun k f hf => (hobj k f hf).2.1 (by simp [hei])) fun k X Y hXY => (hW k X Y hXY).1
    have := z1 rfl
    rwa [hz0] at this
  · refine key .gradient1 (MvPolynomial.pderiv 0).toLinearMap _ rfl (rate_nonneg a b (η / 2) n) ?_ (fun k f hf => ((hobj k f hf).2.2 heg).1)
      fun k X Y hXY => (hW k X Y hXY).2 0
    have := (z2 rfl).1
    rwa [map_zero, hz0] at this
  · refine key .gradient2 (MvPolynomial.pderiv 1).toLinearMap _ rfl (rate_nonneg a b (η / 2) n) ?_ (fun k f hf => ((hobj k f hf).2.2 heg).2)
      fun k X Y hXY => (hW k X Y hXY).2 1
    have := (z2 rfl).2
    rwa [map_zero, hz0] at this

end SolverG
end PFEM
