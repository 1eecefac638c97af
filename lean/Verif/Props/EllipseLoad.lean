import Verif.Props.EllipseInner
import Verif.Props.DiscBasis

/-!
The right-hand side for local functions on an ellipse that stand for polynomials, for C125.
-/

namespace PFEM
open Nystrom Antilap Poly MeasureTheory

/-- the right-hand side for an object that stands for a polynomial converges geometrically -/
theorem ellipse_load (x0 y0 : ℝ) {a b : ℝ} (ha : 0 < a) (hb : 0 < b) {u f p P : Poly ℝ} (hu : PolyProblem u f p P) {d : ℕ}
    (hdu : ∀ m ∈ u, m.alpha.x + m.alpha.y ≤ d) {δ ε : ℝ} (hp : OnLattice δ p) {g : Poly ℝ} (hg : OnLattice ε g) (hδ : 1 / 10 ^ 12 ≤ δ * ε)
    {q : Poly ℝ} (hq : g.antiLaplacian = .ok q) (hqe : HasLaplacian Set.univ q.eval g.eval) :
    ∃ M : ℝ, ∀ (gmres : Gmres) (K : CellG) (n : ℕ) (strategy pc : String) (s : Solver) (tr : LocPoisson.TraceOr) (ei eg : Bool)
      (F : LocPoisson), Exact gmres → Finds gmres → K.IsEllipse x0 y0 a b (2 * n) → (2 * n : ℕ) / (4 * 10 ^ 6) ≤ min a b → 4 ≤ n →
      n ≤ 2 * 10 ^ 7 → 4 * flatness a b ^ (2 * n - 1) ≤ 1 - flatness a b → d + 1 < n → (∀ m ∈ g, m.alpha.x + m.alpha.y + 1 < n) →
      init gmres K strategy pc = .ok s → tr.Gives K (K.samplesOf u.eval) → LocPoisson.init gmres (some s) f tr ei eg = .ok F → ∀ D R,
      ∃ J, BilinForm.evalRhs ⟨D, R, g⟩ F = .ok J ∧
        |J - ∫ z in ellipseRegion x0 y0 a b, g.eval z.1 z.2 * u.eval z.1 z.2| ≤ M * flatness a b ^ (2 * n - d) := by
  have hd : DegLe (d : ℤ) u := fun m hm => by
    have := hdu m hm
    simp only [MultiIndex.order]
    omega
  obtain ⟨C1, c1, hC1⟩ := ellipse_object ha hb x0 y0 hu hd
  rw [antiLaplacian_ok] at hq
  cases hq
  obtain ⟨e, dg⟩ : ∃ e : ℕ, DegLe (e : ℤ) g := by
    refine ⟨(toMv g).totalDegree + (g.map fun m => m.alpha.x + m.alpha.y).sum, fun m hm => ?_⟩
    have := List.single_le_sum (fun _ _ => Nat.zero_le _) _ (List.mem_map_of_mem (f := fun m : Mono ℝ => m.alpha.x + m.alpha.y) hm)
    simp only [MultiIndex.order]
    omega
  have lq0 := (PolyFn.ofPoly (deg_mono (show ((e : ℤ) + 2) ≤ ((e + 2 : ℕ) : ℤ) by push_cast; omega) (deg_alP dg))).lap
    (f1 := (nz ((alP g).map Mono.dx)).eval) (f2 := (nz ((alP g).map Mono.dy)).eval)
    (fun x y _ => ⟨hasDerivAt_dx (alP_canonical g).2 x y, hasDerivAt_dy (alP_canonical g).2 x y⟩) hqe
  obtain ⟨D2, m2, hD2⟩ := polyfn_small x0 y0 a b lq0.fn
  obtain ⟨D3, m3, hD3⟩ := polyfn_small x0 y0 a b lq0.fn1
  obtain ⟨D4, m4, hD4⟩ := polyfn_small x0 y0 a b lq0.fn2
  have hm : 0 < max a b := lt_of_lt_of_le ha (le_max_left _ _)
  obtain ⟨C, hC, k1, k7, k8⟩ : ∃ C, 0 ≤ C ∧ C1 ≤ C ∧ D2 ≤ C ∧ 2 * (D3 + D4) * max a b ≤ C := by
    have x2 : 0 ≤ 2 * (D3 + D4) * max a b := by positivity
    refine ⟨C1 + D2 + 2 * (D3 + D4) * max a b, ?_, ?_, ?_, ?_⟩ <;> linarith
  refine ⟨12 * Real.pi * C * C, fun gmres K n strategy pc s tr ei eg F hx hfd h hab h4 hn hN hdn hdg hs ht hF D R => ?_⟩
  obtain ⟨w, rfl, rfl, gw, aF, eu, a5, a6, s1, s2, s3, s4⟩ := hC1 gmres K n strategy pc s tr ei eg F hx hfd h hab h4 hn hN hs hdn ht hF
  have hf1 := flatness_lt ha hb
  have hf0 := flatness_nonneg ha hb
  set ρ := flatness a b ^ (2 * n - d) with hρ
  have hρ0 : 0 ≤ ρ := by positivity
  have hρ1 : ρ ≤ 1 := pow_le_one₀ hf0 hf1.le
  have hε0 : 0 ≤ C * ρ := by positivity
  have hεC : C * ρ ≤ C := by nlinarith
  have hle : C1 * ρ ≤ C * ρ := mul_le_mul_of_nonneg_right k1 hρ0
  obtain ⟨hcell, ⟨o, b3, ho⟩, k, v, n', V, N', b2, a7, y5, y6, y7, y8⟩ := aF
  rw [polyPart_init h.ready] at ho
  cases ho
  obtain ⟨-, -, dp, lp, lP⟩ := hu.parts hd
  have dg' : DegLe ((n - 2 : ℕ) : ℤ) g := fun m hm => by
    have := hdg m hm
    simp only [MultiIndex.order]
    omega
  have lq := (PolyFn.ofPoly (deg_mono (show (((n - 2 : ℕ) : ℤ) + 2) ≤ ((n - 2 + 2 : ℕ) : ℤ) by push_cast; omega) (deg_alP dg'))).lap
    (f1 := (nz ((alP g).map Mono.dx)).eval) (f2 := (nz ((alP g).map Mono.dy)).eval)
    (fun x y _ => ⟨hasDerivAt_dx (alP_canonical g).2 x y, hasDerivAt_dy (alP_canonical g).2 x y⟩) hqe
  have ag := polyPart_arrays h.ready g
  obtain ⟨m0, f0, -, g0⟩ := mul_lattice hδ hp hg
  have L2 := l2hp_ok h.ready h.edges_ne a7 ag
  have dm : DegLe ((d + (n - 2) : ℕ) : ℤ) m0 := by
    rw [Poly.mul_eq] at f0
    cases f0
    push_cast
    exact deg_mulP dp dg'
  have L4 : l2PolyPoly (polyPart K w.p) (polyPart K g) K = .ok (∫ z in ellipseRegion x0 y0 a b, m0.eval z.1 z.2) := by
    rw [← C119_integral h ha hb (p := m0) fun m hm => by
      have := dm m hm
      simp only [MultiIndex.order] at this
      omega]
    simp only [l2PolyPoly, polyPart, py_ok_bind, f0]
  have e : BilinForm.evalRhs ⟨D, R, g⟩ F = .ok (pair K v (K.normalOf (nz ((alP g).map Mono.dx)).eval (nz ((alP g).map Mono.dy)).eval) -
      pair K n' (K.samplesOf (alP g).eval) + ∫ z in ellipseRegion x0 y0 a b, m0.eval z.1 z.2) := by
    simp only [BilinForm.evalRhs, hcell, Trace.attr, py_ok_bind, polyPart_init h.ready, LocPoisson.getL2, b2, b3, l2]
    rw [L2, py_ok_bind, L4, py_ok_bind]
  refine ⟨_, e, ?_⟩
  have hex : pair K (K.samplesOf w.φ) (K.normalOf (nz ((alP g).map Mono.dx)).eval (nz ((alP g).map Mono.dy)).eval) -
      pair K (K.normalOf w.φ1 w.φ2) (K.samplesOf (alP g).eval) + (∫ z in ellipseRegion x0 y0 a b, m0.eval z.1 z.2) =
      ∫ z in ellipseRegion x0 y0 a b, g.eval z.1 z.2 * u.eval z.1 z.2 := by
    rw [pair_comm K (K.samplesOf w.φ), ellipse_green h ha hb (by omega) lq a5, ellipse_green h ha hb (by omega) a5 lq]
    have i1 := ellipse_integrable x0 y0 ha hb (a5.fn.mul (PolyFn.ofPoly dg'))
    have i2 := ellipse_integrable x0 y0 ha hb ((lq.fn1.mul a5.fn1).add' (lq.fn2.mul a5.fn2))
    have i3 := ellipse_integrable x0 y0 ha hb (PolyFn.ofPoly dm)
    have e1 : (∫ z in ellipseRegion x0 y0 a b, ((alP g).eval z.1 z.2 * 0 + (w.φ1 z.1 z.2 * (nz ((alP g).map Mono.dx)).eval z.1 z.2 +
        w.φ2 z.1 z.2 * (nz ((alP g).map Mono.dy)).eval z.1 z.2))) =
        ∫ z in ellipseRegion x0 y0 a b, ((nz ((alP g).map Mono.dx)).eval z.1 z.2 * w.φ1 z.1 z.2 + (nz ((alP g).map Mono.dy)).eval z.1 z.2 * w.φ2 z.1 z.2) := by
      congr 1
      funext z
      ring
    rw [integral_add i1 i2, e1, add_sub_cancel_right, ← integral_add i1 i3]
    congr 1
    funext z
    rw [g0, eu]
    ring
  rw [← hex]
  have hE : (K.components.flatMap ContourG.edges).length = 1 := h.oneEdge
  have hbd := h.bounded ha hb
  have hl : ∀ f, (K.samplesOf f).length = K.cols.length := fun f => by simp [CellG.samplesOf]
  have hl' : ∀ f g, (K.normalOf f g).length = K.cols.length := fun f g => by simp [CellG.normalOf]
  have near := fun {u u0 v v0 : List ℝ} (hu : Within (C * ρ) u u0) (hv : Within (C * ρ) v v0) (su : Small C u0) (sv : Small C v0)
    (lu : u0.length = K.cols.length) (lv : v0.length = K.cols.length) => abs_le.1 (pair_small hE hε0 hεC hu hv su sv lu lv)
  have r := within_refl hε0
  have sQ := (hD2 K _ h).mono k7
  have sM := (normal_small hbd ((hD3 K _ h).mono (show D3 ≤ D3 + D4 by linarith)) ((hD4 K _ h).mono (show D4 ≤ D3 + D4 by linarith))).mono k8
  have z1 := near (y5.mono hle) (r _) (s1.mono k1) sM (hl _) (hl' _ _)
  have z2 := near (y6.mono hle) (r _) (s2.mono k1) sQ (hl' _ _) (hl _)
  rw [abs_le]
  constructor <;> linarith

end PFEM
