import Verif.Spec.EllipseSolve
import Verif.Props.EllipseBasis
import Verif.Props.LoopMesh
import Verif.Lemmas.Perturb

/-!
C125: the solver on a mesh that consists of one ellipse.  Assembly gives the Galerkin system of the polynomials of degree at most `p` that vanish on
the ellipse, up to errors that decay geometrically in the number of samples, and so does the solution.
-/

namespace PFEM
namespace SolverG

open LocSpaceG Finset Nystrom

section algebra
variable (x0 y0 : ℝ) {a b : ℝ} (ha : 0 < a) (hb : 0 < b)

theorem weakE_eq (B : BilinForm) (u w : Poly2) : weakE B x0 y0 a b u w = Poly2.Ell.form x0 y0 ha hb B.diffusion B.reaction u w := by
  rw [Poly2.Ell.form_apply, weakE]

theorem loadE_eq (B : BilinForm) (w : Poly2) : loadE B x0 y0 a b w = Poly2.Ell.integral x0 y0 ha hb (Poly.toMv B.rhsPoly * w) := by
  rw [← Poly2.Ell.mass_eq]
  simp only [loadE, Poly2.Ell.mass, Poly.eval_mv]

include ha hb in
/-- the weak equation for a solution of the boundary value problem -/
theorem pde_weak {B : BilinForm} {u w : Poly2} (hu : Pde B u) (hw : Poly2.Ell.VanishOn x0 y0 a b w) :
    weakE B x0 y0 a b u w = loadE B x0 y0 a b w := by
  rw [weakE_eq x0 y0 ha hb, Poly2.Ell.form_pde x0 y0 ha hb _ _ u hw, loadE_eq x0 y0 ha hb]
  have : MvPolynomial.C B.reaction * u - MvPolynomial.C B.diffusion * Poly2.lap u = Poly.toMv B.rhsPoly := by
    refine Poly2.ev_injective fun x y => ?_
    have := hu x y
    rw [Poly.eval_mv] at this
    show _ = (MvPolynomial.eval ![x, y]) B.rhsPoly.toMv
    rw [← this]
    simp [Poly2.ev]
  rw [← this, Poly2.Ell.mass_eq x0 y0 ha hb]

end algebra

/-- C125: there is at most one Galerkin solution. -/
theorem GalerkinSol.unique {B : BilinForm} {x0 y0 a b : ℝ} (ha : 0 < a) (hb : 0 < b) (hD : 0 < B.diffusion) (hR : 0 ≤ B.reaction) {p : ℕ}
    {w w' : Poly2} (h : GalerkinSol B x0 y0 a b p w) (h' : GalerkinSol B x0 y0 a b p w') : w = w' := by
  have hv : Poly2.Ell.VanishOn x0 y0 a b (w - w') := fun θ => by
    have h1 := h.vanish θ
    have h2 := h'.vanish θ
    simp only [Poly2.ev, map_sub] at h1 h2 ⊢
    rw [h1, h2, sub_zero]
  have hd : (w - w').totalDegree ≤ p := (MvPolynomial.totalDegree_sub _ _).trans (max_le h.degree h'.degree)
  have := Poly2.Ell.form_definite x0 y0 ha hb hD hR hv (by
    rw [LinearMap.map_sub₂, ← weakE_eq, ← weakE_eq, h.weak _ hv hd, h'.weak _ hv hd, sub_self])
  exact sub_eq_zero.1 this

/-- C125: a polynomial solution of the boundary value problem of degree at most `p` is the Galerkin solution. -/
theorem C125_poly {B : BilinForm} {x0 y0 a b : ℝ} (ha : 0 < a) (hb : 0 < b) {p : ℕ} {u : Poly2} (hu : Pde B u)
    (hv : Poly2.Ell.VanishOn x0 y0 a b u) (hd : u.totalDegree ≤ p) : GalerkinSol B x0 y0 a b p u :=
  ⟨hv, hd, fun _ hz _ => pde_weak x0 y0 ha hb hu hz⟩

/-- C125: the Galerkin solution is the best approximation, in the energy norm, of every polynomial that solves the differential equation. -/
theorem C125_best {B : BilinForm} {x0 y0 a b : ℝ} (ha : 0 < a) (hb : 0 < b) (hD : 0 < B.diffusion) (hR : 0 ≤ B.reaction) {p : ℕ}
    {w : Poly2} (h : GalerkinSol B x0 y0 a b p w) {u : Poly2} (hu : Pde B u) {z : Poly2} (hz : Poly2.Ell.VanishOn x0 y0 a b z)
    (hd : z.totalDegree ≤ p) : weakE B x0 y0 a b (u - w) (u - w) ≤ weakE B x0 y0 a b (u - z) (u - z) := by
  have hv : Poly2.Ell.VanishOn x0 y0 a b (w - z) := fun θ => by
    have h1 := h.vanish θ
    have h2 := hz θ
    simp only [Poly2.ev, map_sub] at h1 h2 ⊢
    rw [h1, h2, sub_zero]
  have hd' : (w - z).totalDegree ≤ p := (MvPolynomial.totalDegree_sub _ _).trans (max_le h.degree hd)
  have h0 : Poly2.Ell.form x0 y0 ha hb B.diffusion B.reaction (u - w) (w - z) = 0 := by
    rw [LinearMap.map_sub₂, ← weakE_eq, ← weakE_eq, h.weak _ hv hd', pde_weak x0 y0 ha hb hu hv, sub_self]
  have hn := Poly2.Ell.form_nonneg x0 y0 ha hb hD hR (w - z)
  have e : u - z = (u - w) + (w - z) := by ring
  rw [e, weakE_eq x0 y0 ha hb, weakE_eq x0 y0 ha hb, LinearMap.map_add₂, map_add, map_add, h0,
    Poly2.Ell.form_comm x0 y0 ha hb _ _ (w - z) (u - w), h0]
  linarith

theorem EllipseMesh.loop {S : Setup ℝ} {E : Env} {K : CellG} {x0 y0 a b : ℝ} {n : ℕ} (h : EllipseMesh S E K x0 y0 a b n) : LoopMesh S E K := by
  obtain ⟨e, h1, h2, h3, -⟩ := h.edge
  obtain ⟨e', h4, -⟩ := h.ellipse.getEdges
  exact ⟨h.ord, h.perm, ⟨e, h1, h2, h3⟩, h.geo, h.ellipse.ready, by rw [h4]; rfl⟩

/-- the polynomials that the bubble functions stand for -/
structure Bubbles (x0 y0 a b κ : ℝ) (p : ℕ) (w : ℕ → Poly2) : Prop where
  degree : ∀ k < p * (p - 1) / 2, (w k).totalDegree ≤ p
  vanish : ∀ k < p * (p - 1) / 2, Poly2.Ell.VanishOn x0 y0 a b (w k)
  lap : ∀ k < p * (p - 1) / 2, ∃ i j, (MultiIndex.mk i j).idx = k ∧ Poly2.lap (w k) = Poly2.shifted (x0, y0) κ i j

section bubbles
variable {x0 y0 a b κ : ℝ} {p : ℕ} {w : ℕ → Poly2}

theorem Bubbles.independent (h : Bubbles x0 y0 a b κ p w) (hκ : κ ≠ 0) {y : ℕ → ℝ} (hy : ∑ k ∈ range (p * (p - 1) / 2), y k • w k = 0) :
    ∀ k < p * (p - 1) / 2, y k = 0 := by
  have h2 := congrArg Poly2.lapL hy
  rw [map_sum, map_zero] at h2
  have hch : ∀ k, ∃ ij : ℕ × ℕ, k < p * (p - 1) / 2 → (MultiIndex.mk ij.1 ij.2).idx = k ∧ Poly2.lap (w k) = Poly2.shifted (x0, y0) κ ij.1 ij.2 := by
    intro k
    by_cases hk : k < p * (p - 1) / 2
    · obtain ⟨i, j, e1, e2⟩ := h.lap k hk
      exact ⟨(i, j), fun _ => ⟨e1, e2⟩⟩
    · exact ⟨(0, 0), fun hk' => absurd hk' hk⟩
  choose ij hij using hch
  have h3 := Poly2.shifted_independent (x0, y0) hκ (range (p * (p - 1) / 2)) (fun k => (ij k).1) (fun k => (ij k).2)
    (fun k hk k' hk' e1 e2 => by
      rw [← (hij k (mem_range.1 hk)).1, ← (hij k' (mem_range.1 hk')).1, e1, e2]) y (by
      rw [← h2]
      refine Finset.sum_congr rfl fun k hk => ?_
      rw [map_smul]
      exact congrArg _ (hij k (mem_range.1 hk)).2.symm)
  exact fun k hk => h3 k (mem_range.2 hk)

theorem Bubbles.span (h : Bubbles x0 y0 a b κ p w) (hκ : κ ≠ 0) (ha : 0 < a) (hb : 0 < b) {z : Poly2} (hz : Poly2.Ell.VanishOn x0 y0 a b z)
    (hd : z.totalDegree ≤ p) : ∃ y : Fin (p * (p - 1) / 2) → ℝ, ∑ k, y k • w k = z := by
  have hmem : z ∈ Submodule.span ℝ (Set.range fun k : Fin (p * (p - 1) / 2) => w k) := by
    by_cases hp2 : 2 ≤ p
    · obtain ⟨d, hd2⟩ := Nat.exists_eq_add_of_le' hp2
      refine Poly2.Ell.mem_span_bubbles x0 y0 ha hb (x0, y0) hκ (d := d) ?_ ?_ hz (by omega)
      · rintro _ ⟨k, rfl⟩
        exact h.vanish k k.2
      · intro i j hij
        have hlt := bubble_lt (p := p) (i := i) (j := j) (by omega)
        refine ⟨_, ⟨⟨_, hlt⟩, rfl⟩, ?_⟩
        obtain ⟨i', j', e1, e2⟩ := h.lap _ hlt
        have := MultiIndex.idx_inj e1
        simp only [MultiIndex.mk.injEq] at this
        rw [e2, this.1, this.2]
    · have : z = 0 := Poly2.Ell.dirichlet_unique x0 y0 ha hb hz (fun θ => by simp [Poly2.ev]) (by
        rw [lap_linear (by omega), lap_linear (by simp)])
      rw [this]
      exact zero_mem _
  exact Submodule.mem_span_range_iff_exists_fun ℝ |>.1 hmem

end bubbles

/-- the system for the bubble functions, with a bound that holds for all discretizations -/
theorem ellipse_system (x0 y0 : ℝ) {a b : ℝ} (ha : 0 < a) (hb : 0 < b) {B : BilinForm} {p : ℕ} {δ : ℝ} (hδ : 1 / 10 ^ 12 ≤ δ * δ)
    (hbub : ∀ k < p * (p - 1) / 2, BubbleExact (x0, y0) (Real.pi * a * b) δ k) {n0 : ℕ} (hB : LoadExact B n0 δ) :
    ∃ (w : ℕ → Poly2) (m p' P : ℕ → Poly ℝ) (M : ℝ), 0 ≤ M ∧ Bubbles x0 y0 a b (-1 / (Real.pi * a * b) ^ 2) p w ∧
      (∀ k < p * (p - 1) / 2, BubbleData x0 y0 a b δ p k (w k) (m k) (p' k) (P k)) ∧
      ∀ (S : Setup ℝ) (E : Env) (K : CellG) (n : ℕ) (s : GlobFunSp ℝ) (soln : Option (List ℝ)), S.p = p → EllipseMesh S E K x0 y0 a b n →
        (∀ m ∈ B.rhsPoly, m.alpha.x + m.alpha.y + 1 < n) → S.Hist s → 0 < S.s0.numFuns →
        ∃ R bs z, assemble E B s soln = .ok R ∧ R.soln = soln ∧ LoopSystem S B bs R ∧ OnEllipse E.gmres K z x0 y0 a b n ∧
          (∀ k (hk : k < bs.length), LocPoisson.init E.gmres (some z) (m k) (.value (.num 0)) E.evalInt E.evalGrad = .ok bs[k].val) ∧
          (E.evalInt = true → R.Stores S K bs) ∧
          (∀ k < p * (p - 1) / 2, ∀ l < p * (p - 1) / 2, |R.globMat (bubbleNum S k) (bubbleNum S l) - weakE B x0 y0 a b (w k) (w l)| ≤
            M * flatness a b ^ (2 * n - p)) ∧
          ∀ k < p * (p - 1) / 2, |R.globRhs (bubbleNum S k) - loadE B x0 y0 a b (w k)| ≤ M * flatness a b ^ (2 * n - p) := by
  obtain ⟨ε, q, l1, l2, -, l4, l5⟩ := hB
  have hdat : ∀ k, ∃ w m p' P, k < p * (p - 1) / 2 → BubbleData x0 y0 a b δ p k w m p' P := fun k => by
    by_cases hk : k < p * (p - 1) / 2
    · obtain ⟨w, m, p', P, h⟩ := bubbleData ha hb hk (hbub k hk)
      exact ⟨w, m, p', P, fun _ => h⟩
    · exact ⟨0, [], [], [], fun h => absurd h hk⟩
  choose w m p' P hdat using hdat
  have hin : ∀ k l, ∃ M : ℝ, k < p * (p - 1) / 2 → l < p * (p - 1) / 2 → ∀ (gmres : Gmres) (K : CellG) (n : ℕ) (s : Nystrom.Solver) (ei eg : Bool)
      (F G : LocPoisson), OnEllipse gmres K s x0 y0 a b n → p + 1 < n →
      LocPoisson.init gmres (some s) (m k) (.value (.num 0)) ei eg = .ok F → LocPoisson.init gmres (some s) (m l) (.value (.num 0)) ei eg = .ok G →
      (∀ I, F.getH1 (.poisson G) = .ok I → |I - Poly2.Ell.energy x0 y0 a b (w k) (w l)| ≤ M * flatness a b ^ (2 * n - p)) ∧
      ∀ J, F.getL2 (.poisson G) = .ok J → |J - Poly2.Ell.mass x0 y0 a b (w k) (w l)| ≤ M * flatness a b ^ (2 * n - p) := by
    intro k l
    by_cases hk : k < p * (p - 1) / 2
    · by_cases hl : l < p * (p - 1) / 2
      · have dk := hdat k hk
        have dl := hdat l hl
        obtain ⟨M, hM⟩ := C119_inner_products x0 y0 ha hb dk.problem dl.problem (d := p)
          (fun m hm => (Poly2.deg_toList _ hm).trans dk.degree) (fun m hm => (Poly2.deg_toList _ hm).trans dl.degree) dk.lattice dl.lattice hδ
          (by rw [toList_eval]; exact Poly2.hasGrad _) (by rw [toList_eval]; exact Poly2.hasGrad _)
        refine ⟨M, fun _ _ gmres K n s ei eg F G h hpn hF hG => ?_⟩
        obtain ⟨st, pc, hs⟩ := h.solver
        obtain ⟨I, J, h1, h2, h3, h4⟩ := hM gmres K n st pc s _ _ ei eg ei eg F G h.exact h.finds h.ellipse h.spread h.low h.high h.fine hpn hs
          (by rw [toList_eval]; exact dk.gives h.ellipse) (by rw [toList_eval]; exact dl.gives h.ellipse) hF hG
        constructor
        · intro I' hI
          rw [h1] at hI
          cases hI
          exact h3
        · intro J' hJ
          rw [h2] at hJ
          cases hJ
          simp only [toList_eval] at h4
          exact h4
      · exact ⟨0, fun _ h => absurd h hl⟩
    · exact ⟨0, fun h => absurd h hk⟩
  choose M1 hM1 using hin
  have hld : ∀ k, ∃ M : ℝ, k < p * (p - 1) / 2 → ∀ (gmres : Gmres) (K : CellG) (n : ℕ) (s : Nystrom.Solver) (ei eg : Bool) (F : LocPoisson),
      OnEllipse gmres K s x0 y0 a b n → p + 1 < n → (∀ m ∈ B.rhsPoly, m.alpha.x + m.alpha.y + 1 < n) →
      LocPoisson.init gmres (some s) (m k) (.value (.num 0)) ei eg = .ok F →
      ∀ J, B.evalRhs F = .ok J → |J - loadE B x0 y0 a b (w k)| ≤ M * flatness a b ^ (2 * n - p) := by
    intro k
    by_cases hk : k < p * (p - 1) / 2
    · have dk := hdat k hk
      obtain ⟨M, hM⟩ := ellipse_load x0 y0 ha hb dk.problem (d := p) (fun m hm => (Poly2.deg_toList _ hm).trans dk.degree) dk.lattice l1 l2 l4 l5
      refine ⟨M, fun _ gmres K n s ei eg F h hpn hdg hF J hJ => ?_⟩
      obtain ⟨st, pc, hs⟩ := h.solver
      obtain ⟨J', h1, h2⟩ := hM gmres K n st pc s _ ei eg F h.exact h.finds h.ellipse h.spread h.low h.high h.fine hpn hdg hs
        (by rw [toList_eval]; exact dk.gives h.ellipse) hF B.diffusion B.reaction
      rw [show (⟨B.diffusion, B.reaction, B.rhsPoly⟩ : BilinForm) = B from rfl, hJ] at h1
      cases h1
      simp only [toList_eval] at h2
      exact h2
    · exact ⟨0, fun h => absurd h hk⟩
  choose M2 hM2 using hld
  set N := p * (p - 1) / 2 with hN
  set c := |B.diffusion| + |B.reaction| with hc
  have hc0 : 0 ≤ c := by positivity
  set M : ℝ := (∑ k ∈ range N, ∑ l ∈ range N, c * |M1 k l|) + ∑ k ∈ range N, |M2 k| with hM
  have m1 : ∀ k < N, ∀ l < N, c * |M1 k l| ≤ M := by
    intro k hk l hl
    have e1 : c * |M1 k l| ≤ ∑ l ∈ range N, c * |M1 k l| :=
      Finset.single_le_sum (f := fun l => c * |M1 k l|) (fun _ _ => by positivity) (mem_range.2 hl)
    have e2 : ∑ l ∈ range N, c * |M1 k l| ≤ ∑ k ∈ range N, ∑ l ∈ range N, c * |M1 k l| :=
      Finset.single_le_sum (f := fun k => ∑ l ∈ range N, c * |M1 k l|) (fun _ _ => Finset.sum_nonneg fun _ _ => by positivity) (mem_range.2 hk)
    have e3 : 0 ≤ ∑ k ∈ range N, |M2 k| := Finset.sum_nonneg fun _ _ => abs_nonneg _
    linarith
  have m2 : ∀ k < N, |M2 k| ≤ M := by
    intro k hk
    have e1 : |M2 k| ≤ ∑ k ∈ range N, |M2 k| := Finset.single_le_sum (f := fun k => |M2 k|) (fun _ _ => abs_nonneg _) (mem_range.2 hk)
    have e3 : 0 ≤ ∑ k ∈ range N, ∑ l ∈ range N, c * |M1 k l| := Finset.sum_nonneg fun _ _ => Finset.sum_nonneg fun _ _ => by positivity
    linarith
  have hM0 : 0 ≤ M := add_nonneg (Finset.sum_nonneg fun _ _ => Finset.sum_nonneg fun _ _ => by positivity) (Finset.sum_nonneg fun _ _ => abs_nonneg _)
  clear_value M
  refine ⟨w, m, p', P, M, hM0, ⟨fun k hk => (hdat k hk).degree, fun k hk => (hdat k hk).vanish, fun k hk => (hdat k hk).lap⟩, hdat, ?_⟩
  intro S E K n s soln hSp h hdg hs h0
  have hρ0 : 0 ≤ flatness a b ^ (2 * n - p) := pow_nonneg (flatness_nonneg ha hb) _
  have hpn : p + 1 < n := hSp ▸ h.degree
  obtain ⟨e, c0, k0, he, hm, hst, hcl, hk, hp⟩ := h.loop.cell
  obtain ⟨e', he', hl, -, htr⟩ := h.edge
  obtain rfl : e' = e := by rw [he] at he'; simpa using he'.symm
  obtain ⟨i0, -⟩ := GlobFunSp.init_spec S.m S.deg S.space S.s0 S.hs
  have hp1 : 1 ≤ p := by
    rw [← hSp]
    have := i0
    show 1 ≤ S.deg.toNat
    omega
  have hstl : (S.m.store e').isLoop = true := by rw [hst]; exact hl
  have hsp : (S.space e').edge = e' := (S.hsp e' (by rw [hm]; simp)).1
  have hord : S.ord [] = [] := by
    have := (S.hord []).2
    simp at this
    exact List.eq_nil_iff_forall_not_mem.2 this
  obtain ⟨z, es, bs, hbas, hon, hel, hmade, hini⟩ := ellipse_basis (δ := δ) h.exact h.finds ha hb h.ellipse h.spread h.low h.high h.fine h.inside
    hord hstl hsp hp1 hpn htr hdat E.evalInt E.evalGrad
  have hbl : bs.length = numBubbles S := by rw [← hini.length_eq, List.length_range, numBubbles, hSp]
  have hNb : numBubbles S = N := by rw [numBubbles, hSp]
  obtain ⟨R, hR, hso, hsys, hsto⟩ := h.loop.assembled (B := B) hs h0 soln hm (hSp ▸ hbas) hel hbl
    (fun f hf g hg => by
      obtain ⟨u, hu⟩ := hmade f hf
      obtain ⟨v, hv⟩ := hmade g hg
      exact hu.products_exist hon hδ hv)
    (fun f hf => by
      obtain ⟨u, hu⟩ := hmade f hf
      exact hu.load_exists hon l1 l2 hdg l4 l5 B.diffusion B.reaction)
  have hF : ∀ k (hk : k < bs.length), LocPoisson.init E.gmres (some z) (m k) (.value (.num 0)) E.evalInt E.evalGrad = .ok bs[k].val := by
    intro k hk
    have := (List.forall₂_iff_get.1 hini).2 k (by rw [hini.length_eq]; exact hk) hk
    simpa using this
  refine ⟨R, bs, z, hR, hso, hsys, hon, hF, hsto, fun k hk l hl => ?_, fun k hk => ?_⟩
  · have hk' : k < bs.length := by omega
    have hl' : l < bs.length := by omega
    obtain ⟨I, J, e1, e2, e3⟩ := hsys.mat k hk' l hl'
    have b1 : ∃ M' , c * M' ≤ M ∧ |I - Poly2.Ell.energy x0 y0 a b (w k) (w l)| ≤ M' * flatness a b ^ (2 * n - p) := by
      rcases e2 with e2 | e2
      · refine ⟨|M1 k l|, m1 k hk l hl, ((hM1 k l hk hl _ _ _ _ _ _ _ _ hon hpn (hF k hk') (hF l hl')).1 I e2).trans ?_⟩
        exact mul_le_mul_of_nonneg_right (le_abs_self _) hρ0
      · rw [Poly2.Ell.energy_comm]
        refine ⟨|M1 l k|, m1 l hl k hk, ((hM1 l k hl hk _ _ _ _ _ _ _ _ hon hpn (hF l hl') (hF k hk')).1 I e2).trans ?_⟩
        exact mul_le_mul_of_nonneg_right (le_abs_self _) hρ0
    have b2 : ∃ M' , c * M' ≤ M ∧ |J - Poly2.Ell.mass x0 y0 a b (w k) (w l)| ≤ M' * flatness a b ^ (2 * n - p) := by
      rcases e3 with e3 | e3
      · refine ⟨|M1 k l|, m1 k hk l hl, ((hM1 k l hk hl _ _ _ _ _ _ _ _ hon hpn (hF k hk') (hF l hl')).2 J e3).trans ?_⟩
        exact mul_le_mul_of_nonneg_right (le_abs_self _) hρ0
      · rw [Poly2.Ell.mass_comm]
        refine ⟨|M1 l k|, m1 l hl k hk, ((hM1 l k hl hk _ _ _ _ _ _ _ _ hon hpn (hF l hl') (hF k hk')).2 J e3).trans ?_⟩
        exact mul_le_mul_of_nonneg_right (le_abs_self _) hρ0
    obtain ⟨A1, s1, t1⟩ := b1
    obtain ⟨A2, s2, t2⟩ := b2
    set ρ := flatness a b ^ (2 * n - p)
    set e := Poly2.Ell.energy x0 y0 a b (w k) (w l)
    set f := Poly2.Ell.mass x0 y0 a b (w k) (w l)
    have e4 : R.globMat (bubbleNum S k) (bubbleNum S l) - weakE B x0 y0 a b (w k) (w l) = B.diffusion * (I - e) + B.reaction * (J - f) := by
      rw [e1, weakE]
      ring
    rw [e4]
    refine (abs_add_le _ _).trans ?_
    rw [abs_mul, abs_mul]
    have u1 := mul_le_mul_of_nonneg_left t1 (abs_nonneg B.diffusion)
    have u2 := mul_le_mul_of_nonneg_left t2 (abs_nonneg B.reaction)
    rcases le_total A1 A2 with hA | hA
    · have : |B.diffusion| * (A1 * ρ) ≤ |B.diffusion| * (A2 * ρ) := by gcongr
      have := mul_le_mul_of_nonneg_right s2 hρ0
      rw [hc] at this
      linarith
    · have : |B.reaction| * (A2 * ρ) ≤ |B.reaction| * (A1 * ρ) := by gcongr
      have := mul_le_mul_of_nonneg_right s1 hρ0
      rw [hc] at this
      linarith
  · have hk' : k < bs.length := by omega
    refine (hM2 k hk _ _ _ _ _ _ _ hon hpn hdg (hF k hk') _ (hsys.rhs k hk')).trans ?_
    exact mul_le_mul_of_nonneg_right ((le_abs_self _).trans (m2 k hk)) hρ0

/-- a polynomial is bounded on the closed ellipse -/
theorem bounded_ellipse (x0 y0 : ℝ) {a b : ℝ} (ha : 0 < a) (hb : 0 < b) (w : Poly2) :
    ∃ W : ℝ, 0 ≤ W ∧ ∀ x y, ((x - x0) / a) ^ 2 + ((y - y0) / b) ^ 2 ≤ 1 → |Poly2.ev w x y| ≤ W := by
  have hc : Continuous fun z : ℝ × ℝ => Poly2.ev w z.1 z.2 := (Poly2.fn w).contDiff.continuous
  obtain ⟨W, hW⟩ := (isCompact_Icc.prod isCompact_Icc : IsCompact (Set.Icc (x0 - a) (x0 + a) ×ˢ Set.Icc (y0 - b) (y0 + b))).exists_bound_of_continuousOn
    hc.continuousOn
  refine ⟨max W 0, le_max_right _ _, fun x y h => (hW (x, y) ?_).trans (le_max_left _ _)⟩
  have h1 : ((x - x0) / a) ^ 2 ≤ 1 := by nlinarith [sq_nonneg ((y - y0) / b)]
  have h2 : ((y - y0) / b) ^ 2 ≤ 1 := by nlinarith [sq_nonneg ((x - x0) / a)]
  rw [sq_le_one_iff_abs_le_one, abs_div, abs_of_pos ha, div_le_one ha, abs_le] at h1
  rw [sq_le_one_iff_abs_le_one, abs_div, abs_of_pos hb, div_le_one hb, abs_le] at h2
  exact ⟨⟨by linarith, by linarith⟩, ⟨by linarith, by linarith⟩⟩

/-- C125 with the data of the bubble functions, and with the coefficients of the Galerkin solution -/
theorem ellipse_core (x0 y0 : ℝ) {a b : ℝ} (ha : 0 < a) (hb : 0 < b) {B : BilinForm} (hD : 0 < B.diffusion) (hR : 0 ≤ B.reaction) {p : ℕ} {δ : ℝ}
    (hδ : 1 / 10 ^ 12 ≤ δ * δ) (hbub : ∀ k < p * (p - 1) / 2, BubbleExact (x0, y0) (Real.pi * a * b) δ k) {n0 : ℕ} (hB : LoadExact B n0 δ) :
    ∃ (u : ℕ → Poly2) (m p' P : ℕ → Poly ℝ) (y : Fin (p * (p - 1) / 2) → ℝ) (w : Poly2) (M : ℝ), 0 ≤ M ∧ GalerkinSol B x0 y0 a b p w ∧
      w = ∑ k, y k • u k ∧ (∀ k < p * (p - 1) / 2, BubbleData x0 y0 a b δ p k (u k) (m k) (p' k) (P k)) ∧
      ∀ (S : Setup ℝ) (E : Env) (K : CellG) (n : ℕ) (s : GlobFunSp ℝ) (soln : Option (List ℝ)), S.p = p → EllipseMesh S E K x0 y0 a b n →
        (∀ m ∈ B.rhsPoly, m.alpha.x + m.alpha.y + 1 < n) → S.Hist s → 0 < S.s0.numFuns →
        ∃ R v bs z, assemble E B s soln = .ok R ∧ R.soln = soln ∧ R.NearGalerkin S B x0 y0 a b v (M * flatness a b ^ (2 * n - p)) ∧
          LoopSystem S B bs R ∧ OnEllipse E.gmres K z x0 y0 a b n ∧
          (∀ k (hk : k < bs.length), LocPoisson.init E.gmres (some z) (m k) (.value (.num 0)) E.evalInt E.evalGrad = .ok bs[k].val) ∧
          (E.evalInt = true → R.Stores S K bs) ∧
          (M * flatness a b ^ (2 * n - p) ≤ 1 → (∃ x, R.Solves x) ∧ ∀ x, R.Solves x →
            (∀ x', R.Solves x' → ∀ i < R.numFuns, x i = x' i) ∧ (∀ i < R.numFuns, S.BoundaryNumber i → x i = 0) ∧
            (∀ k : Fin (p * (p - 1) / 2), |x (bubbleNum S k) - y k| ≤ M * flatness a b ^ (2 * n - p)) ∧
            ∀ X Y, ((X - x0) / a) ^ 2 + ((Y - y0) / b) ^ 2 ≤ 1 →
              |Poly2.ev (R.combine v x) X Y - Poly2.ev w X Y| ≤ M * flatness a b ^ (2 * n - p)) := by
  classical
  obtain ⟨w, m', p', P, M0, hM0, hw, hdat, hsys⟩ := ellipse_system x0 y0 ha hb hδ hbub hB
  have hκ : -1 / (Real.pi * a * b) ^ 2 ≠ 0 := by
    have := Real.pi_pos
    positivity
  set N := p * (p - 1) / 2 with hN
  obtain ⟨y, C, hC, hy, hper⟩ := perturb (fun k l : Fin N => weakE B x0 y0 a b (w k) (w l)) (fun k : Fin N => loadE B x0 y0 a b (w k)) fun x hx => by
    have hz : ∑ k : Fin N, x k • w k = 0 := by
      refine Poly2.Ell.galerkin_unique x0 y0 ha hb hD hR (V := Set.range fun k : Fin N => w k) ?_ ?_ ?_
      · rintro _ ⟨k, rfl⟩
        exact hw.vanish k k.2
      · exact Submodule.sum_mem _ fun k _ => Submodule.smul_mem _ _ (Submodule.subset_span ⟨k, rfl⟩)
      · rintro _ ⟨k, rfl⟩
        rw [Poly2.Ell.form_comm, map_sum, ← hx k]
        refine Finset.sum_congr rfl fun l _ => ?_
        rw [map_smul, ← weakE_eq, smul_eq_mul, mul_comm]
    have hz' : ∑ k ∈ range N, (if h : k < N then x ⟨k, h⟩ else 0) • w k = 0 := by
      rw [Finset.sum_range, ← hz]
      exact Finset.sum_congr rfl fun k _ => by simp
    funext k
    have := hw.independent hκ hz' k k.2
    simpa using this
  have hbd : ∀ k, ∃ W : ℝ, 0 ≤ W ∧ ∀ x y, ((x - x0) / a) ^ 2 + ((y - y0) / b) ^ 2 ≤ 1 → |Poly2.ev (w k) x y| ≤ W := fun k =>
    bounded_ellipse x0 y0 ha hb (w k)
  choose W hW0 hW using hbd
  set w0 : Poly2 := ∑ k : Fin N, y k • w k with hw0
  set WW := ∑ k : Fin N, W k with hWW
  have hWW0 : 0 ≤ WW := Finset.sum_nonneg fun k _ => hW0 k
  refine ⟨w, m', p', P, y, w0, M0 + C * M0 + C * M0 * WW, by positivity, ⟨?_, ?_, ?_⟩, rfl, hdat, ?_⟩
  · have : w0 ∈ Poly2.Ell.vanishing x0 y0 a b := Submodule.sum_mem _ fun k _ => Submodule.smul_mem _ _ (hw.vanish k k.2)
    exact this
  · refine MvPolynomial.totalDegree_finsetSum_le fun k _ => ?_
    exact (MvPolynomial.totalDegree_smul_le _ _).trans (hw.degree k k.2)
  · intro z hz hd
    obtain ⟨c, rfl⟩ := hw.span hκ ha hb hz hd
    have e1 : ∀ k : Fin N, weakE B x0 y0 a b w0 (w k) = loadE B x0 y0 a b (w k) := fun k => by
      rw [weakE_eq x0 y0 ha hb, Poly2.Ell.form_comm, hw0, map_sum, ← hy k]
      refine Finset.sum_congr rfl fun l _ => ?_
      rw [map_smul, ← weakE_eq, smul_eq_mul, mul_comm]
    clear_value w0
    rw [weakE_eq x0 y0 ha hb, loadE_eq x0 y0 ha hb, map_sum, Finset.mul_sum, map_sum]
    refine Finset.sum_congr rfl fun k _ => ?_
    rw [map_smul, ← weakE_eq, e1, mul_smul_comm, map_smul, ← loadE_eq]
  intro S E K n s soln hSp h hdg hs h0
  obtain ⟨R, bs, z0, hA, hso, hL, hon, hini, hsto, hmat, hrhs⟩ := hsys S E K n s soln hSp h hdg hs h0
  have hNb : numBubbles S = N := by rw [numBubbles, hSp]
  have hlN : ∀ {k}, k < N → k < numBubbles S := fun h => by omega
  have hρ0 : 0 ≤ flatness a b ^ (2 * n - p) := pow_nonneg (flatness_nonneg ha hb) _
  set ρ := flatness a b ^ (2 * n - p) with hρ
  have hX1 : 0 ≤ C * M0 := mul_nonneg hC hM0
  have hX2 : 0 ≤ C * M0 * WW := mul_nonneg hX1 hWW0
  set M := M0 + C * M0 + C * M0 * WW with hM
  have hle : M0 * ρ ≤ M * ρ := mul_le_mul_of_nonneg_right (by linarith) hρ0
  -- the polynomial with a global number
  set v : ℕ → Poly2 := fun i => if h : ∃ k < N, bubbleNum S k = i then w h.choose else 0 with hv
  have hvb : ∀ k < N, v (bubbleNum S k) = w k := by
    intro k hk
    have hex : ∃ k' < N, bubbleNum S k' = bubbleNum S k := ⟨k, hk, rfl⟩
    simp only [hv]
    rw [dif_pos hex]
    congr 1
    exact hL.inj _ (hlN hex.choose_spec.1) k (hlN hk) hex.choose_spec.2
  have hcov : ∀ i < R.numFuns, ¬ S.BoundaryNumber i → ∃ k < N, bubbleNum S k = i := fun i hi hb => hNb ▸ hL.cover i hi hb
  have hcomb : ∀ x : ℕ → ℝ, (∀ i < R.numFuns, S.BoundaryNumber i → x i = 0) → R.combine v x = ∑ k ∈ range N, x (bubbleNum S k) • w k := by
    intro x hx
    rw [State.combine, hL.sum _ fun i hi hb => by rw [hx i hi hb, zero_smul], hNb]
    exact Finset.sum_congr rfl fun k hk => by rw [hvb k (mem_range.1 hk)]
  refine ⟨R, v, bs, z0, hA, hso, ⟨hL.num, ?_, ?_, hL.boundary, ?_, ?_, ?_⟩, hL, hon, hini, hsto, ?_⟩
  · intro i hi hbi j hj hbj
    obtain ⟨k, hk, rfl⟩ := hcov i hi hbi
    obtain ⟨l, hl, rfl⟩ := hcov j hj hbj
    rw [hvb k hk, hvb l hl]
    exact (hmat k hk l hl).trans hle
  · intro i hi hbi
    obtain ⟨k, hk, rfl⟩ := hcov i hi hbi
    rw [hvb k hk]
    exact (hrhs k hk).trans hle
  · intro i hi hbi
    obtain ⟨k, hk, rfl⟩ := hcov i hi hbi
    rw [hvb k hk, hSp]
    exact ⟨hw.vanish k hk, hw.degree k hk⟩
  · intro x hx hz i hi
    by_cases hbi : S.BoundaryNumber i
    · exact hx i hi hbi
    obtain ⟨k, hk, rfl⟩ := hcov i hi hbi
    rw [hcomb x hx] at hz
    exact hw.independent hκ hz k hk
  · intro z hz hd
    rw [hSp] at hd
    obtain ⟨c, hc⟩ := hw.span hκ ha hb hz hd
    have hpick : ∀ j : Fin N, (∑ l : Fin N, if bubbleNum S l = bubbleNum S j then c l else 0) = c j := by
      intro j
      rw [Finset.sum_eq_single j]
      · rw [if_pos rfl]
      · intro l _ hl
        rw [if_neg fun e => hl (Fin.ext (hL.inj l (hlN l.2) j (hlN j.2) e))]
      · exact fun hn => absurd (Finset.mem_univ j) hn
    have hzero : ∀ i < R.numFuns, S.BoundaryNumber i → (∑ l : Fin N, if bubbleNum S l = i then c l else 0) = 0 := by
      intro i hi hbd
      refine Finset.sum_eq_zero fun l _ => ?_
      rw [if_neg]
      rintro rfl
      exact (hL.free l (hlN l.2)).2 hbd
    refine ⟨fun i => ∑ l : Fin N, if bubbleNum S l = i then c l else 0, hzero, ?_⟩
    rw [hcomb _ hzero, Finset.sum_range, ← hc]
    exact Finset.sum_congr rfl fun j _ => by rw [hpick]
  intro hsmall
  have hε0 : 0 ≤ M0 * ρ := mul_nonneg hM0 hρ0
  have hCε : C * (M0 * ρ) ≤ 1 := by
    refine le_trans ?_ hsmall
    rw [← mul_assoc]
    exact mul_le_mul_of_nonneg_right (by linarith) hρ0
  obtain ⟨q1, q2, q3⟩ := hper (M0 * ρ) (fun k l : Fin N => R.globMat (bubbleNum S k) (bubbleNum S l)) (fun k : Fin N => R.globRhs (bubbleNum S k)) hε0
    (fun k l => hmat k k.2 l l.2) (fun k => hrhs k k.2) hCε
  -- boundary coefficients
  have hbz : ∀ x, R.Solves x → ∀ i < R.numFuns, S.BoundaryNumber i → x i = 0 := by
    intro x hx i hi hbi
    obtain ⟨b1, b2, b3⟩ := hL.boundary i hi hbi
    have := hx i hi
    rw [b3, Finset.sum_eq_single i (fun j _ hj => by rw [b2 j hj, zero_mul]) fun hn => absurd (mem_range.2 hi) hn] at this
    exact (mul_eq_zero.1 this).resolve_left b1.ne'
  have hred : ∀ x : ℕ → ℝ, (∀ i < R.numFuns, S.BoundaryNumber i → x i = 0) → ∀ i,
      ∑ j ∈ range R.numFuns, R.globMat i j * x j = ∑ l : Fin N, R.globMat i (bubbleNum S l) * x (bubbleNum S l) := by
    intro x hx i
    rw [hL.sum _ fun j hj hbj => by rw [hx j hj hbj, mul_zero], hNb, Finset.sum_range]
  have hsol : ∀ x, R.Solves x → ∀ k : Fin N, ∑ l : Fin N, R.globMat (bubbleNum S k) (bubbleNum S l) * x (bubbleNum S l) = R.globRhs (bubbleNum S k) := by
    intro x hx k
    rw [← hred x (hbz x hx)]
    exact hx _ (hL.free k (hlN k.2)).1
  refine ⟨?_, fun x hx => ⟨fun x' hx' i hi => ?_, hbz x hx, fun k => ?_, fun X Y hXY => ?_⟩⟩
  · obtain ⟨c, hc⟩ := q1
    have hpick : ∀ j : Fin N, (∑ l : Fin N, if bubbleNum S l = bubbleNum S j then c l else 0) = c j := by
      intro j
      rw [Finset.sum_eq_single j]
      · rw [if_pos rfl]
      · intro l _ hl
        rw [if_neg fun e => hl (Fin.ext (hL.inj l (hlN l.2) j (hlN j.2) e))]
      · exact fun hn => absurd (Finset.mem_univ j) hn
    have hzero : ∀ i < R.numFuns, S.BoundaryNumber i → (∑ l : Fin N, if bubbleNum S l = i then c l else 0) = 0 := by
      intro i hi hbd
      refine Finset.sum_eq_zero fun l _ => ?_
      rw [if_neg]
      rintro rfl
      exact (hL.free l (hlN l.2)).2 hbd
    refine ⟨fun i => ∑ l : Fin N, if bubbleNum S l = i then c l else 0, fun i hi => ?_⟩
    by_cases hbi : S.BoundaryNumber i
    · obtain ⟨b1, b2, b3⟩ := hL.boundary i hi hbi
      rw [b3, Finset.sum_eq_single i (fun j _ hj => by rw [b2 j hj, zero_mul]) fun hn => absurd (mem_range.2 hi) hn]
      beta_reduce
      rw [hzero i hi hbi, mul_zero]
    · obtain ⟨k, hk, rfl⟩ := hcov i hi hbi
      rw [hred _ hzero, ← hc ⟨k, hk⟩]
      exact Finset.sum_congr rfl fun l _ => by rw [hpick]
  · by_cases hbi : S.BoundaryNumber i
    · rw [hbz x hx i hi hbi, hbz x' hx' i hi hbi]
    · obtain ⟨k, hk, rfl⟩ := hcov i hi hbi
      exact congrFun (q2 (fun k => x (bubbleNum S k)) (fun k => x' (bubbleNum S k)) (hsol x hx) (hsol x' hx')) ⟨k, hk⟩
  · refine (q3 (fun k => x (bubbleNum S k)) (hsol x hx) k).trans ?_
    rw [← mul_assoc]
    exact mul_le_mul_of_nonneg_right (by linarith) hρ0
  · have e1 := q3 (fun k => x (bubbleNum S k)) (hsol x hx)
    rw [hcomb x (hbz x hx), Finset.sum_range, hw0]
    have e2 : ∀ c : Fin N → ℝ, Poly2.ev (∑ k : Fin N, c k • w k) X Y = ∑ k : Fin N, c k * Poly2.ev (w k) X Y := fun c => by
      simp only [Poly2.ev, map_sum]
      exact Finset.sum_congr rfl fun k _ => by rw [MvPolynomial.smul_eval]
    rw [e2, e2, ← Finset.sum_sub_distrib]
    refine (Finset.abs_sum_le_sum_abs _ _).trans ?_
    have e3 : ∀ k ∈ (Finset.univ : Finset (Fin N)), |x (bubbleNum S k) * Poly2.ev (w k) X Y - y k * Poly2.ev (w k) X Y| ≤ C * (M0 * ρ) * W k := fun k _ => by
      rw [← sub_mul, abs_mul]
      exact mul_le_mul (e1 k) (hW k X Y hXY) (abs_nonneg _) (by positivity)
    refine (Finset.sum_le_sum e3).trans ?_
    rw [← Finset.mul_sum, ← hWW]
    nlinarith [mul_nonneg hX2 hρ0, mul_nonneg hX1 hρ0]

/-- C125: on meshes that consist of one ellipse, with any history of the space, assembly succeeds, and the assembled system is the Galerkin system
of the polynomials of degree at most `p` that vanish on the ellipse, up to errors of at most `M r ^ (2 n - p)`, where `r = |a - b| / (a + b)` and
`M` depends on the ellipse, the form and `p`, not on the number of samples.  As soon as this bound is at most 1, the system has exactly one
solution; its coefficients for boundary functions are 0; and the function with these coefficients differs nowhere in the ellipse by more than
`M r ^ (2 n - p)` from the exact Galerkin solution `w` (for which see C125_poly and C125_best). -/
theorem C125_ellipse (x0 y0 : ℝ) {a b : ℝ} (ha : 0 < a) (hb : 0 < b) {B : BilinForm} (hD : 0 < B.diffusion) (hR : 0 ≤ B.reaction) {p : ℕ} {δ : ℝ}
    (hδ : 1 / 10 ^ 12 ≤ δ * δ) (hbub : ∀ k < p * (p - 1) / 2, BubbleExact (x0, y0) (Real.pi * a * b) δ k) {n0 : ℕ} (hB : LoadExact B n0 δ) :
    ∃ (w : Poly2) (M : ℝ), GalerkinSol B x0 y0 a b p w ∧
      ∀ (S : Setup ℝ) (E : Env) (K : CellG) (n : ℕ) (s : GlobFunSp ℝ) (soln : Option (List ℝ)), S.p = p → EllipseMesh S E K x0 y0 a b n →
        (∀ m ∈ B.rhsPoly, m.alpha.x + m.alpha.y + 1 < n) → S.Hist s → 0 < S.s0.numFuns →
        ∃ R v, assemble E B s soln = .ok R ∧ R.soln = soln ∧ R.NearGalerkin S B x0 y0 a b v (M * flatness a b ^ (2 * n - p)) ∧
          (M * flatness a b ^ (2 * n - p) ≤ 1 → (∃ x, R.Solves x) ∧ ∀ x, R.Solves x →
            (∀ x', R.Solves x' → ∀ i < R.numFuns, x i = x' i) ∧ (∀ i < R.numFuns, S.BoundaryNumber i → x i = 0) ∧
            ∀ X Y, ((X - x0) / a) ^ 2 + ((Y - y0) / b) ^ 2 ≤ 1 →
              |Poly2.ev (R.combine v x) X Y - Poly2.ev w X Y| ≤ M * flatness a b ^ (2 * n - p)) := by
  obtain ⟨u, m, p', P, y, w, M, -, h1, -, -, h2⟩ := ellipse_core x0 y0 ha hb hD hR hδ hbub hB
  refine ⟨w, M, h1, fun S E K n s soln hSp h hdg hs h0 => ?_⟩
  obtain ⟨R, v, bs, z, k1, k2, k3, -, -, -, -, k4⟩ := h2 S E K n s soln hSp h hdg hs h0
  refine ⟨R, v, k1, k2, k3, fun hsm => ⟨(k4 hsm).1, fun x hx => ?_⟩⟩
  obtain ⟨j1, j2, -, j3⟩ := (k4 hsm).2 x hx
  exact ⟨j1, j2, j3⟩

end SolverG
end PFEM
