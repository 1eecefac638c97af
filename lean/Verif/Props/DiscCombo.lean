import Verif.Props.Combo
import Verif.Props.DiscSolve

/-!
C84 on a disc: boundary values of linear combinations are exact, interior values converge.
-/

namespace PFEM
namespace SolverG

open LocSpaceG Finset Nystrom Poly

/-- without interior values none are stored -/
theorem poissonInit_bare {gmres : Gmres} {s : Nystrom.Solver} {f : Poly ℝ} {tr : LocPoisson.TraceOr} {F : LocPoisson}
    (h : LocPoisson.init gmres (some s) f tr false false = .ok F) : F.intVals = none := by
  simp only [LocPoisson.init] at h
  obtain ⟨P, -, h⟩ := bind_ok h
  obtain ⟨p, -, h⟩ := bind_ok h
  obtain ⟨t, -, h⟩ := bind_ok h
  obtain ⟨a, -, h⟩ := bind_ok h
  obtain ⟨pt, -, h⟩ := bind_ok h
  obtain ⟨b, -, h⟩ := bind_ok h
  obtain ⟨d, -, h⟩ := bind_ok h
  obtain ⟨ht, -, h⟩ := bind_ok h
  obtain ⟨k, -, h⟩ := bind_ok h
  simp only [Bool.or_self, Bool.false_eq_true, if_false] at h
  cases h
  rfl

/-- the Laplacian of a polynomial has one canonical list -/
theorem problem_unique {u f p P f' p' P' : Poly ℝ} (h : PolyProblem u f p P) (h' : PolyProblem u f' p' P') : f = f' :=
  h.canonical.ext h'.canonical fun a => coeffOf_of_toMv ((lap_of_hasLaplacian h.solution).symm.trans (lap_of_hasLaplacian h'.solution)) a

/-- one constant for each polynomial bounds the errors of all objects made for it -/
theorem made_rate (x0 y0 : ℝ) {r : ℝ} (hr : 1 / 10 ^ 14 ≤ r) : ∃ C : Poly2 → ℝ, (∀ w, 0 ≤ C w) ∧
    ∀ (gmres : Gmres) (K : CellG) (s : Nystrom.Solver) (n : ℕ) (δ : ℝ) (F : LocPoisson) (w : Poly2), OnDisc gmres K s x0 y0 r n →
      MadeFor gmres K s n δ F w → F.traceValues = .ok (K.samplesOf (Poly2.ev w)) ∧ ∀ vs, F.intVals = some vs →
      ∃ U : ℝ × ℝ → ℝ, vs = K.interior.map U ∧ ∀ y ∈ K.interior,
        |U y - Poly2.ev w y.1 y.2| ≤ C w * (discRatio x0 y0 r y ^ (2 * n) / (1 - discRatio x0 y0 r y ^ (2 * n))) := by
  have key : ∀ w : Poly2, ∃ B : ℝ, 0 ≤ B ∧ ∀ (gmres : Gmres) (K : CellG) (s : Nystrom.Solver) (n : ℕ) (δ : ℝ) (F : LocPoisson),
      OnDisc gmres K s x0 y0 r n → MadeFor gmres K s n δ F w → F.traceValues = .ok (K.samplesOf (Poly2.ev w)) ∧ ∀ vs, F.intVals = some vs →
      ∃ U : ℝ × ℝ → ℝ, vs = K.interior.map U ∧ ∀ y ∈ K.interior,
        |U y - Poly2.ev w y.1 y.2| ≤ B * (discRatio x0 y0 r y ^ (2 * n) / (1 - discRatio x0 y0 r y ^ (2 * n))) := by
    intro w
    by_cases hw : ∃ f p P, PolyProblem (Poly2.toList w) f p P
    · obtain ⟨f, p, P, hw⟩ := hw
      obtain ⟨B, hB⟩ := C77_poisson x0 y0 hr hw.canonical hw.anti hw.antiExact hw.solution (by rw [toList_eval]; exact Poly2.hasGrad w)
        (d := w.totalDegree) (fun m hm => Poly2.deg_toList w hm)
      refine ⟨|B|, abs_nonneg B, ?_⟩
      rintro gmres K s n δ F h ⟨f', p', P', tr, ei, eg, a1, a2, a3, a4, a5⟩
      obtain rfl := problem_unique hw a1
      obtain ⟨st, pc, hs⟩ := h.solver
      obtain ⟨F', hF', ht, hi, -⟩ := hB gmres K n st pc s tr h.exact h.finds h.disc h.corners h.low h.high a2 hs
        (by rw [toList_eval]; exact a4) h.inside ei eg
      rw [a5] at hF'
      cases hF'
      rw [toList_eval] at ht hi
      refine ⟨ht, fun vs hvs => ?_⟩
      have he : (ei || eg) = true := by
        by_contra hne
        obtain ⟨rfl, rfl⟩ : ei = false ∧ eg = false := by simpa using hne
        rw [poissonInit_bare a5] at hvs
        cases hvs
      obtain ⟨U, hU, hUe⟩ := hi he
      rw [hU] at hvs
      cases hvs
      refine ⟨U, rfl, fun y hy => (hUe y hy).trans (mul_le_mul_of_nonneg_right (le_abs_self B) ?_)⟩
      have hr0 : 0 < r := lt_of_lt_of_le (by norm_num) hr
      have h0 : 0 ≤ discRatio x0 y0 r y := by unfold discRatio; positivity
      have h1 : discRatio x0 y0 r y < 1 := by
        unfold discRatio
        rw [div_lt_one hr0, Real.sqrt_lt' hr0]
        exact h.inside y hy
      have h2 : discRatio x0 y0 r y ^ (2 * n) ≤ 1 := pow_le_one₀ h0 h1.le
      exact div_nonneg (pow_nonneg h0 _) (by linarith)
    · refine ⟨0, le_rfl, ?_⟩
      rintro gmres K s n δ F h ⟨f', p', P', tr, ei, eg, a1, -⟩
      exact absurd ⟨_, _, _, a1⟩ hw
  choose C h1 h2 using key
  exact ⟨C, h1, fun gmres K s n δ F w => h2 w gmres K s n δ F⟩

theorem used_le (u : List ℝ) (i : ℕ) : |used u i| ≤ |u.getD i 0| := by
  unfold used
  split_ifs
  · rw [abs_zero]; exact abs_nonneg _
  · exact le_rfl

theorem ev_combine (R : State) (v : ℕ → Poly2) (x : ℕ → ℝ) (a b : ℝ) :
    Poly2.ev (R.combine v x) a b = ∑ i ∈ range R.numFuns, x i * Poly2.ev (v i) a b := by
  simp [State.combine, Poly2.ev, map_sum, MvPolynomial.smul_eval]

theorem sum_fs {fs : List Fn} {N : ℕ} (h : (fs.map glob).Perm (List.range N)) (φ : ℕ → ℝ) : (fs.map fun f => φ (glob f)).sum = ∑ i ∈ range N, φ i := by
  have e : (fs.map fun f => φ (glob f)) = (fs.map glob).map φ := by rw [List.map_map]; rfl
  rw [e, (h.map φ).sum_eq, Finset.sum_range, ← List.sum_ofFn]
  congr 1
  rw [List.ofFn_eq_map]
  simp [← List.map_coe_finRange_eq_range, Function.comp_def]

theorem abs_sum_fs (fs : List Fn) {φ ψ : Fn → ℝ} (h : ∀ f ∈ fs, |φ f| ≤ ψ f) : |(fs.map φ).sum| ≤ (fs.map ψ).sum := by
  induction fs with
  | nil => simp
  | cons f fs ih =>
    rw [List.map_cons, List.map_cons, List.sum_cons, List.sum_cons]
    exact (abs_add_le _ _).trans (add_le_add (h f (by simp)) (ih fun g hg => h g (by simp [hg])))

theorem sum_map_sub' (fs : List Fn) (φ ψ : Fn → ℝ) : (fs.map φ).sum - (fs.map ψ).sum = (fs.map fun f => φ f - ψ f).sum := by
  induction fs with
  | nil => simp
  | cons f fs ih =>
    simp only [List.map_cons, List.sum_cons, ← ih]
    ring

/-- C84 on a disc: there are constants, one for each polynomial and depending on the disc only, such that on every mesh that consists of this disc,
whatever the discretization, assembly succeeds with Galerkin functions `v`, and the linear combination of the basis functions with coefficients `u`
exists, has exactly the boundary values of `∑ uᵢ vᵢ` (coefficients below `1e-4` dropped), and its interior values differ from those of this function
at a point at distance `ρ r` from the centre by at most `(C 0 + ∑ |uᵢ| C vᵢ) ρ^2n / (1 - ρ^2n)`. -/
theorem C84_disc (x0 y0 : ℝ) {r : ℝ} (hr : 1 / 10 ^ 14 ≤ r) : ∃ C : Poly2 → ℝ, (∀ w, 0 ≤ C w) ∧
    ∀ (S : Setup ℝ) (E : Env) (K : CellG) (n : ℕ) (δ : ℝ) (B : BilinForm) (s : GlobFunSp ℝ) (soln : Option (List ℝ)),
      DiscMesh S E K x0 y0 r n δ → E.evalInt = true → LoadExact B n δ → S.Hist s → 0 < S.s0.numFuns →
      ∃ R v, assemble E B s soln = .ok R ∧ R.Galerkin S B x0 y0 r v ∧
        ∀ c ∈ S.m.cellIdxList, ∀ t, S.Reach R.space t → ∀ u : List ℝ, R.numFuns ≤ u.length →
          ∃ w, linearCombo E { R with space := t } c u = .ok w ∧ w.traceValues = .ok (K.samplesOf (Poly2.ev (R.combine v (used u)))) ∧
          ∃ U : ℝ × ℝ → ℝ, w.intVals = some (K.interior.map U) ∧ ∀ y ∈ K.interior,
            |U y - Poly2.ev (R.combine v (used u)) y.1 y.2| ≤
              (C 0 + ∑ i ∈ range R.numFuns, |used u i| * C (v i)) * (discRatio x0 y0 r y ^ (2 * n) / (1 - discRatio x0 y0 r y ^ (2 * n))) := by
  obtain ⟨C, hC0, hC⟩ := made_rate x0 y0 hr
  refine ⟨C, hC0, ?_⟩
  intro S E K n δ B s soln h hei hB hs h0
  have hr0 : 0 < r := lt_of_lt_of_le (by norm_num) hr
  obtain ⟨R, hR, -, v, hG, hstore⟩ := h.galerkin hB hs h0 soln
  obtain ⟨z, fs, hloc, hperm, hon, hmade⟩ := hstore hei
  refine ⟨R, v, hR, hG, ?_⟩
  intro c hc t ht u hu
  obtain ⟨c', -, -, -, -, -, -, -, hcl, -⟩ := h.space
  rw [hcl, List.mem_singleton] at hc
  subst hc
  have hac : S.m.cellIdxList[0]? = some c := by rw [hcl]; rfl
  obtain ⟨D, hD, hl, hw, -⟩ := C84_combo h.cells h.fits hei hs hR ht hac (fun c k b K' hk hg => by
    rw [h.geo c k b hk] at hg
    cases hg
    exact fun hn => absurd h.disc.numHoles hn) (u := u) (by rw [← hG.num]; exact hu)
  rw [hloc] at hl
  simp only [List.getElem?_cons_zero, Option.some.injEq, Prod.mk.injEq] at hl
  obtain ⟨hK, hfs⟩ := hl
  rw [← hK] at hw
  -- the function the sum starts from
  obtain ⟨s0, hs0⟩ := fft_init E.gmres h.disc hr0 h.low h.high
  have hon0 : OnDisc E.gmres K s0 x0 y0 r n := ⟨h.exact, h.finds, h.disc, h.corners, h.radius, h.low, h.high, h.inside, _, _, hs0⟩
  obtain ⟨w0, hw0, hm0⟩ := makeFor (δ := δ) hon0 (w := 0) (f := []) (p := []) (P := []) (harmonic_problem (by simp [Poly2.lap]))
    (by have := h.low; simp; omega) (by intro m hm; cases hm) (tr := .value (.num 0)) (by
      show _ = _
      simp [CellG.samplesOf, h.disc.ready.numPts, Poly2.ev]) true true
  obtain ⟨w, hw1, hW, hent, vt, hvt, hvl, hvk⟩ := hw w0 (by rw [zeroFn, hs0, py_ok_bind]; exact hw0)
  refine ⟨w, hw1, ?_, ?_⟩
  · rw [hvt]
    congr 1
    obtain ⟨z', A, -, -, hst⟩ := hD.stands
    have hlen : vt.length = (K.samplesOf (Poly2.ev (R.combine v (used u)))).length := by
      rw [hvl, CellG.samplesOf, List.length_map, ← h.disc.ready.numPts]
    refine List.ext_getElem hlen fun k h1 h2 => ?_
    have e := hvk k
    rw [List.getD_eq_getElem _ _ h1] at e
    rw [e]
    have e2 : ∀ l ∈ D.funs, K.edgewise l.traces = K.samplesOf (Poly2.ev (v l.glob)) := by
      intro l hl
      have h3 := (hst l hl).trace
      have h4 := (hC _ _ _ _ _ _ _ hon (hmade ⟨l.key, D.obj l.glob⟩ (by rw [hfs]; exact List.mem_map_of_mem hl))).1
      rw [hK] at h4 ⊢
      rw [h4] at h3
      exact (Except.ok.inj h3).symm
    have hk : k < K.cols.length := by rw [CellG.samplesOf, List.length_map] at h2; exact h2
    have e3 : D.funs.map (fun l => used u l.glob * (K.edgewise l.traces).getD k 0) =
        fs.map fun f => (fun i => used u i * Poly2.ev (v i) K.cols[k].x K.cols[k].y) (glob f) := by
      rw [hfs, List.map_map]
      refine List.map_congr_left fun l hl => ?_
      rw [e2 l hl, List.getD_eq_getElem _ _ (by rw [CellG.samplesOf, List.length_map]; exact hk)]
      simp only [CellG.samplesOf, List.getElem_map]
      rfl
    rw [e3, sum_fs hperm fun i => used u i * Poly2.ev (v i) K.cols[k].x K.cols[k].y]
    simp only [CellG.samplesOf, List.getElem_map, ev_combine]
  · obtain ⟨vs, hvs, hvsl⟩ := hW.items .interior
    have hvs' : w.intVals = some vs := hvs
    have hvsl' : vs.length = K.interior.length := hvsl
    have hlf : LogsFit E.gmres K := fun hn => absurd h.disc.numHoles hn
    have hi0 : ∃ U0 : ℝ × ℝ → ℝ, w0.intVals = some (K.interior.map U0) ∧ ∀ y ∈ K.interior,
        |U0 y| ≤ C 0 * (discRatio x0 y0 r y ^ (2 * n) / (1 - discRatio x0 y0 r y ^ (2 * n))) := by
      obtain ⟨x, hx, -⟩ := ((poissonInit_on h.disc.ready hlf hs0 hw0).2 rfl).items .interior
      obtain ⟨U0, hU0, hb⟩ := (hC _ _ _ _ _ _ _ hon0 hm0).2 x hx
      refine ⟨U0, by rw [← hU0]; exact hx, fun y hy => ?_⟩
      have := hb y hy
      simpa [Poly2.ev] using this
    obtain ⟨U0, hU0, hb0⟩ := hi0
    have hif : ∀ f ∈ fs, ∃ U : ℝ × ℝ → ℝ, f.val.intVals = some (K.interior.map U) ∧ ∀ y ∈ K.interior,
        |U y - Poly2.ev (v (glob f)) y.1 y.2| ≤ C (v (glob f)) * (discRatio x0 y0 r y ^ (2 * n) / (1 - discRatio x0 y0 r y ^ (2 * n))) := by
      intro f hf
      obtain ⟨m, hm, hby⟩ := assemble_stored hR K fs (by rw [hloc]; simp)
      obtain ⟨p, tr, hp⟩ := hby f hf
      obtain ⟨x, hx, -⟩ := ((poissonInit_on h.disc.ready hlf hm hp).2 (by simp [hei])).items .interior
      obtain ⟨U, hU, hb⟩ := (hC _ _ _ _ _ _ _ hon (hmade f hf)).2 x hx
      exact ⟨U, by rw [← hU]; exact hx, hb⟩
    choose! U hU hb using hif
    have hent' : ∀ k (hk : k < K.interior.length), vs.getD k 0 = U0 K.interior[k] + (fs.map fun f => used u (glob f) * U f K.interior[k]).sum := by
      intro k hk
      have e := hent .interior k
      have hg : ∀ (F : LocPoisson) (V : ℝ × ℝ → ℝ), F.intVals = some (K.interior.map V) → F.entry .interior k = V K.interior[k] := by
        intro F V hF
        simp only [LocPoisson.entry, LocPoisson.item, hF, Option.getD_some]
        rw [List.getD_eq_getElem _ _ (by simpa using hk), List.getElem_map]
      have e1 : w.entry .interior k = vs.getD k 0 := by simp only [LocPoisson.entry, LocPoisson.item, hvs', Option.getD_some]
      rw [e1, hg w0 U0 hU0] at e
      rw [e]
      congr 2
      rw [hfs, List.map_map]
      refine List.map_congr_left fun l hl => ?_
      have hmem : (⟨l.key, D.obj l.glob⟩ : Fn) ∈ fs := by rw [hfs]; exact List.mem_map_of_mem hl
      rw [hg _ _ (hU _ hmem)]
      rfl
    refine ⟨fun y => U0 y + (fs.map fun f => used u (glob f) * U f y).sum, ?_, fun y hy => ?_⟩
    · rw [hvs']
      congr 1
      refine List.ext_getElem (by simp [hvsl']) fun k h1 h2 => ?_
      have := hent' k (by rw [← hvsl']; exact h1)
      rw [List.getD_eq_getElem _ _ h1] at this
      rw [this, List.getElem_map]
    · set q := discRatio x0 y0 r y ^ (2 * n) / (1 - discRatio x0 y0 r y ^ (2 * n)) with hq
      rw [ev_combine, ← sum_fs hperm (fun i => used u i * Poly2.ev (v i) y.1 y.2), add_sub_assoc, add_mul]
      refine (abs_add_le _ _).trans (add_le_add (hb0 y hy) ?_)
      rw [← sum_fs hperm (fun i => |used u i| * C (v i)), sum_map_sub', ← List.sum_map_mul_right]
      refine abs_sum_fs fs fun f hf => ?_
      rw [← mul_sub, abs_mul, mul_assoc]
      exact mul_le_mul_of_nonneg_left (hb f hf y hy) (abs_nonneg _)

/-- C84 for the computed solution: if the problem has a polynomial solution `p` of degree at most the order of the space that vanishes on the
circle, the linear combination with the coefficients that `solve` stores is zero on the boundary, and its
interior values differ from those of `p` by at most `(C 0 + ∑ |xᵢ| C vᵢ) ρ^2n / (1 - ρ^2n)` and `1e-4 ∑ |vᵢ|`. -/
theorem C84_solution (x0 y0 : ℝ) {r : ℝ} (hr : 1 / 10 ^ 14 ≤ r) : ∃ C : Poly2 → ℝ, (∀ w, 0 ≤ C w) ∧
    ∀ (S : Setup ℝ) (E : Env) (K : CellG) (n : ℕ) (δ : ℝ) (B : BilinForm) (s : GlobFunSp ℝ)
      (spsolve : (ℕ → ℕ → ℝ) → (ℕ → ℝ) → ℕ → List ℝ) (p : Poly2),
      DiscMesh S E K x0 y0 r n δ → E.evalInt = true → LoadExact B n δ → 0 < B.diffusion → 0 ≤ B.reaction → S.Hist s → 0 < S.s0.numFuns →
      (∀ A b N, (∃ x : ℕ → ℝ, ∀ i < N, ∑ j ∈ range N, A i j * x j = b i) →
        (spsolve A b N).length = N ∧ ∀ i < N, ∑ j ∈ range N, A i j * (spsolve A b N).getD j 0 = b i) →
      Pde B p → Poly2.VanishOn x0 y0 r p → p.totalDegree ≤ S.p →
      ∃ R v x, init E B s = .ok R ∧ R.Galerkin S B x0 y0 r v ∧ (solve spsolve R).soln = some x ∧
        ∀ c ∈ S.m.cellIdxList, ∃ w, linearCombo E (solve spsolve R) c x = .ok w ∧
          (∃ vs, w.traceValues = .ok vs ∧ vs.length = K.numPts ∧ ∀ y ∈ vs, y = 0) ∧
          ∃ U : ℝ × ℝ → ℝ, w.intVals = some (K.interior.map U) ∧ ∀ y ∈ K.interior, |U y - Poly2.ev p y.1 y.2| ≤
            (C 0 + ∑ i ∈ range R.numFuns, |x.getD i 0| * C (v i)) * (discRatio x0 y0 r y ^ (2 * n) / (1 - discRatio x0 y0 r y ^ (2 * n))) +
            1 / 10 ^ 4 * ∑ i ∈ range R.numFuns, |Poly2.ev (v i) y.1 y.2| := by
  obtain ⟨C, hC0, hC⟩ := C84_disc x0 y0 hr
  refine ⟨C, hC0, ?_⟩
  intro S E K n δ B s spsolve p h hei hB hD hR hs h0 hsp hp hv hd
  have hr0 : 0 < r := lt_of_lt_of_le (by norm_num) hr
  obtain ⟨R, v, h1, h2, h3⟩ := hC S E K n δ B s none h hei hB hs h0
  obtain ⟨g1, g2⟩ := hsp R.globMat R.globRhs R.numFuns (solution_exists h2 hr0 hD hR)
  set x := spsolve R.globMat R.globRhs R.numFuns with hx
  have hcomb : R.combine v (fun i => x.getD i 0) = p := reproduces h2 hr0 hD hR g2 hp hv hd
  have hbd := Solves.boundary h2 (rhs_boundary h2) g2
  refine ⟨R, v, x, h1, h2, rfl, fun c hc => ?_⟩
  obtain ⟨w, k1, k2, U, k3, k4⟩ := h3 c hc R.space .refl x (by rw [g1])
  refine ⟨w, k1, ⟨_, k2, by rw [CellG.samplesOf, List.length_map, h.disc.ready.numPts], fun y hy => ?_⟩, U, k3, fun y hy => ?_⟩
  · simp only [CellG.samplesOf, h.disc.cols, List.map_map, List.mem_map, Function.comp] at hy
    obtain ⟨j, -, rfl⟩ := hy
    rw [ev_combine]
    refine Finset.sum_eq_zero fun i hi => ?_
    by_cases hb : S.BoundaryNumber i
    · have : x.getD i 0 = 0 := hbd i (Finset.mem_range.1 hi) hb
      rw [used, this, ite_self, zero_mul]
    · exact mul_eq_zero_of_right _ ((h2.vanish i (Finset.mem_range.1 hi) hb).1 _)
  · set q := discRatio x0 y0 r y ^ (2 * n) / (1 - discRatio x0 y0 r y ^ (2 * n)) with hq
    have hq0 : 0 ≤ q := by
      have e0 : 0 ≤ discRatio x0 y0 r y := by unfold discRatio; positivity
      have e1 : discRatio x0 y0 r y < 1 := by
        unfold discRatio
        rw [div_lt_one hr0, Real.sqrt_lt' hr0]
        exact h.inside y hy
      exact div_nonneg (pow_nonneg e0 _) (by linarith [pow_le_one₀ (n := 2 * n) e0 e1.le])
    have a1 := k4 y hy
    have a2 : |Poly2.ev (R.combine v (used x)) y.1 y.2 - Poly2.ev p y.1 y.2| ≤ 1 / 10 ^ 4 * ∑ i ∈ range R.numFuns, |Poly2.ev (v i) y.1 y.2| := by
      have := C84_dropped x (List.range R.numFuns) id fun i => Poly2.ev (v i) y.1 y.2
      rw [← hcomb, ev_combine, ev_combine]
      simpa only [Finset.sum_range, Fin.sum_univ_def, ← List.map_coe_finRange_eq_range, List.map_map, Function.comp_def, id] using this
    have a3 : (C 0 + ∑ i ∈ range R.numFuns, |used x i| * C (v i)) * q ≤ (C 0 + ∑ i ∈ range R.numFuns, |x.getD i 0| * C (v i)) * q := by
      refine mul_le_mul_of_nonneg_right ?_ hq0
      exact add_le_add le_rfl (Finset.sum_le_sum fun i _ => mul_le_mul_of_nonneg_right (used_le x i) (hC0 _))
    calc |U y - Poly2.ev p y.1 y.2| = |(U y - Poly2.ev (R.combine v (used x)) y.1 y.2) + (Poly2.ev (R.combine v (used x)) y.1 y.2 - Poly2.ev p y.1 y.2)| := by
          congr 1; ring
      _ ≤ _ := (abs_add_le _ _).trans (add_le_add (a1.trans a3) a2)

/-- C84 applies to the unit disc: combinations of the five basis functions can be formed and have the boundary values of the combined polynomials. -/
example : ∃ R v w, assemble loopEnv loopForm loopSetup.s0 none = .ok R ∧ R.Galerkin loopSetup loopForm 0 0 1 v ∧
    (∃ c ∈ loopSetup.m.cellIdxList, linearCombo loopEnv R c [1, 2, 3, 4, 5] = .ok w) ∧
    w.traceValues = .ok ((sampledDiscIn 16).samplesOf (Poly2.ev (v 0 + 2 * v 1 + 3 * v 2 + 4 * v 3 + 5 * v 4))) := by
  obtain ⟨C, -, hC⟩ := C84_disc 0 0 (r := 1) (by norm_num)
  obtain ⟨R, v, h1, h2, h3⟩ := hC _ _ _ _ _ loopForm loopSetup.s0 none loop_disc rfl loop_load .refl (by rw [loop_num]; norm_num)
  obtain ⟨c, -, -, -, -, -, -, -, hcl, -⟩ := loop_disc.space
  have hn : R.numFuns = 5 := by rw [h2.num, loop_num]
  obtain ⟨w, k1, k2, -⟩ := h3 c (by rw [hcl]; simp) R.space .refl [1, 2, 3, 4, 5] (by rw [hn]; simp)
  refine ⟨R, v, w, h1, h2, ⟨c, by rw [hcl]; simp, k1⟩, ?_⟩
  rw [k2]
  congr 2
  funext a b
  rw [ev_combine, hn]
  have e : ∀ i < 5, used [1, 2, 3, 4, 5] i = i + 1 := by
    intro i hi
    interval_cases i <;> norm_num [used]
  simp only [Finset.sum_range_succ, Finset.sum_range_zero]
  rw [e 0 (by norm_num), e 1 (by norm_num), e 2 (by norm_num), e 3 (by norm_num), e 4 (by norm_num)]
  simp [Poly2.ev]
  ring

end SolverG
end PFEM
