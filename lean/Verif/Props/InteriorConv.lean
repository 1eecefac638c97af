import Verif.Lemmas.CauchyRegion
import Verif.Lemmas.Family
import Verif.Props.AreaInner

/-!
Property theorems C103: interior values and gradients converge to those of the function whose data the local function holds, uniformly on compact
sets inside the region.
-/

namespace PFEM
open Set MeasureTheory

/-! ### the number of samples of an edge -/

theorem sampled_length {n p : ℤ} {d : Quad × Quad} (hd : getQuadDict n p = .ok d) {q : EdgeG × ℤ} {C0 : PCurve} (hC : q.1.Follows C0)
    (hdi : ∀ o ∈ q.1.diary, o.Good) {e' : EdgeG} (hs : SampledFrom d q e') : e'.cols.length = 2 * n.toNat := by
  obtain ⟨e1, h1, h2⟩ := hs
  have key : ∃ acts : List EdgeAct, (∀ a ∈ acts, a.Good) ∧ e1.run acts = .ok e' := by
    by_cases hq : q.2 = -1
    · exact ⟨[.reverse], by simp [EdgeAct.Good], by rw [h2, if_pos hq]; rfl⟩
    · exact ⟨[], by simp, by rw [h2, if_neg hq]; rfl⟩
  obtain ⟨acts, hac, h3⟩ := key
  obtain ⟨hn4, -, lam, W, hr, hpts⟩ := follows_pts hd hC hdi hac h1 h3
  simp only [EdgeG.cols, hpts, Option.getD_some, PCurve.samples, List.length_dropLast, List.length_map, List.length_range]
  omega

/-- all edges of a parameterized cell have `2n` samples -/
theorem equal_edges {n p : ℤ} {d : Quad × Quad} (hd : getQuadDict n p = .ok d) {inside : InsideTest} {fuel : ℕ} {K K1 : CellG} {Cs : List PCurve}
    (hK : K.Shaped) (hg : K.GoodDiaries) (hC : K.BoundaryCurves Cs) (hne : Cs ≠ []) (h : K.parameterize inside fuel d = some (.ok K1)) :
    K1.EqualEdges (2 * n.toNat) ∧ K1.getEdges.length = Cs.length := by
  obtain ⟨h1, h2, es, h3, h4⟩ := cell_rel hd hK h
  have hl : es.length = Cs.length := by rw [← h4.length_eq, hC.length_eq]
  have e : K1.getEdges = K1.components.flatMap ContourG.edges := rfl
  refine ⟨⟨?_, ?_⟩, by rw [e, h3.length_eq, hl]⟩
  · intro h0
    have := h3.length_eq
    rw [← e, h0, hl] at this
    exact hne (List.length_eq_zero_iff.1 this.symm)
  · intro e' he
    have he' : e' ∈ es := h3.mem_iff.1 he
    obtain ⟨i, hi, rfl⟩ := List.getElem_of_mem he'
    have hi' : i < (K.components.flatMap fun c => c.edges.zip c.orients).length := by rw [(List.forall₂_iff_get.1 h4).1]; exact hi
    have g := (List.forall₂_iff_get.1 h4).2 i hi' hi
    obtain ⟨C0, k1, -⟩ := (List.forall₂_iff_get.1 hC).2 i hi' (by omega)
    exact sampled_length hd k1 (good_flat hg _ (List.get_mem _ _)) g

/-- integrals over the boundary as one sum -/
theorem integrate_sum {K : CellG} (h : K.Ready) (hU : Uniform K) {N : ℕ} (hN : K.EqualEdges N) (φ : Sample → ℝ) :
    K.integrate (K.cols.map φ) = .ok (K.cols.map fun s => 2 * Real.pi / N * s.dxNorm * φ s).sum := by
  rw [cell_sum h hU, ← getEdges_cols]
  have e : K.getEdges = K.components.flatMap ContourG.edges := rfl
  rw [← e]
  congr 1
  have := hN.2
  generalize K.getEdges = l at this
  induction l with
  | nil => rfl
  | cons d l ih =>
    rw [List.map_cons, List.sum_cons, List.flatMap_cons, List.map_append, List.sum_append, ih fun e he => this e (by simp [he])]
    congr 1
    rw [edgeSum, dot, entrywise, EdgeG.weights, List.zipWith_map_right, List.zipWith_map_left, List.zipWith_self, this d (by simp)]
    congr 1
    refine List.map_congr_left fun s _ => ?_
    ring

/-! ### Cauchy sums of exact samples -/

/-- `f / (z - y)^m` with `f = u + iv` -/
noncomputable def pole (u v : ℝ → ℝ → ℝ) (m : ℕ) (y : ℝ × ℝ) (z : ℂ) : ℂ := cfun u v z / (z - ⟨y.1, y.2⟩) ^ m

theorem pole_joint {u v : ℝ → ℝ → ℝ} {C : PCurve} (hi : C.Cinf) {k m : ℕ} (hu : C.SmoothOnCurve k u) (hv : C.SmoothOnCurve k v) {y : ℝ × ℝ} {s : ℝ}
    (hs : s ∈ Icc 0 (2 * Real.pi)) (hy : (C.x s, C.y s) ≠ y) :
    ContDiffAt ℝ k (fun q : (ℝ × ℝ) × ℝ => pole u v m q.1 ⟨C.x q.2, C.y q.2⟩) (y, s) := by
  obtain ⟨h1, h2⟩ := hi k
  have s2 : ContDiffAt ℝ k (fun q : (ℝ × ℝ) × ℝ => q.2) (y, s) := contDiffAt_snd
  have s1 : ContDiffAt ℝ k (fun q : (ℝ × ℝ) × ℝ => q.1) (y, s) := contDiffAt_fst
  have hx : ContDiffAt ℝ k (fun q : (ℝ × ℝ) × ℝ => C.x q.2) (y, s) := (h1.contDiffAt (x := s)).comp (y, s) s2
  have hy' : ContDiffAt ℝ k (fun q : (ℝ × ℝ) × ℝ => C.y q.2) (y, s) := (h2.contDiffAt (x := s)).comp (y, s) s2
  have cu : ContDiffAt ℝ k (fun q : (ℝ × ℝ) × ℝ => u (C.x q.2) (C.y q.2)) (y, s) :=
    ContDiffAt.comp (g := fun s => u (C.x s) (C.y s)) (y, s) (onCurve_contDiff hi hu s hs) s2
  have cv : ContDiffAt ℝ k (fun q : (ℝ × ℝ) × ℝ => v (C.x q.2) (C.y q.2)) (y, s) :=
    ContDiffAt.comp (g := fun s => v (C.x s) (C.y s)) (y, s) (onCurve_contDiff hi hv s hs) s2
  simp only [pole, cfun, div_eq_mul_inv]
  refine (mkC_contDiffAt cu cv).mul (ContDiffAt.inv (((mkC_contDiffAt hx hy').sub
    (mkC_contDiffAt (contDiffAt_fst.comp (y, s) s1) (contDiffAt_snd.comp (y, s) s1))).pow m) ?_)
  refine pow_ne_zero _ (sub_ne_zero.2 fun e => hy ?_)
  rw [Complex.mk.injEq] at e
  exact Prod.ext e.1 e.2

/-- the increment at a sample -/
noncomputable def dz (N : ℕ) (s : Sample) : ℂ := ⟨2 * Real.pi / N * s.dxNorm * s.tx, 2 * Real.pi / N * s.dxNorm * s.ty⟩

theorem nodes_eq {K : CellG} {N : ℕ} (hN : K.EqualEdges N) : K.nodes = K.cols.map fun s => ((⟨s.x, s.y⟩ : ℂ), dz N s) := by
  have hc := flatMap_cols N (fun m s => (((⟨s.x, s.y⟩ : ℂ), dz m s))) K.getEdges hN.2
  rw [getEdges_cols] at hc
  exact hc.1

theorem cols_count {K : CellG} {N : ℕ} (hN : K.EqualEdges N) : K.cols.length = K.getEdges.length * N := by
  have hc := flatMap_cols N (fun m s => (((⟨s.x, s.y⟩ : ℂ), dz m s))) K.getEdges hN.2
  rw [getEdges_cols] at hc
  exact hc.2

/-- the two integrands: `f / (z - y)^m dz / i` -/
noncomputable def poleRe (u v : ℝ → ℝ → ℝ) (m : ℕ) (y : ℝ × ℝ) (s : Sample) : ℝ :=
  (pole u v m y ⟨s.x, s.y⟩).im * s.tx + (pole u v m y ⟨s.x, s.y⟩).re * s.ty
noncomputable def poleIm (u v : ℝ → ℝ → ℝ) (m : ℕ) (y : ℝ × ℝ) (s : Sample) : ℝ :=
  -(pole u v m y ⟨s.x, s.y⟩).re * s.tx + (pole u v m y ⟨s.x, s.y⟩).im * s.ty

theorem exactSum {K : CellG} {N : ℕ} (hN : K.EqualEdges N) (u v : ℝ → ℝ → ℝ) (m : ℕ) (y : ℝ × ℝ) :
    cauchySum K.nodes (List.zipWith Complex.mk (K.samplesOf u) (K.samplesOf v)) m ⟨y.1, y.2⟩ =
      ⟨(K.cols.map fun s => 2 * Real.pi / N * s.dxNorm * poleRe u v m y s).sum / (2 * Real.pi),
        (K.cols.map fun s => 2 * Real.pi / N * s.dxNorm * poleIm u v m y s).sum / (2 * Real.pi)⟩ := by
  have e : List.zipWith (fun (p : ℂ × ℂ) f => f / (p.1 - ⟨y.1, y.2⟩) ^ m * p.2) (K.cols.map fun s => ((⟨s.x, s.y⟩ : ℂ), dz N s))
      (List.zipWith Complex.mk (K.samplesOf u) (K.samplesOf v)) = K.cols.map fun s => pole u v m y ⟨s.x, s.y⟩ * dz N s := by
    rw [CellG.samplesOf, CellG.samplesOf, List.zipWith_map, List.zipWith_self, List.zipWith_map, List.zipWith_self]
    rfl
  rw [cauchySum, nodes_eq hN, e, div_two_pi_I, sum_re_im]
  have e1 : ∀ s : Sample, (pole u v m y ⟨s.x, s.y⟩ * dz N s).im = 2 * Real.pi / N * s.dxNorm * poleRe u v m y s := fun s => by
    rw [Complex.mul_im, dz, poleRe]; ring
  have e2 : ∀ s : Sample, (pole u v m y ⟨s.x, s.y⟩ * dz N s).re = -(2 * Real.pi / N * s.dxNorm * poleIm u v m y s) := fun s => by
    rw [Complex.mul_re, dz, poleIm]; ring
  simp only [e1, e2]
  rw [sum_map_minus_one]
  have := Real.pi_pos
  apply Complex.ext
  · simp only; field_simp; ring
  · simp only; field_simp; ring

/-! ### perturbed samples -/

theorem within_mk {ε : ℝ} {a b c d : List ℝ} (h1 : Within ε a b) (h2 : Within ε c d) :
    List.Forall₂ (fun z w => ‖z - w‖ ≤ 2 * ε) (List.zipWith Complex.mk a c) (List.zipWith Complex.mk b d) := by
  induction h1 generalizing c d with
  | nil => exact .nil
  | @cons x y a b hxy h ih =>
    cases h2 with
    | nil => exact .nil
    | @cons z w c d hzw h2 =>
      refine .cons ?_ (ih h2)
      have := Complex.norm_le_abs_re_add_abs_im ((⟨x, z⟩ : ℂ) - ⟨y, w⟩)
      simp only [Complex.sub_re, Complex.sub_im] at this
      linarith

theorem cauchy_perturb {nodes : List (ℂ × ℂ)} {ζ : ℂ} {m : ℕ} {B ε : ℝ} (hB : ∀ p ∈ nodes, ‖p.2‖ / ‖p.1 - ζ‖ ^ m ≤ B) (hB0 : 0 ≤ B) (hε : 0 ≤ ε) :
    ∀ {F G : List ℂ}, List.Forall₂ (fun z w => ‖z - w‖ ≤ 2 * ε) F G →
      ‖cauchySum nodes F m ζ - cauchySum nodes G m ζ‖ ≤ nodes.length * (2 * ε * B) / (2 * Real.pi) := by
  have key : ∀ (nodes : List (ℂ × ℂ)), (∀ p ∈ nodes, ‖p.2‖ / ‖p.1 - ζ‖ ^ m ≤ B) → ∀ {F G : List ℂ}, List.Forall₂ (fun z w => ‖z - w‖ ≤ 2 * ε) F G →
      ‖(List.zipWith (fun p f => f / (p.1 - ζ) ^ m * p.2) nodes F).sum - (List.zipWith (fun p f => f / (p.1 - ζ) ^ m * p.2) nodes G).sum‖ ≤
        nodes.length * (2 * ε * B) := by
    intro nodes
    induction nodes with
    | nil => intro _ F G _; simp
    | cons p nodes ih =>
      intro hB F G h
      cases h with
      | nil =>
        simp only [List.zipWith_nil_right, List.sum_nil, sub_self, norm_zero]
        positivity
      | @cons z w F G hzw h =>
        have h1 := ih (fun p hp => hB p (by simp [hp])) h
        have h2 := hB p (by simp)
        simp only [List.zipWith_cons_cons, List.sum_cons, List.length_cons, Nat.cast_add, Nat.cast_one]
        rw [add_sub_add_comm, add_mul, one_mul, add_comm ((nodes.length : ℝ) * _)]
        refine (norm_add_le _ _).trans (add_le_add ?_ h1)
        rw [show z / (p.1 - ζ) ^ m * p.2 - w / (p.1 - ζ) ^ m * p.2 = (z - w) * (p.2 / (p.1 - ζ) ^ m) by ring, norm_mul, norm_div, norm_pow]
        exact mul_le_mul hzw h2 (by positivity) (by positivity)
  intro F G h
  have hpi := Real.pi_pos
  rw [cauchySum, cauchySum, ← sub_div, norm_div]
  have e : ‖(2 * Real.pi * Complex.I : ℂ)‖ = 2 * Real.pi := by
    simp [abs_of_pos hpi]
  rw [e]
  exact div_le_div_of_nonneg_right (key nodes hB h) (by positivity)

theorem dz_sample (N : ℕ) (C : PCurve) (t W : ℝ) : dz N (C.sample t W) = ((2 * Real.pi / N * W : ℝ) : ℂ) * ⟨C.dx t, C.dy t⟩ := by
  have e : C.speed t * (C.dx t / C.speed t) = C.dx t ∧ C.speed t * (C.dy t / C.speed t) = C.dy t := by
    by_cases h : C.speed t = 0
    · obtain ⟨h1, h2⟩ := speed_zero h
      simp [h1, h2]
    · constructor <;> field_simp
  simp only [dz, PCurve.sample]
  apply Complex.ext
  · simp only [Complex.mul_re, Complex.ofReal_re, Complex.ofReal_im, zero_mul, sub_zero]
    linear_combination 2 * Real.pi / N * W * e.1
  · simp only [Complex.mul_im, Complex.ofReal_re, Complex.ofReal_im, zero_mul, add_zero]
    linear_combination 2 * Real.pi / N * W * e.2

section
variable {K : CellG} {Cs : List PCurve} (hK : K.Shaped) (hg : K.GoodDiaries) (hC : K.BoundaryCurves Cs)
  {p : ℤ} {k : ℕ} (hr : K.SuitedRules p k Cs) (hk : 1 ≤ k) {Y : Set (ℝ × ℝ)} (hY : IsCompact Y)
  (hoff : ∀ C ∈ Cs, ∀ s ∈ Icc 0 (2 * Real.pi), (C.x s, C.y s) ∉ Y)
include hC hY hoff

/-- the kernel is bounded on the curves -/
theorem kernel_bound (m : ℕ) : ∃ B : ℝ, 0 ≤ B ∧ ∀ C ∈ Cs, ∀ y ∈ Y, ∀ s ∈ Icc 0 (2 * Real.pi),
    ‖(⟨C.dx s, C.dy s⟩ : ℂ)‖ / ‖(⟨C.x s, C.y s⟩ : ℂ) - ⟨y.1, y.2⟩‖ ^ m ≤ B := by
  have key : ∀ C ∈ Cs, ∃ B : ℝ, ∀ y ∈ Y, ∀ s ∈ Icc 0 (2 * Real.pi),
      ‖(⟨C.dx s, C.dy s⟩ : ℂ)‖ / ‖(⟨C.x s, C.y s⟩ : ℂ) - ⟨y.1, y.2⟩‖ ^ m ≤ B := by
    intro C hC'
    obtain ⟨v1, v2⟩ := velocity_contDiff (boundary_smooth hC C hC') (boundary_cinf hC C hC') 0
    have hcont : ContinuousOn (fun q : (ℝ × ℝ) × ℝ => pole (fun _ _ => 1) (fun _ _ => 0) m q.1 ⟨C.x q.2, C.y q.2⟩ * ⟨C.dx q.2, C.dy q.2⟩)
        (Y ×ˢ Icc 0 (2 * Real.pi)) := by
      rintro ⟨y, s⟩ ⟨hy, hs⟩
      have h1 := pole_joint (k := 0) (m := m) (u := fun _ _ => 1) (v := fun _ _ => 0) (boundary_cinf hC C hC') (fun _ _ => contDiffAt_const)
        (fun _ _ => contDiffAt_const) (y := y) hs fun e => hoff C hC' s hs (e ▸ hy)
      have s2 : ContDiffAt ℝ ((0 : ℕ) : WithTop ℕ∞) (fun q : (ℝ × ℝ) × ℝ => q.2) (y, s) := contDiffAt_snd
      have h2 := mkC_contDiffAt ((v1.contDiffAt (x := s)).comp (y, s) s2) ((v2.contDiffAt (x := s)).comp (y, s) s2)
      exact (h1.mul h2).continuousAt.continuousWithinAt
    obtain ⟨B, hB⟩ := (hY.prod isCompact_Icc).exists_bound_of_continuousOn hcont
    refine ⟨B, fun y hy s hs => ?_⟩
    have := hB (y, s) ⟨hy, hs⟩
    simp only [pole, cfun, norm_mul, norm_div, norm_pow] at this
    rw [show (⟨1, 0⟩ : ℂ) = 1 from rfl, norm_one] at this
    rw [div_eq_inv_mul]
    rwa [one_div] at this
  choose! B hB using key
  refine ⟨(Cs.map fun C => |B C|).sum, List.sum_nonneg (by simp), fun C hC' y hy s hs => (hB C hC' y hy s hs).trans ((le_abs_self _).trans ?_)⟩
  exact List.single_le_sum (by simp) _ (List.mem_map_of_mem hC')

include hK hg hr hk

/-- Cauchy sums converge to Cauchy integrals, with one constant for a compact set off the curves, and depend on the data in a stable way -/
theorem cauchy_converges (hne : Cs ≠ []) {u v : ℝ → ℝ → ℝ} (hu : ∀ C ∈ Cs, C.SmoothOnCurve k u) (hv : ∀ C ∈ Cs, C.SmoothOnCurve k v) (m : ℕ) :
    ∃ M : ℝ, 0 ≤ M ∧ ∀ n d inside fuel K1, getQuadDict n p = .ok d → K.parameterize inside fuel d = some (.ok K1) → ∀ ε, 0 ≤ ε → ∀ psi psiHat,
      Within ε psi (K1.samplesOf u) → Within ε psiHat (K1.samplesOf v) → ∀ y ∈ Y,
        ‖cauchySum K1.nodes (List.zipWith Complex.mk psi psiHat) m ⟨y.1, y.2⟩ - (Cs.map fun C => C.overI (pole u v m y)).sum / (2 * Real.pi)‖ ≤
          M * (1 / (n : ℝ) ^ k + ε) := by
  have hpi := Real.pi_pos
  obtain ⟨B, hB0, hB⟩ := samples_on hK hg hC p
  obtain ⟨A, hA0, hA⟩ := kernel_bound hC hY hoff m
  have hj : ∀ C ∈ Cs, ∀ y ∈ Y, ∀ s ∈ Icc 0 (2 * Real.pi), ContDiffAt ℝ k (fun q : (ℝ × ℝ) × ℝ => pole u v m q.1 ⟨C.x q.2, C.y q.2⟩) (y, s) :=
    fun C hC' y hy s hs => pole_joint (boundary_cinf hC C hC') (hu C hC') (hv C hC') hs fun e => hoff C hC' s hs (e ▸ hy)
  have hvel : ∀ C ∈ Cs, ∀ (y : ℝ × ℝ) (s : ℝ), ContDiffAt ℝ k (fun q : (ℝ × ℝ) × ℝ => C.dx q.2) (y, s) ∧
      ContDiffAt ℝ k (fun q : (ℝ × ℝ) × ℝ => C.dy q.2) (y, s) := by
    intro C hC' y s
    obtain ⟨v1, v2⟩ := velocity_contDiff (boundary_smooth hC C hC') (boundary_cinf hC C hC') k
    have s2 : ContDiffAt ℝ k (fun q : (ℝ × ℝ) × ℝ => q.2) (y, s) := contDiffAt_snd
    exact ⟨(v1.contDiffAt (x := s)).comp (y, s) s2, (v2.contDiffAt (x := s)).comp (y, s) s2⟩
  obtain ⟨M1, hM1⟩ := cell_family (φ := poleRe u v m)
    (G := fun y C s => (pole u v m y ⟨C.x s, C.y s⟩).im * C.dx s + (pole u v m y ⟨C.x s, C.y s⟩).re * C.dy s)
    (fun y => density_circulation (fun a b => (pole u v m y ⟨a, b⟩).im) fun a b => (pole u v m y ⟨a, b⟩).re)
    (fun y => circulation_periodic (fun a b => (pole u v m y ⟨a, b⟩).im) fun a b => (pole u v m y ⟨a, b⟩).re)
    p hk hY hK hg hC hr fun C hC' y hy s hs => ((im_contDiffAt (hj C hC' y hy s hs)).mul (hvel C hC' y s).1).add
      ((re_contDiffAt (hj C hC' y hy s hs)).mul (hvel C hC' y s).2)
  obtain ⟨M2, hM2⟩ := cell_family (φ := poleIm u v m)
    (G := fun y C s => -(pole u v m y ⟨C.x s, C.y s⟩).re * C.dx s + (pole u v m y ⟨C.x s, C.y s⟩).im * C.dy s)
    (fun y => density_circulation (fun a b => -(pole u v m y ⟨a, b⟩).re) fun a b => (pole u v m y ⟨a, b⟩).im)
    (fun y => circulation_periodic (fun a b => -(pole u v m y ⟨a, b⟩).re) fun a b => (pole u v m y ⟨a, b⟩).im)
    p hk hY hK hg hC hr fun C hC' y hy s hs => ((re_contDiffAt (hj C hC' y hy s hs)).neg.mul (hvel C hC' y s).1).add
      ((im_contDiffAt (hj C hC' y hy s hs)).mul (hvel C hC' y s).2)
  refine ⟨(|M1| + |M2|) / (2 * Real.pi) + 2 * Cs.length * B * A, by positivity, fun n d inside fuel K1 hd hp ε hε psi psiHat h1 h2 y hy => ?_⟩
  have hn4 := ((C21_dict n p).1.1 ⟨d, hd⟩).1
  have hn : (0 : ℝ) < (n : ℝ) ^ k := by
    have : (0 : ℝ) < n := by exact_mod_cast (by omega : (0 : ℤ) < n)
    positivity
  obtain ⟨hE, hlen⟩ := equal_edges hd hK hg hC hne hp
  obtain ⟨k1, k2, -⟩ := cell_rel hd hK hp
  have hN : (0 : ℝ) < (2 * n.toNat : ℕ) := by exact_mod_cast (by omega : 0 < 2 * n.toNat)
  -- exact samples
  obtain ⟨I, hI, hI'⟩ := (hM1 n d inside fuel K1 hd hp).2 y hy
  obtain ⟨J, hJ, hJ'⟩ := (hM2 n d inside fuel K1 hd hp).2 y hy
  rw [integrate_sum k1 k2 hE] at hI hJ
  have eI := Except.ok.inj hI
  have eJ := Except.ok.inj hJ
  have ex := exactSum hE u v m y
  rw [eI, eJ] at ex
  have eo : (Cs.map fun C => C.overI (pole u v m y)).sum =
      ⟨(Cs.map fun C => ∫ s in (0 : ℝ)..2 * Real.pi, ((pole u v m y ⟨C.x s, C.y s⟩).im * C.dx s + (pole u v m y ⟨C.x s, C.y s⟩).re * C.dy s)).sum,
        (Cs.map fun C => ∫ s in (0 : ℝ)..2 * Real.pi, (-(pole u v m y ⟨C.x s, C.y s⟩).re * C.dx s + (pole u v m y ⟨C.x s, C.y s⟩).im * C.dy s)).sum⟩ := by
    rw [← sum_mk]
    congr 1
    refine List.map_congr_left fun C _ => ?_
    simp only [PCurve.overI, PCurve.flux]
    congr 2 <;> funext s <;> ring
  have q1 : ‖cauchySum K1.nodes (List.zipWith Complex.mk (K1.samplesOf u) (K1.samplesOf v)) m ⟨y.1, y.2⟩ -
      (Cs.map fun C => C.overI (pole u v m y)).sum / (2 * Real.pi)‖ ≤ (|M1| + |M2|) / (2 * Real.pi) * (1 / (n : ℝ) ^ k) := by
    rw [ex, eo]
    generalize (Cs.map fun C => ∫ s in (0 : ℝ)..2 * Real.pi, ((pole u v m y ⟨C.x s, C.y s⟩).im * C.dx s + (pole u v m y ⟨C.x s, C.y s⟩).re * C.dy s)).sum = a at hI' ⊢
    generalize (Cs.map fun C => ∫ s in (0 : ℝ)..2 * Real.pi, (-(pole u v m y ⟨C.x s, C.y s⟩).re * C.dx s + (pole u v m y ⟨C.x s, C.y s⟩).im * C.dy s)).sum = b at hJ' ⊢
    have e : (⟨I / (2 * Real.pi), J / (2 * Real.pi)⟩ : ℂ) - ⟨a, b⟩ / (2 * Real.pi) = ⟨(I - a) / (2 * Real.pi), (J - b) / (2 * Real.pi)⟩ := by
      have hd : (⟨a, b⟩ : ℂ) / (2 * Real.pi) = ⟨a / (2 * Real.pi), b / (2 * Real.pi)⟩ := by
        have := Complex.div_ofReal (⟨a, b⟩ : ℂ) (2 * Real.pi)
        push_cast at this
        exact this
      rw [hd]
      apply Complex.ext
      · simp only [Complex.sub_re]; ring
      · simp only [Complex.sub_im]; ring
    rw [e]
    refine (Complex.norm_le_abs_re_add_abs_im _).trans ?_
    simp only [abs_div, abs_of_pos (show (0 : ℝ) < 2 * Real.pi by positivity)]
    rw [← add_div, div_mul_eq_mul_div, mul_one_div]
    refine div_le_div_of_nonneg_right ?_ (by positivity)
    rw [add_div]
    refine add_le_add (hI'.trans ?_) (hJ'.trans ?_)
    · exact div_le_div_of_nonneg_right (le_abs_self _) hn.le
    · exact div_le_div_of_nonneg_right (le_abs_self _) hn.le
  -- perturbed samples
  have q2 := cauchy_perturb (nodes := K1.nodes) (ζ := ⟨y.1, y.2⟩) (m := m) (B := 2 * Real.pi / (2 * n.toNat : ℕ) * B * A) (ε := ε) (by
    intro q hq
    rw [nodes_eq hE, List.mem_map] at hq
    obtain ⟨s, hs, rfl⟩ := hq
    obtain ⟨C, hC', t, ht, W, hW, rfl⟩ := (hB n d inside fuel K1 hd hp).1 s hs
    dsimp only
    rw [dz_sample, norm_mul, Complex.norm_real, Real.norm_eq_abs, mul_div_assoc, abs_mul, abs_of_nonneg (by positivity)]
    refine mul_le_mul (mul_le_mul_of_nonneg_left hW (by positivity)) (hA C hC' y hy t ht) (by positivity) (by positivity)) (by positivity) hε
    (within_mk h1 h2)
  have q3 : (K1.nodes.length : ℝ) * (2 * ε * (2 * Real.pi / (2 * n.toNat : ℕ) * B * A)) / (2 * Real.pi) = 2 * Cs.length * B * A * ε := by
    rw [nodes_eq hE, List.length_map, cols_count hE, hlen, Nat.cast_mul]
    field_simp
  rw [q3] at q2
  have hr0 : 0 ≤ 1 / (n : ℝ) ^ k := by positivity
  have t1 : 0 ≤ (|M1| + |M2|) / (2 * Real.pi) * ε := by positivity
  have t2 : 0 ≤ 2 * Cs.length * B * A * (1 / (n : ℝ) ^ k) := by positivity
  have := norm_sub_le_norm_sub_add_norm_sub (cauchySum K1.nodes (List.zipWith Complex.mk psi psiHat) m ⟨y.1, y.2⟩)
    (cauchySum K1.nodes (List.zipWith Complex.mk (K1.samplesOf u) (K1.samplesOf v)) m ⟨y.1, y.2⟩)
    ((Cs.map fun C => C.overI (pole u v m y)).sum / (2 * Real.pi))
  refine this.trans ?_
  nlinarith [q1, q2]

end

/-! ### C103 -/

/-- C103: Let the rules suit the curves with order `k`, and let the curves enclose `S`.  Let `ψ`, `ψ'` be conjugate in `S` and smooth up to the
boundary, and let `Y` be a compact set inside `S` off the curves.  Then there is one constant `M` such that for every number `n` of points,
every local function whose stored conjugate pair is within `ε` of the samples of `ψ`, `ψ'`, and every interior point of the cell in `Y`
(whichever points `pts` the attributes `int_x1`, `int_x2` of the parameterized cell hold): `compute_interior_values` succeeds, and the value and both components of the gradient differ by at most `M (1/n^k + ε)` from the value and the
partial derivatives of `P + Σ a_k log|· - ξ_k| + ψ`, with the polynomial part `P`, the stored logarithmic coefficients `a_k` and the interior
points `ξ_k` of the holes. -/
theorem C103_interior {K : CellG} {Cs : List PCurve} {S Y : Set (ℝ × ℝ)} (hK : K.Shaped) (hg : K.GoodDiaries) (hC : K.BoundaryCurves Cs)
    (hE : Encloses Cs S) (p : ℤ) {k : ℕ} (hr : K.SuitedRules p k Cs) (hk : 1 ≤ k) {ψ ψ' : ℝ → ℝ → ℝ}
    (hψ : ∀ q ∈ closedRegion Cs S, ContDiffAt ℝ k (fun q : ℝ × ℝ => ψ q.1 q.2) q)
    (hψ' : ∀ q ∈ closedRegion Cs S, ContDiffAt ℝ k (fun q : ℝ × ℝ => ψ' q.1 q.2) q) (hc : ConjugateOn S ψ ψ')
    (hY : IsCompact Y) (hY0 : Y.Nonempty) (hYS : Y ⊆ interior S) (hoff : ∀ C ∈ Cs, ∀ s ∈ Icc 0 (2 * Real.pi), (C.x s, C.y s) ∉ Y) :
    ∃ M : ℝ, ∀ n d inside fuel K1, getQuadDict n p = .ok d → K.parameterize inside fuel d = some (.ok K1) → ∀ ε, 0 ≤ ε →
      ∀ (pts : List (ℝ × ℝ)) (F : LocPoisson) (P q1 q2 : Poly ℝ) (a psi psiHat : List ℝ), F.Parts { K1 with interior := pts } P q1 q2 a psi psiHat →
        HasGradOn univ P.eval q1.eval q2.eval → Within ε psi (K1.samplesOf ψ) → Within ε psiHat (K1.samplesOf ψ') →
        ∃ r, ∃ U U1 U2 : ℝ × ℝ → ℝ, F.computeInterior true = .ok r ∧ r.intVals = some (pts.map U) ∧
          r.intGrad1 = some (pts.map U1) ∧ r.intGrad2 = some (pts.map U2) ∧
          ∀ y ∈ pts, y ∈ Y →
            |U y - (P.eval y.1 y.2 + withLogs K1 a ψ y.1 y.2)| ≤ M * (1 / (n : ℝ) ^ k + ε) ∧
            ∀ g1 g2, HasGrad (fun x y => P.eval x y + withLogs K1 a ψ x y) y.1 y.2 g1 g2 →
              |U1 y - g1| ≤ M * (1 / (n : ℝ) ^ k + ε) ∧ |U2 y - g2| ≤ M * (1 / (n : ℝ) ^ k + ε) := by
  have hk1 : ((1 : ℕ) : WithTop ℕ∞) ≤ (k : ℕ) := by exact_mod_cast hk
  have oneψ : ∀ q ∈ closedRegion Cs S, ContDiffAt ℝ 1 (fun q : ℝ × ℝ => ψ q.1 q.2) q := fun q hq => (hψ q hq).of_le hk1
  have oneψ' : ∀ q ∈ closedRegion Cs S, ContDiffAt ℝ 1 (fun q : ℝ × ℝ => ψ' q.1 q.2) q := fun q hq => (hψ' q hq).of_le hk1
  have hoff' : ∀ y ∈ Y, ∀ C ∈ Cs, ∀ s ∈ Icc 0 (2 * Real.pi), (C.x s, C.y s) ≠ (y.1, y.2) :=
    fun y hy C hC' s hs e => hoff C hC' s hs (e ▸ hy)
  obtain ⟨p1, p2, gu, gv⟩ := hc
  have formula := fun (y : ℝ × ℝ) (hy : y ∈ Y) => cauchy_formula hE oneψ oneψ' gu gv (a := y.1) (b := y.2) (hYS hy) (hoff' y hy)
  have hpi : (2 * Real.pi : ℂ) ≠ 0 := by simp [Real.pi_ne_zero]
  have hne : Cs ≠ [] := by
    obtain ⟨y, hy⟩ := hY0
    rintro rfl
    have h1 := (cauchy_formula hE (u := fun _ _ => 1) (v := fun _ _ => 0) (p := fun _ _ => 0) (q := fun _ _ => 0) (fun _ _ => contDiffAt_const)
      (fun _ _ => contDiffAt_const) (fun x y _ => ⟨hasDerivAt_const _ _, hasDerivAt_const _ _⟩)
      (fun x y _ => ⟨by simpa using hasDerivAt_const x (0 : ℝ), hasDerivAt_const _ _⟩) (a := y.1) (b := y.2) (hYS hy) (hoff' y hy)).1
    rw [List.map_nil, List.sum_nil, eq_comm, mul_eq_zero] at h1
    rcases h1 with h1 | h1
    · exact hpi h1
    · exact one_ne_zero (congrArg Complex.re h1)
  have cu : ∀ C ∈ Cs, C.SmoothOnCurve k ψ := fun C hC' s hs => hψ _ (curve_closedRegion hC' hs)
  have cv : ∀ C ∈ Cs, C.SmoothOnCurve k ψ' := fun C hC' s hs => hψ' _ (curve_closedRegion hC' hs)
  obtain ⟨M1, h10, hM1⟩ := cauchy_converges hK hg hC hr hk hY hoff hne cu cv 1
  obtain ⟨M2, h20, hM2⟩ := cauchy_converges hK hg hC hr hk hY hoff hne cu cv 2
  refine ⟨M1 + M2, fun n d inside fuel K1 hd hp ε hε pts F P q1 q2 a psi psiHat hF hq h1 h2 => ?_⟩
  have hn4 := ((C21_dict n p).1.1 ⟨d, hd⟩).1
  have hn : (0 : ℝ) < (n : ℝ) ^ k := by
    have : (0 : ℝ) < n := by exact_mod_cast (by omega : (0 : ℤ) < n)
    positivity
  have hr0 : 0 ≤ 1 / (n : ℝ) ^ k + ε := by positivity
  obtain ⟨hEq, -⟩ := equal_edges hd hK hg hC hne hp
  obtain ⟨k1, -, -⟩ := cell_rel hd hK hp
  have hci := computeInterior_ok (K := { K1 with interior := pts }) ⟨k1.ready, k1.numPts, k1.startIdx⟩ hEq hF true
  simp only [if_true] at hci
  refine ⟨_, fun y => cauchyValue K1 P.eval a psi psiHat y.1 y.2, fun y => q1.eval y.1 y.2 + logs1 a K1.components.tail y.1 y.2 +
      (cauchySum K1.nodes (List.zipWith Complex.mk psi psiHat) 2 ⟨y.1, y.2⟩).re, fun y => q2.eval y.1 y.2 + logs2 a K1.components.tail y.1 y.2 -
      (cauchySum K1.nodes (List.zipWith Complex.mk psi psiHat) 2 ⟨y.1, y.2⟩).im, hci, rfl, rfl, rfl, fun y hyi hy => ?_⟩
  have e1 := hM1 n d inside fuel K1 hd hp ε hε psi psiHat h1 h2 y hy
  have e2 := hM2 n d inside fuel K1 hd hp ε hε psi psiHat h1 h2 y hy
  have f1 : (Cs.map fun C => C.overI (pole ψ ψ' 1 y)).sum / (2 * Real.pi) = ⟨ψ y.1 y.2, ψ' y.1 y.2⟩ := by
    rw [div_eq_iff hpi, mul_comm]
    exact (formula y hy).1
  have f2 : (Cs.map fun C => C.overI (pole ψ ψ' 2 y)).sum / (2 * Real.pi) = ⟨p1 y.1 y.2, -p2 y.1 y.2⟩ := by
    rw [div_eq_iff hpi, mul_comm]
    exact (formula y hy).2
  rw [f1] at e1
  rw [f2] at e2
  have r1 := (Complex.abs_re_le_norm _).trans e1
  have r2 := (Complex.abs_re_le_norm _).trans e2
  have r3 := (Complex.abs_im_le_norm _).trans e2
  rw [Complex.sub_re] at r1 r2
  rw [Complex.sub_im] at r3
  have b1 : M1 * (1 / (n : ℝ) ^ k + ε) ≤ (M1 + M2) * (1 / (n : ℝ) ^ k + ε) := by nlinarith
  have b2 : M2 * (1 / (n : ℝ) ^ k + ε) ≤ (M1 + M2) * (1 / (n : ℝ) ^ k + ε) := by nlinarith
  refine ⟨?_, fun g1 g2 hgr => ?_⟩
  · refine le_trans (le_of_eq ?_) (r1.trans b1)
    congr 1
    simp only [cauchyValue, withLogs]
    ring
  · have d1 := hq y.1 y.2 trivial
    have d2 := gu y.1 y.2 (interior_subset (hYS hy))
    have d3 := logs_grad a hF.holes (hF.off y hyi)
    have hu := HasGrad.unique hgr (k1 := q1.eval y.1 y.2 + (p1 y.1 y.2 + logs1 a K1.components.tail y.1 y.2))
      (k2 := q2.eval y.1 y.2 + (p2 y.1 y.2 + logs2 a K1.components.tail y.1 y.2))
      ⟨d1.1.fun_add (d2.1.fun_add d3.1), d1.2.fun_add (d2.2.fun_add d3.2)⟩
    rw [hu.1, hu.2]
    constructor
    · refine le_trans (le_of_eq ?_) (r2.trans b2)
      congr 1
      ring
    · refine le_trans (le_of_eq ?_) (r3.trans b2)
      rw [← abs_neg]
      congr 1
      ring

/-! ### the hypotheses can be met: `1 + x² - y²` on the disc about `(2, 3)` -/

theorem saddle_conjugate (S : Set (ℝ × ℝ)) : ConjugateOn S (fun x y => x ^ 2 - y ^ 2) fun x y => 2 * x * y := by
  refine ⟨fun x _ => 2 * x, fun _ y => -(2 * y), fun x y _ => ⟨?_, ?_⟩, fun x y _ => ⟨?_, ?_⟩⟩
  · simpa using (hasDerivAt_pow 2 x).sub_const (y ^ 2)
  · simpa using (hasDerivAt_pow 2 y).const_sub (x ^ 2)
  · simpa using ((hasDerivAt_id x).const_mul 2).mul_const y
  · simpa using (hasDerivAt_id y).const_mul (2 * x)

/-- a function with a polynomial part and the boundary values of a conjugate pair, on a cell without holes -/
noncomputable def pairFun (K : CellG) (p : LocPoly) (psi psiHat : List ℝ) : LocPoisson where
  cell := some K
  poly := some p
  harm := some ⟨Trace.bare [], some (Trace.made [] (some psi) none none), some (Trace.made [] (some psiHat) none none), some [], none⟩

/-- C103: the computed values and gradients of `1 + x² - y²` at `(2, 3)` converge to `-4` and `(4, -6)` with every order. -/
example (k : ℕ) (hk : 1 ≤ k) : ∃ M : ℝ, ∀ n, 4 ≤ n → ∃ d inside K1, ∃ F r : LocPoisson, ∃ v g1 g2, getQuadDict n 2 = .ok d ∧
    (circleCell "trap").parameterize inside 8 d = some (.ok K1) ∧ F.cell = some { K1 with interior := [(2, 3)] } ∧
    F.computeInterior true = .ok r ∧ r.intVals = some [v] ∧ r.intGrad1 = some [g1] ∧ r.intGrad2 = some [g2] ∧
    |v - -4| ≤ M / (n : ℝ) ^ k ∧ |g1 - 4| ≤ M / (n : ℝ) ^ k ∧ |g2 - -6| ≤ M / (n : ℝ) ^ k := by
  classical
  obtain ⟨h1, h2, h3, h4, h5⟩ := circleCell_ok "trap"
  have hround : ∀ s : ℝ, (circleCurve.x s - 2) ^ 2 + (circleCurve.y s - 3) ^ 2 = 1 := fun s => by
    have := Real.sin_sq_add_cos_sq s
    simp only [circleCurve]
    linear_combination this
  have hoff : ∀ C ∈ [circleCurve], ∀ s ∈ Icc 0 (2 * Real.pi), (C.x s, C.y s) ∉ ({(2, 3)} : Set (ℝ × ℝ)) := by
    intro C hC s _ e
    rw [List.mem_singleton.1 hC, Set.mem_singleton_iff, Prod.mk.injEq] at e
    have := hround s
    rw [e.1, e.2] at this
    norm_num at this
  obtain ⟨M, hM⟩ := C103_interior h1 h2 h3 circle_encloses 2 (k := k) (Y := {(2, 3)}) (by
    simp only [CellG.SuitedRules, circleCell, List.flatMap_cons, List.flatMap_nil, List.zip_cons_cons, List.zip_nil_right,
      List.append_nil]
    exact .cons (.inr ⟨rfl, h4⟩) .nil) hk (ψ := fun x y => x ^ 2 - y ^ 2) (ψ' := fun x y => 2 * x * y)
    (fun q _ => by fun_prop) (fun q _ => by fun_prop) (saddle_conjugate _) isCompact_singleton (singleton_nonempty _) (by
      rintro _ rfl
      rw [mem_interior]
      refine ⟨{q | (q.1 - 2) ^ 2 + (q.2 - 3) ^ 2 < 1}, fun q hq => ?_, isOpen_lt (by fun_prop) (by fun_prop), by simp⟩
      simp only [Set.mem_ofPred_eq] at hq
      simp only [solidDisc, Set.mem_ofPred_eq]
      nlinarith) hoff
  refine ⟨M, fun n hn => ?_⟩
  obtain ⟨d, hd⟩ := (C21_dict n 2).1.2 ⟨hn, le_rfl⟩
  obtain ⟨K1, hK1⟩ := C87_circle hd (inside := fun _ q => decide ((q.1 - 2) ^ 2 + (q.2 - 3) ^ 2 < 1)) (fuel := 8) le_rfl
    (K := circleCell "trap") (c := { edges := [shiftedCircle "trap"], orients := [1] }) (e := shiftedCircle "trap") (a := Vert.mk' 2 3)
    rfl rfl rfl rfl (by simp [shiftedCircle, unitCircle, Curve.radius]; norm_num) rfl rfl rfl (by
      intro poly q hq
      simp only [Vert.mk', shiftedCircle, unitCircle, Curve.radius, Option.getD_none] at hq
      simp only [decide_eq_true_eq]
      norm_num at hq
      linarith)
  obtain ⟨k1, -, -⟩ := cell_rel hd h1 hK1
  obtain ⟨⟨cs, hp, hF⟩, -⟩ := C33_parameterize hd (fun c hc => (h1 c hc).2) hK1
  have htail : K1.components.tail = [] := by
    have := hp.length_eq.trans hF.length_eq.symm
    simp only [circleCell, List.length_singleton] at this
    obtain ⟨c, hc⟩ := List.length_eq_one_iff.1 this
    rw [hc, List.tail_cons]
  obtain ⟨B, -, hS⟩ := samples_on h1 h2 h3 2
  have hparts : (pairFun { K1 with interior := [(2, 3)] } (polyPart { K1 with interior := [(2, 3)] } onePoly) (K1.samplesOf fun x y => x ^ 2 - y ^ 2) (K1.samplesOf fun x y => 2 * x * y)).Parts
      { K1 with interior := [(2, 3)] } onePoly (Poly.nz (onePoly.map Mono.dx)) (Poly.nz (onePoly.map Mono.dy)) []
      (K1.samplesOf fun x y => x ^ 2 - y ^ 2) (K1.samplesOf fun x y => 2 * x * y) := by
    refine ⟨rfl, ⟨_, rfl, rfl, rfl, rfl⟩, ⟨_, _, _, rfl, rfl, rfl, rfl, rfl, rfl⟩, ?_, ?_, ?_, ?_, ?_⟩
    · have : K1.components.length - 1 = K1.components.tail.length := by simp
      simp only [CellG.numHoles, List.length_nil, this, htail]
    · simp only [CellG.samplesOf, List.length_map]; exact k1.numPts.symm
    · simp only [CellG.samplesOf, List.length_map]; exact k1.numPts.symm
    · simp [htail]
    · intro y hy
      rw [List.mem_singleton.1 hy]
      refine ⟨fun s hs e => ?_, by simp [htail]⟩
      obtain ⟨C, hC, t, ht, W, -, rfl⟩ := (hS n d _ 8 K1 hd hK1).1 s hs
      exact hoff C hC t ht e
  have hgrad : HasGradOn univ onePoly.eval (Poly.nz (onePoly.map Mono.dx)).eval (Poly.nz (onePoly.map Mono.dy)).eval :=
    fun x y _ => ⟨Poly.hasDerivAt_dx (xPlusOne_good univ 1).canonical.2 x y, Poly.hasDerivAt_dy (xPlusOne_good univ 1).canonical.2 x y⟩
  obtain ⟨r, U, U1, U2, e1, e2, e3, e4, e5⟩ := hM n d _ 8 K1 hd hK1 0 le_rfl [(2, 3)] _ _ _ _ _ _ _ hparts hgrad (within_refl le_rfl _)
    (within_refl le_rfl _)
  obtain ⟨b1, b2⟩ := e5 (2, 3) (by simp) rfl
  simp only [withLogs, List.zipWith_nil_left, List.sum_nil, add_zero, one_eval] at b1 b2
  obtain ⟨b2, b3⟩ := b2 4 (-6) ⟨(((hasDerivAt_pow 2 (2 : ℝ)).sub_const ((3 : ℝ) ^ 2)).const_add 1).congr_deriv (by norm_num),
    (((hasDerivAt_pow 2 (3 : ℝ)).const_sub ((2 : ℝ) ^ 2)).const_add 1).congr_deriv (by norm_num)⟩
  refine ⟨d, _, K1, _, r, _, _, _, hd, hK1, rfl, e1, e2, e3, e4, ?_, ?_, ?_⟩
  · rw [mul_one_div] at b1
    norm_num at b1 ⊢
    exact b1
  · rwa [mul_one_div] at b2
  · rwa [mul_one_div] at b3

end PFEM
