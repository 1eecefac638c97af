import Verif.Lemmas.LineSum

/-!
Property theorems C85: quadrature over edges and over the boundary of a cell converges to the line integrals along the exact
curves as the number of nodes grows.
-/

namespace PFEM
open EdgeG Set

theorem lsum_rule {p : ℕ} (hp : 2 ≤ p) {F : ℝ → ℝ} (hF : ContinuousOn F (Icc 0 (2 * Real.pi))) {ε : ℝ} (hε : 0 < ε) :
    ∃ N0 : ℕ, ∀ qt lam W, RuleMap p qt lam W → ∀ N ≥ N0,
      |lsum (2 * Real.pi) N (fun t => F (lam t) * W t) - ∫ t in (0 : ℝ)..2 * Real.pi, F t| < ε := by
  obtain ⟨A, hA⟩ := lsum_tendsto (by positivity) hF hε
  obtain ⟨B, hB⟩ := kress_tendsto hp hF hε
  refine ⟨max A B, fun qt lam W hr N hN => ?_⟩
  cases hr with
  | trap => simpa using hA N (le_trans (le_max_left _ _) hN)
  | kress => exact hB N (le_trans (le_max_right _ _) hN)

/-- the two end values matter less and less -/
theorem tsum_rule {p : ℕ} (hp : 2 ≤ p) {F : ℝ → ℝ} (hF : ContinuousOn F (Icc 0 (2 * Real.pi))) {ε : ℝ} (hε : 0 < ε) :
    ∃ N0 : ℕ, ∀ qt lam W, RuleMap p qt lam W → ∀ N ≥ N0,
      |tsum (2 * Real.pi) N (fun t => F (lam t) * W t) - ∫ t in (0 : ℝ)..2 * Real.pi, F t| < ε := by
  have hpi := Real.pi_pos
  obtain ⟨A, hA⟩ := lsum_rule hp hF (half_pos hε)
  set B : ℝ := 2 * Real.pi * (|F (2 * Real.pi)| + |F 0|) with hB
  have hB0 : 0 ≤ B := by positivity
  obtain ⟨m, hm⟩ := exists_nat_gt (B / (ε / 2))
  refine ⟨max A (max m 1), fun qt lam W hr N hN => ?_⟩
  have hN1 : 1 ≤ N := le_trans (le_trans (le_max_right _ _) (le_max_right _ _)) hN
  have hNm : (m : ℝ) ≤ N := by exact_mod_cast le_trans (le_trans (le_max_left _ _) (le_max_right _ _)) hN
  have hNp : (0 : ℝ) < N := by exact_mod_cast hN1
  have h1 := hA qt lam W hr N (le_trans (le_max_left _ _) hN)
  have h2 : |2 * Real.pi / N * ((F (lam (2 * Real.pi)) * W (2 * Real.pi) - F (lam 0) * W 0) / 2)| ≤ B / N := by
    have hend : |(F (lam (2 * Real.pi)) * W (2 * Real.pi) - F (lam 0) * W 0) / 2| ≤ |F (2 * Real.pi)| + |F 0| := by
      cases hr with
      | trap =>
        simp only [mul_one]
        rw [abs_div, abs_two, div_le_iff₀ two_pos]
        have := abs_sub (F (2 * Real.pi)) (F 0)
        have h3 := abs_nonneg (F (2 * Real.pi))
        have h4 := abs_nonneg (F 0)
        linarith
      | kress =>
        have w0 : Quad.kressW p 0 = 0 := by
          rw [kressW_factor, sub_zero, zero_pow (by omega), zero_mul]
        have w1 : Quad.kressW p (2 * Real.pi) = 0 := by
          rw [kressW_factor', sub_self, zero_pow (by omega), zero_mul]
        simp only [w0, w1, mul_zero, sub_zero, zero_div, abs_zero]
        positivity
    rw [abs_mul, abs_of_nonneg (by positivity)]
    calc _ ≤ 2 * Real.pi / N * (|F (2 * Real.pi)| + |F 0|) := mul_le_mul_of_nonneg_left hend (by positivity)
      _ = B / N := by rw [hB]; ring
  have h3 : B / N < ε / 2 := by
    rw [div_lt_iff₀ (half_pos hε)] at hm
    rw [div_lt_iff₀ hNp]
    calc B < m * (ε / 2) := hm
      _ ≤ N * (ε / 2) := by gcongr
      _ = ε / 2 * N := mul_comm _ _
  rw [tsum, add_sub_right_comm]
  refine lt_of_le_of_lt (abs_add_le _ _) ?_
  linarith

theorem smooth_continuous {C : PCurve} (h : C.Smooth) :
    Continuous C.x ∧ Continuous C.y ∧ Continuous C.dx ∧ Continuous C.dy := by
  refine ⟨?_, ?_, ?_, ?_⟩ <;> rw [continuous_iff_continuousAt] <;> intro s
  · exact (h s).1.continuousAt
  · exact (h s).2.1.continuousAt
  · exact (h s).2.2.1.continuousAt
  · exact (h s).2.2.2.continuousAt

theorem onCurve_continuous {C : PCurve} (h : C.Smooth) {f : ℝ → ℝ → ℝ} (hf : C.ContinuousOnCurve f) :
    ContinuousOn (fun s => f (C.x s) (C.y s)) (Icc 0 (2 * Real.pi)) := by
  obtain ⟨h1, h2, -, -⟩ := smooth_continuous h
  intro s hs
  have := ContinuousAt.comp (f := fun s => (C.x s, C.y s)) (x := s) (hf s hs)
    ((h1.continuousAt).prodMk h2.continuousAt)
  exact this.continuousWithinAt

theorem speed_continuous {C : PCurve} (h : C.Smooth) : Continuous C.speed := by
  obtain ⟨-, -, h3, h4⟩ := smooth_continuous h
  unfold PCurve.speed
  fun_prop

theorem line_continuous {C : PCurve} (h : C.Smooth) {f : ℝ → ℝ → ℝ} (hf : C.ContinuousOnCurve f) :
    ContinuousOn (fun s => f (C.x s) (C.y s) * C.speed s) (Icc 0 (2 * Real.pi)) :=
  (onCurve_continuous h hf).mul (speed_continuous h).continuousOn

theorem flux_continuous {C : PCurve} (h : C.Smooth) {f g : ℝ → ℝ → ℝ} (hf : C.ContinuousOnCurve f)
    (hg : C.ContinuousOnCurve g) :
    ContinuousOn (fun s => f (C.x s) (C.y s) * C.dy s - g (C.x s) (C.y s) * C.dx s) (Icc 0 (2 * Real.pi)) :=
  ((onCurve_continuous h hf).mul (smooth_continuous h).2.2.2.continuousOn).sub
    ((onCurve_continuous h hg).mul (smooth_continuous h).2.2.1.continuousOn)

theorem circulation_continuous {C : PCurve} (h : C.Smooth) {f g : ℝ → ℝ → ℝ} (hf : C.ContinuousOnCurve f)
    (hg : C.ContinuousOnCurve g) :
    ContinuousOn (fun s => f (C.x s) (C.y s) * C.dx s + g (C.x s) (C.y s) * C.dy s) (Icc 0 (2 * Real.pi)) :=
  ((onCurve_continuous h hf).mul (smooth_continuous h).2.2.1.continuousOn).add
    ((onCurve_continuous h hg).mul (smooth_continuous h).2.2.2.continuousOn)

theorem acts_smooth {acts : List EdgeAct} {C : PCurve} (h : C.Smooth) : (acts.foldl (fun C a => a.act C) C).Smooth := by
  induction acts generalizing C with
  | nil => exact h
  | cons a l ih => exact ih (EdgeAct.act_smooth h a)

/-- C85: integration over an edge converges to the line integral along the exact curve: for every edge of the curve library,
moved and reversed in any way, and every function that is continuous along it, the number that `integrate_over_edge` returns
for the values of the function differs from the integral of the function with respect to arc length by less than any given
bound once the number of nodes is large enough. -/
theorem C85_edge {e : EdgeG} {C : PCurve} (hC : e.Follows C) (hdi : ∀ o ∈ e.diary, o.Good) (acts : List EdgeAct)
    (hac : ∀ a ∈ acts, a.Good) {f : ℝ → ℝ → ℝ} (hf : (acts.foldl (fun C a => a.act C) C).ContinuousOnCurve f) (p : ℤ)
    {ε : ℝ} (hε : 0 < ε) :
    ∃ N0 : ℤ, ∀ n ≥ N0, ∀ d e1 e2, getQuadDict n p = .ok d → e.parameterize d = .ok e1 → e1.run acts = .ok e2 →
      ∃ u I, e2.evaluateFunction f false = .ok u ∧ e2.integrate u false = .ok I ∧
        |I - (acts.foldl (fun C a => a.act C) C).lineIntegral f| < ε := by
  by_cases hp : 2 ≤ p
  swap
  · refine ⟨0, fun n _ d e1 e2 hd _ _ => ?_⟩
    exact absurd ((C21_dict n p).1.1 ⟨d, hd⟩).2 hp
  obtain ⟨N0, hN0⟩ := tsum_rule (p := p.toNat) (by omega) (line_continuous (acts_smooth (follows_smooth hC)) hf) hε
  refine ⟨N0, fun n hn d e1 e2 hd h1 h2 => ?_⟩
  obtain ⟨hn4, -, lam, W, hr, hpts⟩ := follows_pts hd hC hdi hac h1 h2
  obtain ⟨L, hL, hI⟩ := edge_tsum (density_line f) (by omega) hpts
  refine ⟨L.map fun s => f s.x s.y, _, ?_, hI, hN0 _ lam W hr (2 * n.toNat) (by omega)⟩
  simp [evaluateFunction, sampled, hL, bind, Except.bind]

/-- the same for the left sums of contours and for any quantity with a continuous density -/
theorem edgeSum_tendsto {φ : Sample → ℝ} {G : PCurve → ℝ → ℝ} (hG : Density φ G) {p : ℤ} (hp : 2 ≤ p) {q : EdgeG × ℤ}
    {C0 C : PCurve} (hC : q.1.Follows C0) (ho : C = oriented q.2 C0) (hdi : ∀ o ∈ q.1.diary, o.Good)
    (hc : ContinuousOn (G C) (Icc 0 (2 * Real.pi))) {ε : ℝ} (hε : 0 < ε) :
    ∃ N0 : ℤ, ∀ n ≥ N0, ∀ d e', getQuadDict n p = .ok d → SampledFrom d q e' →
      |edgeSum φ e' - ∫ t in (0 : ℝ)..2 * Real.pi, G C t| < ε := by
  obtain ⟨N0, hN0⟩ := lsum_rule (p := p.toNat) (by omega) hc hε
  refine ⟨N0, fun n hn d e' hd ⟨e1, h1, h2⟩ => ?_⟩
  have key : ∃ acts : List EdgeAct, (∀ a ∈ acts, a.Good) ∧ e1.run acts = .ok e' ∧ acts.foldl (fun C a => a.act C) C0 = C := by
    by_cases hq : q.2 = -1
    · refine ⟨[.reverse], by simp [EdgeAct.Good], ?_, ?_⟩
      · rw [h2, if_pos hq]; rfl
      · rw [ho, oriented, if_pos hq]; rfl
    · refine ⟨[], by simp, ?_, ?_⟩
      · rw [h2, if_neg hq]; rfl
      · rw [ho, oriented, if_neg hq]; rfl
  obtain ⟨acts, hac, h3, h4⟩ := key
  obtain ⟨hn4, -, lam, W, hr, hpts⟩ := follows_pts hd hC hdi hac h1 h3
  rw [h4] at hpts
  rw [edgeSum_eq hG hpts]
  exact hN0 _ lam W hr (2 * n.toNat) (by omega)

theorem sums_tendsto {φ : Sample → ℝ} {G : PCurve → ℝ → ℝ} (hG : Density φ G) {p : ℤ} (hp : 2 ≤ p) :
    ∀ {qs : List (EdgeG × ℤ)} {Cs : List PCurve}, List.Forall₂ (fun (q : EdgeG × ℤ) C => ∃ C0, q.1.Follows C0 ∧ C = oriented q.2 C0) qs Cs →
    (∀ q ∈ qs, ∀ o ∈ q.1.diary, o.Good) → (∀ C ∈ Cs, ContinuousOn (G C) (Icc 0 (2 * Real.pi))) →
    ∀ {ε : ℝ}, 0 < ε → ∃ N0 : ℤ, ∀ n ≥ N0, ∀ d es, getQuadDict n p = .ok d → List.Forall₂ (SampledFrom d) qs es →
      |(es.map (edgeSum φ)).sum - (Cs.map fun C => ∫ t in (0 : ℝ)..2 * Real.pi, G C t).sum| < ε := by
  intro qs Cs hF
  induction hF with
  | nil =>
    intro _ _ ε hε
    refine ⟨0, fun n _ d es _ h => ?_⟩
    rw [List.forall₂_nil_left_iff] at h
    simpa [h] using hε
  | @cons q C qs Cs hq hqs ih =>
    intro hdi hc ε hε
    obtain ⟨C0, h1, h2⟩ := hq
    obtain ⟨A, hA⟩ := edgeSum_tendsto hG hp h1 h2 (hdi q (by simp)) (hc C (by simp)) (half_pos hε)
    obtain ⟨B, hB⟩ := ih (fun q hq => hdi q (by simp [hq])) (fun C hC => hc C (by simp [hC])) (half_pos hε)
    refine ⟨max A B, fun n hn d es hd h => ?_⟩
    obtain ⟨e', es', k1, k2, rfl⟩ := List.forall₂_cons_left_iff.1 h
    have a := hA n (le_trans (le_max_left _ _) hn) d e' hd k1
    have b := hB n (le_trans (le_max_right _ _) hn) d es' hd k2
    simp only [List.map_cons, List.sum_cons]
    rw [add_sub_add_comm]
    refine lt_of_le_of_lt (abs_add_le _ _) ?_
    linarith

theorem good_flat {K : CellG} (hg : K.GoodDiaries) :
    ∀ q ∈ K.components.flatMap fun c => c.edges.zip c.orients, ∀ o ∈ q.1.diary, o.Good := by
  intro q hq
  obtain ⟨c, hc, hq⟩ := List.mem_flatMap.1 hq
  exact hg c hc q.1 (List.of_mem_zip hq).1

theorem boundary_smooth {K : CellG} {Cs : List PCurve} (h : K.BoundaryCurves Cs) : ∀ C ∈ Cs, C.Smooth := by
  intro C hC
  obtain ⟨i, hi, rfl⟩ := List.getElem_of_mem hC
  obtain ⟨C0, h1, h2⟩ := (List.forall₂_iff_get.1 h).2 i (by rw [(List.forall₂_iff_get.1 h).1]; exact hi) hi
  rw [List.get_eq_getElem] at h2
  rw [h2, oriented]
  split
  · exact (follows_smooth h1).reverse
  · exact follows_smooth h1

theorem cell_tendsto {φ : Sample → ℝ} {G : PCurve → ℝ → ℝ} (hG : Density φ G) (p : ℤ) {K : CellG} {Cs : List PCurve}
    (hK : K.Shaped) (hg : K.GoodDiaries) (hC : K.BoundaryCurves Cs) (hc : ∀ C ∈ Cs, ContinuousOn (G C) (Icc 0 (2 * Real.pi)))
    {ε : ℝ} (hε : 0 < ε) : ∃ N0 : ℤ, ∀ n ≥ N0, ∀ d inside fuel K1, getQuadDict n p = .ok d →
      K.parameterize inside fuel d = some (.ok K1) → K1.Ready ∧ ∃ I, K1.integrate (K1.cols.map φ) = .ok I ∧
        |I - (Cs.map fun C => ∫ t in (0 : ℝ)..2 * Real.pi, G C t).sum| < ε := by
  by_cases hp : 2 ≤ p
  swap
  · refine ⟨0, fun n _ d inside fuel K1 hd _ => ?_⟩
    exact absurd ((C21_dict n p).1.1 ⟨d, hd⟩).2 hp
  obtain ⟨N0, hN0⟩ := sums_tendsto hG hp hC (good_flat hg) hc hε
  refine ⟨N0, fun n hn d inside fuel K1 hd h => ?_⟩
  obtain ⟨h1, h2, es, h3, h4⟩ := cell_rel hd hK h
  refine ⟨h1, _, cell_sum h1 h2 φ, ?_⟩
  rw [(h3.map (edgeSum φ)).sum_eq]
  exact hN0 n hn d es hd h4

/-- C85: integration over the boundary of a cell converges to the sum of the line integrals along the curves of its boundary:
for every cell whose edges come from the curve library, with any number of components, and for every function that is continuous
along the boundary. -/
theorem C85_cell {K : CellG} {Cs : List PCurve} (hK : K.Shaped) (hg : K.GoodDiaries) (hC : K.BoundaryCurves Cs)
    {f : ℝ → ℝ → ℝ} (hf : ∀ C ∈ Cs, C.ContinuousOnCurve f) (p : ℤ) {ε : ℝ} (hε : 0 < ε) :
    ∃ N0 : ℤ, ∀ n ≥ N0, ∀ d inside fuel K1, getQuadDict n p = .ok d → K.parameterize inside fuel d = some (.ok K1) →
      ∃ u I, K1.evaluateFunction f = .ok u ∧ K1.integrate u = .ok I ∧
        |I - (Cs.map fun C => C.lineIntegral f).sum| < ε := by
  obtain ⟨N0, h⟩ := cell_tendsto (density_line f) p hK hg hC
    (fun C hC' => line_continuous (boundary_smooth hC C hC') (hf C hC')) hε
  refine ⟨N0, fun n hn d inside fuel K1 hd h1 => ?_⟩
  obtain ⟨hr, I, hI, hb⟩ := h n hn d inside fuel K1 hd h1
  exact ⟨_, I, hr.evaluateFunction f, hI, hb⟩

/-- C85: the same for the fluxes of vector fields through the boundary (`dot_with_normal`) and for their circulations along it
(`dot_with_tangent`). -/
theorem C85_fields {K : CellG} {Cs : List PCurve} (hK : K.Shaped) (hg : K.GoodDiaries) (hC : K.BoundaryCurves Cs)
    {f g : ℝ → ℝ → ℝ} (hf : ∀ C ∈ Cs, C.ContinuousOnCurve f) (hg' : ∀ C ∈ Cs, C.ContinuousOnCurve g) (p : ℤ) {ε : ℝ}
    (hε : 0 < ε) :
    ∃ N0 : ℤ, ∀ n ≥ N0, ∀ d inside fuel K1, getQuadDict n p = .ok d → K.parameterize inside fuel d = some (.ok K1) →
      ∃ u v, K1.evaluateFunction f = .ok u ∧ K1.evaluateFunction g = .ok v ∧
        (∃ w I, K1.dotWithNormal u v = .ok w ∧ K1.integrate w = .ok I ∧ |I - (Cs.map fun C => C.flux f g).sum| < ε) ∧
        ∃ w I, K1.dotWithTangent u v = .ok w ∧ K1.integrate w = .ok I ∧ |I - (Cs.map fun C => C.circulation f g).sum| < ε := by
  obtain ⟨A, hA⟩ := cell_tendsto (density_flux f g) p hK hg hC
    (fun C hC' => flux_continuous (boundary_smooth hC C hC') (hf C hC') (hg' C hC')) hε
  obtain ⟨B, hB⟩ := cell_tendsto (density_circulation f g) p hK hg hC
    (fun C hC' => circulation_continuous (boundary_smooth hC C hC') (hf C hC') (hg' C hC')) hε
  refine ⟨max A B, fun n hn d inside fuel K1 hd h1 => ?_⟩
  obtain ⟨hr, I, hI, hb⟩ := hA n (le_trans (le_max_left _ _) hn) d inside fuel K1 hd h1
  obtain ⟨-, J, hJ, hb'⟩ := hB n (le_trans (le_max_right _ _) hn) d inside fuel K1 hd h1
  refine ⟨_, _, hr.evaluateFunction f, hr.evaluateFunction g, ⟨_, I, hr.dotWithNormal (by simp) (by simp), ?_, hb⟩,
    _, J, hr.dotWithTangent (by simp) (by simp), ?_, hb'⟩
  · rw [List.zip_map', List.zipWith_map_right, List.zipWith_self]
    exact hI
  · rw [List.zip_map', List.zipWith_map_right, List.zipWith_self]
    exact hJ

/-- C85: every edge with valid shape parameters follows exactly one curve, and no other edge follows any. -/
theorem C85_curve (e : EdgeG) : ((∃ C, e.Follows C) ↔ OptsOk e.curve e.opts) ∧
    ∀ C C', e.Follows C → e.Follows C' → C = C' := by
  refine ⟨⟨?_, fun h => ?_⟩, fun C C' => follows_unique⟩
  · rintro ⟨C, γ, -, h, -⟩
    exact (C20_errors e.curve e.opts 0).1.1 ⟨_, h 0⟩
  · obtain ⟨γ, h1, h2, -⟩ := base_samples e.curve e.opts h
    exact ⟨_, γ, h1, fun t => (h2 t).1, rfl⟩

/-- C85: the direction in which a curve is run does not matter for line integrals; fluxes and circulations change their sign. -/
theorem C85_direction (C : PCurve) (f g : ℝ → ℝ → ℝ) : C.reverse.lineIntegral f = C.lineIntegral f ∧
    C.reverse.flux f g = -C.flux f g ∧ C.reverse.circulation f g = -C.circulation f g := by
  have key : ∀ H : ℝ → ℝ, ∫ s in (0 : ℝ)..2 * Real.pi, H (2 * Real.pi - s) = ∫ s in (0 : ℝ)..2 * Real.pi, H s := by
    intro H
    rw [intervalIntegral.integral_comp_sub_left]
    simp
  refine ⟨?_, ?_, ?_⟩
  · rw [PCurve.lineIntegral, PCurve.lineIntegral, ← key]
    congr 1
    funext s
    simp [PCurve.reverse, PCurve.speed]
  · rw [PCurve.flux, PCurve.flux, ← intervalIntegral.integral_neg, ← key]
    congr 1
    funext s
    simp only [PCurve.reverse]
    ring_nf
  · rw [PCurve.circulation, PCurve.circulation, ← intervalIntegral.integral_neg, ← key]
    congr 1
    funext s
    simp only [PCurve.reverse]
    ring_nf

end PFEM
