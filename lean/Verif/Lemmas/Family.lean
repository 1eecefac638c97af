import Verif.Props.QuadOrder

/-!
Orders of convergence of the quadrature rules, uniformly for families of integrands that depend smoothly on a parameter.
-/

namespace PFEM
open Set Quad Topology

section
variable {E : Type} [NormedAddCommGroup E] [NormedSpace ℝ E]

/-- derivatives in the last variable of a function of several variables -/
theorem iter_joint {k : ℕ} {Φ : E → ℝ → ℝ} {y : E} {t : ℝ} (h : ContDiffAt ℝ k (fun q : E × ℝ => Φ q.1 q.2) (y, t)) :
    ∀ i m : ℕ, i + m ≤ k → ContDiffAt ℝ m (fun q : E × ℝ => iteratedDeriv i (Φ q.1) q.2) (y, t) := by
  intro i
  induction i with
  | zero => exact fun m hm => by simpa using h.of_le (by exact_mod_cast (by omega : m ≤ k))
  | succ i ih =>
    intro m hm
    have h1 := ih (m + 1) (by omega)
    have h2 : ContDiffAt ℝ m (fun q : E × ℝ => fderiv ℝ (fun q : E × ℝ => iteratedDeriv i (Φ q.1) q.2) q (0, 1)) (y, t) :=
      (h1.fderiv_right (m := m) (by exact_mod_cast le_rfl)).clm_apply contDiffAt_const
    refine h2.congr_of_eventuallyEq ?_
    filter_upwards [h1.eventually (by simp)] with q hq
    have hd : DifferentiableAt ℝ (fun q : E × ℝ => iteratedDeriv i (Φ q.1) q.2) q := hq.differentiableAt (by simp)
    have hc : HasDerivAt (fun s : ℝ => ((q.1, s) : E × ℝ)) (0, 1) q.2 := (hasDerivAt_const _ _).prodMk (hasDerivAt_id _)
    have := hd.hasFDerivAt.comp_hasDerivAt_of_eq q.2 hc rfl
    rw [iteratedDeriv_succ]
    exact this.deriv

theorem iter_family_bound {k : ℕ} {Φ : E → ℝ → ℝ} {Y : Set E} (hY : IsCompact Y) {T : ℝ}
    (h : ∀ y ∈ Y, ∀ t ∈ Icc 0 T, ContDiffAt ℝ k (fun q : E × ℝ => Φ q.1 q.2) (y, t)) {i : ℕ} (hi : i ≤ k) :
    ∃ B, ∀ y ∈ Y, ∀ t ∈ Icc 0 T, |iteratedDeriv i (Φ y) t| ≤ B := by
  obtain ⟨B, hB⟩ := (hY.prod (isCompact_Icc (a := (0 : ℝ)) (b := T))).exists_bound_of_continuousOn
    (f := fun q : E × ℝ => iteratedDeriv i (Φ q.1) q.2)
    fun q hq => (iter_joint (h q.1 hq.1 q.2 hq.2) i 0 (by omega)).continuousAt.continuousWithinAt
  exact ⟨B, fun y hy t ht => hB (y, t) ⟨hy, ht⟩⟩

theorem slice_contDiffAt {k : ℕ} {Φ : E → ℝ → ℝ} {y : E} {t : ℝ} (h : ContDiffAt ℝ k (fun q : E × ℝ => Φ q.1 q.2) (y, t)) :
    ContDiffAt ℝ k (Φ y) t :=
  ContDiffAt.comp (f := fun s : ℝ => ((y, s) : E × ℝ)) (g := fun q : E × ℝ => Φ q.1 q.2) t h (contDiffAt_const.prodMk contDiffAt_id)

theorem tsum_family {T : ℝ} (hT : 0 < T) {k : ℕ} (hk : 1 ≤ k) {Φ : E → ℝ → ℝ} {Y : Set E} (hY : IsCompact Y)
    (h : ∀ y ∈ Y, ∀ t ∈ Icc 0 T, ContDiffAt ℝ k (fun q : E × ℝ => Φ q.1 q.2) (y, t))
    (hm : ∀ y ∈ Y, ∀ i, Odd i → i + 2 ≤ k → iteratedDeriv i (Φ y) T = iteratedDeriv i (Φ y) 0) :
    ∃ M, ∀ y ∈ Y, ∀ N : ℕ, 0 < N → |tsum T N (Φ y) - ∫ t in (0 : ℝ)..T, Φ y t| ≤ M / (N : ℝ) ^ k := by
  obtain ⟨c, -, hc⟩ := tsum_rate_le hT hk
  obtain ⟨B, hB⟩ := iter_family_bound hY h (i := k - 1) (by omega)
  obtain ⟨B', hB'⟩ := iter_family_bound hY h le_rfl
  exact ⟨c * max B B', fun y hy => hc (Φ y) (fun t ht => slice_contDiffAt (h y hy t ht)) (hm y hy) _
    (fun t ht => (hB y hy t ht).trans (le_max_left _ _)) fun t ht => (hB' y hy t ht).trans (le_max_right _ _)⟩

theorem kress_family {p k : ℕ} (hp : 2 ≤ p) (hk : 1 ≤ k) (hkp : k ≤ p + p % 2) {G : E → ℝ → ℝ} {Y : Set E} (hY : IsCompact Y)
    (hG : ∀ y ∈ Y, ∀ t ∈ Icc 0 (2 * Real.pi), ContDiffAt ℝ k (fun q : E × ℝ => G q.1 q.2) (y, t)) :
    ∃ M, ∀ y ∈ Y, ∀ N : ℕ, 0 < N → |lsum (2 * Real.pi) N (fun t => G y (kressT p t) * kressW p t) -
      ∫ t in (0 : ℝ)..2 * Real.pi, G y t| ≤ M / (N : ℝ) ^ k := by
  have hpi : (0 : ℝ) < 2 * Real.pi := by positivity
  have hf := fun y (hy : y ∈ Y) => kress_flat hp (k := k) (G := G y) fun t ht => slice_contDiffAt (hG y hy t ht)
  obtain ⟨M, hM⟩ := tsum_family hpi hk hY (Φ := fun y t => G y (kressT p t) * kressW p t) (fun y hy t ht => by
    have h1 := kressT_contDiffAt hp (k := k) ht
    have h2 := kressW_contDiffAt hp (k := k) ht
    have h3 : ContDiffAt ℝ k (fun q : E × ℝ => ((q.1, kressT p q.2) : E × ℝ)) (y, t) :=
      contDiffAt_fst.prodMk (ContDiffAt.comp (f := fun q : E × ℝ => q.2) (g := kressT p) (y, t) h1 contDiffAt_snd)
    exact (ContDiffAt.comp (g := fun q : E × ℝ => G q.1 q.2) (y, t) (hG y hy _ (kressT_mem hp ht)) h3).mul
      (ContDiffAt.comp (f := fun q : E × ℝ => q.2) (g := kressW p) (y, t) h2 contDiffAt_snd))
    (fun y hy i ho hi => by
      obtain ⟨m, rfl⟩ := ho
      rw [((hf y hy).2 _ (by omega) (by omega)).1, ((hf y hy).2 _ (by omega) (by omega)).2])
  refine ⟨M, fun y hy N hN => ?_⟩
  have := hM y hy N hN
  rw [kress_substitution hp (fun t ht => (slice_contDiffAt (hG y hy t ht)).continuousAt.continuousWithinAt), tsum] at this
  have f0 := ((hf y hy).2 0 (by omega) (by omega)).1
  have f1 := ((hf y hy).2 0 (by omega) (by omega)).2
  rw [iteratedDeriv_zero] at f0 f1
  rw [f0, f1] at this
  simpa using this

theorem periodic_family {T : ℝ} (hT : 0 < T) {k : ℕ} (hk : 1 ≤ k) {G : E → ℝ → ℝ} {Y : Set E} (hY : IsCompact Y)
    (hper : ∀ y t, G y (t + T) = G y t)
    (hG : ∀ y ∈ Y, ∀ t ∈ Icc 0 T, ContDiffAt ℝ k (fun q : E × ℝ => G q.1 q.2) (y, t)) :
    ∃ M, ∀ y ∈ Y, ∀ N : ℕ, 0 < N → |lsum T N (G y) - ∫ t in (0 : ℝ)..T, G y t| ≤ M / (N : ℝ) ^ k := by
  obtain ⟨M, hM⟩ := tsum_family hT hk hY hG (fun y _ i _ _ => by
    have := congrFun (iteratedDeriv_comp_add_const i (G y) T) 0
    rw [show (fun z => G y (z + T)) = G y from funext (hper y), zero_add] at this
    exact this.symm)
  refine ⟨M, fun y hy N hN => ?_⟩
  have := hM y hy N hN
  have e := hper y 0
  rw [zero_add] at e
  rw [tsum, e] at this
  simpa using this

/-- the sums over a block of a contour -/
theorem lsum_family {p k : ℕ} (hp : 2 ≤ p) (hk : 1 ≤ k) {F : E → ℝ → ℝ} {Y : Set E} (hY : IsCompact Y)
    (hF : ∀ y ∈ Y, ∀ t ∈ Icc 0 (2 * Real.pi), ContDiffAt ℝ k (fun q : E × ℝ => F q.1 q.2) (y, t)) {qt : String}
    (hq : qt = "kress" ∧ k ≤ p + p % 2 ∨ qt = "trap" ∧ ∀ y t, F y (t + 2 * Real.pi) = F y t) :
    ∃ M, 0 ≤ M ∧ ∀ y ∈ Y, ∀ lam W, RuleMap p qt lam W → ∀ N : ℕ, 0 < N →
      |lsum (2 * Real.pi) N (fun t => F y (lam t) * W t) - ∫ t in (0 : ℝ)..2 * Real.pi, F y t| ≤ M / (N : ℝ) ^ k := by
  have key : ∃ M, ∀ y ∈ Y, ∀ lam W, RuleMap p qt lam W → ∀ N : ℕ, 0 < N →
      |lsum (2 * Real.pi) N (fun t => F y (lam t) * W t) - ∫ t in (0 : ℝ)..2 * Real.pi, F y t| ≤ M / (N : ℝ) ^ k := by
    rcases hq with ⟨hq, hkp⟩ | ⟨hq, hper⟩
    · obtain ⟨M, hM⟩ := kress_family hp hk hkp hY hF
      refine ⟨M, fun y hy lam W hr N hN => ?_⟩
      obtain ⟨rfl, rfl⟩ := hr.kress_inv hq
      exact hM y hy N hN
    · obtain ⟨M, hM⟩ := periodic_family (by positivity) hk hY hper hF
      refine ⟨M, fun y hy lam W hr N hN => ?_⟩
      obtain ⟨rfl, rfl⟩ := hr.trap_inv hq
      simpa using hM y hy N hN
  obtain ⟨M, hM⟩ := key
  refine ⟨max M 0, le_max_right _ _, fun y hy lam W hr N hN => (hM y hy lam W hr N hN).trans ?_⟩
  gcongr
  exact le_max_left _ _

theorem edgeSum_family {φ : E → Sample → ℝ} {G : E → PCurve → ℝ → ℝ} (hG : ∀ y, Density (φ y) (G y)) (hper : ∀ y, PeriodicOn (G y))
    {p : ℤ} (hp : 2 ≤ p) {q : EdgeG × ℤ} {C0 C : PCurve} (hC : q.1.Follows C0) (ho : C = oriented q.2 C0)
    (hdi : ∀ o ∈ q.1.diary, o.Good) {k : ℕ} (hk : 1 ≤ k) (hq : SuitedRule p k q.1.quadType C) {Y : Set E} (hY : IsCompact Y)
    (hc : ∀ y ∈ Y, ∀ s ∈ Icc 0 (2 * Real.pi), ContDiffAt ℝ k (fun q : E × ℝ => G q.1 C q.2) (y, s)) :
    ∃ M : ℝ, ∀ y ∈ Y, ∀ n d e', getQuadDict n p = .ok d → SampledFrom d q e' →
      |edgeSum (φ y) e' - ∫ t in (0 : ℝ)..2 * Real.pi, G y C t| ≤ M / (n : ℝ) ^ k := by
  have hs : C.Smooth := by
    rw [ho, oriented]
    split
    · exact (follows_smooth hC).reverse
    · exact follows_smooth hC
  obtain ⟨M, hM0, hM⟩ := lsum_family (p := p.toNat) (by omega) hk hY hc
    (hq.imp (fun h => ⟨h.1, by have := h.2; omega⟩) fun h => ⟨h.1, fun y => hper y C hs h.2⟩)
  refine ⟨M, fun y hy n d e' hd ⟨e1, h1, h2⟩ => ?_⟩
  have key : ∃ acts : List EdgeAct, (∀ a ∈ acts, a.Good) ∧ e1.run acts = .ok e' ∧ acts.foldl (fun C a => a.act C) C0 = C := by
    by_cases hq : q.2 = -1
    · refine ⟨[.reverse], by simp [EdgeAct.Good], ?_, ?_⟩
      · rw [h2, if_pos hq]; rfl
      · rw [ho, oriented, if_pos hq]; rfl
    · refine ⟨[], by simp, ?_, ?_⟩
      · rw [h2, if_neg hq]; rfl
      · rw [ho, oriented, if_neg hq]; rfl
  obtain ⟨acts, hac, h3, h4⟩ := key
  obtain ⟨hn4, -, lam, W, hr, hpts⟩ := follows_pts hd hC hdi hac h1 h3
  rw [h4] at hpts
  rw [edgeSum_eq (hG y) hpts]
  refine (hM y hy lam W hr (2 * n.toNat) (by omega)).trans ((bound_half hM0 (by omega)).trans_eq ?_)
  rw [show ((n.toNat : ℕ) : ℝ) = (n : ℝ) by
    rw [← Int.cast_natCast, Int.toNat_of_nonneg (by omega)]]

theorem sums_family {φ : E → Sample → ℝ} {G : E → PCurve → ℝ → ℝ} (hG : ∀ y, Density (φ y) (G y)) (hper : ∀ y, PeriodicOn (G y))
    {p : ℤ} (hp : 2 ≤ p) {k : ℕ} (hk : 1 ≤ k) {Y : Set E} (hY : IsCompact Y) :
    ∀ {qs : List (EdgeG × ℤ)} {Cs : List PCurve},
    List.Forall₂ (fun (q : EdgeG × ℤ) C => ∃ C0, q.1.Follows C0 ∧ C = oriented q.2 C0) qs Cs →
    List.Forall₂ (fun (q : EdgeG × ℤ) C => SuitedRule p k q.1.quadType C) qs Cs →
    (∀ q ∈ qs, ∀ o ∈ q.1.diary, o.Good) →
    (∀ C ∈ Cs, ∀ y ∈ Y, ∀ s ∈ Icc 0 (2 * Real.pi), ContDiffAt ℝ k (fun q : E × ℝ => G q.1 C q.2) (y, s)) →
    ∃ M : ℝ, ∀ y ∈ Y, ∀ n d es, getQuadDict n p = .ok d → List.Forall₂ (SampledFrom d) qs es →
      |(es.map (edgeSum (φ y))).sum - (Cs.map fun C => ∫ t in (0 : ℝ)..2 * Real.pi, G y C t).sum| ≤ M / (n : ℝ) ^ k := by
  intro qs Cs hF
  induction hF with
  | nil =>
    intro _ _ _
    refine ⟨0, fun y _ n d es _ h => ?_⟩
    rw [List.forall₂_nil_left_iff] at h
    simp [h]
  | @cons q C qs Cs hq hqs ih =>
    intro hr hdi hc
    obtain ⟨C0, h1, h2⟩ := hq
    obtain ⟨hr1, hr2⟩ := List.forall₂_cons.1 hr
    obtain ⟨A, hA⟩ := edgeSum_family hG hper hp h1 h2 (hdi q (by simp)) hk hr1 hY (hc C (by simp))
    obtain ⟨B, hB⟩ := ih hr2 (fun q hq => hdi q (by simp [hq])) (fun C hC => hc C (by simp [hC]))
    refine ⟨A + B, fun y hy n d es hd h => ?_⟩
    obtain ⟨e', es', k1, k2, rfl⟩ := List.forall₂_cons_left_iff.1 h
    have a := hA y hy n d e' hd k1
    have b := hB y hy n d es' hd k2
    simp only [List.map_cons, List.sum_cons]
    rw [add_sub_add_comm, add_div]
    refine (abs_add_le _ _).trans ?_
    linarith

/-- the order of convergence of integrals over the boundary of a cell, with one constant for a family of integrands -/
theorem cell_family {φ : E → Sample → ℝ} {G : E → PCurve → ℝ → ℝ} (hG : ∀ y, Density (φ y) (G y)) (hper : ∀ y, PeriodicOn (G y))
    (p : ℤ) {k : ℕ} (hk : 1 ≤ k) {K : CellG} {Cs : List PCurve} {Y : Set E} (hY : IsCompact Y)
    (hK : K.Shaped) (hg : K.GoodDiaries) (hC : K.BoundaryCurves Cs) (hr : K.SuitedRules p k Cs)
    (hc : ∀ C ∈ Cs, ∀ y ∈ Y, ∀ s ∈ Icc 0 (2 * Real.pi), ContDiffAt ℝ k (fun q : E × ℝ => G q.1 C q.2) (y, s)) :
    ∃ M : ℝ, ∀ n d inside fuel K1, getQuadDict n p = .ok d →
      K.parameterize inside fuel d = some (.ok K1) → K1.Ready ∧ ∀ y ∈ Y, ∃ I, K1.integrate (K1.cols.map (φ y)) = .ok I ∧
        |I - (Cs.map fun C => ∫ t in (0 : ℝ)..2 * Real.pi, G y C t).sum| ≤ M / (n : ℝ) ^ k := by
  by_cases hp : 2 ≤ p
  swap
  · refine ⟨0, fun n d inside fuel K1 hd _ => ?_⟩
    exact absurd ((C21_dict n p).1.1 ⟨d, hd⟩).2 hp
  obtain ⟨M, hM⟩ := sums_family hG hper hp hk hY hC hr (good_flat hg) hc
  refine ⟨M, fun n d inside fuel K1 hd h => ?_⟩
  obtain ⟨h1, h2, es, h3, h4⟩ := cell_rel hd hK h
  refine ⟨h1, fun y hy => ⟨_, cell_sum h1 h2 (φ y), ?_⟩⟩
  rw [(h3.map (edgeSum (φ y))).sum_eq]
  exact hM y hy n d es hd h4

end
end PFEM
