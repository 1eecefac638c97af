import Mathlib.Geometry.Manifold.PartitionOfUnity
import Verif.Lemmas.Green
import Verif.Props.LineIntegral

/-!
Green's theorem for the regions that curves enclose.
-/

namespace PFEM
open Set MeasureTheory Topology

theorem encloses_smooth {Cs : List PCurve} {S : Set (ℝ × ℝ)} (h : Encloses Cs S) : ∀ C ∈ Cs, C.Smooth := by
  induction h with
  | star h1 h2 => exact h1
  | cut h1 h2 h3 i1 i2 =>
    intro C hC
    rcases List.mem_append.1 hC with h | h
    · exact i1 C h
    · obtain ⟨C', h', rfl⟩ := List.mem_map.1 h
      exact (i2 C' h').reverse
  | glue h1 h2 h3 i1 i2 =>
    intro C hC
    rcases List.mem_append.1 hC with h | h
    · exact i1 C (by simp [h])
    · exact i2 C (by simp [h])
  | perm h1 h2 i => exact fun C hC => i C (h2.mem_iff.2 hC)
  | split h1 h2 h3 i =>
    intro C hC
    have hs := i _ (List.mem_cons_self ..)
    simp only [List.mem_cons] at hC
    rcases hC with rfl | rfl | h
    · exact hs.retime _ _
    · exact hs.retime _ _
    · exact i C (by simp [h])
  | join h1 h2 h3 h4 i =>
    intro C hC
    rcases List.mem_cons.1 hC with rfl | h
    · exact h1
    · exact i C (by simp [h])

theorem encloses_region {Cs : List PCurve} {S : Set (ℝ × ℝ)} (h : Encloses Cs S) : MeasurableSet S ∧ Bornology.IsBounded S := by
  induction h with
  | star h1 h2 =>
    have := starRegion_compact h1
    exact ⟨(this _).isClosed.measurableSet, (this _).isBounded⟩
  | cut h1 h2 h3 i1 i2 => exact ⟨i1.1.diff i2.1, i1.2.subset sdiff_subset⟩
  | glue h1 h2 h3 i1 i2 => exact ⟨i1.1.union i2.1, i1.2.union i2.2⟩
  | perm h1 h2 i => exact i
  | split h1 h2 h3 i => exact i
  | join h1 h2 h3 h4 i => exact i

theorem bounded_integrable {S : Set (ℝ × ℝ)} (h : Bornology.IsBounded S) {F : ℝ × ℝ → ℝ} (hF : Continuous F) : IntegrableOn F S :=
  (hF.continuousOn.integrableOn_compact h.isCompact_closure).mono_set subset_closure

theorem sum_map_minus_one {α : Type} (l : List α) (u : α → ℝ) : (l.map fun x => -u x).sum = -(l.map u).sum := by
  induction l with
  | nil => simp
  | cons x l ih => simp only [List.map_cons, List.sum_cons, ih]; ring

/-- the flux through a curve is the sum of the fluxes through its pieces -/
theorem flux_pieces {C : PCurve} (hC : C.Smooth) {f g : ℝ → ℝ → ℝ} (hf : Continuous fun q : ℝ × ℝ => f q.1 q.2)
    (hg : Continuous fun q : ℝ × ℝ => g q.1 q.2) {c : ℝ} (h0 : 0 < c) (h1 : c < 2 * Real.pi) :
    (C.piece 0 c).flux f g + (C.piece c (2 * Real.pi)).flux f g = C.flux f g := by
  obtain ⟨c1, c2, c3, c4⟩ := curve_continuous hC
  set F : ℝ → ℝ := fun s => f (C.x s) (C.y s) * C.dy s - g (C.x s) (C.y s) * C.dx s with hF
  have hFc : Continuous F := by
    have k1 : Continuous fun s => f (C.x s) (C.y s) := hf.comp (c1.prodMk c2)
    have k2 : Continuous fun s => g (C.x s) (C.y s) := hg.comp (c1.prodMk c2)
    fun_prop
  have key : ∀ u v, u ≠ v → (C.piece u v).flux f g = ∫ s in u..v, F s := by
    intro u v huv
    have hpi := Real.pi_pos
    have hm : (v - u) / (2 * Real.pi) ≠ 0 := by
      have := sub_ne_zero.2 huv.symm
      positivity
    have := intervalIntegral.integral_comp_mul_add (a := 0) (b := 2 * Real.pi) F hm u
    have e1 : (v - u) / (2 * Real.pi) * (2 * Real.pi) + u = v := by field_simp; ring
    rw [e1, mul_zero, zero_add, smul_eq_mul, eq_inv_mul_iff_mul_eq₀ hm, ← intervalIntegral.integral_const_mul] at this
    rw [← this, PCurve.flux]
    congr 1
    funext s
    simp only [hF, PCurve.piece, PCurve.retime]
    ring
  rw [key 0 c h0.ne, key c (2 * Real.pi) h1.ne]
  exact intervalIntegral.integral_add_adjacent_intervals (hFc.intervalIntegrable _ _) (hFc.intervalIntegrable _ _)

/-- Green's theorem for fields smooth in the plane -/
theorem encloses_green {Cs : List PCurve} {S : Set (ℝ × ℝ)} (h : Encloses Cs S) {f g : ℝ × ℝ → ℝ} (hf : ContDiff ℝ 1 f)
    (hg : ContDiff ℝ 1 g) :
    ∫ q in S, dive f g q = (Cs.map fun C => C.flux (fun x y => f (x, y)) fun x y => g (x, y)).sum := by
  have hc := dive_continuous hf hg
  have hrev : ∀ l : List PCurve, ((l.map PCurve.reverse).map fun C => C.flux (fun x y => f (x, y)) fun x y => g (x, y)).sum =
      -(l.map fun C => C.flux (fun x y => f (x, y)) fun x y => g (x, y)).sum := by
    intro l
    rw [List.map_map, ← sum_map_minus_one]
    congr 1
    exact List.map_congr_left fun C _ => (C85_direction C (fun x y => f (x, y)) fun x y => g (x, y)).2.1
  induction h with
  | star h1 h2 => rw [star_green (by simp) h1 h2 hf hg, one_mul]
  | cut h1 h2 h3 i1 i2 =>
    rw [setIntegral_sdiff (encloses_region h2).1 (bounded_integrable (encloses_region h1).2 hc) h3, i1, i2, List.map_append,
      List.sum_append, hrev, sub_eq_add_neg]
  | glue h1 h2 h3 i1 i2 =>
    rw [setIntegral_union₀ h3 (encloses_region h2).1.nullMeasurableSet (bounded_integrable (encloses_region h1).2 hc)
      (bounded_integrable (encloses_region h2).2 hc), i1, i2, List.map_append, List.map_append, List.map_append, List.sum_append,
      List.sum_append, List.sum_append, hrev]
    ring
  | perm h1 h2 i => rw [i, (h2.map _).sum_eq]
  | split h1 h2 h3 i =>
    rw [i]
    simp only [List.map_cons, List.sum_cons]
    rw [← flux_pieces (encloses_smooth h1 _ (List.mem_cons_self ..)) hf.continuous hg.continuous h2 h3, add_assoc]
  | join h1 h2 h3 h4 i =>
    rw [i]
    simp only [List.map_cons, List.sum_cons]
    rw [← flux_pieces h1 hf.continuous hg.continuous h3 h4, add_assoc]

/-- a smooth function that is one near a closed set and vanishes outside a neighbourhood -/
theorem exists_cutoff {A V : Set (ℝ × ℝ)} (hA : IsClosed A) (hV : IsOpen V) (h : A ⊆ V) :
    ∃ χ : ℝ × ℝ → ℝ, ContDiff ℝ 1 χ ∧ (∀ q ∈ A, ∀ᶠ z in 𝓝 q, χ z = 1) ∧ ∀ q, q ∉ V → ∀ᶠ z in 𝓝 q, χ z = 0 := by
  obtain ⟨χ, h0, h1, -⟩ := exists_contMDiffMap_zero_one_nhds_of_isClosed (n := 1) (modelWithCornersSelf ℝ (ℝ × ℝ)) hV.isClosed_compl hA
    (by rw [Set.disjoint_left]; exact fun q hq hq' => hq (h hq'))
  refine ⟨χ, ?_, fun q hq => ?_, fun q hq => ?_⟩
  · have := χ.contMDiff.contDiff
    exact_mod_cast this
  · exact h1.filter_mono (nhds_le_nhdsSet hq)
  · exact h0.filter_mono (nhds_le_nhdsSet hq)

/-- a function smooth near a closed set agrees there with a function smooth in the plane -/
theorem cutoff_smooth {A : Set (ℝ × ℝ)} {f χ : ℝ × ℝ → ℝ} (hχ : ContDiff ℝ 1 χ) (h0 : ∀ q, ¬ ContDiffAt ℝ 1 f q → ∀ᶠ z in 𝓝 q, χ z = 0)
    (h1 : ∀ q ∈ A, ∀ᶠ z in 𝓝 q, χ z = 1) : ContDiff ℝ 1 (fun z => χ z * f z) ∧ ∀ q ∈ A, (fun z => χ z * f z) =ᶠ[𝓝 q] f := by
  refine ⟨contDiff_iff_contDiffAt.2 fun q => ?_, fun q hq => ?_⟩
  · by_cases hq : ContDiffAt ℝ 1 f q
    · exact hχ.contDiffAt.mul hq
    · refine (contDiffAt_const (c := (0 : ℝ))).congr_of_eventuallyEq ?_
      filter_upwards [h0 q hq] with z hz
      rw [hz, zero_mul]
  · filter_upwards [h1 q hq] with z hz
    rw [hz, one_mul]

theorem hasDerivAt_fst {f : ℝ × ℝ → ℝ} {x y : ℝ} (h : DifferentiableAt ℝ f (x, y)) :
    HasDerivAt (fun s => f (s, y)) (fderiv ℝ f (x, y) (1, 0)) x :=
  HasFDerivAt.comp_hasDerivAt (f := fun s : ℝ => (s, y)) x h.hasFDerivAt ((hasDerivAt_id x).prodMk (hasDerivAt_const x y))

theorem hasDerivAt_snd {f : ℝ × ℝ → ℝ} {x y : ℝ} (h : DifferentiableAt ℝ f (x, y)) :
    HasDerivAt (fun t => f (x, t)) (fderiv ℝ f (x, y) (0, 1)) y :=
  HasFDerivAt.comp_hasDerivAt (f := fun t : ℝ => (x, t)) y h.hasFDerivAt ((hasDerivAt_const y x).prodMk (hasDerivAt_id y))

/-- Green's theorem: the flux out of a region is the integral of the divergence -/
theorem region_green {Cs : List PCurve} {S : Set (ℝ × ℝ)} (hE : Encloses Cs S) {f g D : ℝ → ℝ → ℝ}
    (hf : ∀ q ∈ closure S, ContDiffAt ℝ 1 (fun q : ℝ × ℝ => f q.1 q.2) q)
    (hg : ∀ q ∈ closure S, ContDiffAt ℝ 1 (fun q : ℝ × ℝ => g q.1 q.2) q)
    (hf' : ∀ C ∈ Cs, C.SmoothOnCurve 1 f) (hg' : ∀ C ∈ Cs, C.SmoothOnCurve 1 g) (hD : HasDivergence S f g D) :
    IntegrableOn (fun q : ℝ × ℝ => D q.1 q.2) S ∧ ∫ q in S, D q.1 q.2 = (Cs.map fun C => C.flux f g).sum := by
  obtain ⟨hm, hb⟩ := encloses_region hE
  have hs := encloses_smooth hE
  set A : Set (ℝ × ℝ) := closure S ∪ {q | ∃ C ∈ Cs, ∃ s ∈ Icc 0 (2 * Real.pi), q = (C.x s, C.y s)} with hA
  have hAc : IsClosed A := by
    refine isClosed_closure.union ?_
    have : {q : ℝ × ℝ | ∃ C ∈ Cs, ∃ s ∈ Icc 0 (2 * Real.pi), q = (C.x s, C.y s)} =
        ⋃ C ∈ {C | C ∈ Cs}, (fun s => (C.x s, C.y s)) '' Icc 0 (2 * Real.pi) := by
      ext q
      simp only [Set.mem_ofPred_eq, mem_iUnion, mem_image, exists_prop]
      exact ⟨fun ⟨C, hC, s, h1, h2⟩ => ⟨C, hC, s, h1, h2.symm⟩, fun ⟨C, hC, s, h1, h2⟩ => ⟨C, hC, s, h1, h2.symm⟩⟩
    rw [this]
    refine Set.Finite.isClosed_biUnion (List.finite_toSet Cs) fun C hC => ?_
    obtain ⟨c1, c2, -, -⟩ := curve_continuous (hs C hC)
    exact (isCompact_Icc.image (c1.prodMk c2)).isClosed
  set F : ℝ × ℝ → ℝ := fun q => f q.1 q.2 with hF
  set G : ℝ × ℝ → ℝ := fun q => g q.1 q.2 with hG
  set V : Set (ℝ × ℝ) := {q | ContDiffAt ℝ 1 F q ∧ ContDiffAt ℝ 1 G q} with hV
  have hVo : IsOpen V := by
    rw [isOpen_iff_mem_nhds]
    rintro q ⟨h1, h2⟩
    exact (h1.eventually (by simp)).and (h2.eventually (by simp))
  have hAV : A ⊆ V := by
    rintro q (hq | ⟨C, hC, s, h1, rfl⟩)
    · exact ⟨hf q hq, hg q hq⟩
    · exact ⟨hf' C hC s h1, hg' C hC s h1⟩
  obtain ⟨χ, hχ, h1, h0⟩ := exists_cutoff hAc hVo hAV
  obtain ⟨u1, u2⟩ := cutoff_smooth (f := F) hχ (fun q hq => h0 q fun h => hq h.1) h1
  obtain ⟨v1, v2⟩ := cutoff_smooth (f := G) hχ (fun q hq => h0 q fun h => hq h.2) h1
  have hdiv : EqOn (dive (fun z => χ z * F z) fun z => χ z * G z) (fun q => D q.1 q.2) S := by
    rintro ⟨x, y⟩ hq
    have hqA : (x, y) ∈ A := .inl (subset_closure hq)
    obtain ⟨d1, d2, k1, k2, k3⟩ := hD x y hq
    obtain ⟨w1, w2⟩ := hAV hqA
    simp only [dive]
    rw [(u2 _ hqA).fderiv_eq, (v2 _ hqA).fderiv_eq, ← k3, (hasDerivAt_fst (w1.differentiableAt one_ne_zero)).unique k1,
      (hasDerivAt_snd (w2.differentiableAt one_ne_zero)).unique k2]
  refine ⟨(bounded_integrable hb (dive_continuous u1 v1)).congr_fun hdiv hm, ?_⟩
  rw [← setIntegral_congr_fun hm hdiv, encloses_green hE u1 v1]
  congr 1
  refine List.map_congr_left fun C hC => ?_
  refine intervalIntegral.integral_congr fun s hs => ?_
  rw [uIcc_of_le (by positivity)] at hs
  have hqA : (C.x s, C.y s) ∈ A := .inr ⟨C, hC, s, hs, rfl⟩
  have e1 := (u2 _ hqA).eq_of_nhds
  have e2 := (v2 _ hqA).eq_of_nhds
  simp only [hF, hG] at e1 e2
  simp only [hF, hG, e1, e2]

end PFEM
