import Verif.Lemmas.EulerMaclaurin
import Mathlib.Analysis.Calculus.IteratedDeriv.Lemmas
import Mathlib.Analysis.Calculus.MeanValue
import Mathlib.Analysis.Calculus.ContDiff.RCLike

/-!
A periodic function put together from pieces on intervals of equal length is as smooth as the pieces, if their derivatives agree
where they meet.
-/

namespace PFEM
open Set

/-- the function made of the pieces `F 0, …, F (m-1)`, each on an interval of length `T`, and repeated -/
noncomputable def glue (T : ℝ) (m : ℕ) (F : ℕ → ℝ → ℝ) (t : ℝ) : ℝ := F (⌊t / T⌋ % m).toNat (t - T * ⌊t / T⌋)

/-- the number of the piece on `[Tz, T(z+1)]` -/
def pieceAt (m : ℕ) (z : ℤ) : ℕ := (z % m).toNat

variable {T : ℝ} {m : ℕ} {F F' : ℕ → ℝ → ℝ}

theorem pieceAt_lt (hm : 0 < m) (z : ℤ) : pieceAt m z < m := by
  have h1 := Int.emod_lt_of_pos z (show (0 : ℤ) < m by exact_mod_cast hm)
  have h2 := Int.emod_nonneg z (show (m : ℤ) ≠ 0 by exact_mod_cast hm.ne')
  unfold pieceAt
  omega

theorem pieceAt_succ (hm : 0 < m) (z : ℤ) : pieceAt m (z + 1) = (pieceAt m z + 1) % m := by
  have h2 := Int.emod_nonneg z (show (m : ℤ) ≠ 0 by exact_mod_cast hm.ne')
  have h3 := Int.emod_nonneg (z + 1) (show (m : ℤ) ≠ 0 by exact_mod_cast hm.ne')
  unfold pieceAt
  zify
  rw [Int.toNat_of_nonneg h2, Int.toNat_of_nonneg h3, Int.emod_add_emod]

/-- consecutive pieces meet -/
def GlueMatch (T : ℝ) (m : ℕ) (F : ℕ → ℝ → ℝ) : Prop := ∀ i < m, F i T = F ((i + 1) % m) 0

theorem glue_left (hT : 0 < T) {z : ℤ} {t : ℝ} (h1 : T * z ≤ t) (h2 : t < T * (z + 1)) : glue T m F t = F (pieceAt m z) (t - T * z) := by
  have : ⌊t / T⌋ = z := by
    rw [Int.floor_eq_iff]
    exact ⟨by rwa [le_div_iff₀ hT, mul_comm], by rwa [div_lt_iff₀ hT, mul_comm]⟩
  unfold glue pieceAt
  rw [this]

theorem glue_eq (hT : 0 < T) (hm : 0 < m) (hF : GlueMatch T m F) {z : ℤ} {t : ℝ} (h1 : T * z ≤ t) (h2 : t ≤ T * (z + 1)) :
    glue T m F t = F (pieceAt m z) (t - T * z) := by
  rcases h2.lt_or_eq with h2 | h2
  · exact glue_left hT h1 h2
  · have h3 : glue T m F t = F (pieceAt m (z + 1)) (t - T * ((z + 1 : ℤ) : ℝ)) := by
      refine glue_left hT ?_ ?_
      · push_cast; exact h2.ge
      · push_cast; rw [h2]; nlinarith
    rw [h3, pieceAt_succ hm, h2]
    push_cast
    rw [sub_self, show T * ((z : ℝ) + 1) - T * z = T by ring, hF _ (pieceAt_lt hm z)]

theorem glue_periodic (hT : 0 < T) (t : ℝ) : glue T m F (t + T * m) = glue T m F t := by
  have : (t + T * m) / T = t / T + (m : ℤ) := by
    push_cast
    field_simp
  unfold glue
  rw [this, Int.floor_add_intCast, Int.add_emod_right]
  congr 1
  push_cast
  ring

/-- the interval of pieces around a point, from the right -/
theorem right_piece (hT : 0 < T) (t : ℝ) : ∃ z : ℤ, T * z ≤ t ∧ t < T * (z + 1) := by
  refine ⟨⌊t / T⌋, ?_, ?_⟩
  · have := Int.floor_le (t / T)
    rwa [le_div_iff₀ hT, mul_comm] at this
  · have := Int.lt_floor_add_one (t / T)
    rwa [div_lt_iff₀ hT, mul_comm] at this

/-- and from the left -/
theorem left_piece (hT : 0 < T) (t : ℝ) : ∃ z : ℤ, T * z < t ∧ t ≤ T * (z + 1) := by
  refine ⟨⌈t / T⌉ - 1, ?_, ?_⟩
  · have := Int.ceil_lt_add_one (t / T)
    have : ((⌈t / T⌉ : ℤ) : ℝ) - 1 < t / T := by linarith
    rw [lt_div_iff₀ hT, mul_comm] at this
    push_cast
    exact this
  · have := Int.le_ceil (t / T)
    rw [div_le_iff₀ hT, mul_comm] at this
    push_cast
    simpa using this

theorem glue_deriv_right (hT : 0 < T) (hm : 0 < m) (hd : ∀ i < m, ∀ t ∈ Icc 0 T, HasDerivAt (F i) (F' i t) t) (t : ℝ) :
    HasDerivWithinAt (glue T m F) (glue T m F' t) (Ici t) t := by
  obtain ⟨z, h1, h2⟩ := right_piece hT t
  rw [glue_left hT h1 h2]
  have h3 : HasDerivAt (fun s => F (pieceAt m z) (s - T * z)) (F' (pieceAt m z) (t - T * z)) t :=
    (hd _ (pieceAt_lt hm z) (t - T * z) ⟨by linarith, by linarith⟩).comp_sub_const t (T * z)
  refine h3.hasDerivWithinAt.congr_of_eventuallyEq ?_ (glue_left hT h1 h2)
  filter_upwards [Ico_mem_nhdsGE h2] with s hs
  exact glue_left hT (h1.trans hs.1) hs.2

theorem glue_deriv (hT : 0 < T) (hm : 0 < m) (hF : GlueMatch T m F) (hF' : GlueMatch T m F')
    (hd : ∀ i < m, ∀ t ∈ Icc 0 T, HasDerivAt (F i) (F' i t) t) (t : ℝ) : HasDerivAt (glue T m F) (glue T m F' t) t := by
  have hr := glue_deriv_right (F' := F') hT hm hd t
  have hl : HasDerivWithinAt (glue T m F) (glue T m F' t) (Iic t) t := by
    obtain ⟨z, h1, h2⟩ := left_piece hT t
    rw [glue_eq hT hm hF' h1.le h2]
    have h3 : HasDerivAt (fun s => F (pieceAt m z) (s - T * z)) (F' (pieceAt m z) (t - T * z)) t :=
      (hd _ (pieceAt_lt hm z) (t - T * z) ⟨by linarith, by linarith⟩).comp_sub_const t (T * z)
    refine h3.hasDerivWithinAt.congr_of_eventuallyEq ?_ (glue_eq hT hm hF h1.le h2)
    filter_upwards [Ioc_mem_nhdsLE h1] with s hs
    exact glue_eq hT hm hF hs.1.le (hs.2.trans h2)
  have := hl.union hr
  rwa [Iic_union_Ici, hasDerivWithinAt_univ] at this

theorem glue_continuous (hT : 0 < T) (hm : 0 < m) (hF : GlueMatch T m F) (hc : ∀ i < m, ∀ t ∈ Icc 0 T, ContinuousAt (F i) t) :
    Continuous (glue T m F) := by
  rw [continuous_iff_continuousAt]
  intro t
  have hr : ContinuousWithinAt (glue T m F) (Ici t) t := by
    obtain ⟨z, h1, h2⟩ := right_piece hT t
    have h3 : ContinuousAt (fun s => F (pieceAt m z) (s - T * z)) t :=
      ContinuousAt.comp (f := fun s => s - T * z) (hc _ (pieceAt_lt hm z) (t - T * z) ⟨by linarith, by linarith⟩) (by fun_prop)
    refine h3.continuousWithinAt.congr_of_eventuallyEq ?_ (glue_left hT h1 h2)
    filter_upwards [Ico_mem_nhdsGE h2] with s hs
    exact glue_left hT (h1.trans hs.1) hs.2
  have hl : ContinuousWithinAt (glue T m F) (Iic t) t := by
    obtain ⟨z, h1, h2⟩ := left_piece hT t
    have h3 : ContinuousAt (fun s => F (pieceAt m z) (s - T * z)) t :=
      ContinuousAt.comp (f := fun s => s - T * z) (hc _ (pieceAt_lt hm z) (t - T * z) ⟨by linarith, by linarith⟩) (by fun_prop)
    refine h3.continuousWithinAt.congr_of_eventuallyEq ?_ (glue_eq hT hm hF h1.le h2)
    filter_upwards [Ioc_mem_nhdsLE h1] with s hs
    exact glue_eq hT hm hF hs.1.le (hs.2.trans h2)
  have := hl.union hr
  rwa [Iic_union_Ici, continuousWithinAt_univ] at this

/-- pieces with bounded derivatives give a Lipschitz bound -/
theorem glue_lipschitz (hT : 0 < T) (hm : 0 < m) (hF : GlueMatch T m F) (hd : ∀ i < m, ∀ t ∈ Icc 0 T, HasDerivAt (F i) (F' i t) t)
    (hc : ∀ i < m, ContinuousOn (F' i) (Icc 0 T)) : ∃ Λ : NNReal, LipschitzWith Λ (glue T m F) := by
  have hb : ∀ i < m, ∃ B, ∀ t ∈ Icc 0 T, |F' i t| ≤ B := by
    intro i hi
    obtain ⟨B, hB⟩ := isCompact_Icc.exists_bound_of_continuousOn (hc i hi)
    exact ⟨B, hB⟩
  choose! B hB using hb
  obtain ⟨M, hM⟩ : ∃ M, ∀ i < m, B i ≤ M := by
    refine ⟨∑ i ∈ Finset.range m, |B i|, fun i hi => (le_abs_self _).trans ?_⟩
    exact Finset.single_le_sum (f := fun i => |B i|) (fun _ _ => abs_nonneg _) (Finset.mem_range.2 hi)
  have hM' : ∀ i < m, ∀ t ∈ Icc 0 T, |F' i t| ≤ M := fun i hi t ht => (hB i hi t ht).trans (hM i hi)
  have hM0 : 0 ≤ M := (abs_nonneg _).trans (hM' 0 hm 0 ⟨le_rfl, hT.le⟩)
  have hcont := glue_continuous hT hm hF fun i hi t ht => (hd i hi t ht).continuousAt
  have hle : ∀ a b, a ≤ b → |glue T m F b - glue T m F a| ≤ M * (b - a) := by
    intro a b hab
    refine norm_image_sub_le_of_norm_deriv_right_le_segment hcont.continuousOn (fun x _ => glue_deriv_right (F' := F') hT hm hd x)
      (fun x _ => ?_) b ⟨hab, le_rfl⟩
    obtain ⟨z, h1, h2⟩ := right_piece hT x
    rw [glue_left hT h1 h2, Real.norm_eq_abs]
    exact hM' _ (pieceAt_lt hm z) _ ⟨by linarith, by linarith⟩
  refine ⟨⟨M, hM0⟩, LipschitzWith.of_dist_le_mul fun x y => ?_⟩
  rw [Real.dist_eq, Real.dist_eq]
  change _ ≤ M * |x - y|
  rcases le_total x y with h | h
  · rw [abs_sub_comm, abs_sub_comm x, abs_of_nonneg (sub_nonneg.2 h)]
    exact hle x y h
  · rw [abs_of_nonneg (sub_nonneg.2 h)]
    exact hle y x h

/-- the glued function has as many derivatives as agree where the pieces meet, and the last one has a Lipschitz bound -/
theorem glue_smooth (hT : 0 < T) (hm : 0 < m) : ∀ {q : ℕ} {F : ℕ → ℝ → ℝ},
    (∀ i < m, ∀ t ∈ Icc 0 T, ContDiffAt ℝ (q + 1 : ℕ) (F i) t) →
    (∀ j ≤ q, GlueMatch T m fun i => iteratedDeriv j (F i)) →
    ContDiff ℝ q (glue T m F) ∧ (∀ j ≤ q, iteratedDeriv j (glue T m F) = glue T m fun i => iteratedDeriv j (F i)) ∧
      ∃ Λ : NNReal, LipschitzWith Λ (iteratedDeriv q (glue T m F)) := by
  intro q F hF hj
  have hder : ∀ j < q, ∀ t, HasDerivAt (glue T m fun i => iteratedDeriv j (F i)) (glue T m (fun i => iteratedDeriv (j + 1) (F i)) t) t :=
    fun j hjq t => glue_deriv hT hm (hj j hjq.le) (hj (j + 1) hjq) (fun i hi t ht => iter_hasDeriv (hF i hi) (by omega) ht) t
  have hit : ∀ j ≤ q, iteratedDeriv j (glue T m F) = glue T m fun i => iteratedDeriv j (F i) := by
    intro j
    induction j with
    | zero => intro _; simp
    | succ j ih =>
      intro h
      rw [iteratedDeriv_succ, ih (by omega)]
      funext t
      exact (hder j (by omega) t).deriv
  have hlast : ∀ j ≤ q, ∀ i < m, ∀ t ∈ Icc 0 T, HasDerivAt (iteratedDeriv j (F i)) (iteratedDeriv (j + 1) (F i) t) t :=
    fun j hjq i hi t ht => iter_hasDeriv (hF i hi) (by omega) ht
  refine ⟨?_, hit, ?_⟩
  · rw [contDiff_nat_iff_iteratedDeriv]
    constructor
    · intro j hjq
      rw [hit j hjq]
      exact glue_continuous hT hm (hj j hjq) fun i hi t ht => (hlast j hjq i hi t ht).continuousAt
    · intro j hjq
      rw [hit j hjq.le]
      exact fun t => (hder j hjq t).differentiableAt
  · rw [hit q le_rfl]
    refine glue_lipschitz hT hm (hj q le_rfl) (F' := fun i => iteratedDeriv (q + 1) (F i)) (hlast q le_rfl) fun i hi t ht => ?_
    have h1 : ContDiffAt ℝ ((0 : ℕ) : WithTop ℕ∞) (iteratedDeriv (q + 1) (F i)) t :=
      iter_contDiffAt (hF i hi t ht) (by omega)
    exact h1.continuousAt.continuousWithinAt

end PFEM
