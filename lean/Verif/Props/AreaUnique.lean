import Mathlib.Topology.ContinuousMap.StoneWeierstrass
import Mathlib.MeasureTheory.Measure.HasOuterApproxClosed
import Verif.Props.AreaInner

/-!
C101: curves enclose at most one region, up to sets without area, so the area integrals of C101 and C102 depend on the boundary
curves of the cell alone.
-/

namespace PFEM
open Set MeasureTheory Topology

/-- the product of all pairs of monomials, without the sorting of the library -/
def crude (p q : Poly ℝ) : Poly ℝ :=
  p.flatMap fun m => q.map fun m' => ⟨⟨m.alpha.x + m'.alpha.x, m.alpha.y + m'.alpha.y⟩, m.coef * m'.coef⟩

theorem crude_one (m : Mono ℝ) (q : Poly ℝ) (x y : ℝ) :
    Poly.eval (q.map fun m' => (⟨⟨m.alpha.x + m'.alpha.x, m.alpha.y + m'.alpha.y⟩, m.coef * m'.coef⟩ : Mono ℝ)) x y =
      m.eval x y * q.eval x y := by
  induction q with
  | nil => simp [Poly.eval_nil]
  | cons m' q iq =>
    rw [List.map_cons, Poly.eval_cons, iq, Poly.eval_cons, Mono.eval_eq, Mono.eval_eq, Mono.eval_eq, mul_add]
    congr 1
    simp only [pow_add]; ring

theorem crude_eval (p q : Poly ℝ) (x y : ℝ) : (crude p q).eval x y = p.eval x y * q.eval x y := by
  induction p with
  | nil => simp [crude, Poly.eval_nil]
  | cons m p ih =>
    have h1 : crude (m :: p) q = (q.map fun m' => (⟨⟨m.alpha.x + m'.alpha.x, m.alpha.y + m'.alpha.y⟩, m.coef * m'.coef⟩ : Mono ℝ)) ++
        crude p q := rfl
    rw [h1, Poly.eval_append, ih, Poly.eval_cons, add_mul, crude_one]

/-- the functions generated by the coordinates are polynomials -/
theorem adjoin_poly {g : C(ℝ × ℝ, ℝ)} (hg : g ∈ Algebra.adjoin ℝ {(⟨Prod.fst, continuous_fst⟩ : C(ℝ × ℝ, ℝ)), ⟨Prod.snd, continuous_snd⟩}) :
    ∃ p : Poly ℝ, ∀ z : ℝ × ℝ, g z = p.eval z.1 z.2 := by
  induction hg using Algebra.adjoin_induction with
  | mem f hf =>
    rcases hf with rfl | rfl
    · exact ⟨[⟨⟨1, 0⟩, 1⟩], fun z => by simp [Poly.eval_eq_sum, Mono.eval_eq]⟩
    · exact ⟨[⟨⟨0, 1⟩, 1⟩], fun z => by simp [Poly.eval_eq_sum, Mono.eval_eq]⟩
  | algebraMap c => exact ⟨[⟨⟨0, 0⟩, c⟩], fun z => by simp [Poly.eval_eq_sum, Mono.eval_eq]⟩
  | add f g _ _ hf hg =>
    obtain ⟨p, hp⟩ := hf; obtain ⟨q, hq⟩ := hg
    exact ⟨p ++ q, fun z => by rw [Poly.eval_append, ← hp, ← hq]; rfl⟩
  | mul f g _ _ hf hg =>
    obtain ⟨p, hp⟩ := hf; obtain ⟨q, hq⟩ := hg
    exact ⟨crude p q, fun z => by rw [crude_eval, ← hp, ← hq]; rfl⟩

/-- polynomials come close to every continuous function on a compact set -/
theorem poly_dense {A : Set (ℝ × ℝ)} (hA : IsCompact A) {f : ℝ × ℝ → ℝ} (hf : Continuous f) {ε : ℝ} (hε : 0 < ε) :
    ∃ p : Poly ℝ, ∀ z ∈ A, |p.eval z.1 z.2 - f z| < ε := by
  have hs : (Algebra.adjoin ℝ {(⟨Prod.fst, continuous_fst⟩ : C(ℝ × ℝ, ℝ)), ⟨Prod.snd, continuous_snd⟩}).SeparatesPoints := by
    intro a b hab
    by_cases h : a.1 = b.1
    · refine ⟨_, ⟨⟨Prod.snd, continuous_snd⟩, Algebra.subset_adjoin (by simp), rfl⟩, fun h2 => hab (Prod.ext h h2)⟩
    · exact ⟨_, ⟨⟨Prod.fst, continuous_fst⟩, Algebra.subset_adjoin (by simp), rfl⟩, h⟩
  obtain ⟨g, hg, hb⟩ := ContinuousMap.exists_mem_subalgebra_near_continuous_of_isCompact_of_separatesPoints hs ⟨f, hf⟩ hA hε
  obtain ⟨p, hp⟩ := adjoin_poly hg
  exact ⟨p, fun z hz => by rw [← hp]; exact hb z hz⟩

/-- bounded sets with the same moments are the same up to a set without area -/
theorem moments_region {S T : Set (ℝ × ℝ)} (hS : MeasurableSet S) (hT : MeasurableSet T) (bS : Bornology.IsBounded S)
    (bT : Bornology.IsBounded T) (h : ∀ p : Poly ℝ, ∫ z in S, p.eval z.1 z.2 = ∫ z in T, p.eval z.1 z.2) : S =ᵐ[volume] T := by
  have fS : volume S < ⊤ := bS.measure_lt_top
  have fT : volume T < ⊤ := bT.measure_lt_top
  have : IsFiniteMeasure (volume.restrict S) := ⟨by simpa using fS⟩
  have : IsFiniteMeasure (volume.restrict T) := ⟨by simpa using fT⟩
  have hμ : volume.restrict S = volume.restrict T := by
    apply ext_of_forall_integral_eq_of_IsFiniteMeasure
    intro f
    have key : ∀ ε > 0, |(∫ z in S, f z) - ∫ z in T, f z| ≤ ε * (volume.real S + volume.real T) := by
      intro ε hε
      obtain ⟨p, hp⟩ := poly_dense (bS.union bT).isCompact_closure f.continuous hε
      have cp : Continuous fun z : ℝ × ℝ => p.eval z.1 z.2 := (poly_contDiff p 1).continuous
      have e : ∀ R : Set (ℝ × ℝ), R ⊆ S ∪ T → Bornology.IsBounded R →
          |(∫ z in R, p.eval z.1 z.2) - ∫ z in R, f z| ≤ ε * volume.real R := by
        intro R hR bR
        rw [← integral_sub (bounded_integrable bR cp) (bounded_integrable bR f.continuous), ← Real.norm_eq_abs]
        refine norm_setIntegral_le_of_norm_le_const bR.measure_lt_top fun z hz => ?_
        rw [Real.norm_eq_abs]
        exact (hp z (subset_closure (hR hz))).le
      have e1 := e S subset_union_left bS
      have e2 := e T subset_union_right bT
      rw [h p] at e1
      rw [abs_le] at e1 e2 ⊢
      constructor <;> linarith [e1.1, e1.2, e2.1, e2.2]
    have : |(∫ z in S, f z) - ∫ z in T, f z| ≤ 0 := by
      refine le_of_forall_pos_le_add fun δ hδ => ?_
      have hm : 0 ≤ volume.real S + volume.real T := by positivity
      refine (key (δ / (volume.real S + volume.real T + 1)) (by positivity)).trans ?_
      rw [zero_add, div_mul_eq_mul_div, div_le_iff₀ (by positivity)]
      nlinarith
    exact sub_eq_zero.1 (abs_nonpos_iff.1 this)
  have h1 : volume (S \ T) = 0 := by
    have := congrArg (fun μ => μ (S \ T)) hμ
    simp only [Measure.restrict_apply (hS.diff hT)] at this
    rw [show (S \ T) ∩ T = ∅ by ext; simp, measure_empty, show (S \ T) ∩ S = S \ T by ext; simp; tauto] at this
    exact this
  have h2 : volume (T \ S) = 0 := by
    have := congrArg (fun μ => μ (T \ S)) hμ
    simp only [Measure.restrict_apply (hT.diff hS)] at this
    rw [show (T \ S) ∩ S = ∅ by ext; simp, measure_empty, show (T \ S) ∩ T = T \ S by ext; simp; tauto] at this
    exact this.symm
  exact (ae_le_set.2 h1).antisymm (ae_le_set.2 h2)

/-- C101: the curves of the boundary determine the region, up to a set without area. -/
theorem C101_region {Cs : List PCurve} {S T : Set (ℝ × ℝ)} (hS : Encloses Cs S) (hT : Encloses Cs T) : S =ᵐ[volume] T :=
  moments_region (encloses_region hS).1 (encloses_region hT).1 (encloses_region hS).2 (encloses_region hT).2 fun p => by
    rw [(radial_green hS p).2, (radial_green hT p).2]

/-- the unit circle about `(2, 3)` encloses no region that differs from the disc by a set with area; the half disc is none -/
example {T : Set (ℝ × ℝ)} (hT : Encloses [circleCurve] T) : volume T = volume (solidDisc 2 3 1) :=
  (measure_congr (C101_region circle_encloses hT)).symm

end PFEM
