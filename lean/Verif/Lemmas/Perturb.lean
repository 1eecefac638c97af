import Mathlib.Analysis.Normed.Module.FiniteDimension
import Mathlib.LinearAlgebra.Matrix.ToLin
import Mathlib.LinearAlgebra.FiniteDimensional.Basic

/-!
Linear systems with slightly wrong coefficients.
-/

namespace PFEM

/-- a regular linear system stays regular under small changes, and its solution moves by a multiple of the change -/
theorem perturb {N : ℕ} (G : Fin N → Fin N → ℝ) (b : Fin N → ℝ) (hG : ∀ x : Fin N → ℝ, (∀ i, ∑ j, G i j * x j = 0) → x = 0) :
    ∃ (y : Fin N → ℝ) (C : ℝ), 0 ≤ C ∧ (∀ i, ∑ j, G i j * y j = b i) ∧ ∀ (ε : ℝ) (G' : Fin N → Fin N → ℝ) (b' : Fin N → ℝ), 0 ≤ ε →
      (∀ i j, |G' i j - G i j| ≤ ε) → (∀ i, |b' i - b i| ≤ ε) → C * ε ≤ 1 →
      (∃ x : Fin N → ℝ, ∀ i, ∑ j, G' i j * x j = b' i) ∧
      (∀ x x' : Fin N → ℝ, (∀ i, ∑ j, G' i j * x j = b' i) → (∀ i, ∑ j, G' i j * x' j = b' i) → x = x') ∧
      ∀ x : Fin N → ℝ, (∀ i, ∑ j, G' i j * x j = b' i) → ∀ i, |x i - y i| ≤ C * ε := by
  have key : ∀ H : Fin N → Fin N → ℝ, ∀ x i, Matrix.mulVecLin (Matrix.of H) x i = ∑ j, H i j * x j := fun H x i => by
    simp [Matrix.mulVec, dotProduct]
  set L := Matrix.mulVecLin (Matrix.of G) with hL
  have hker : LinearMap.ker L = ⊥ := by
    rw [LinearMap.ker_eq_bot']
    intro x hx
    refine hG x fun i => ?_
    rw [← key, ← hL, hx]
    rfl
  obtain ⟨c, hc, hK'⟩ : ∃ c : ℝ, 0 ≤ c ∧ ∀ x, ‖x‖ ≤ c * ‖L x‖ := by
    obtain ⟨K, -, hK⟩ := LinearMap.exists_antilipschitzWith L hker
    refine ⟨K, K.2, fun x => ?_⟩
    have := hK.le_mul_dist x 0
    simpa [dist_zero_right] using this
  obtain ⟨y, hy⟩ := (LinearMap.injective_iff_surjective.1 (LinearMap.ker_eq_bot.1 hker)) b
  refine ⟨y, 2 * c * (1 + N) * (1 + ‖y‖), by positivity, fun i => by rw [← key, ← hL, hy], fun ε G' b' hε h1 h2 h3 => ?_⟩
  have hN : 2 * c * N * ε ≤ 1 := by
    refine le_trans ?_ h3
    have : 2 * c * N ≤ 2 * c * (1 + N) * (1 + ‖y‖) := by
      have hy0 := norm_nonneg y
      have : (0 : ℝ) ≤ 2 * c := by positivity
      rw [mul_assoc (2 * c)]
      refine mul_le_mul_of_nonneg_left ?_ this
      nlinarith [(Nat.cast_nonneg N : (0 : ℝ) ≤ N)]
    exact mul_le_mul_of_nonneg_right this hε
  have hdiff : ∀ x : Fin N → ℝ, ∀ i, |∑ j, (G' i j - G i j) * x j| ≤ N * ε * ‖x‖ := fun x i => by
    refine (Finset.abs_sum_le_sum_abs _ _).trans ?_
    have : ∀ j ∈ Finset.univ, |(G' i j - G i j) * x j| ≤ ε * ‖x‖ := fun j _ => by
      rw [abs_mul]
      exact mul_le_mul (h1 i j) (norm_le_pi_norm x j) (abs_nonneg _) hε
    refine (Finset.sum_le_sum this).trans ?_
    simp [mul_assoc]
  -- the estimate for all right-hand sides
  have est : ∀ (x z : Fin N → ℝ) (β β' : Fin N → ℝ) (η : ℝ), 0 ≤ η → (∀ i, ∑ j, G' i j * x j = β' i) → (∀ i, ∑ j, G i j * z j = β i) →
      (∀ i, |β' i - β i| ≤ η) → ‖x - z‖ ≤ 2 * c * (η + N * ε * ‖z‖) := by
    intro x z β β' η hη hx hz hb
    have e1 : ‖L (x - z)‖ ≤ η + N * ε * ‖x‖ := by
      rw [pi_norm_le_iff_of_nonneg (by positivity)]
      intro i
      have e : L (x - z) i = (β' i - β i) - ∑ j, (G' i j - G i j) * x j := by
        rw [hL, key, ← hx, ← hz, ← Finset.sum_sub_distrib, ← Finset.sum_sub_distrib]
        refine Finset.sum_congr rfl fun j _ => ?_
        simp only [Pi.sub_apply]
        ring
      rw [e, Real.norm_eq_abs]
      exact (abs_sub _ _).trans (add_le_add (hb i) (hdiff x i))
    have e2 : ‖x‖ ≤ ‖x - z‖ + ‖z‖ := by
      have := norm_add_le (x - z) z
      rwa [sub_add_cancel] at this
    have e3 := (hK' (x - z)).trans (mul_le_mul_of_nonneg_left e1 hc)
    have e4 : c * (N * ε * ‖x‖) ≤ c * (N * ε * (‖x - z‖ + ‖z‖)) := by gcongr
    have e5 : 2 * c * N * ε * ‖x - z‖ ≤ ‖x - z‖ := by
      have := mul_le_mul_of_nonneg_right hN (norm_nonneg (x - z))
      linarith
    nlinarith
  have hinj : LinearMap.ker (Matrix.mulVecLin (Matrix.of G')) = ⊥ := by
    rw [LinearMap.ker_eq_bot']
    intro x hx
    have := est x 0 0 0 0 le_rfl (fun i => by rw [← key, hx]) (fun i => by simp) (by simp)
    simpa using this
  refine ⟨?_, fun x x' hx hx' => ?_, fun x hx i => ?_⟩
  · obtain ⟨x, hx⟩ := (LinearMap.injective_iff_surjective.1 (LinearMap.ker_eq_bot.1 hinj)) b'
    exact ⟨x, fun i => by rw [← key, hx]⟩
  · refine LinearMap.ker_eq_bot.1 hinj (funext fun i => ?_)
    rw [key, key, hx, hx']
  · have := est x y b b' ε hε hx (fun i => by rw [← key, ← hL, hy]) h2
    refine (norm_le_pi_norm (x - y) i).trans (this.trans ?_)
    have hy0 := norm_nonneg y
    have h2c : 0 ≤ 2 * c * ε := by positivity
    have : 1 + N * ‖y‖ ≤ (1 + N) * (1 + ‖y‖) := by nlinarith [(Nat.cast_nonneg N : (0 : ℝ) ≤ N)]
    nlinarith [mul_le_mul_of_nonneg_left this h2c]

end PFEM
