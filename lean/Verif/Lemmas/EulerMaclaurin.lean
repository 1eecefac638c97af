import Mathlib.NumberTheory.ZetaValues
import Mathlib.MeasureTheory.Integral.IntervalIntegral.IntegrationByParts
import Mathlib.Analysis.Calculus.IteratedDeriv.Lemmas

/-!
The composite trapezoid rule: convergence for continuous functions, and the order of convergence from the Euler-Maclaurin
formula for functions whose derivatives of odd order agree at the two ends.
-/

namespace PFEM
open Set intervalIntegral

/-- the left Riemann sum with `N` steps on `[0, T]` -/
noncomputable def lsum (T : ℝ) (N : ℕ) (F : ℝ → ℝ) : ℝ := T / N * ∑ j ∈ Finset.range N, F (j * (T / N))

theorem step_mem {T : ℝ} (hT : 0 ≤ T) {N j : ℕ} (hj : j ≤ N) : (j : ℝ) * (T / N) ∈ Icc 0 T := by
  rcases Nat.eq_zero_or_pos N with h | h
  · subst h
    simp [hT]
  · have hN : (0 : ℝ) < N := by exact_mod_cast h
    refine ⟨by positivity, ?_⟩
    have h1 : (j : ℝ) ≤ N := by exact_mod_cast hj
    calc (j : ℝ) * (T / N) ≤ N * (T / N) := by gcongr
      _ = T := by field_simp

/-- the panel `[a_j, a_{j+1}]` lies in `[0, T]` -/
theorem panel_sub {T : ℝ} (hT : 0 ≤ T) {N j : ℕ} (hj : j < N) :
    uIcc ((j : ℝ) * (T / N)) ((j + 1 : ℕ) * (T / N)) ⊆ Icc 0 T :=
  uIcc_subset_Icc (step_mem hT hj.le) (step_mem hT hj)

theorem sum_panels {T : ℝ} (hT : 0 ≤ T) {N : ℕ} (hN : 0 < N) {F : ℝ → ℝ} (hF : ContinuousOn F (Icc 0 T)) :
    ∑ j ∈ Finset.range N, ∫ t in (j : ℝ) * (T / N)..((j + 1 : ℕ) : ℝ) * (T / N), F t = ∫ t in (0 : ℝ)..T, F t := by
  have h := intervalIntegral.sum_integral_adjacent_intervals (f := F) (μ := MeasureTheory.volume)
    (a := fun j : ℕ => (j : ℝ) * (T / N)) (n := N) fun k hk =>
      (hF.mono (panel_sub hT hk)).intervalIntegrable
  rw [h]
  have : (N : ℝ) ≠ 0 := by exact_mod_cast hN.ne'
  congr 1
  · simp
  · field_simp

/-- Riemann sums of a continuous function converge to its integral. -/
theorem lsum_tendsto {T : ℝ} (hT : 0 < T) {F : ℝ → ℝ} (hF : ContinuousOn F (Icc 0 T)) {ε : ℝ} (hε : 0 < ε) :
    ∃ N0 : ℕ, ∀ N ≥ N0, |lsum T N F - ∫ t in (0 : ℝ)..T, F t| < ε := by
  have hu := isCompact_Icc.uniformContinuousOn_of_continuous hF
  rw [Metric.uniformContinuousOn_iff] at hu
  obtain ⟨δ, hδ, hu⟩ := hu (ε / (2 * T)) (by positivity)
  obtain ⟨N0, hN0⟩ := exists_nat_gt (T / δ)
  refine ⟨max N0 1, fun N hN => ?_⟩
  have hN1 : 1 ≤ N := le_trans (le_max_right _ _) hN
  have hNN : (N0 : ℝ) ≤ N := by exact_mod_cast le_trans (le_max_left _ _) hN
  have hNp : (0 : ℝ) < N := by exact_mod_cast hN1
  have hh : T / N < δ := by
    rw [div_lt_iff₀ hNp]
    rw [div_lt_iff₀ hδ] at hN0
    calc T < N0 * δ := hN0
      _ ≤ N * δ := by gcongr
      _ = δ * N := mul_comm _ _
  have hh0 : 0 < T / N := by positivity
  rw [← sum_panels hT.le (Nat.lt_of_lt_of_le Nat.zero_lt_one hN1) hF, lsum, Finset.mul_sum, ← Finset.sum_sub_distrib]
  have hp : ∀ j ∈ Finset.range N, |T / N * F (j * (T / N)) -
      ∫ t in (j : ℝ) * (T / N)..((j + 1 : ℕ) : ℝ) * (T / N), F t| ≤ ε / (2 * T) * (T / N) := by
    intro j hj
    have hj := Finset.mem_range.1 hj
    have e : T / N * F (j * (T / N)) = ∫ t in (j : ℝ) * (T / N)..((j + 1 : ℕ) : ℝ) * (T / N), F (j * (T / N)) := by
      rw [intervalIntegral.integral_const, smul_eq_mul]
      push_cast
      ring
    rw [e, ← intervalIntegral.integral_sub (by simp) ((hF.mono (panel_sub hT.le hj)).intervalIntegrable)]
    have := intervalIntegral.norm_integral_le_of_norm_le_const (a := (j : ℝ) * (T / N)) (b := ((j + 1 : ℕ) : ℝ) * (T / N))
      (f := fun t => F (j * (T / N)) - F t) (C := ε / (2 * T)) (fun t ht => by
        have ht' := panel_sub hT.le hj (uIoc_subset_uIcc ht)
        rw [uIoc_of_le (by push_cast; nlinarith)] at ht
        have := hu _ (step_mem hT.le hj.le) t ht' (by
          rw [Real.dist_eq, abs_sub_comm, abs_of_pos (by linarith [ht.1])]
          have := ht.2
          push_cast at this
          linarith)
        rw [Real.dist_eq] at this
        exact this.le)
    rw [Real.norm_eq_abs] at this
    refine this.trans (le_of_eq ?_)
    rw [abs_of_nonneg (by push_cast; nlinarith)]
    push_cast
    ring
  calc _ ≤ ∑ j ∈ Finset.range N, ε / (2 * T) * (T / N) := (Finset.abs_sum_le_sum_abs _ _).trans (Finset.sum_le_sum hp)
    _ = ε / 2 := by
      rw [Finset.sum_const, Finset.card_range, nsmul_eq_mul]
      field_simp
    _ < ε := by linarith

/-! ### Euler-Maclaurin -/

/-- the scaled Bernoulli polynomial `B_k(x) / k!` -/
noncomputable def bq (k : ℕ) (x : ℝ) : ℝ := bernoulliFun k x / k.factorial

theorem bq_deriv (k : ℕ) (x : ℝ) : HasDerivAt (bq (k + 1)) (bq k x) x := by
  have h := (hasDerivAt_bernoulliFun (k + 1) x).div_const ((k + 1).factorial : ℝ)
  refine h.congr_deriv ?_
  rw [bq, Nat.factorial_succ]
  simp only [Nat.add_sub_cancel]
  have : (k.factorial : ℝ) ≠ 0 := by exact_mod_cast k.factorial_ne_zero
  push_cast
  field_simp

theorem bq_cont (k : ℕ) : Continuous (bq k) := (continuous_bernoulliFun k).div_const _

theorem bq_ends {k : ℕ} (hk : k ≠ 1) : bq k 1 = bq k 0 := by
  rw [bq, bq, bernoulliFun_endpoints_eq_of_ne_one hk]

theorem bq_odd {k : ℕ} (hk : Odd k) (h1 : k ≠ 1) : bq k 0 = 0 := by
  rw [bq, bernoulliFun_eval_zero, bernoulli_eq_zero_of_odd hk (by obtain ⟨m, rfl⟩ := hk; omega)]
  simp

/-- the remainder of order `k` -/
noncomputable def emR (T : ℝ) (N : ℕ) (F : ℝ → ℝ) (k : ℕ) : ℝ :=
  ∑ j ∈ Finset.range N, ∫ t in (j : ℝ) * (T / N)..((j + 1 : ℕ) : ℝ) * (T / N), bq k ((t - j * (T / N)) / (T / N)) *
    iteratedDeriv k F t

section
variable {T : ℝ} {F : ℝ → ℝ} {k : ℕ}

omit T k in
theorem iter_contDiffAt {k m i : ℕ} {t : ℝ} (hF : ContDiffAt ℝ k F t) (h : m + i ≤ k) :
    ContDiffAt ℝ m (iteratedDeriv i F) t := by
  rw [iteratedDeriv_eq_equiv_comp]
  exact (LinearIsometryEquiv.contDiff _).contDiffAt.comp t (hF.iteratedFDeriv_right (by exact_mod_cast h))

theorem iter_hasDeriv (hF : ∀ t ∈ Icc 0 T, ContDiffAt ℝ k F t) {i : ℕ} (hi : i < k) {t : ℝ} (ht : t ∈ Icc 0 T) :
    HasDerivAt (iteratedDeriv i F) (iteratedDeriv (i + 1) F t) t := by
  have h : ContDiffAt ℝ (1 : ℕ) (iteratedDeriv i F) t := iter_contDiffAt (hF t ht) (by omega)
  rw [iteratedDeriv_succ]
  exact (h.differentiableAt (by simp)).hasDerivAt

theorem iter_cont (hF : ∀ t ∈ Icc 0 T, ContDiffAt ℝ k F t) {i : ℕ} (hi : i ≤ k) :
    ContinuousOn (iteratedDeriv i F) (Icc 0 T) := fun t ht =>
  (iter_contDiffAt (m := 0) (hF t ht) (by omega)).continuousAt.continuousWithinAt

/-- the trapezoid sum with `N` steps on `[0, T]` -/
noncomputable def tsum (T : ℝ) (N : ℕ) (F : ℝ → ℝ) : ℝ := lsum T N F + T / N * ((F T - F 0) / 2)

/-- integration by parts on every panel -/
theorem em_step (hT : 0 < T) {N : ℕ} (hN : 0 < N) (hF : ∀ t ∈ Icc 0 T, ContDiffAt ℝ k F t) {i : ℕ} (hi : i < k) :
    emR T N F i = T / N * ∑ j ∈ Finset.range N, (bq (i + 1) 1 * iteratedDeriv i F ((j + 1 : ℕ) * (T / N)) -
      bq (i + 1) 0 * iteratedDeriv i F (j * (T / N))) - T / N * emR T N F (i + 1) := by
  have hNp : (0 : ℝ) < N := by exact_mod_cast hN
  have hh : 0 < T / N := by positivity
  rw [emR, emR, Finset.mul_sum, Finset.mul_sum, ← Finset.sum_sub_distrib]
  refine Finset.sum_congr rfl fun j hj => ?_
  have hj := Finset.mem_range.1 hj
  set a : ℝ := (j : ℝ) * (T / N) with ha
  have hb : ((j + 1 : ℕ) : ℝ) * (T / N) = a + T / N := by push_cast; ring
  rw [hb]
  have hsub : uIcc a (a + T / N) ⊆ Icc 0 T := by
    rw [← hb]; exact panel_sub hT.le hj
  have hu : ∀ t ∈ uIcc a (a + T / N), HasDerivAt (fun t => T / N * bq (i + 1) ((t - a) / (T / N)))
      (bq i ((t - a) / (T / N))) t := by
    intro t _
    have h1 : HasDerivAt (fun t => (t - a) / (T / N)) (1 / (T / N)) t := ((hasDerivAt_id t).sub_const a).div_const _
    have h2 := ((bq_deriv i ((t - a) / (T / N))).comp t h1).const_mul (T / N)
    refine h2.congr_deriv ?_
    field_simp
  have hv : ∀ t ∈ uIcc a (a + T / N), HasDerivAt (iteratedDeriv i F) (iteratedDeriv (i + 1) F t) t :=
    fun t ht => iter_hasDeriv hF hi (hsub ht)
  have hc : ∀ m, Continuous fun t : ℝ => bq m ((t - a) / (T / N)) := fun m =>
    (bq_cont m).comp ((continuous_id.sub continuous_const).div_const _)
  have h := intervalIntegral.integral_mul_deriv_eq_deriv_mul hu hv ((hc i).intervalIntegrable _ _)
    (((iter_cont hF hi).mono hsub).intervalIntegrable)
  have e1 : (∫ t in a..a + T / N, T / N * bq (i + 1) ((t - a) / (T / N)) * iteratedDeriv (i + 1) F t) =
      T / N * ∫ t in a..a + T / N, bq (i + 1) ((t - a) / (T / N)) * iteratedDeriv (i + 1) F t := by
    rw [← intervalIntegral.integral_const_mul]
    simp only [mul_assoc]
  rw [e1] at h
  have e2 : (a + T / N - a) / (T / N) = 1 := by field_simp; ring
  have e3 : (a - a) / (T / N) = 0 := by simp
  rw [e2, e3] at h
  linarith

theorem bq_one (x : ℝ) : bq 1 x = x - 1 / 2 := by simp [bq, bernoulliFun_one]

/-- the remainder of order one is the error of the trapezoid sum -/
theorem em_one (hT : 0 < T) {N : ℕ} (hN : 0 < N) (hF : ∀ t ∈ Icc 0 T, ContDiffAt ℝ k F t) (hk : 1 ≤ k) :
    T / N * emR T N F 1 = tsum T N F - ∫ t in (0 : ℝ)..T, F t := by
  have hNp : (0 : ℝ) < N := by exact_mod_cast hN
  have h := em_step hT hN hF (i := 0) (by omega)
  have h0 : emR T N F 0 = ∫ t in (0 : ℝ)..T, F t := by
    rw [← sum_panels hT.le hN (fun t ht => (hF t ht).continuousAt.continuousWithinAt)]
    simp [emR, bq]
  rw [h0] at h
  have hs : ∑ j ∈ Finset.range N, F (((j + 1 : ℕ) : ℝ) * (T / N)) - ∑ j ∈ Finset.range N, F ((j : ℕ) * (T / N)) =
      F T - F 0 := by
    rw [← Finset.sum_sub_distrib, Finset.sum_range_sub (fun j : ℕ => F ((j : ℝ) * (T / N)))]
    congr 2
    · field_simp
    · simp
  simp only [zero_add, bq_one, iteratedDeriv_zero] at h
  rw [tsum, lsum, h]
  have hs2 : ∑ j ∈ Finset.range N, ((1 - 1 / 2) * F (((j + 1 : ℕ) : ℝ) * (T / N)) - (0 - 1 / 2) * F ((j : ℝ) * (T / N))) =
      ∑ j ∈ Finset.range N, F ((j : ℕ) * (T / N)) + (F T - F 0) / 2 := by
    rw [Finset.sum_sub_distrib, ← Finset.mul_sum, ← Finset.mul_sum]
    linarith
  rw [hs2]
  ring

theorem em_next (hT : 0 < T) {N : ℕ} (hN : 0 < N) (hF : ∀ t ∈ Icc 0 T, ContDiffAt ℝ k F t) {i : ℕ} (hi : i < k)
    (h1 : 1 ≤ i) : emR T N F i = T / N * (bq (i + 1) 0 * (iteratedDeriv i F T - iteratedDeriv i F 0)) -
      T / N * emR T N F (i + 1) := by
  have hNp : (0 : ℝ) < N := by exact_mod_cast hN
  rw [em_step hT hN hF hi, bq_ends (by omega)]
  congr 2
  simp only [← mul_sub]
  rw [← Finset.mul_sum, Finset.sum_range_sub (fun j : ℕ => iteratedDeriv i F ((j : ℝ) * (T / N)))]
  congr 3
  · field_simp
  · simp

end

theorem em_bound {T : ℝ} (hT : 0 < T) (i : ℕ) :
    ∃ c, 0 ≤ c ∧ ∀ (F : ℝ → ℝ) (B : ℝ), (∀ t ∈ Icc 0 T, |iteratedDeriv i F t| ≤ B) → ∀ N : ℕ, 0 < N → |emR T N F i| ≤ c * B := by
  obtain ⟨A, hA⟩ := isCompact_Icc.exists_bound_of_continuousOn (s := Icc (0 : ℝ) 1) (bq_cont i).continuousOn
  refine ⟨A * T, mul_nonneg ((norm_nonneg _).trans (hA 0 (by simp))) hT.le, fun F B hB N hN => ?_⟩
  have hNp : (0 : ℝ) < N := by exact_mod_cast hN
  have hh : 0 < T / N := by positivity
  have hp : ∀ j ∈ Finset.range N, |∫ t in (j : ℝ) * (T / N)..((j + 1 : ℕ) : ℝ) * (T / N),
      bq i ((t - j * (T / N)) / (T / N)) * iteratedDeriv i F t| ≤ A * B * (T / N) := by
    intro j hj
    have hj := Finset.mem_range.1 hj
    have := intervalIntegral.norm_integral_le_of_norm_le_const (a := (j : ℝ) * (T / N)) (b := ((j + 1 : ℕ) : ℝ) * (T / N))
      (f := fun t => bq i ((t - j * (T / N)) / (T / N)) * iteratedDeriv i F t) (C := A * B) (fun t ht => by
        have ht' := panel_sub hT.le hj (uIoc_subset_uIcc ht)
        rw [uIoc_of_le (by push_cast; nlinarith)] at ht
        rw [norm_mul]
        refine mul_le_mul (hA _ ⟨?_, ?_⟩) (hB t ht') (norm_nonneg _) ((norm_nonneg _).trans (hA 0 (by simp)))
        · exact div_nonneg (by linarith [ht.1]) hh.le
        · rw [div_le_one hh]
          have := ht.2
          push_cast at this
          linarith)
    rw [Real.norm_eq_abs] at this
    refine this.trans (le_of_eq ?_)
    rw [abs_of_nonneg (by push_cast; nlinarith)]
    push_cast
    ring
  calc _ ≤ ∑ j ∈ Finset.range N, A * B * (T / N) := (Finset.abs_sum_le_sum_abs _ _).trans (Finset.sum_le_sum hp)
    _ = A * T * B := by
      rw [Finset.sum_const, Finset.card_range, nsmul_eq_mul]
      field_simp

/-- The error of the trapezoid sum is of order `k` if the integrand has `k` continuous derivatives and those of odd order up to
`k - 2` agree at the two ends. -/
theorem tsum_rate_le {T : ℝ} {k : ℕ} (hT : 0 < T) (hk : 1 ≤ k) :
    ∃ c, 0 ≤ c ∧ ∀ F : ℝ → ℝ, (∀ t ∈ Icc 0 T, ContDiffAt ℝ k F t) →
      (∀ i, Odd i → i + 2 ≤ k → iteratedDeriv i F T = iteratedDeriv i F 0) → ∀ B,
      (∀ t ∈ Icc 0 T, |iteratedDeriv (k - 1) F t| ≤ B) → (∀ t ∈ Icc 0 T, |iteratedDeriv k F t| ≤ B) →
      ∀ N : ℕ, 0 < N → |tsum T N F - ∫ t in (0 : ℝ)..T, F t| ≤ c * B / (N : ℝ) ^ k := by
  obtain ⟨c, hc, hM⟩ := em_bound hT k
  obtain ⟨k, rfl⟩ : ∃ m, k = m + 1 := ⟨k - 1, by omega⟩
  refine ⟨T ^ (k + 1) * (2 * |bq (k + 1) 0| + c), by positivity, fun F hF hm B b0 b1 N hN => ?_⟩
  have hM := hM F B b1 N hN
  have hB : 0 ≤ B := (abs_nonneg _).trans (b1 0 ⟨le_rfl, hT.le⟩)
  -- the error is the remainder of order `i` times the power of the step, as long as the boundary terms cancel
  have key : ∀ N : ℕ, 0 < N → ∀ i, 1 ≤ i → i ≤ max k 1 →
      |tsum T N F - ∫ t in (0 : ℝ)..T, F t| = (T / N) ^ i * |emR T N F i| := by
    intro N hN i hi
    have hh : 0 ≤ T / N := by positivity
    induction i, hi using Nat.le_induction with
    | base =>
      intro _
      rw [← em_one hT hN hF (by omega), abs_mul, abs_of_nonneg hh, pow_one]
    | succ i hi ih =>
      intro hik
      have hik' : i + 1 ≤ k := by
        rcases le_max_iff.1 hik with h | h
        · exact h
        · omega
      rw [ih (by omega), em_next hT hN hF (by omega) hi]
      have hz : bq (i + 1) 0 * (iteratedDeriv i F T - iteratedDeriv i F 0) = 0 := by
        rcases Nat.even_or_odd i with he | ho
        · rw [bq_odd he.add_one (by omega), zero_mul]
        · rw [hm i ho (by omega), sub_self, mul_zero]
      rw [hz, mul_zero, zero_sub, abs_neg, abs_mul, abs_of_nonneg hh, pow_succ]
      ring
  have hh : 0 ≤ T / N := by positivity
  have hNp : (0 : ℝ) < N := by exact_mod_cast hN
  rcases Nat.eq_zero_or_pos k with h0 | h0
  · subst h0
    rw [key N hN 1 le_rfl (by simp), pow_one]
    calc T / N * |emR T N F 1| ≤ T / N * (c * B) := mul_le_mul_of_nonneg_left hM hh
      _ ≤ T / N * ((2 * |bq (0 + 1) 0| + c) * B) := by
        gcongr
        linarith [abs_nonneg (bq (0 + 1) 0)]
      _ = _ := by ring
  · rw [key N hN k h0 (le_max_left _ _), em_next hT hN hF (by omega) h0, ← mul_sub, abs_mul, abs_of_nonneg hh]
    have hd : |bq (k + 1) 0 * (iteratedDeriv k F T - iteratedDeriv k F 0)| ≤ |bq (k + 1) 0| * (2 * B) := by
      rw [abs_mul]
      gcongr
      refine (abs_sub _ _).trans ?_
      have e1 := b0 T ⟨hT.le, le_rfl⟩
      have e2 := b0 0 ⟨le_rfl, hT.le⟩
      simp only [Nat.add_sub_cancel] at e1 e2
      linarith
    calc _ ≤ (T / N) ^ k * (T / N * (|bq (k + 1) 0| * (2 * B) + c * B)) := by
          gcongr
          exact (abs_sub _ _).trans (add_le_add hd hM)
      _ = _ := by
        rw [div_pow]
        field_simp
        ring

/-- the same for one integrand -/
theorem tsum_rate {T : ℝ} {F : ℝ → ℝ} {k : ℕ} (hT : 0 < T) (hk : 1 ≤ k) (hF : ∀ t ∈ Icc 0 T, ContDiffAt ℝ k F t)
    (hm : ∀ i, Odd i → i + 2 ≤ k → iteratedDeriv i F T = iteratedDeriv i F 0) :
    ∃ M, ∀ N : ℕ, 0 < N → |tsum T N F - ∫ t in (0 : ℝ)..T, F t| ≤ M / (N : ℝ) ^ k := by
  obtain ⟨c, -, hc⟩ := tsum_rate_le hT hk
  obtain ⟨B, hB⟩ := isCompact_Icc.exists_bound_of_continuousOn (iter_cont hF (i := k - 1) (by omega))
  obtain ⟨B', hB'⟩ := isCompact_Icc.exists_bound_of_continuousOn (iter_cont hF le_rfl)
  exact ⟨c * max B B', hc F hF hm _ (fun t ht => (hB t ht).trans (le_max_left _ _)) fun t ht => (hB' t ht).trans (le_max_right _ _)⟩

end PFEM
