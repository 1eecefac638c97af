import Mathlib.Analysis.Fourier.AddCircle
import Mathlib.Analysis.PSeries
import Mathlib.Analysis.Calculus.IteratedDeriv.Lemmas
import Mathlib.Analysis.Calculus.ContDiff.RCLike

/-!
Fourier series of smooth periodic functions of one real variable: decay of the coefficients, convergence of the series and of the
series of the derivative.
-/

namespace PFEM
namespace Wave
open Complex MeasureTheory

/-- `exp(2πikx/L)` -/
noncomputable def wave (L : ℝ) (k : ℤ) (x : ℝ) : ℂ := exp (2 * Real.pi * I * k * x / L)

theorem wave_norm (L : ℝ) (k : ℤ) (x : ℝ) : ‖wave L k x‖ = 1 := by
  unfold wave
  rw [show (2 * Real.pi * I * k * x / L : ℂ) = ((2 * Real.pi * k * x / L : ℝ) : ℂ) * I by push_cast; ring]
  exact Complex.norm_exp_ofReal_mul_I _

/-- the Fourier coefficient -/
noncomputable def coef (L : ℝ) (f : ℝ → ℂ) (k : ℤ) : ℂ := (1 / L : ℝ) • ∫ x in (0 : ℝ)..L, wave L (-k) x * f x

theorem coef_eq {L : ℝ} (hL : 0 < L) (f : ℝ → ℂ) (k : ℤ) : coef L f k = fourierCoeffOn hL f k := by
  rw [fourierCoeffOn_eq_integral]
  unfold coef wave
  simp only [sub_zero, fourier_coe_apply, smul_eq_mul]

theorem wave_continuous (L : ℝ) (k : ℤ) : Continuous (wave L k) := by unfold wave; fun_prop

/-- a bounded function has bounded coefficients -/
theorem coef_bound {L : ℝ} (hL : 0 < L) {f : ℝ → ℂ} {B : ℝ} (h : ∀ x, ‖f x‖ ≤ B) (k : ℤ) : ‖coef L f k‖ ≤ B := by
  unfold coef
  rw [norm_smul, Real.norm_of_nonneg (by positivity)]
  have := intervalIntegral.norm_integral_le_of_norm_le_const (a := (0 : ℝ)) (b := L) (C := B) (f := fun x => wave L (-k) x * f x)
    (fun x _ => by rw [norm_mul, wave_norm, one_mul]; exact h x)
  rw [sub_zero, abs_of_pos hL] at this
  calc 1 / L * _ ≤ 1 / L * (B * L) := by gcongr
    _ = B := by field_simp

/-- coefficients of the derivative of a periodic function -/
theorem coef_deriv {L : ℝ} (hL : 0 < L) {f f' : ℝ → ℂ} (hp : ∀ x, f (x + L) = f x) (hd : ∀ x, HasDerivAt f (f' x) x)
    (hc : Continuous f') (k : ℤ) : coef L f' k = 2 * Real.pi * I * k / L * coef L f k := by
  have hL' : (L : ℂ) ≠ 0 := by exact_mod_cast hL.ne'
  have h0 : f L = f 0 := by simpa using hp 0
  by_cases hk : k = 0
  · subst hk
    unfold coef wave
    simp only [neg_zero, Int.cast_zero, mul_zero, zero_mul, zero_div, exp_zero, one_mul]
    rw [intervalIntegral.integral_eq_sub_of_hasDerivAt (fun x _ => hd x) (hc.intervalIntegrable _ _), h0, sub_self, smul_zero]
  · have h := fourierCoeffOn_of_hasDerivAt hL hk (fun x _ => hd x) (hc.intervalIntegrable _ _)
    rw [h0, sub_self, mul_zero, zero_sub, ← coef_eq, ← coef_eq] at h
    have hk' : (k : ℂ) ≠ 0 := by exact_mod_cast hk
    have hpi : (Real.pi : ℂ) ≠ 0 := by exact_mod_cast Real.pi_ne_zero
    rw [h]
    push_cast
    field_simp [I_ne_zero]
    simp

/-- a continuous periodic function is bounded -/
theorem periodic_bounded {L : ℝ} (hL : 0 < L) {f : ℝ → ℂ} (hp : ∀ x, f (x + L) = f x) (hc : Continuous f) :
    ∃ B, 0 ≤ B ∧ ∀ x, ‖f x‖ ≤ B := by
  obtain ⟨B, hB⟩ := (isCompact_Icc (a := (0 : ℝ)) (b := 0 + L)).exists_bound_of_continuousOn hc.continuousOn
  refine ⟨B, (norm_nonneg _).trans (hB 0 ⟨le_rfl, by simpa using hL.le⟩), fun x => ?_⟩
  obtain ⟨y, hy, he⟩ := Function.Periodic.exists_mem_Ico (f := f) hp hL x 0
  rw [he]
  exact hB y ⟨hy.1, hy.2.le⟩

/-- the series of a continuous periodic function with summable coefficients -/
theorem series_sum {L : ℝ} (hL : 0 < L) {f : ℝ → ℂ} (hp : ∀ x, f (x + L) = f x) (hc : Continuous f)
    (hs : Summable (coef L f)) (x : ℝ) : HasSum (fun k : ℤ => coef L f k * wave L k x) (f x) := by
  have : Fact (0 < L) := ⟨hL⟩
  have hper : Function.Periodic f L := hp
  let F : C(AddCircle L, ℂ) := ⟨hper.lift, by
    exact hc.quotient_lift _⟩
  have hF : ∀ x : ℝ, F (x : AddCircle L) = f x := fun x => rfl
  have hk : ∀ k, fourierCoeff F k = coef L f k := by
    intro k
    rw [fourierCoeff_eq_intervalIntegral _ _ 0]
    unfold coef wave
    simp only [zero_add, hF, fourier_coe_apply, smul_eq_mul]
  have h := has_pointwise_sum_fourier_series_of_summable (f := F) (by rw [show fourierCoeff (F : AddCircle L → ℂ) = coef L f from funext hk]; exact hs) (x : AddCircle L)
  rw [hF] at h
  refine h.congr_fun fun k => ?_
  rw [hk, smul_eq_mul, fourier_coe_apply]
  rfl

theorem deriv_periodic {L : ℝ} {f : ℝ → ℂ} (hp : ∀ x, f (x + L) = f x) (x : ℝ) : deriv f (x + L) = deriv f x := by
  rw [← deriv_comp_add_const]
  congr 1
  funext y
  exact hp y

/-- coefficients of a function with a Lipschitz bound -/
theorem coef_lipschitz {L : ℝ} (hL : 0 < L) {f : ℝ → ℂ} (hp : ∀ x, f (x + L) = f x) {Λ : NNReal} (hl : LipschitzWith Λ f)
    {k : ℤ} (hk : k ≠ 0) : ‖coef L f k‖ ≤ Λ * L / |(k : ℝ)| := by
  have hc := hl.continuous
  have hL' : (L : ℂ) ≠ 0 := by exact_mod_cast hL.ne'
  have hk' : (k : ℂ) ≠ 0 := by exact_mod_cast hk
  have hkr : (k : ℝ) ≠ 0 := by exact_mod_cast hk
  set s : ℝ := L / (2 * k) with hs
  have hw : ∀ x, wave L (-k) (x + s) = -wave L (-k) x := by
    intro x
    unfold wave
    rw [show (2 * Real.pi * I * ((-k : ℤ) : ℂ) * ((x + s : ℝ) : ℂ) / L : ℂ) =
      2 * Real.pi * I * ((-k : ℤ) : ℂ) * x / L + -(Real.pi * I) by rw [hs]; push_cast; field_simp; ring,
      exp_add, exp_neg, exp_pi_mul_I]
    norm_num
  have hwp : ∀ x, wave L (-k) (x + L) = wave L (-k) x := by
    intro x
    unfold wave
    rw [show (2 * Real.pi * I * ((-k : ℤ) : ℂ) * ((x + L : ℝ) : ℂ) / L : ℂ) =
      2 * Real.pi * I * ((-k : ℤ) : ℂ) * x / L + ((-k : ℤ) : ℂ) * (2 * Real.pi * I) by push_cast; field_simp; ring,
      exp_add, exp_int_mul_two_pi_mul_I, mul_one]
  have h1 : ∫ x in (0 : ℝ)..L, wave L (-k) x * f (x - s) = -∫ x in (0 : ℝ)..L, wave L (-k) x * f x := by
    have e1 : ∀ x, wave L (-k) x * f (x - s) = (fun y => wave L (-k) (y + s) * f y) (x - s) := fun x => by simp
    simp_rw [e1]
    rw [intervalIntegral.integral_comp_sub_right (fun y => wave L (-k) (y + s) * f y) s]
    simp_rw [hw, neg_mul]
    rw [intervalIntegral.integral_neg]
    congr 1
    have hper : Function.Periodic (fun x => wave L (-k) x * f x) L := fun x => by simp only [hwp, hp]
    have := hper.intervalIntegral_add_eq (0 - s) 0
    rw [zero_add, show (0 - s + L) = L - s by ring] at this
    exact this
  have hi : ∀ g : ℝ → ℂ, Continuous g → IntervalIntegrable (fun x => wave L (-k) x * g x) volume 0 L :=
    fun g hg => ((wave_continuous L (-k)).mul hg).intervalIntegrable _ _
  have h2 : ∫ x in (0 : ℝ)..L, wave L (-k) x * (f x - f (x - s)) = 2 * ∫ x in (0 : ℝ)..L, wave L (-k) x * f x := by
    simp_rw [mul_sub]
    rw [intervalIntegral.integral_sub (hi f hc) (hi (fun x => f (x - s)) (by fun_prop)), h1]
    ring
  have h3 : coef L f k = (1 / 2 : ℝ) • coef L (fun x => f x - f (x - s)) k := by
    unfold coef
    rw [h2, smul_comm]
    congr 1
    rw [Complex.real_smul]
    push_cast
    ring
  have hb : ∀ x, ‖f x - f (x - s)‖ ≤ Λ * |s| := by
    intro x
    have := hl.dist_le_mul x (x - s)
    rwa [dist_eq_norm, Real.dist_eq, sub_sub_cancel] at this
  rw [h3, norm_smul, Real.norm_of_nonneg (by norm_num)]
  have h4 := coef_bound hL hb k
  have h5 : |s| = L / (2 * |(k : ℝ)|) := by rw [hs, abs_div, abs_mul, abs_of_pos hL, abs_two]
  have hk0 : 0 < |(k : ℝ)| := by positivity
  calc _ ≤ 1 / 2 * (Λ * |s|) := by gcongr
    _ = 1 / 4 * (Λ * L / |(k : ℝ)|) := by rw [h5]; field_simp; ring
    _ ≤ _ := by
      have : 0 ≤ Λ * L / |(k : ℝ)| := by positivity
      linarith

/-- the coefficients of an `m` times continuously differentiable periodic function whose derivative of order `m` has a Lipschitz
bound decay like `|k|^(-m-1)` -/
theorem coef_decay {L : ℝ} (hL : 0 < L) (m : ℕ) : ∀ {f : ℝ → ℂ}, (∀ x, f (x + L) = f x) → ContDiff ℝ m f →
    ∀ {Λ : NNReal}, LipschitzWith Λ (iteratedDeriv m f) →
    ∃ B, 0 ≤ B ∧ ∀ k : ℤ, k ≠ 0 → ‖coef L f k‖ ≤ B / |(k : ℝ)| ^ (m + 1) := by
  induction m with
  | zero =>
    intro f hp hf Λ hl
    rw [iteratedDeriv_zero] at hl
    exact ⟨Λ * L, by positivity, fun k hk => by simpa using coef_lipschitz hL hp hl hk⟩
  | succ m ih =>
    intro f hp hf Λ hl
    have hf1 : ContDiff ℝ (m + 1 : ℕ) f := hf
    rw [show ((m + 1 : ℕ) : WithTop ℕ∞) = (m : WithTop ℕ∞) + 1 by norm_cast, contDiff_succ_iff_deriv] at hf1
    obtain ⟨hd, -, hd'⟩ := hf1
    rw [iteratedDeriv_succ'] at hl
    obtain ⟨B, h0, hB⟩ := ih (deriv_periodic hp) hd' hl
    refine ⟨L / (2 * Real.pi) * B, by positivity, fun k hk => ?_⟩
    have hk' : 0 < |(k : ℝ)| := by positivity
    have h1 := coef_deriv hL hp (fun x => (hd x).hasDerivAt) hd'.continuous k
    have h2 := hB k hk
    rw [h1, norm_mul] at h2
    have h3 : ‖(2 * Real.pi * I * k / L : ℂ)‖ = 2 * Real.pi * |(k : ℝ)| / L := by
      simp only [norm_div, norm_mul, Complex.norm_I, Complex.norm_real, Complex.norm_intCast, Real.norm_eq_abs, mul_one,
        abs_of_pos hL, abs_of_pos Real.pi_pos]
      norm_num
    rw [h3] at h2
    have hpi := Real.pi_pos
    have e : ‖coef L f k‖ = L / (2 * Real.pi) / |(k : ℝ)| * (2 * Real.pi * |(k : ℝ)| / L * ‖coef L f k‖) := by field_simp
    rw [e]
    calc _ ≤ L / (2 * Real.pi) / |(k : ℝ)| * (B / |(k : ℝ)| ^ (m + 1)) := by gcongr
      _ = _ := by rw [pow_succ _ (m + 1)]; field_simp

/-- `∑ 1 / k²` over the integers -/
theorem summable_sq : Summable fun k : ℤ => 1 / |(k : ℝ)| ^ 2 := by
  have := (Real.summable_one_div_int_pow (p := 2)).2 (by norm_num)
  simpa using this

/-- coefficients that decay like `1 / k²` are summable -/
theorem summable_of_decay {c : ℤ → ℂ} {B : ℝ} (hB : ∀ k : ℤ, k ≠ 0 → ‖c k‖ ≤ B / |(k : ℝ)| ^ 2) : Summable c := by
  refine Summable.of_norm_bounded_eventually (g := fun k : ℤ => B * (1 / |(k : ℝ)| ^ 2)) (summable_sq.mul_left B) ?_
  rw [Filter.eventually_cofinite]
  refine (Set.finite_singleton (0 : ℤ)).subset fun k hk => ?_
  by_contra h
  exact hk (by simpa [div_eq_mul_inv] using hB k h)

theorem pow_decay {B : ℝ} (hB : 0 ≤ B) {k : ℤ} (hk : k ≠ 0) {m n : ℕ} (h : m ≤ n) : B / |(k : ℝ)| ^ n ≤ B / |(k : ℝ)| ^ m := by
  have : (1 : ℝ) ≤ |(k : ℝ)| := by exact_mod_cast Int.one_le_abs hk
  gcongr

/-- the Fourier series of a smooth periodic function and of its derivative, and the decay of the coefficients -/
theorem series_deriv {L : ℝ} (hL : 0 < L) {f : ℝ → ℂ} (hp : ∀ x, f (x + L) = f x) {p : ℕ} (h1p : 1 ≤ p)
    (hf : ContDiff ℝ (p + 1 : ℕ) f) {Λ : NNReal} (hl : LipschitzWith Λ (iteratedDeriv (p + 1) f)) :
    (∃ B, 0 ≤ B ∧ ∀ k : ℤ, k ≠ 0 → ‖coef L f k‖ ≤ B / |(k : ℝ)| ^ (p + 2)) ∧
    ∀ x, HasSum (fun k : ℤ => coef L f k * wave L k x) (f x) ∧
      HasSum (fun k : ℤ => 2 * Real.pi * I * k / L * coef L f k * wave L k x) (deriv f x) := by
  obtain ⟨B, h0, hB⟩ := coef_decay hL (p + 1) hp hf hl
  refine ⟨⟨B, h0, hB⟩, fun x => ?_⟩
  have hf1 : ContDiff ℝ (p + 1 : ℕ) f := hf
  rw [show ((p + 1 : ℕ) : WithTop ℕ∞) = (p : WithTop ℕ∞) + 1 by norm_cast, contDiff_succ_iff_deriv] at hf1
  obtain ⟨hd, -, hd'⟩ := hf1
  refine ⟨series_sum hL hp hf.continuous (summable_of_decay fun k hk => (hB k hk).trans (pow_decay h0 hk (by omega))) x, ?_⟩
  rw [iteratedDeriv_succ'] at hl
  obtain ⟨B', h0', hB'⟩ := coef_decay hL p (deriv_periodic hp) hd' hl
  have h3 := series_sum hL (deriv_periodic hp) hd'.continuous
    (summable_of_decay fun k hk => (hB' k hk).trans (pow_decay h0' hk (by omega))) x
  refine h3.congr_fun fun k => ?_
  rw [coef_deriv hL hp (fun x => (hd x).hasDerivAt) hd'.continuous k]

/-! ### sums over high frequencies -/

/-- `1 / k²` at the frequencies from `N / 2` -/
noncomputable def high (N : ℕ) (k : ℤ) : ℝ := if 2 * |k| < (N : ℤ) then 0 else 1 / |(k : ℝ)| ^ 2

theorem high_nonneg (N : ℕ) (k : ℤ) : 0 ≤ high N k := by
  unfold high
  split <;> positivity

theorem high_nat {N : ℕ} (hN : 0 < N) (n : ℕ) : ∑ k ∈ Finset.range n, high N (k : ℤ) ≤ 4 / N := by
  have hM : 0 < (N + 1) / 2 := by omega
  have h1 : ∑ k ∈ Finset.range n, high N (k : ℤ) ≤ ∑ k ∈ Finset.Ioo ((N + 1) / 2 - 1) n, ((k : ℝ) ^ 2)⁻¹ := by
    rw [← Finset.sum_filter_add_sum_filter_not (Finset.range n) (fun k : ℕ => 2 * k < N)]
    have e : ∑ k ∈ (Finset.range n).filter (fun k : ℕ => 2 * k < N), high N (k : ℤ) = 0 := by
      refine Finset.sum_eq_zero fun k hk => ?_
      have := (Finset.mem_filter.1 hk).2
      unfold high
      rw [if_pos (by rw [abs_of_nonneg (by positivity)]; omega)]
    rw [e, zero_add]
    refine (Finset.sum_le_sum (g := fun k : ℕ => ((k : ℝ) ^ 2)⁻¹) fun k hk => ?_).trans
      (Finset.sum_le_sum_of_subset_of_nonneg (fun k hk => ?_) fun k _ _ => by positivity)
    · have := (Finset.mem_filter.1 hk).2
      unfold high
      rw [if_neg (by rw [abs_of_nonneg (by positivity)]; omega)]
      simp
    · simp only [Finset.mem_filter, Finset.mem_range] at hk
      simp only [Finset.mem_Ioo]
      omega
  refine h1.trans ((sum_Ioo_inv_sq_le ((N + 1) / 2 - 1) n).trans ?_)
  have h2 : (N : ℝ) / 2 ≤ (((N + 1) / 2 - 1 : ℕ) : ℝ) + 1 := by
    have : (((N + 1) / 2 - 1 : ℕ) : ℝ) + 1 = (((N + 1) / 2 : ℕ) : ℝ) := by
      have := Nat.sub_add_cancel hM
      exact_mod_cast this
    rw [this]
    have h3 : N ≤ 2 * ((N + 1) / 2) := by omega
    have h4 : (N : ℝ) ≤ 2 * (((N + 1) / 2 : ℕ) : ℝ) := by exact_mod_cast h3
    linarith
  have hN' : (0 : ℝ) < N := by exact_mod_cast hN
  calc _ ≤ 2 / ((N : ℝ) / 2) := by gcongr
    _ = _ := by field_simp; norm_num

/-- the sum over the high frequencies -/
theorem high_sum {N : ℕ} (hN : 0 < N) : ∃ S, HasSum (high N) S ∧ S ≤ 8 / N := by
  have h1 : Summable fun k : ℕ => high N (k : ℤ) := summable_of_sum_range_le (fun k => high_nonneg N k) (high_nat hN)
  have h2 : ∑' k : ℕ, high N (k : ℤ) ≤ 4 / N := Real.tsum_le_of_sum_range_le (fun k => high_nonneg N k) (high_nat hN)
  have h3 : ∀ k : ℕ, high N (-(k : ℤ)) = high N (k : ℤ) := by
    intro k
    unfold high
    simp
  have h4 := HasSum.of_nat_of_neg (f := high N) h1.hasSum (by simpa only [h3] using h1.hasSum)
  refine ⟨_, h4, ?_⟩
  have h5 : high N 0 = 0 := by
    unfold high
    rw [if_pos (by simpa using hN)]
  rw [h5, sub_zero]
  calc _ ≤ 4 / (N : ℝ) + 4 / N := by gcongr
    _ = _ := by ring

end Wave
end PFEM
