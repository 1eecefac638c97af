import Verif.Lemmas.TrigSum
import Mathlib.Analysis.SpecialFunctions.Complex.LogBounds
import Mathlib.Analysis.SpecificLimits.Normed
import Mathlib.Topology.Algebra.InfiniteSum.NatInt

/-!
Sums over equispaced points of the Poisson kernel and of the logarithm of its denominator, used for ellipses.
-/

namespace PFEM
open Finset

/-- the point with number `j` of `N` equispaced points of the period `2π` -/
noncomputable def gridPt (N j : ℕ) : ℝ := 2 * Real.pi * j / N

theorem grid_add (N i j : ℕ) : gridPt N (i + j) = gridPt N i + gridPt N j := by
  unfold gridPt
  push_cast
  ring

theorem grid_self {N : ℕ} (hN : 0 < N) : gridPt N N = 2 * Real.pi := by
  have : (N : ℝ) ≠ 0 := by exact_mod_cast hN.ne'
  unfold gridPt
  field_simp

theorem shift_sum {N : ℕ} {h : ℕ → ℝ} (hp : ∀ j, h (j + N) = h j) (i : ℕ) : ∑ j ∈ range N, h (i + j) = ∑ j ∈ range N, h j := by
  induction i with
  | zero => simp
  | succ i ih =>
    rw [← ih]
    have h1 := sum_range_succ (fun j => h (i + j)) N
    have h2 := sum_range_succ' (fun j => h (i + j)) N
    rw [h1] at h2
    simp only [add_zero, hp i] at h2
    have h3 := add_right_cancel h2
    rw [h3]
    exact sum_congr rfl fun j _ => by congr 1; ring

theorem odd_sum {N : ℕ} {h : ℕ → ℝ} (hp : ∀ j, h (j + N) = h j) (ho : ∀ i j, i + j = N → h i = -h j) : ∑ j ∈ range N, h j = 0 := by
  have h1 := sum_range_reflect h N
  have h2 := shift_sum hp 1
  have h3 : ∑ j ∈ range N, h (N - 1 - j) = -∑ j ∈ range N, h (1 + j) := by
    rw [← sum_neg_distrib]
    refine sum_congr rfl fun j hj => ho _ _ ?_
    have := mem_range.1 hj
    omega
  linarith

theorem cos_period (k : ℕ) (x : ℝ) : Real.cos (k * (x + 2 * Real.pi)) = Real.cos (k * x) := by
  rw [show (k : ℝ) * (x + 2 * Real.pi) = k * x + k * (2 * Real.pi) by ring, Real.cos_add_nat_mul_two_pi]

theorem sin_period (k : ℕ) (x : ℝ) : Real.sin (k * (x + 2 * Real.pi)) = Real.sin (k * x) := by
  rw [show (k : ℝ) * (x + 2 * Real.pi) = k * x + k * (2 * Real.pi) by ring, Real.sin_add_nat_mul_two_pi]

/-- the cosine coefficient of `f` on the grid -/
noncomputable def gridCoef (f : ℝ → ℝ) (N k : ℕ) : ℝ := (∑ j ∈ range N, f (gridPt N j) * Real.cos (k * gridPt N j)) / N

/-- even kernels of the sum of the angles: cosines and sines are eigenvectors -/
theorem even_conv {f : ℝ → ℝ} (hp : ∀ x, f (x + 2 * Real.pi) = f x) (he : ∀ x, f (-x) = f x) {N : ℕ} (hN : 0 < N) (k i : ℕ) :
    ∑ j ∈ range N, f (gridPt N i + gridPt N j) * Real.cos (k * gridPt N j) = N * gridCoef f N k * Real.cos (k * gridPt N i) ∧
    ∑ j ∈ range N, f (gridPt N i + gridPt N j) * Real.sin (k * gridPt N j) = -(N * gridCoef f N k * Real.sin (k * gridPt N i)) := by
  have hN' : (N : ℝ) ≠ 0 := by exact_mod_cast hN.ne'
  have hg : ∀ l, gridPt N (l + N) = gridPt N l + 2 * Real.pi := fun l => by rw [grid_add, grid_self hN]
  have hs : ∑ j ∈ range N, f (gridPt N j) * Real.sin (k * gridPt N j) = 0 := by
    refine odd_sum (fun j => by rw [hg, hp, sin_period]) fun a b hab => ?_
    have : gridPt N a = -gridPt N b + 2 * Real.pi := by rw [← grid_self hN, ← hab, grid_add]; ring
    rw [this, hp, he, sin_period, mul_neg, Real.sin_neg]
    ring
  have hc : N * gridCoef f N k = ∑ j ∈ range N, f (gridPt N j) * Real.cos (k * gridPt N j) := by
    unfold gridCoef
    field_simp
  rw [hc]
  constructor
  · have h1 := shift_sum (N := N) (h := fun l => f (gridPt N l) * Real.cos (k * (gridPt N l - gridPt N i)))
      (fun j => by
        rw [hg, hp, show gridPt N j + 2 * Real.pi - gridPt N i = (gridPt N j - gridPt N i) + 2 * Real.pi by ring, cos_period]) i
    simp only [grid_add, add_sub_cancel_left] at h1
    rw [h1, sum_mul]
    rw [← add_zero (∑ j ∈ range N, f (gridPt N j) * Real.cos (k * gridPt N j) * Real.cos (k * gridPt N i)),
      ← zero_mul (Real.sin (k * gridPt N i)), ← hs, sum_mul, ← sum_add_distrib]
    refine sum_congr rfl fun j _ => ?_
    rw [mul_sub, Real.cos_sub]
    ring
  · have h1 := shift_sum (N := N) (h := fun l => f (gridPt N l) * Real.sin (k * (gridPt N l - gridPt N i)))
      (fun j => by
        rw [hg, hp, show gridPt N j + 2 * Real.pi - gridPt N i = (gridPt N j - gridPt N i) + 2 * Real.pi by ring, sin_period]) i
    simp only [grid_add, add_sub_cancel_left] at h1
    rw [h1, sum_mul]
    rw [← add_zero (-∑ j ∈ range N, f (gridPt N j) * Real.cos (k * gridPt N j) * Real.sin (k * gridPt N i)),
      ← zero_mul (Real.cos (k * gridPt N i)), ← hs, sum_mul, ← sum_neg_distrib, ← sum_add_distrib]
    refine sum_congr rfl fun j _ => ?_
    rw [mul_sub, Real.sin_sub]
    ring

theorem grid_cos {N : ℕ} (hN : 0 < N) (j : ℤ) : ∑ b ∈ range N, Real.cos (j * gridPt N b) = if (N : ℤ) ∣ j then (N : ℝ) else 0 := by
  split_ifs with h
  · obtain ⟨m, rfl⟩ := h
    have hN' : (N : ℝ) ≠ 0 := by exact_mod_cast hN.ne'
    rw [sum_congr rfl fun b _ => show Real.cos (((N * m : ℤ) : ℝ) * gridPt N b) = 1 by
      rw [show ((N * m : ℤ) : ℝ) * gridPt N b = ((m * b : ℤ) : ℝ) * (2 * Real.pi) by
        unfold gridPt; push_cast; field_simp]
      rw [Real.cos_eq_one_iff]; exact ⟨_, rfl⟩]
    simp
  · simpa [gridPt] using sum_cos_shift hN h 0

/-- products of cosines on the grid -/
theorem grid_cos_cos {N : ℕ} (hN : 0 < N) (m k : ℕ) : (∑ j ∈ range N, Real.cos (m * gridPt N j) * Real.cos (k * gridPt N j)) / N =
    ((if (N : ℤ) ∣ (m + k : ℤ) then 1 else 0) + (if (N : ℤ) ∣ (m - k : ℤ) then 1 else 0)) / 2 := by
  have hN' : (N : ℝ) ≠ 0 := by exact_mod_cast hN.ne'
  have h1 := grid_cos hN (m + k)
  have h2 := grid_cos hN (m - k)
  have : ∀ j ∈ range N, Real.cos (m * gridPt N j) * Real.cos (k * gridPt N j) =
      (Real.cos (((m + k : ℤ) : ℝ) * gridPt N j) + Real.cos (((m - k : ℤ) : ℝ) * gridPt N j)) / 2 := by
    intro j _
    push_cast
    rw [add_mul, sub_mul, Real.cos_add, Real.cos_sub]
    ring
  rw [sum_congr rfl this, ← sum_div, sum_add_distrib, h1, h2]
  split_ifs <;> field_simp <;> ring

/-! ### the Poisson kernel -/

/-- `1 + ρ² - 2ρ cos φ` -/
noncomputable def poissonDen (ρ φ : ℝ) : ℝ := 1 + ρ ^ 2 - 2 * ρ * Real.cos φ

/-- the Poisson kernel -/
noncomputable def poissonKer (ρ φ : ℝ) : ℝ := (1 - ρ ^ 2) / poissonDen ρ φ

theorem poissonDen_pos {ρ : ℝ} (hρ : |ρ| < 1) (φ : ℝ) : 0 < poissonDen ρ φ := by
  have h1 := abs_le.1 (Real.abs_cos_le_one φ)
  obtain ⟨h2, h3⟩ := abs_lt.1 hρ
  unfold poissonDen
  rcases le_or_gt 0 ρ with h | h
  · nlinarith
  · nlinarith

theorem poissonDen_period (ρ x : ℝ) : poissonDen ρ (x + 2 * Real.pi) = poissonDen ρ x := by simp [poissonDen]

theorem poissonDen_neg (ρ x : ℝ) : poissonDen ρ (-x) = poissonDen ρ x := by simp [poissonDen]

/-- partial sums: `(1 + ρ² - 2ρ cos φ) Σ_{m<M} ρ^m cos mφ = 1 - ρ cos φ - ρ^M cos Mφ + ρ^{M+1} cos (M-1)φ` -/
theorem poisson_partial (ρ φ : ℝ) (M : ℕ) : poissonDen ρ φ * ∑ m ∈ range M, ρ ^ m * Real.cos (m * φ) =
    1 - ρ * Real.cos φ - ρ ^ M * Real.cos (M * φ) + ρ ^ (M + 1) * Real.cos (M * φ - φ) := by
  induction M with
  | zero => simp
  | succ M ih =>
    rw [sum_range_succ, mul_add, ih, poissonDen]
    push_cast
    have e : ((M : ℝ) + 1) * φ - φ = M * φ := by ring
    rw [e, add_mul, one_mul, Real.cos_add, Real.cos_sub]
    ring

theorem poisson_grid {ρ : ℝ} (hρ : |ρ| < 1) {N : ℕ} (hN : 0 < N) (j : ℕ) :
    (1 - ρ ^ N) * (poissonKer ρ (gridPt N j) + 1) = 2 * ∑ m ∈ range N, ρ ^ m * Real.cos (m * gridPt N j) := by
  have h := poisson_partial ρ (gridPt N j) N
  have hd := poissonDen_pos hρ (gridPt N j)
  have hN' : (N : ℝ) ≠ 0 := by exact_mod_cast hN.ne'
  have e : (N : ℝ) * gridPt N j = j * (2 * Real.pi) := by unfold gridPt; field_simp
  rw [e, Real.cos_nat_mul_two_pi, Real.cos_nat_mul_two_pi_sub] at h
  have h' : ∑ m ∈ range N, ρ ^ m * Real.cos (m * gridPt N j) =
      (1 - ρ * Real.cos (gridPt N j) - ρ ^ N * 1 + ρ ^ (N + 1) * Real.cos (gridPt N j)) / poissonDen ρ (gridPt N j) := by
    rw [eq_div_iff hd.ne', ← h]; ring
  rw [h', poissonKer]
  field_simp
  unfold poissonDen
  ring

theorem one_sub_pow_pos {ρ : ℝ} (hρ : |ρ| < 1) {N : ℕ} (hN : 0 < N) : 0 < 1 - ρ ^ N := by
  have h1 : |ρ ^ N| < 1 := by rw [abs_pow]; exact pow_lt_one₀ (abs_nonneg _) hρ hN.ne'
  have := (abs_lt.1 h1).2
  linarith

/-- the coefficients of the Poisson kernel on the grid -/
theorem poisson_coef {ρ : ℝ} (hρ : |ρ| < 1) {N k : ℕ} (h1 : 1 ≤ k) (hk : k < N) :
    gridCoef (poissonKer ρ) N k = (ρ ^ k + ρ ^ (N - k)) / (1 - ρ ^ N) := by
  have hN : 0 < N := by omega
  have hN' : (N : ℝ) ≠ 0 := by exact_mod_cast hN.ne'
  have hpos := one_sub_pow_pos hρ hN
  rw [eq_div_iff hpos.ne', gridCoef]
  have e1 : ∀ j ∈ range N, (1 - ρ ^ N) * (poissonKer ρ (gridPt N j) * Real.cos (k * gridPt N j)) =
      ∑ m ∈ range N, 2 * ρ ^ m * (Real.cos (m * gridPt N j) * Real.cos (k * gridPt N j)) - (1 - ρ ^ N) * Real.cos (k * gridPt N j) := by
    intro j _
    have := poisson_grid hρ hN j
    rw [← mul_assoc, show (1 - ρ ^ N) * poissonKer ρ (gridPt N j) =
      2 * ∑ m ∈ range N, ρ ^ m * Real.cos (m * gridPt N j) - (1 - ρ ^ N) by rw [← this]; ring, sub_mul, mul_sum, sum_mul]
    congr 1
    exact sum_congr rfl fun m _ => by ring
  have e2 : ∑ j ∈ range N, Real.cos (k * gridPt N j) = 0 := by
    have := grid_cos hN k
    rw [if_neg (by intro h; have := Int.le_of_dvd (by omega) h; omega)] at this
    simpa using this
  rw [div_mul_eq_mul_div, mul_comm, mul_sum, sum_congr rfl e1, sum_sub_distrib, ← mul_sum, e2, mul_zero, sub_zero, sum_comm, sum_div]
  have e3 : ∀ m ∈ range N, (∑ j ∈ range N, 2 * ρ ^ m * (Real.cos (m * gridPt N j) * Real.cos (k * gridPt N j))) / N =
      (if m = N - k then ρ ^ m else 0) + if m = k then ρ ^ m else 0 := by
    intro m hm
    have hm := mem_range.1 hm
    rw [← mul_sum, mul_div_assoc, grid_cos_cos hN]
    have d1 : ((N : ℤ) ∣ (m + k : ℤ)) ↔ m = N - k := by
      constructor
      · rintro ⟨x, hx⟩
        have h0 : 0 < x := by nlinarith
        have h2 : x < 2 := by nlinarith
        have : x = 1 := by omega
        rw [this] at hx
        omega
      · intro h
        exact ⟨1, by omega⟩
    have d2 : ((N : ℤ) ∣ (m - k : ℤ)) ↔ m = k := by
      constructor
      · rintro ⟨x, hx⟩
        have h0 : -1 < x := by nlinarith
        have h2 : x < 1 := by nlinarith
        have : x = 0 := by omega
        rw [this] at hx
        omega
      · intro h
        exact ⟨0, by omega⟩
    simp only [d1, d2]
    split_ifs <;> ring
  rw [sum_congr rfl e3, sum_add_distrib, sum_ite_eq' (range N) (N - k), sum_ite_eq' (range N) k, if_pos (by simp; omega),
    if_pos (by simpa using hk)]
  ring

/-! ### the logarithm -/

theorem log_series {ρ : ℝ} (hρ : |ρ| < 1) (φ : ℝ) :
    HasSum (fun m : ℕ => -2 * ρ ^ m / m * Real.cos (m * φ)) (Real.log (poissonDen ρ φ)) := by
  set z : ℂ := ρ * Complex.exp (φ * Complex.I) with hz
  have hn : ‖z‖ < 1 := by rw [hz, norm_mul, Complex.norm_exp_ofReal_mul_I, mul_one]; simpa using hρ
  have h1 := Complex.hasSum_re (Complex.hasSum_taylorSeries_neg_log hn)
  have h2 := h1.mul_left (-2)
  have e1 : ∀ m : ℕ, -2 * (z ^ m / m).re = -2 * ρ ^ m / m * Real.cos (m * φ) := by
    intro m
    have : z ^ m / m = ((ρ ^ m / m : ℝ) : ℂ) * Complex.exp ((m * φ : ℝ) * Complex.I) := by
      rw [hz, mul_pow, ← Complex.exp_nat_mul]
      push_cast
      ring_nf
    rw [this, Complex.re_ofReal_mul, Complex.exp_ofReal_mul_I_re]
    ring
  have e2 : -2 * (-Complex.log (1 - z)).re = Real.log (poissonDen ρ φ) := by
    rw [Complex.neg_re, Complex.log_re]
    have : poissonDen ρ φ = ‖1 - z‖ ^ 2 := by
      rw [← Complex.normSq_eq_norm_sq, Complex.normSq_apply]
      have hr : z.re = ρ * Real.cos φ := by rw [hz, Complex.re_ofReal_mul, Complex.exp_ofReal_mul_I_re]
      have hi : z.im = ρ * Real.sin φ := by rw [hz, Complex.im_ofReal_mul, Complex.exp_ofReal_mul_I_im]
      simp only [Complex.sub_re, Complex.sub_im, Complex.one_re, Complex.one_im, hr, hi]
      have := Real.sin_sq_add_cos_sq φ
      unfold poissonDen
      linear_combination -ρ ^ 2 * this
    rw [this, Real.log_pow]
    push_cast
    ring
  simpa only [e1, e2] using h2

/-- the coefficients of the logarithm on the grid, up to aliasing -/
theorem log_coef {ρ : ℝ} (hρ : |ρ| < 1) {N k : ℕ} (h1 : 1 ≤ k) (hk : 2 * k < N) :
    |k * gridCoef (fun φ => Real.log (poissonDen ρ φ)) N k + ρ ^ k| ≤ |ρ| ^ (N - k) / (1 - |ρ|) := by
  have hN : 0 < N := by omega
  have hN' : (N : ℝ) ≠ 0 := by exact_mod_cast hN.ne'
  have hk' : (k : ℝ) ≠ 0 := by exact_mod_cast (by omega)
  set κ : ℕ → ℝ := fun m => (∑ j ∈ range N, Real.cos (m * gridPt N j) * Real.cos (k * gridPt N j)) / N with hκ
  have s1 : HasSum (fun m : ℕ => k * (-2 * ρ ^ m / m * κ m)) (k * gridCoef (fun φ => Real.log (poissonDen ρ φ)) N k) := by
    refine HasSum.mul_left _ ?_
    have h := (hasSum_sum fun j (_ : j ∈ range N) => (log_series hρ (gridPt N j)).mul_right (Real.cos (k * gridPt N j))).div_const (N : ℝ)
    have e : (fun m : ℕ => -2 * ρ ^ m / m * κ m) = fun i : ℕ =>
        (∑ j ∈ range N, -2 * ρ ^ i / i * Real.cos (i * gridPt N j) * Real.cos (k * gridPt N j)) / N := by
      funext m
      simp only [hκ]
      rw [mul_div_assoc', mul_sum]
      congr 1
      exact sum_congr rfl fun j _ => by ring
    rw [e]
    exact h
  have s2 : HasSum (fun m : ℕ => if m = k then ρ ^ k else 0) (ρ ^ k) := by
    convert hasSum_ite_eq (α := ℝ) k (ρ ^ k) using 2
  have s3 := s1.add s2
  set f : ℕ → ℝ := fun m => k * (-2 * ρ ^ m / m * κ m) + if m = k then ρ ^ k else 0 with hf
  have hκv : ∀ m, κ m = ((if (N : ℤ) ∣ (m + k : ℤ) then 1 else 0) + (if (N : ℤ) ∣ (m - k : ℤ) then 1 else 0)) / 2 :=
    fun m => grid_cos_cos hN m k
  have hnot : ∀ m : ℕ, ¬ ((N : ℤ) ∣ (m + k : ℤ) ∧ (N : ℤ) ∣ (m - k : ℤ)) := by
    rintro m ⟨ha, hb⟩
    have := Int.dvd_sub ha hb
    rw [show (m + k : ℤ) - (m - k) = 2 * k by ring] at this
    have := Int.le_of_dvd (by omega) this
    omega
  have hκle : ∀ m, |κ m| ≤ 1 / 2 := by
    intro m
    rw [hκv]
    have := hnot m
    split_ifs with a b b
    · exact absurd ⟨a, b⟩ this
    all_goals norm_num
  have hz : ∀ m < N - k, f m = 0 := by
    intro m hm
    have d1 : ¬ (N : ℤ) ∣ (m + k : ℤ) := by
      intro h
      have := Int.le_of_dvd (by omega) h
      omega
    have d2 : ((N : ℤ) ∣ (m - k : ℤ)) ↔ m = k := by
      constructor
      · rintro ⟨x, hx⟩
        have hm' : (m : ℤ) < N - k := by omega
        have h0 : -1 < x := by nlinarith
        have h2 : x < 1 := by nlinarith
        have : x = 0 := by omega
        rw [this] at hx
        omega
      · intro h
        exact ⟨0, by omega⟩
    simp only [hf, hκv, d1, d2, if_false]
    split_ifs with h
    · rw [h]
      field_simp
      ring
    · ring
  have s4 : HasSum (fun m => f (m + (N - k))) (k * gridCoef (fun φ => Real.log (poissonDen ρ φ)) N k + ρ ^ k) := by
    have := (hasSum_nat_add_iff' (N - k)).2 s3
    rwa [sum_eq_zero (fun m hm => hz m (mem_range.1 hm)), sub_zero] at this
  have s5 : HasSum (fun m : ℕ => |ρ| ^ (N - k) * |ρ| ^ m) (|ρ| ^ (N - k) / (1 - |ρ|)) := by
    rw [div_eq_mul_inv]
    exact (hasSum_geometric_of_lt_one (abs_nonneg _) hρ).mul_left _
  rw [← s4.tsum_eq, ← Real.norm_eq_abs]
  refine tsum_of_norm_bounded s5 fun m => ?_
  have hm : m + (N - k) ≠ k := by omega
  have hm0 : (0 : ℝ) < ((m + (N - k) : ℕ) : ℝ) := by exact_mod_cast (by omega)
  have hkm : (k : ℝ) ≤ ((m + (N - k) : ℕ) : ℝ) := by exact_mod_cast (by omega)
  simp only [hf, if_neg hm, add_zero]
  rw [Real.norm_eq_abs, abs_mul, abs_mul, abs_div, abs_mul, abs_pow, Nat.abs_cast, Nat.abs_cast]
  have h2 : |(-2 : ℝ)| = 2 := by norm_num
  rw [h2, ← pow_add, add_comm (N - k) m]
  have hp : 0 ≤ |ρ| ^ (m + (N - k)) := by positivity
  calc (k : ℝ) * (2 * |ρ| ^ (m + (N - k)) / ((m + (N - k) : ℕ) : ℝ) * |κ (m + (N - k))|)
      ≤ (k : ℝ) * (2 * |ρ| ^ (m + (N - k)) / ((m + (N - k) : ℕ) : ℝ) * (1 / 2)) := by
        gcongr
        exact hκle _
    _ = k / ((m + (N - k) : ℕ) : ℝ) * |ρ| ^ (m + (N - k)) := by ring
    _ ≤ 1 * |ρ| ^ (m + (N - k)) := by
        gcongr
        exact (div_le_one hm0).2 hkm
    _ = _ := one_mul _

end PFEM
