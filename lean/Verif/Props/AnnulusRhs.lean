import Verif.Props.AnnulusSystem

/-!
Right-hand sides and modes of the linear system for harmonic conjugates on a ring.
-/

namespace PFEM
open Nystrom Antilap Finset

theorem even_trig {f : ℝ → ℝ} (hp : ∀ x, f (x + 2 * Real.pi) = f x) (he : ∀ x, f (-x) = f x) {N : ℕ} (hN : 0 < N) (A B : ℕ → ℝ) (M i : ℕ) :
    ∑ j ∈ range N, f (gridPt N i + gridPt N j) * trig A B M (2 * Real.pi) (gridPt N j) =
      N * trig (fun k => gridCoef f N k * A k) (fun k => -(gridCoef f N k * B k)) M (2 * Real.pi) (gridPt N i) := by
  simp only [trig_eq, mul_sum]
  rw [sum_comm]
  refine sum_congr rfl fun k _ => ?_
  obtain ⟨h1, h2⟩ := even_conv hp he hN k i
  have : ∀ j ∈ range N, f (gridPt N i + gridPt N j) * (A k * Real.cos (k * gridPt N j) + B k * Real.sin (k * gridPt N j)) =
      A k * (f (gridPt N i + gridPt N j) * Real.cos (k * gridPt N j)) + B k * (f (gridPt N i + gridPt N j) * Real.sin (k * gridPt N j)) :=
    fun j _ => by ring
  rw [sum_congr rfl this, sum_add_distrib, ← mul_sum, ← mul_sum, h1, h2]
  ring

/-- the coefficients of the logarithmic kernel on the grid -/
noncomputable def ringLogCoef (a b : ℝ) (N k : ℕ) : ℝ := gridCoef (fun φ => Real.log (poissonDen (a / b) φ)) N k

/-- the coefficients of the Poisson kernel on the grid -/
noncomputable def ringKerCoef (a b : ℝ) (N k : ℕ) : ℝ := gridCoef (poissonKer (a / b)) N k

theorem ringLog_trig (a b : ℝ) {N : ℕ} (hN : 0 < N) (A B : ℕ → ℝ) (M i : ℕ) :
    ∑ j ∈ range N, ringLog a b N i j * trig A B M (2 * Real.pi) (gridPt N j) =
      N * trig (fun k => ringLogCoef a b N k * A k) (fun k => -(ringLogCoef a b N k * B k)) M (2 * Real.pi) (gridPt N i) :=
  even_trig (f := fun φ => Real.log (poissonDen (a / b) φ)) (fun x => by rw [poissonDen_period]) (fun x => by rw [poissonDen_neg]) hN A B M i

theorem ringKer_trig (a b : ℝ) {N : ℕ} (hN : 0 < N) (A B : ℕ → ℝ) (M i : ℕ) :
    ∑ j ∈ range N, ringKer a b N i j * trig A B M (2 * Real.pi) (gridPt N j) =
      N * trig (fun k => ringKerCoef a b N k * A k) (fun k => -(ringKerCoef a b N k * B k)) M (2 * Real.pi) (gridPt N i) :=
  even_trig (poissonKer_period (a / b)) (poissonKer_neg (a / b)) hN A B M i

theorem samples_grid (N : ℕ) (f : ℝ → ℝ) : samples N (2 * Real.pi) f = (List.range N).map fun j => f (gridPt N j) := by
  rw [samples]
  refine List.map_congr_left fun j _ => ?_
  congr 1
  unfold gridPt
  ring

variable {K : CellG} {x0 y0 a b : ℝ} {n : ℕ}

/-- tangential derivatives of trigonometric polynomials on a ring -/
theorem ring_derivative (h : K.IsAnnulus x0 y0 a b (2 * n)) (h4 : 4 ≤ n) (A B C D : ℕ → ℝ) {M : ℕ} (hM : ∀ k < M, 2 * k < 2 * n) :
    wtdFromTrace K (samples (2 * n) (2 * Real.pi) (trig A B M (2 * Real.pi)) ++ samples (2 * n) (2 * Real.pi) (trig C D M (2 * Real.pi))) =
      .ok (samples (2 * n) (2 * Real.pi) (trig (fun k => k * B k) (fun k => -(k * A k)) M (2 * Real.pi)) ++
        samples (2 * n) (2 * Real.pi) (trig (fun k => k * D k) (fun k => -(k * C k)) M (2 * Real.pi))) := by
  obtain ⟨c, d, e, f, h1, h2, h3, -, -, h6, h5, -⟩ := h.circles
  have hpi := Real.pi_pos
  have hder : ∀ A B : ℕ → ℝ, (fun t => deriv (trig A B M (2 * Real.pi)) t) = trig (fun k => k * B k) (fun k => -(k * A k)) M (2 * Real.pi) := by
    intro A B
    funext t
    rw [(trig_deriv _ _ _ _ _).deriv, trig'_eq]
  have hu : Fits K [samples (2 * n) (2 * Real.pi) (trig A B M (2 * Real.pi)), samples (2 * n) (2 * Real.pi) (trig C D M (2 * Real.pi))] := by
    simp [Fits, h1, ContourG.cols, h2, h3, h6, h5, samples]
  obtain ⟨vs, hv, hw⟩ := (C49_cell h.ready h.edges_ne hu).1
  simp only [List.flatten_cons, List.flatten_nil, List.append_nil] at hw
  rw [hw]
  simp only [h1, List.zip_cons_cons, List.zip_nil_right] at hv
  cases hv with
  | cons hv1 hv2 =>
    cases hv2 with
    | cons hv2 hv3 =>
      cases hv3
      simp only [h2, h3, List.length_singleton, Nat.cast_one, mul_one] at hv1 hv2
      rw [C49_exact _ (by omega) _ (by positivity) A B M hM, hder] at hv1
      rw [C49_exact _ (by omega) _ (by positivity) C D M hM, hder] at hv2
      cases hv1
      cases hv2
      simp

theorem ring_block (N : ℕ) (f g : ℝ → ℝ) {j : ℕ} (hj : j < N) :
    vec (samples N (2 * Real.pi) f ++ samples N (2 * Real.pi) g) j = f (gridPt N j) ∧
    vec (samples N (2 * Real.pi) f ++ samples N (2 * Real.pi) g) (N + j) = g (gridPt N j) := by
  rw [samples_grid, samples_grid]
  exact ⟨by rw [vec_app_left (by simp) hj, vec_range _ hj], by rw [vec_app_right _ (by simp), vec_range _ hj]⟩

/-- the right-hand side of the system for trigonometric polynomials -/
theorem ring_rhs (h : K.IsAnnulus x0 y0 a b (2 * n)) (ha : 1 / 10 ^ 14 ≤ a) (hab : a < b) (h4 : 4 ≤ n)
    (hn : n ≤ 2 * 10 ^ 7) {o : Ops} (ho : build K = .ok o) (A B C D : ℕ → ℝ) {M : ℕ} (hM : ∀ k < M, 2 * k < 2 * n) {t : List ℝ}
    (ht : t = samples (2 * n) (2 * Real.pi) (trig (fun k => k * B k) (fun k => -(k * A k)) M (2 * Real.pi)) ++
        samples (2 * n) (2 * Real.pi) (trig (fun k => k * D k) (fun k => -(k * C k)) M (2 * Real.pi))) :
    ∃ y, o.single (t.map (- ·)) = .ok y ∧ y.length = 2 * (2 * n) ∧
      (∀ i < 2 * n, vec y i = trig (fun k => if k = 0 then 0 else -B k + k * ringLogCoef a b (2 * n) k * D k)
        (fun k => if k = 0 then 0 else A k + k * ringLogCoef a b (2 * n) k * C k) M (2 * Real.pi) (gridPt (2 * n) i) / 2) ∧
      (∀ i < 2 * n, vec y (2 * n + i) = trig (fun k => if k = 0 then 0 else -D k + k * ringLogCoef a b (2 * n) k * B k)
        (fun k => if k = 0 then 0 else C k + k * ringLogCoef a b (2 * n) k * A k) M (2 * Real.pi) (gridPt (2 * n) i) / 2) := by
  have hNp : 0 < 2 * n := by omega
  have hN : ((2 * n : ℕ) : ℝ) ≠ 0 := by exact_mod_cast (by omega)
  have htl : t.length = 2 * (2 * n) := by rw [ht]; simp [samples]; omega
  have hnp := h.numPts
  refine ⟨_, single_ok h.ready (h.even rfl h4 hn) ho (by rw [List.length_map, htl, hnp]), by rw [List.length_map, List.length_range, hnp], ?_⟩
  rw [hnp]
  have ho1 : ∀ j < 2 * n, vec (t.map (- ·)) j = -trig (fun k => k * B k) (fun k => -(k * A k)) M (2 * Real.pi) (gridPt (2 * n) j) := by
    intro j hj
    rw [vec_map _ (by omega), ht, (ring_block _ _ _ hj).1]
  have ho2 : ∀ j < 2 * n, vec (t.map (- ·)) (2 * n + j) = -trig (fun k => k * D k) (fun k => -(k * C k)) M (2 * Real.pi) (gridPt (2 * n) j) := by
    intro j hj
    rw [vec_map _ (by omega), ht, (ring_block _ _ _ hj).2]
  have hmean : ∀ A B : ℕ → ℝ, ∑ j ∈ range (2 * n), trig (fun k => k * B k) (fun k => -(k * A k)) M (2 * Real.pi) (gridPt (2 * n) j) = 0 := by
    intro A B
    have := trig_mean hNp hM (fun k => k * B k) (fun k => -(k * A k))
    simpa [gridPt] using this
  have hmart : ∀ (A B : ℕ → ℝ) (i : ℕ), ∑ j ∈ range (2 * n), martensenWeight (2 * n) (max i j - min i j) *
      trig (fun k => k * B k) (fun k => -(k * A k)) M (2 * Real.pi) (gridPt (2 * n) j) =
      trig (fun k => k * B k / (2 * k)) (fun k => -(k * A k) / (2 * k)) M (2 * Real.pi) (gridPt (2 * n) i) :=
    fun A B i => martensen_exact hM (fun k => k * B k) (fun k => -(k * A k)) i
  have fin : ∀ (A B C D : ℕ → ℝ) (x y : ℝ) (i : ℕ),
      (∑ j ∈ range (2 * n), (-(1 / (2 * n : ℕ)) * x + martensenWeight (2 * n) (max i j - min i j)) *
        -trig (fun k => k * B k) (fun k => -(k * A k)) M (2 * Real.pi) (gridPt (2 * n) j)) +
      (∑ j ∈ range (2 * n), (-(1 / (2 * n : ℕ)) * y - 1 / (2 * (2 * n : ℕ)) * ringLog a b (2 * n) i j) *
        -trig (fun k => k * D k) (fun k => -(k * C k)) M (2 * Real.pi) (gridPt (2 * n) j)) =
      trig (fun k => if k = 0 then 0 else -B k + k * ringLogCoef a b (2 * n) k * D k)
        (fun k => if k = 0 then 0 else A k + k * ringLogCoef a b (2 * n) k * C k) M (2 * Real.pi) (gridPt (2 * n) i) / 2 := by
    intro A B C D x y i
    have e1 : ∀ j ∈ range (2 * n), (-(1 / (2 * n : ℕ)) * x + martensenWeight (2 * n) (max i j - min i j)) *
        -trig (fun k => k * B k) (fun k => -(k * A k)) M (2 * Real.pi) (gridPt (2 * n) j) =
        1 / (2 * n : ℕ) * x * trig (fun k => k * B k) (fun k => -(k * A k)) M (2 * Real.pi) (gridPt (2 * n) j) -
        martensenWeight (2 * n) (max i j - min i j) * trig (fun k => k * B k) (fun k => -(k * A k)) M (2 * Real.pi) (gridPt (2 * n) j) :=
      fun j _ => by ring
    have e2 : ∀ j ∈ range (2 * n), (-(1 / (2 * n : ℕ)) * y - 1 / (2 * (2 * n : ℕ)) * ringLog a b (2 * n) i j) *
        -trig (fun k => k * D k) (fun k => -(k * C k)) M (2 * Real.pi) (gridPt (2 * n) j) =
        1 / (2 * n : ℕ) * y * trig (fun k => k * D k) (fun k => -(k * C k)) M (2 * Real.pi) (gridPt (2 * n) j) +
        1 / (2 * (2 * n : ℕ)) * (ringLog a b (2 * n) i j * trig (fun k => k * D k) (fun k => -(k * C k)) M (2 * Real.pi) (gridPt (2 * n) j)) :=
      fun j _ => by ring
    rw [sum_congr rfl e1, sum_congr rfl e2, sum_sub_distrib, sum_add_distrib, ← mul_sum, ← mul_sum, ← mul_sum, hmean, hmean, hmart,
      ringLog_trig a b hNp, mul_zero, mul_zero, zero_sub, zero_add, ← mul_assoc,
      show 1 / (2 * ((2 * n : ℕ) : ℝ)) * (2 * n : ℕ) = 1 / 2 by field_simp]
    simp only [trig_eq]
    rw [mul_sum, ← sum_neg_distrib, ← sum_add_distrib, sum_div]
    refine sum_congr rfl fun k _ => ?_
    rcases Nat.eq_zero_or_pos k with rfl | hk
    · simp
    · have hk' : (k : ℝ) ≠ 0 := by exact_mod_cast hk.ne'
      rw [if_neg hk.ne', if_neg hk.ne']
      field_simp
      ring
  constructor
  · intro i hi
    rw [vec_range _ (by omega), sum_two _ (2 * n), ← fin A B C D (Real.log b) (Real.log b) i]
    congr 1 <;> refine sum_congr rfl fun j hj => ?_
    · rw [ho1 j (mem_range.1 hj), (ring_matrices h ha hab h4 hn ho hi (mem_range.1 hj)).1.1]
    · rw [ho2 j (mem_range.1 hj), (ring_matrices h ha hab h4 hn ho hi (mem_range.1 hj)).1.2.1]
  · intro i hi
    rw [vec_range _ (by omega), sum_two _ (2 * n), ← fin C D A B (Real.log a) (Real.log b) i, add_comm]
    congr 1 <;> refine sum_congr rfl fun j hj => ?_
    · rw [ho2 j (mem_range.1 hj), (ring_matrices h ha hab h4 hn ho hi (mem_range.1 hj)).1.2.2.2]
    · rw [ho1 j (mem_range.1 hj), (ring_matrices h ha hab h4 hn ho hi (mem_range.1 hj)).1.2.2.1]

/-! ### modes -/

theorem ringKerCoef_err {a b : ℝ} (ha : 0 < a) (hab : a < b) {N k : ℕ} (h1 : 1 ≤ k) (hk : 2 * k < N) :
    |ringKerCoef a b N k - (a / b) ^ k| ≤ 2 * ((a / b) ^ (N - k) / (1 - a / b)) := by
  obtain ⟨h0, h2, hρ⟩ := ring_ratio ha hab
  rw [ringKerCoef, poisson_coef hρ h1 (by omega)]
  generalize a / b = r at *
  have hN : r ^ N ≤ r := by
    calc r ^ N ≤ r ^ 1 := pow_le_pow_of_le_one h0.le h2.le (by omega)
      _ = r := pow_one r
  have hpos : 0 < 1 - r ^ N := by linarith
  have hr : 0 < 1 - r := by linarith
  have e : (r ^ k + r ^ (N - k)) / (1 - r ^ N) - r ^ k = (r ^ (N - k) + r ^ k * r ^ N) / (1 - r ^ N) := by
    field_simp
    ring
  have h5 : r ^ k * r ^ N ≤ r ^ (N - k) := by
    calc r ^ k * r ^ N = r ^ (k + N) := (pow_add _ _ _).symm
      _ ≤ r ^ (N - k) := pow_le_pow_of_le_one h0.le h2.le (by omega)
  rw [e, abs_of_nonneg (by positivity), ← mul_div_assoc]
  gcongr
  · linarith

theorem ringLogCoef_err {a b : ℝ} (ha : 0 < a) (hab : a < b) {N k : ℕ} (h1 : 1 ≤ k) (hk : 2 * k < N) :
    |k * ringLogCoef a b N k + (a / b) ^ k| ≤ (a / b) ^ (N - k) / (1 - a / b) := by
  obtain ⟨h0, h2, hρ⟩ := ring_ratio ha hab
  have := log_coef hρ h1 hk
  rwa [abs_of_pos h0] at this

theorem trig_le (X Y : ℕ → ℝ) (M : ℕ) (t : ℝ) : |trig X Y M (2 * Real.pi) t| ≤ ∑ k ∈ range M, (|X k| + |Y k|) := by
  rw [trig_eq]
  refine (abs_sum_le_sum_abs _ _).trans (sum_le_sum fun k _ => ?_)
  refine (abs_add_le _ _).trans ?_
  rw [abs_mul, abs_mul]
  have h1 := Real.abs_cos_le_one (k * t)
  have h2 := Real.abs_sin_le_one (k * t)
  have h3 := mul_le_mul_of_nonneg_left h1 (abs_nonneg (X k))
  have h4 := mul_le_mul_of_nonneg_left h2 (abs_nonneg (Y k))
  linarith

open Polynomial in
/-- coefficients of a Laurent polynomial on the circle of radius `s`: sums and differences of real and imaginary parts -/
noncomputable def modeRe (Q R : ℂ[X]) (σ s : ℝ) (k : ℕ) : ℝ := s ^ k * (Q.coeff k).re + σ * (s⁻¹ ^ k * (R.coeff k).re)

open Polynomial in
noncomputable def modeIm (Q R : ℂ[X]) (σ s : ℝ) (k : ℕ) : ℝ := s ^ k * (Q.coeff k).im + σ * (s⁻¹ ^ k * (R.coeff k).im)

open Polynomial in
theorem laurent_circle (Q R : ℂ[X]) {M : ℕ} (hQ : Q.natDegree < M) (hR : R.natDegree < M) (x0 y0 : ℝ) {s : ℝ} (hs : 0 < s) (θ : ℝ) :
    (laurent Q R x0 y0 (x0 + s * Real.cos θ) (y0 + s * Real.sin θ)).re =
      trig (modeRe Q R 1 s) (fun k => -modeIm Q R (-1) s k) M (2 * Real.pi) θ ∧
    (laurent Q R x0 y0 (x0 + s * Real.cos θ) (y0 + s * Real.sin θ)).im =
      trig (modeIm Q R 1 s) (modeRe Q R (-1) s) M (2 * Real.pi) θ := by
  have hinv : ((⟨s * Real.cos θ, s * Real.sin θ⟩ : ℂ)⁻¹) = ⟨s⁻¹ * Real.cos (-θ), s⁻¹ * Real.sin (-θ)⟩ := by
    rw [Complex.inv_def]
    have : Complex.normSq ⟨s * Real.cos θ, s * Real.sin θ⟩ = s ^ 2 := by
      rw [Complex.normSq_mk]
      linear_combination s ^ 2 * Real.sin_sq_add_cos_sq θ
    rw [this]
    apply Complex.ext
    · simp [-Complex.ofReal_pow]
      field_simp
    · simp [-Complex.ofReal_pow]
      field_simp
  obtain ⟨q1, q2⟩ := circle_eval Q hQ s θ
  obtain ⟨r1, r2⟩ := circle_eval R hR s⁻¹ (-θ)
  simp only [laurent, add_sub_cancel_left, hinv, Complex.add_re, Complex.add_im, q1, q2, r1, r2, trig_eq, ← sum_add_distrib]
  constructor <;> refine sum_congr rfl fun k _ => ?_ <;>
    simp only [mul_neg, Real.cos_neg, Real.sin_neg, modeRe, modeIm] <;> ring

end PFEM
