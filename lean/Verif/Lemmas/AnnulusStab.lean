import Mathlib.Analysis.SpecialFunctions.Trigonometric.Basic
import Mathlib.Algebra.BigOperators.Field
import Mathlib.Tactic.FieldSimp
import Mathlib.Tactic.Linarith

/-!
Stability, in the maximum norm, of the discrete boundary integral equation on a ring.
-/

namespace PFEM
open Finset

theorem abs_mean_le {N : ℕ} (hN : 0 < N) {f : ℕ → ℝ} {m : ℝ} (h : ∀ i < N, |f i| ≤ m) : |(∑ i ∈ range N, f i) / N| ≤ m := by
  have hN' : (0 : ℝ) < N := by exact_mod_cast hN
  rw [abs_div, abs_of_pos hN', div_le_iff₀ hN']
  calc |∑ i ∈ range N, f i| ≤ ∑ i ∈ range N, |f i| := abs_sum_le_sum_abs _ _
    _ ≤ ∑ i ∈ range N, m := sum_le_sum fun i hi => h i (mem_range.1 hi)
    _ = m * N := by simp [mul_comm]

/-- a positive kernel contracts functions with mean zero -/
theorem kernel_contracts {N : ℕ} (hN : 0 < N) {p : ℕ → ℝ} {q δ w : ℝ} (hp : ∀ j < N, q ≤ p j) (hs : (∑ j ∈ range N, p j) = N * (1 + δ))
    {v : ℕ → ℝ} (h0 : ∑ j ∈ range N, v j = 0) (hv : ∀ j < N, |v j| ≤ w) : |(∑ j ∈ range N, p j * v j) / N| ≤ (1 + δ - q) * w := by
  have hN' : (0 : ℝ) < N := by exact_mod_cast hN
  have e : ∑ j ∈ range N, p j * v j = ∑ j ∈ range N, (p j - q) * v j := by
    simp only [sub_mul, sum_sub_distrib, ← mul_sum, h0, mul_zero, sub_zero]
  rw [e, abs_div, abs_of_pos hN', div_le_iff₀ hN']
  calc |∑ j ∈ range N, (p j - q) * v j| ≤ ∑ j ∈ range N, |(p j - q) * v j| := abs_sum_le_sum_abs _ _
    _ ≤ ∑ j ∈ range N, (p j - q) * w := sum_le_sum fun j hj => by
        have h1 := sub_nonneg.2 (hp j (mem_range.1 hj))
        rw [abs_mul, abs_of_nonneg h1]
        exact mul_le_mul_of_nonneg_left (hv j (mem_range.1 hj)) h1
    _ = (1 + δ - q) * w * N := by
        rw [← sum_mul, sum_sub_distrib, hs]
        simp
        ring

/-- the equations of the ring: `U` on the outer and `V` on the inner circle, `c` the values at the nearest vertices, `P` the Poisson kernel -/
structure RingSystem (N : ℕ) (P : ℕ → ℕ → ℝ) (δ a b : ℝ) (U V c1 c2 r1 r2 : ℕ → ℝ) : Prop where
  outer : ∀ i < N, (U i - (∑ j ∈ range N, U j) / N) / 2 - ((∑ j ∈ range N, P i j * V j) / N - (∑ j ∈ range N, V j) / N) / 2 + δ / 2 * c1 i +
    2 * Real.pi * (b * ((∑ j ∈ range N, U j) / N) + a * ((∑ j ∈ range N, V j) / N)) = r1 i
  inner : ∀ i < N, (V i + (∑ j ∈ range N, V j) / N) / 2 - ((∑ j ∈ range N, P i j * U j) / N + (∑ j ∈ range N, U j) / N) / 2 + δ / 2 * c2 i +
    2 * Real.pi * (b * ((∑ j ∈ range N, U j) / N) + a * ((∑ j ∈ range N, V j) / N)) = r2 i

theorem ring_stable {N : ℕ} (hN : 0 < N) {P : ℕ → ℕ → ℝ} {δ q a b : ℝ} (hδ : 0 ≤ δ) (ha : 0 < a) (hb : 0 < b) (hq : 1 + δ - q < 1) (hq0 : 0 ≤ 1 + δ - q)
    (hP : ∀ i < N, ∀ j < N, q ≤ P i j) (hr : ∀ i < N, ∑ j ∈ range N, P i j = N * (1 + δ)) (hcol : ∀ j < N, ∑ i ∈ range N, P i j = N * (1 + δ))
    {U V c1 c2 r1 r2 : ℕ → ℝ} (h : RingSystem N P δ a b U V c1 c2 r1 r2) {m ε : ℝ} (hU : ∀ i < N, |U i| ≤ m) (hV : ∀ i < N, |V i| ≤ m)
    (hc1 : ∀ i < N, |c1 i| ≤ m) (hc2 : ∀ i < N, |c2 i| ≤ m) (hr1 : ∀ i < N, |r1 i| ≤ ε) (hr2 : ∀ i < N, |r2 i| ≤ ε) :
    ∀ i < N, |U i| ≤ (8 / (q - δ) + 2 + 1 / (2 * Real.pi * (a + b))) * (ε + δ * m) ∧
      |V i| ≤ (8 / (q - δ) + 2 + 1 / (2 * Real.pi * (a + b))) * (ε + δ * m) := by
  have hN' : (0 : ℝ) < N := by exact_mod_cast hN
  have hpi := Real.pi_pos
  obtain ⟨ho, hi⟩ := h
  set u := (∑ j ∈ range N, U j) / N with hu
  set v := (∑ j ∈ range N, V j) / N with hv
  set I := 2 * Real.pi * (b * u + a * v) with hI
  have hum : |u| ≤ m := abs_mean_le hN hU
  have hvm : |v| ≤ m := abs_mean_le hN hV
  have hsU : ∑ j ∈ range N, U j = N * u := by rw [hu]; field_simp
  have hsV : ∑ j ∈ range N, V j = N * v := by rw [hv]; field_simp
  have hsw : ∀ W : ℕ → ℝ, ∑ i ∈ range N, ((∑ j ∈ range N, P i j * W j) / N) = (1 + δ) * ∑ j ∈ range N, W j := by
    intro W
    rw [← sum_div, sum_comm, mul_sum, sum_div]
    refine sum_congr rfl fun j hj => ?_
    rw [← sum_mul, hcol j (mem_range.1 hj)]
    field_simp
  -- the means of both equations
  have mo : I = (∑ i ∈ range N, r1 i) / N + δ / 2 * (v - (∑ i ∈ range N, c1 i) / N) := by
    have := sum_congr rfl fun i (h : i ∈ range N) => (ho i (mem_range.1 h)).symm
    simp only [sum_add_distrib, sum_sub_distrib, ← sum_div, ← mul_sum, sum_const, card_range, nsmul_eq_mul] at this
    rw [sum_div (range N) (fun i => ∑ j ∈ range N, P i j * V j), hsw V, hsU, hsV] at this
    rw [this]
    field_simp
    ring
  have mi : v - u = (∑ i ∈ range N, r2 i) / N - I + δ / 2 * (u - (∑ i ∈ range N, c2 i) / N) := by
    have := sum_congr rfl fun i (h : i ∈ range N) => (hi i (mem_range.1 h)).symm
    simp only [sum_add_distrib, sum_sub_distrib, ← sum_div, ← mul_sum, sum_const, card_range, nsmul_eq_mul] at this
    rw [sum_div (range N) (fun i => ∑ j ∈ range N, P i j * U j), hsw U, hsU, hsV] at this
    rw [this]
    field_simp
    ring
  have b1 : ∀ {x c : ℝ}, |x| ≤ m → |c| ≤ m → |δ / 2 * (x - c)| ≤ δ * m := by
    intro x c hx hc
    rw [abs_mul, abs_of_nonneg (by positivity)]
    have := abs_sub x c
    nlinarith
  have bI : |I| ≤ ε + δ * m := by
    rw [mo]
    exact (abs_add_le _ _).trans (add_le_add (abs_mean_le hN hr1) (b1 hvm (abs_mean_le hN hc1)))
  have bd : |v - u| ≤ 2 * (ε + δ * m) := by
    rw [mi]
    have h1 := abs_mean_le hN hr2
    have h2 := b1 hum (abs_mean_le hN hc2)
    have h3 := abs_add_le ((∑ i ∈ range N, r2 i) / N - I) (δ / 2 * (u - (∑ i ∈ range N, c2 i) / N))
    have h4 := abs_sub ((∑ i ∈ range N, r2 i) / N) I
    linarith
  set E := ε + δ * m with hE
  have hm0 : 0 ≤ m := (abs_nonneg _).trans hum
  have hε0 : 0 ≤ ε := (abs_nonneg _).trans (hr1 0 hN)
  have hE0 : 0 ≤ E := by positivity
  have hδE : δ * m ≤ E := by linarith
  have hεE : ε ≤ E := by nlinarith
  have hab : 0 < a + b := add_pos ha hb
  have bu : |u| ≤ (2 + 1 / (2 * Real.pi * (a + b))) * E := by
    have e : u = I / (2 * Real.pi * (a + b)) - a / (a + b) * (v - u) := by rw [hI]; field_simp; ring
    rw [e]
    refine (abs_sub _ _).trans ?_
    rw [abs_div, abs_mul (a / (a + b)), abs_of_pos (show 0 < 2 * Real.pi * (a + b) by positivity), abs_of_pos (show 0 < a / (a + b) by positivity)]
    have h1 : a / (a + b) ≤ 1 := by rw [div_le_one hab]; linarith
    have h2 : |I| / (2 * Real.pi * (a + b)) ≤ E / (2 * Real.pi * (a + b)) := by gcongr
    have h3 : a / (a + b) * |v - u| ≤ 1 * (2 * E) := mul_le_mul h1 bd (abs_nonneg _) zero_le_one
    have h4 : E / (2 * Real.pi * (a + b)) = 1 / (2 * Real.pi * (a + b)) * E := by ring
    linarith
  have bv : |v| ≤ (2 + 1 / (2 * Real.pi * (a + b))) * E := by
    have e : v = I / (2 * Real.pi * (a + b)) + b / (a + b) * (v - u) := by rw [hI]; field_simp; ring
    rw [e]
    refine (abs_add_le _ _).trans ?_
    rw [abs_div, abs_mul (b / (a + b)), abs_of_pos (show 0 < 2 * Real.pi * (a + b) by positivity), abs_of_pos (show 0 < b / (a + b) by positivity)]
    have h1 : b / (a + b) ≤ 1 := by rw [div_le_one hab]; linarith
    have h2 : |I| / (2 * Real.pi * (a + b)) ≤ E / (2 * Real.pi * (a + b)) := by gcongr
    have h3 : b / (a + b) * |v - u| ≤ 1 * (2 * E) := mul_le_mul h1 bd (abs_nonneg _) zero_le_one
    have h4 : E / (2 * Real.pi * (a + b)) = 1 / (2 * Real.pi * (a + b)) * E := by ring
    linarith
  -- the parts with mean zero
  have z1 : ∑ j ∈ range N, (U j - u) = 0 := by rw [sum_sub_distrib, hsU]; simp
  have z2 : ∑ j ∈ range N, (V j - v) = 0 := by rw [sum_sub_distrib, hsV]; simp
  have split : ∀ (W : ℕ → ℝ) (w : ℝ) (i : ℕ), i < N → (∑ j ∈ range N, P i j * W j) / N = (∑ j ∈ range N, P i j * (W j - w)) / N + (1 + δ) * w := by
    intro W w i hi'
    simp only [mul_sub, sum_sub_distrib, ← sum_mul, hr i hi']
    field_simp
    ring
  obtain ⟨i1, hi1, hmax1⟩ := exists_max_image (range N) (fun i => |U i - u|) ⟨0, mem_range.2 hN⟩
  obtain ⟨i2, hi2, hmax2⟩ := exists_max_image (range N) (fun i => |V i - v|) ⟨0, mem_range.2 hN⟩
  set w1 := |U i1 - u| with hw1
  set w2 := |V i2 - v| with hw2
  have k1 : w1 ≤ (1 + δ - q) * w2 + 8 * E := by
    have hi' := mem_range.1 hi1
    have := ho i1 hi'
    rw [split V v i1 hi'] at this
    have e : U i1 - u = (∑ j ∈ range N, P i1 j * (V j - v)) / N + (δ * v - δ * c1 i1 - 2 * I + 2 * r1 i1) := by linarith
    rw [hw1, e]
    refine (abs_add_le _ _).trans (add_le_add (kernel_contracts hN (hP i1 hi') (hr i1 hi') z2 fun j hj => hmax2 j (mem_range.2 hj)) ?_)
    have a1 : |δ * v| ≤ δ * m := by rw [abs_mul, abs_of_nonneg hδ]; gcongr
    have a2 : |δ * c1 i1| ≤ δ * m := by rw [abs_mul, abs_of_nonneg hδ]; gcongr; exact hc1 _ hi'
    have a3 := hr1 _ hi'
    rw [abs_le] at a1 a2 a3 bI ⊢
    constructor <;> linarith
  have k2 : w2 ≤ (1 + δ - q) * w1 + 8 * E := by
    have hi' := mem_range.1 hi2
    have := hi i2 hi'
    rw [split U u i2 hi'] at this
    have e : V i2 - v = (∑ j ∈ range N, P i2 j * (U j - u)) / N + (δ * u - δ * c2 i2 - 2 * (v - u) - 2 * I + 2 * r2 i2) := by linarith
    rw [hw2, e]
    refine (abs_add_le _ _).trans (add_le_add (kernel_contracts hN (hP i2 hi') (hr i2 hi') z1 fun j hj => hmax1 j (mem_range.2 hj)) ?_)
    have a1 : |δ * u| ≤ δ * m := by rw [abs_mul, abs_of_nonneg hδ]; gcongr
    have a2 : |δ * c2 i2| ≤ δ * m := by rw [abs_mul, abs_of_nonneg hδ]; gcongr; exact hc2 _ hi'
    have a3 := hr2 _ hi'
    rw [abs_le] at a1 a2 a3 bI bd ⊢
    constructor <;> linarith
  have hqδ : 0 < q - δ := by linarith
  have k3 : ∀ {s t : ℝ}, s ≤ (1 + δ - q) * t + 8 * E → t ≤ (1 + δ - q) * s + 8 * E → s ≤ 8 / (q - δ) * E := by
    intro s t h1 h2
    rw [div_mul_eq_mul_div, le_div_iff₀ hqδ]
    have h3 : s ≤ (1 + δ - q) * ((1 + δ - q) * s + 8 * E) + 8 * E := h1.trans (by gcongr)
    have h4 : s * (q - δ) * (2 + δ - q) ≤ 8 * E * (2 + δ - q) := by nlinarith
    exact le_of_mul_le_mul_right h4 (by linarith)
  have k4 : ∀ {s t : ℝ}, |s - t| ≤ 8 / (q - δ) * E → |t| ≤ (2 + 1 / (2 * Real.pi * (a + b))) * E →
      |s| ≤ (8 / (q - δ) + 2 + 1 / (2 * Real.pi * (a + b))) * E := by
    intro s t h1 h2
    have h3 := abs_add_le (s - t) t
    rw [sub_add_cancel] at h3
    calc |s| ≤ 8 / (q - δ) * E + (2 + 1 / (2 * Real.pi * (a + b))) * E := h3.trans (add_le_add h1 h2)
      _ = _ := by ring
  exact fun i hi' => ⟨k4 ((hmax1 i (mem_range.2 hi')).trans (k3 k1 k2)) bu, k4 ((hmax2 i (mem_range.2 hi')).trans (k3 k2 k1)) bv⟩

end PFEM
