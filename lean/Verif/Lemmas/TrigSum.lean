import Mathlib.Analysis.SpecialFunctions.Complex.Log
import Mathlib.Analysis.SpecialFunctions.Trigonometric.Basic
import Mathlib.Algebra.Order.Field.GeomSum
import Verif.Props.Fft
import Verif.Spec.Nystrom

/-!
Sums of trigonometric polynomials over equispaced points of the circle.
-/

namespace PFEM
open Finset

theorem sum_exp {N : ℕ} (hN : 0 < N) {j : ℤ} (hj : ¬ (N : ℤ) ∣ j) :
    ∑ b ∈ range N, Complex.exp (2 * Real.pi * Complex.I * j / N) ^ b = 0 := by
  have hN' : (N : ℂ) ≠ 0 := by exact_mod_cast hN.ne'
  set z := Complex.exp (2 * Real.pi * Complex.I * j / N) with hz
  have h1 : z ^ N = 1 := by
    rw [hz, ← Complex.exp_nat_mul, Complex.exp_eq_one_iff]
    exact ⟨j, by field_simp⟩
  have h2 : z ≠ 1 := by
    intro h
    rw [hz, Complex.exp_eq_one_iff] at h
    obtain ⟨n, hn⟩ := h
    apply hj
    refine ⟨n, ?_⟩
    have hp : (2 * Real.pi * Complex.I : ℂ) ≠ 0 := Complex.two_pi_I_ne_zero
    have : (j : ℂ) = N * n := by
      field_simp at hn
      have := mul_left_cancel₀ hp (show 2 * Real.pi * Complex.I * (j : ℂ) = 2 * Real.pi * Complex.I * (N * n) by linear_combination (2 * Real.pi * Complex.I) * hn)
      exact this
    exact_mod_cast this
  have h3 := geom_sum_mul z N
  rw [h1, sub_self] at h3
  exact (mul_eq_zero.1 h3).resolve_right (sub_ne_zero.2 h2)

theorem sum_cos_shift {N : ℕ} (hN : 0 < N) {j : ℤ} (hj : ¬ (N : ℤ) ∣ j) (α : ℝ) :
    ∑ b ∈ range N, Real.cos (α + j * (2 * Real.pi * b / N)) = 0 := by
  have h := congrArg (fun z => (Complex.exp (α * Complex.I) * z).re) (sum_exp hN hj)
  simp only [mul_zero, Complex.zero_re, Finset.mul_sum, Complex.re_sum] at h
  rw [← h]
  refine sum_congr rfl fun b _ => ?_
  rw [← Complex.exp_nat_mul, ← Complex.exp_add]
  have : (α * Complex.I + b * (2 * Real.pi * Complex.I * j / N) : ℂ) = ((α + j * (2 * Real.pi * b / N) : ℝ) : ℂ) * Complex.I := by
    push_cast; ring
  rw [this, Complex.exp_ofReal_mul_I_re]

theorem sum_sin_shift {N : ℕ} (hN : 0 < N) {j : ℤ} (hj : ¬ (N : ℤ) ∣ j) (α : ℝ) :
    ∑ b ∈ range N, Real.sin (α + j * (2 * Real.pi * b / N)) = 0 := by
  rw [← sum_cos_shift hN hj (α - Real.pi / 2)]
  refine sum_congr rfl fun b _ => ?_
  rw [← Real.cos_sub_pi_div_two]
  congr 1
  ring

/-- the trigonometric polynomial of period `2π` -/
theorem trig_eq (a b : ℕ → ℝ) (M : ℕ) (t : ℝ) :
    trig a b M (2 * Real.pi) t = ∑ k ∈ range M, (a k * Real.cos (k * t) + b k * Real.sin (k * t)) := by
  unfold trig
  refine sum_congr rfl fun k _ => ?_
  have : 2 * Real.pi * (k : ℝ) / (2 * Real.pi) * t = k * t := by
    have := Real.pi_ne_zero
    field_simp
  rw [this]

theorem trig'_eq (a b : ℕ → ℝ) (M : ℕ) (t : ℝ) :
    trig' a b M (2 * Real.pi) t = trig (fun k => k * b k) (fun k => -(k * a k)) M (2 * Real.pi) t := by
  rw [trig_eq]
  unfold trig'
  refine sum_congr rfl fun k _ => ?_
  have h : 2 * Real.pi * (k : ℝ) / (2 * Real.pi) = k := by
    have := Real.pi_ne_zero
    field_simp
  rw [h]
  ring

/-- the mean of a trigonometric polynomial over equispaced points is its constant term -/
theorem trig_mean {N M : ℕ} (hN : 0 < N) (hM : ∀ k < M, 2 * k < N) (a b : ℕ → ℝ) :
    ∑ j ∈ range N, trig a b M (2 * Real.pi) (2 * Real.pi * j / N) = N * if 0 < M then a 0 else 0 := by
  simp only [trig_eq]
  rw [sum_comm]
  have : ∀ k ∈ range M, ∑ j ∈ range N, (a k * Real.cos (k * (2 * Real.pi * j / N)) + b k * Real.sin (k * (2 * Real.pi * j / N))) =
      if k = 0 then N * a 0 else 0 := by
    intro k hk
    rw [sum_add_distrib, ← mul_sum, ← mul_sum]
    split_ifs with h
    · subst h; simp; ring
    · have hd : ¬ (N : ℤ) ∣ (k : ℤ) := by
        intro hd
        have := Int.le_of_dvd (by omega) hd
        have := hM k (mem_range.1 hk)
        omega
      have h1 := sum_cos_shift hN hd 0
      have h2 := sum_sin_shift hN hd 0
      simp only [zero_add, Int.cast_natCast] at h1 h2
      rw [h1, h2]
      simp
  rw [sum_congr rfl this, sum_ite_eq' (range M) 0]
  simp

/-- the kernel `cos m(τ - t)` picks the terms of frequency `m` -/
theorem reproduce {N M m : ℕ} (hm : 1 ≤ m) (hm2 : 2 * m ≤ N) (hM : ∀ k < M, 2 * k < N) (a b : ℕ → ℝ) (τ : ℝ) :
    ∑ j ∈ range N, Real.cos (m * (τ - 2 * Real.pi * j / N)) * trig a b M (2 * Real.pi) (2 * Real.pi * j / N) =
      if m < M then N / 2 * (a m * Real.cos (m * τ) + b m * Real.sin (m * τ)) else 0 := by
  have hN : 0 < N := by omega
  simp only [trig_eq, mul_sum]
  rw [sum_comm]
  have key : ∀ k ∈ range M, ∑ j ∈ range N, Real.cos (m * (τ - 2 * Real.pi * j / N)) *
      (a k * Real.cos (k * (2 * Real.pi * j / N)) + b k * Real.sin (k * (2 * Real.pi * j / N))) =
      if k = m then N / 2 * (a m * Real.cos (m * τ) + b m * Real.sin (m * τ)) else 0 := by
    intro k hk
    have hk2 := hM k (mem_range.1 hk)
    have hd1 : ¬ (N : ℤ) ∣ ((k : ℤ) + m) := by
      intro hd
      have := Int.le_of_dvd (by omega) hd
      omega
    have e : ∀ j : ℕ, Real.cos (m * (τ - 2 * Real.pi * j / N)) *
        (a k * Real.cos (k * (2 * Real.pi * j / N)) + b k * Real.sin (k * (2 * Real.pi * j / N))) =
        a k / 2 * (Real.cos (m * τ + ((k : ℤ) - (m : ℤ) : ℤ) * (2 * Real.pi * j / N)) + Real.cos (-(m * τ) + ((k : ℤ) + m : ℤ) * (2 * Real.pi * j / N))) +
        b k / 2 * (Real.sin (m * τ + ((k : ℤ) - (m : ℤ) : ℤ) * (2 * Real.pi * j / N)) + Real.sin (-(m * τ) + ((k : ℤ) + m : ℤ) * (2 * Real.pi * j / N))) := by
      intro j
      have e1 : (m * τ + (((k : ℤ) - (m : ℤ) : ℤ) : ℝ) * (2 * Real.pi * j / N)) = k * (2 * Real.pi * j / N) + m * (τ - 2 * Real.pi * j / N) := by
        push_cast; ring
      have e2 : (-(m * τ) + (((k : ℤ) + m : ℤ) : ℝ) * (2 * Real.pi * j / N)) = k * (2 * Real.pi * j / N) - m * (τ - 2 * Real.pi * j / N) := by
        push_cast; ring
      rw [e1, e2, Real.cos_add, Real.cos_sub, Real.sin_add, Real.sin_sub]
      ring
    simp only [e, sum_add_distrib, ← mul_sum, sum_cos_shift hN hd1, sum_sin_shift hN hd1, add_zero]
    split_ifs with h
    · subst h
      simp
      ring
    · have hd2 : ¬ (N : ℤ) ∣ ((k : ℤ) - m) := by
        intro hd
        obtain ⟨c, hc⟩ := hd
        have : c = 0 := by
          by_contra h0
          rcases lt_or_gt_of_ne h0 with h1 | h1
          · have : (N : ℤ) * c ≤ -N := by nlinarith
            omega
          · have : (N : ℤ) ≤ N * c := by nlinarith
            omega
        rw [this, mul_zero] at hc
        omega
      rw [sum_cos_shift hN hd2, sum_sin_shift hN hd2]
      simp
  rw [sum_congr rfl key, sum_ite_eq' (range M) m]
  simp

/-- Martensen's weights integrate the logarithm times a trigonometric polynomial exactly: every term is divided by twice its frequency, and
the constant term vanishes -/
theorem martensen_exact {N M : ℕ} (hM : ∀ k < M, 2 * k < N) (a b : ℕ → ℝ) (i : ℕ) :
    ∑ j ∈ range N, martensenWeight N (max i j - min i j) * trig a b M (2 * Real.pi) (2 * Real.pi * j / N) =
      trig (fun k => a k / (2 * k)) (fun k => b k / (2 * k)) M (2 * Real.pi) (2 * Real.pi * i / N) := by
  rcases Nat.eq_zero_or_pos N with rfl | hN
  · have : M = 0 := by
      by_contra h
      exact absurd (hM 0 (by omega)) (by omega)
    simp [this, trig]
  have hN' : (N : ℝ) ≠ 0 := by exact_mod_cast hN.ne'
  have e : ∀ j : ℕ, martensenWeight N (max i j - min i j) =
      ∑ m ∈ range (N / 2), 1 / ((m + 1 : ℕ) * N : ℝ) * Real.cos ((m + 1 : ℕ) * (2 * Real.pi * i / N - 2 * Real.pi * j / N)) := by
    intro j
    unfold martensenWeight
    rw [sum_div]
    refine sum_congr rfl fun m _ => ?_
    have hc : Real.cos (2 * Real.pi * (m + 1) * ((max i j - min i j : ℕ) : ℝ) / N) =
        Real.cos ((m + 1 : ℕ) * (2 * Real.pi * i / N - 2 * Real.pi * j / N)) := by
      rcases le_total i j with h | h
      · rw [max_eq_right h, min_eq_left h, Nat.cast_sub h, ← Real.cos_neg]
        congr 1
        push_cast
        ring
      · rw [max_eq_left h, min_eq_right h, Nat.cast_sub h]
        congr 1
        push_cast
        ring
    rw [hc]
    push_cast
    field_simp
  simp only [e, sum_mul]
  rw [sum_comm]
  have h1 : ∀ m ∈ range (N / 2), ∑ j ∈ range N, 1 / ((m + 1 : ℕ) * N : ℝ) *
      Real.cos ((m + 1 : ℕ) * (2 * Real.pi * i / N - 2 * Real.pi * j / N)) * trig a b M (2 * Real.pi) (2 * Real.pi * j / N) =
      if m + 1 < M then a (m + 1) / (2 * (m + 1 : ℕ)) * Real.cos ((m + 1 : ℕ) * (2 * Real.pi * i / N)) +
        b (m + 1) / (2 * (m + 1 : ℕ)) * Real.sin ((m + 1 : ℕ) * (2 * Real.pi * i / N)) else 0 := by
    intro m hm
    have hm := mem_range.1 hm
    simp only [mul_assoc]
    rw [← mul_sum]
    have := reproduce (N := N) (M := M) (m := m + 1) (by omega) (by omega) hM a b (2 * Real.pi * i / N)
    simp only [mul_assoc] at this
    rw [this]
    split_ifs with h
    · have : ((m + 1 : ℕ) : ℝ) ≠ 0 := by positivity
      field_simp
    · simp
  rw [sum_congr rfl h1, ← sum_filter, trig_eq]
  cases M with
  | zero => simp
  | succ M =>
    have hf : (range (N / 2)).filter (fun m => m + 1 < M + 1) = range M := by
      ext m
      simp only [mem_filter, mem_range]
      refine ⟨fun h => by omega, fun h => ⟨?_, by omega⟩⟩
      have := hM M (by omega)
      omega
    rw [hf, sum_range_succ']
    simp

end PFEM
