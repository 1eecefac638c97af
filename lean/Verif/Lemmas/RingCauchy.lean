import Verif.Props.Cauchy
import Verif.Props.EllipseConst

/-!
Cauchy's formula with the trapezoidal rule on two concentric circles, for Laurent polynomials.
-/

namespace PFEM
open Polynomial

theorem circle_ne {N : ℕ} {ω : ℂ} (hω : IsPrimitiveRoot ω N) {r d : ℂ} (hd : r ^ N ≠ d ^ N) (j : ℕ) : r * ω ^ j ≠ d := by
  rintro rfl
  apply hd
  rw [mul_pow, ← pow_mul, mul_comm j, pow_mul, hω.pow_eq_one, one_pow, mul_one]

theorem circle_mean_pos {N k : ℕ} (hk : k < N) {ω : ℂ} (hω : IsPrimitiveRoot ω N) {r d : ℂ} (hd : r ^ N ≠ d ^ N) :
    (∑ j ∈ Finset.range N, (r * ω ^ j) ^ k / (r * ω ^ j - d) * (r * ω ^ j)) / N = d ^ k * (1 + d ^ N / (r ^ N - d ^ N)) := by
  have h1 := circle_power hk hω (r := r) (d := d) fun j _ => circle_ne hω hd j
  have hden : r ^ N - d ^ N ≠ 0 := sub_ne_zero.2 hd
  have hN : (N : ℂ) ≠ 0 := by exact_mod_cast (by omega : N ≠ 0)
  rw [div_eq_iff hN, eq_div_of_mul_eq hden h1]
  field_simp
  ring

theorem circle_mean_neg {N l : ℕ} (hl : 0 < l) (hlN : l < N) {ω : ℂ} (hω : IsPrimitiveRoot ω N) {r d : ℂ} (hr : r ≠ 0) (hd0 : d ≠ 0)
    (hd : r ^ N ≠ d ^ N) :
    (∑ j ∈ Finset.range N, ((r * ω ^ j)⁻¹) ^ l / (r * ω ^ j - d) * (r * ω ^ j)) / N = (d⁻¹) ^ l * (d ^ N / (r ^ N - d ^ N)) := by
  have hden : r ^ N - d ^ N ≠ 0 := sub_ne_zero.2 hd
  have hω0 : ω ≠ 0 := hω.ne_zero (by omega)
  have h1 : ∀ j ∈ Finset.range N, ((r * ω ^ j)⁻¹) ^ l / (r * ω ^ j - d) * (r * ω ^ j) =
      (r * ω ^ j) ^ (N - l) / (r * ω ^ j - d) * (r * ω ^ j) * (r ^ N)⁻¹ := by
    intro j _
    have hz : r * ω ^ j ≠ 0 := mul_ne_zero hr (pow_ne_zero _ hω0)
    have hpow : r ^ N = (r * ω ^ j) ^ N := by
      rw [mul_pow, ← pow_mul, mul_comm j, pow_mul, hω.pow_eq_one, one_pow, mul_one]
    have : ((r * ω ^ j)⁻¹) ^ l = (r * ω ^ j) ^ (N - l) * (r ^ N)⁻¹ := by
      rw [hpow, inv_pow, pow_sub₀ _ hz hlN.le]
      field_simp
    rw [this]
    ring
  have hm := circle_mean_pos (k := N - l) (by omega) hω hd
  rw [Finset.sum_congr rfl h1, ← Finset.sum_mul, mul_div_right_comm, hm, inv_pow, pow_sub₀ _ hd0 hlN.le]
  have := pow_ne_zero N hr
  have := pow_ne_zero l hd0
  field_simp
  ring

/-- one circle -/
theorem circle_laurent {N : ℕ} {ω : ℂ} (hω : IsPrimitiveRoot ω N) {r d : ℂ} (hr : r ≠ 0) (hd0 : d ≠ 0) (hd : r ^ N ≠ d ^ N) {Q R : ℂ[X]}
    (hQ : Q.natDegree < N) (hR : R.natDegree < N) :
    (∑ j ∈ Finset.range N, (Q.eval (r * ω ^ j) + R.eval (r * ω ^ j)⁻¹) / (r * ω ^ j - d) * (r * ω ^ j)) / N =
      (Q.eval d + R.eval d⁻¹) * (d ^ N / (r ^ N - d ^ N)) + (Q.eval d + R.coeff 0) := by
  have e : ∀ j ∈ Finset.range N, (Q.eval (r * ω ^ j) + R.eval (r * ω ^ j)⁻¹) / (r * ω ^ j - d) * (r * ω ^ j) =
      (∑ k ∈ Finset.range N, Q.coeff k * ((r * ω ^ j) ^ k / (r * ω ^ j - d) * (r * ω ^ j))) +
      ∑ k ∈ Finset.range N, R.coeff k * ((r * ω ^ j)⁻¹ ^ k / (r * ω ^ j - d) * (r * ω ^ j)) := by
    intro j _
    rw [eval_eq_sum_range' hQ, eval_eq_sum_range' hR, add_div, add_mul, Finset.sum_div, Finset.sum_div, Finset.sum_mul, Finset.sum_mul]
    congr 1 <;> refine Finset.sum_congr rfl fun k _ => ?_ <;> ring
  rw [Finset.sum_congr rfl e, Finset.sum_add_distrib, Finset.sum_comm, Finset.sum_comm (s := Finset.range N) (t := Finset.range N)
    (f := fun j k => R.coeff k * ((r * ω ^ j)⁻¹ ^ k / (r * ω ^ j - d) * (r * ω ^ j))), add_div, Finset.sum_div, Finset.sum_div]
  have h1 : ∀ k ∈ Finset.range N, (∑ j ∈ Finset.range N, Q.coeff k * ((r * ω ^ j) ^ k / (r * ω ^ j - d) * (r * ω ^ j))) / N =
      Q.coeff k * d ^ k * (1 + d ^ N / (r ^ N - d ^ N)) := by
    intro k hk
    rw [← Finset.mul_sum, mul_div_assoc, circle_mean_pos (Finset.mem_range.1 hk) hω hd, mul_assoc]
  have h2 : ∀ k ∈ Finset.range N, (∑ j ∈ Finset.range N, R.coeff k * ((r * ω ^ j)⁻¹ ^ k / (r * ω ^ j - d) * (r * ω ^ j))) / N =
      R.coeff k * d⁻¹ ^ k * (d ^ N / (r ^ N - d ^ N)) + if k = 0 then R.coeff 0 else 0 := by
    intro k hk
    rw [← Finset.mul_sum, mul_div_assoc]
    rcases Nat.eq_zero_or_pos k with rfl | h0
    · have := circle_mean_pos (Finset.mem_range.1 hk) hω hd
      simp only [pow_zero] at this ⊢
      rw [this, if_pos trivial]
      ring
    · rw [circle_mean_neg h0 (Finset.mem_range.1 hk) hω hr hd0 hd, if_neg (by omega)]
      ring
  rw [Finset.sum_congr rfl h1, Finset.sum_congr rfl h2, ← Finset.sum_mul, Finset.sum_add_distrib, ← Finset.sum_mul, ← eval_eq_sum_range' hQ,
    ← eval_eq_sum_range' hR, Finset.sum_ite_eq', if_pos (Finset.mem_range.2 (by omega))]
  ring

/-- the factor by which the sums over both circles differ from the value -/
noncomputable def ringFactor (a b : ℂ) (N : ℕ) (d : ℂ) : ℂ := 1 + d ^ N / (b ^ N - d ^ N) + a ^ N / (d ^ N - a ^ N)

/-- both circles -/
theorem ring_laurent {N : ℕ} {ω ω' : ℂ} (hω : IsPrimitiveRoot ω N) (hω' : IsPrimitiveRoot ω' N) {a b d : ℂ} (ha : a ≠ 0) (hb : b ≠ 0) (hd0 : d ≠ 0)
    (hda : a ^ N ≠ d ^ N) (hdb : b ^ N ≠ d ^ N) {Q R : ℂ[X]} (hQ : Q.natDegree < N) (hR : R.natDegree < N) :
    (∑ j ∈ Finset.range N, (Q.eval (b * ω ^ j) + R.eval (b * ω ^ j)⁻¹) / (b * ω ^ j - d) * (b * ω ^ j)) / N -
      (∑ j ∈ Finset.range N, (Q.eval (a * ω' ^ j) + R.eval (a * ω' ^ j)⁻¹) / (a * ω' ^ j - d) * (a * ω' ^ j)) / N =
      (Q.eval d + R.eval d⁻¹) * ringFactor a b N d := by
  rw [circle_laurent hω hb hd0 hdb hQ hR, circle_laurent hω' ha hd0 hda hQ hR, ringFactor]
  have h1 : b ^ N - d ^ N ≠ 0 := sub_ne_zero.2 hdb
  have h2 : a ^ N - d ^ N ≠ 0 := sub_ne_zero.2 hda
  have h3 : d ^ N - a ^ N ≠ 0 := sub_ne_zero.2 hda.symm
  have e : d ^ N / (a ^ N - d ^ N) = -(1 + a ^ N / (d ^ N - a ^ N)) := by
    rw [← neg_sub (d ^ N) (a ^ N)]
    field_simp
    ring
  rw [e]
  ring

theorem ratio_bound {x y : ℂ} {q : ℝ} (hq : q < 1) (h : ‖x‖ ≤ q * ‖y‖) (hy : y ≠ 0) : ‖x / (y - x)‖ ≤ q / (1 - q) := by
  have hyp : 0 < ‖y‖ := norm_pos_iff.2 hy
  have h1 : (1 - q) * ‖y‖ ≤ ‖y - x‖ := by
    have := norm_sub_norm_le y x
    linarith
  have h2 : 0 < (1 - q) * ‖y‖ := mul_pos (by linarith) hyp
  have hq0 : 0 ≤ q := by
    by_contra hc
    have := mul_neg_of_neg_of_pos (not_le.1 hc) hyp
    have := norm_nonneg x
    linarith
  rw [norm_div, div_le_div_iff₀ (h2.trans_le h1) (by linarith)]
  calc ‖x‖ * (1 - q) ≤ q * ‖y‖ * (1 - q) := mul_le_mul_of_nonneg_right h (by linarith)
    _ = q * ((1 - q) * ‖y‖) := by ring
    _ ≤ _ := mul_le_mul_of_nonneg_left h1 hq0

/-- the factor tends to 1 geometrically -/
theorem ringFactor_sub_one {a b δ : ℝ} (ha : 0 < a) (hδ : 0 < δ) {d : ℂ} (h1 : a + δ ≤ ‖d‖) (h2 : ‖d‖ ≤ b - δ) {N : ℕ} (hN : 0 < N) :
    ‖ringFactor a b N d - 1‖ ≤ 2 * (b / δ) * (1 - δ / b) ^ N := by
  have hd : 0 < ‖d‖ := by linarith
  have hb : 0 < b := by linarith
  set q := 1 - δ / b with hq
  have hδb : δ / b < 1 := (div_lt_one hb).2 (by linarith)
  have hq0 : 0 ≤ q := by linarith
  have hq1 : q < 1 := by
    have : 0 < δ / b := by positivity
    linarith
  have e : ∀ r : ℝ, 0 < r → ‖(r : ℂ)‖ = r := fun r hr => by rw [Complex.norm_real, Real.norm_of_nonneg hr.le]
  have k1 : ‖d‖ ≤ q * b := by
    rw [hq, sub_mul, one_mul, div_mul_cancel₀ _ hb.ne']
    exact h2
  have k2 : a ≤ q * ‖d‖ := by
    have : δ / b * ‖d‖ ≤ δ := by
      rw [div_mul_eq_mul_div, div_le_iff₀ hb]
      exact mul_le_mul_of_nonneg_left (by linarith) hδ.le
    rw [hq, sub_mul, one_mul]
    linarith
  have hqN : q ^ N < 1 := pow_lt_one₀ hq0 hq1 hN.ne'
  have b1 : ‖d ^ N / ((b : ℂ) ^ N - d ^ N)‖ ≤ q ^ N / (1 - q ^ N) := by
    refine ratio_bound hqN ?_ (pow_ne_zero _ (by exact_mod_cast hb.ne'))
    rw [norm_pow, norm_pow, e b hb, ← mul_pow]
    exact pow_le_pow_left₀ hd.le k1 N
  have b2 : ‖(a : ℂ) ^ N / (d ^ N - (a : ℂ) ^ N)‖ ≤ q ^ N / (1 - q ^ N) := by
    refine ratio_bound hqN ?_ (pow_ne_zero _ (norm_pos_iff.1 hd))
    rw [norm_pow, norm_pow, e a ha, ← mul_pow]
    exact pow_le_pow_left₀ ha.le k2 N
  have b3 : q ^ N / (1 - q ^ N) ≤ b / δ * q ^ N := by
    have : q ^ N ≤ q := by
      calc q ^ N ≤ q ^ 1 := pow_le_pow_of_le_one hq0 hq1.le hN
        _ = q := pow_one q
    have h3 : δ / b ≤ 1 - q ^ N := by linarith
    calc q ^ N / (1 - q ^ N) ≤ q ^ N / (δ / b) := div_le_div_of_nonneg_left (by positivity) (by positivity) h3
      _ = b / δ * q ^ N := by field_simp
  rw [ringFactor, add_assoc, add_sub_cancel_left]
  refine (norm_add_le _ _).trans ?_
  linarith

/-- the derivative of the factor -/
noncomputable def ringFactor' (a b : ℂ) (N : ℕ) (d : ℂ) : ℂ :=
  N * d ^ (N - 1) * b ^ N / (b ^ N - d ^ N) ^ 2 - N * d ^ (N - 1) * a ^ N / (d ^ N - a ^ N) ^ 2

theorem ringFactor_deriv {a b d : ℂ} {N : ℕ} (hda : a ^ N ≠ d ^ N) (hdb : b ^ N ≠ d ^ N) :
    HasDerivAt (ringFactor a b N) (ringFactor' a b N d) d := by
  have h1 : b ^ N - d ^ N ≠ 0 := sub_ne_zero.2 hdb
  have h3 : d ^ N - a ^ N ≠ 0 := sub_ne_zero.2 hda.symm
  have hp : HasDerivAt (fun z : ℂ => z ^ N) (N * d ^ (N - 1)) d := hasDerivAt_pow N d
  have k1 := (hp.fun_div (hp.const_sub (b ^ N)) h1).const_add 1
  have k2 := (hasDerivAt_const d (a ^ N)).fun_div (hp.sub_const (a ^ N)) h3
  refine (k1.fun_add k2).congr_deriv ?_
  rw [ringFactor']
  generalize (N : ℂ) * d ^ (N - 1) = D
  generalize d ^ N = x at *
  field_simp
  ring

theorem ratio_bound' {x y : ℂ} {q : ℝ} (hq : q < 1) (h : ‖x‖ ≤ q * ‖y‖) (hy : y ≠ 0) : ‖x * y / (y - x) ^ 2‖ ≤ q / (1 - q) ^ 2 := by
  have hyp : 0 < ‖y‖ := norm_pos_iff.2 hy
  have h1 : (1 - q) * ‖y‖ ≤ ‖y - x‖ := by
    have := norm_sub_norm_le y x
    linarith
  have h2 : 0 < (1 - q) * ‖y‖ := mul_pos (by linarith) hyp
  have h3 : ((1 - q) * ‖y‖) ^ 2 ≤ ‖y - x‖ ^ 2 := pow_le_pow_left₀ h2.le h1 2
  rw [norm_div, norm_mul, norm_pow]
  calc ‖x‖ * ‖y‖ / ‖y - x‖ ^ 2 ≤ q * ‖y‖ * ‖y‖ / ((1 - q) * ‖y‖) ^ 2 :=
        div_le_div₀ (mul_nonneg ((norm_nonneg x).trans h) hyp.le) (mul_le_mul_of_nonneg_right h hyp.le) (by positivity) h3
    _ = q / (1 - q) ^ 2 := by
      have : 1 - q ≠ 0 := by linarith
      field_simp

/-- the derivative of the factor tends to 0 geometrically -/
theorem ringFactor'_le {a b δ : ℝ} (ha : 0 < a) (hδ : 0 < δ) {d : ℂ} (h1 : a + δ ≤ ‖d‖) (h2 : ‖d‖ ≤ b - δ) {N : ℕ} (hN : 0 < N) :
    ‖ringFactor' a b N d‖ ≤ 2 * N / a * (b / δ) ^ 2 * (1 - δ / b) ^ N := by
  have hd : 0 < ‖d‖ := by linarith
  have hd0 : d ≠ 0 := norm_pos_iff.1 hd
  have hb : 0 < b := by linarith
  set q := 1 - δ / b with hq
  have hδb : δ / b < 1 := (div_lt_one hb).2 (by linarith)
  have hq0 : 0 ≤ q := by linarith
  have hq1 : q < 1 := by
    have : 0 < δ / b := by positivity
    linarith
  have e : ∀ r : ℝ, 0 < r → ‖(r : ℂ)‖ = r := fun r hr => by rw [Complex.norm_real, Real.norm_of_nonneg hr.le]
  have k1 : ‖d‖ ≤ q * b := by
    rw [hq, sub_mul, one_mul, div_mul_cancel₀ _ hb.ne']
    exact h2
  have k2 : a ≤ q * ‖d‖ := by
    have : δ / b * ‖d‖ ≤ δ := by
      rw [div_mul_eq_mul_div, div_le_iff₀ hb]
      exact mul_le_mul_of_nonneg_left (by linarith) hδ.le
    rw [hq, sub_mul, one_mul]
    linarith
  have hqN : q ^ N < 1 := pow_lt_one₀ hq0 hq1 hN.ne'
  have b1 : ‖d ^ N * (b : ℂ) ^ N / ((b : ℂ) ^ N - d ^ N) ^ 2‖ ≤ q ^ N / (1 - q ^ N) ^ 2 := by
    refine ratio_bound' hqN ?_ (pow_ne_zero _ (by exact_mod_cast hb.ne'))
    rw [norm_pow, norm_pow, e b hb, ← mul_pow]
    exact pow_le_pow_left₀ hd.le k1 N
  have b2 : ‖(a : ℂ) ^ N * d ^ N / (d ^ N - (a : ℂ) ^ N) ^ 2‖ ≤ q ^ N / (1 - q ^ N) ^ 2 := by
    refine ratio_bound' hqN ?_ (pow_ne_zero _ hd0)
    rw [norm_pow, norm_pow, e a ha, ← mul_pow]
    exact pow_le_pow_left₀ ha.le k2 N
  have b3 : q ^ N / (1 - q ^ N) ^ 2 ≤ (b / δ) ^ 2 * q ^ N := by
    have : q ^ N ≤ q := by
      calc q ^ N ≤ q ^ 1 := pow_le_pow_of_le_one hq0 hq1.le hN
        _ = q := pow_one q
    have h3 : δ / b ≤ 1 - q ^ N := by linarith
    calc q ^ N / (1 - q ^ N) ^ 2 ≤ q ^ N / (δ / b) ^ 2 :=
          div_le_div_of_nonneg_left (by positivity) (by positivity) (pow_le_pow_left₀ (by positivity) h3 2)
      _ = (b / δ) ^ 2 * q ^ N := by field_simp
  have e1 : ringFactor' a b N d = N / d * (d ^ N * (b : ℂ) ^ N / ((b : ℂ) ^ N - d ^ N) ^ 2 - (a : ℂ) ^ N * d ^ N / (d ^ N - (a : ℂ) ^ N) ^ 2) := by
    have : d ^ (N - 1) = d ^ N / d := by rw [eq_div_iff hd0, ← pow_succ, Nat.sub_add_cancel hN]
    rw [ringFactor', this]
    ring
  rw [e1, norm_mul, norm_div, Complex.norm_natCast]
  have b4 : (N : ℝ) / ‖d‖ ≤ N / a := div_le_div_of_nonneg_left (by positivity) ha (by linarith)
  calc _ ≤ (N : ℝ) / a * (2 * ((b / δ) ^ 2 * q ^ N)) :=
        mul_le_mul b4 ((norm_sub_le _ _).trans (by linarith)) (norm_nonneg _) (by positivity)
    _ = _ := by ring

theorem laurent_factor_deriv (Q R : ℂ[X]) {a b c ζ : ℂ} {N : ℕ} (hda : a ^ N ≠ (ζ - c) ^ N) (hdb : b ^ N ≠ (ζ - c) ^ N) (hd0 : ζ - c ≠ 0) :
    HasDerivAt (fun z => (Q.eval (z - c) + R.eval (z - c)⁻¹) * ringFactor a b N (z - c))
      (((derivative Q).eval (ζ - c) - (derivative R).eval (ζ - c)⁻¹ * (ζ - c)⁻¹ ^ 2) * ringFactor a b N (ζ - c) +
        (Q.eval (ζ - c) + R.eval (ζ - c)⁻¹) * ringFactor' a b N (ζ - c)) ζ := by
  have hs : HasDerivAt (fun z : ℂ => z - c) 1 ζ := (hasDerivAt_id ζ).sub_const _
  have q1 : HasDerivAt (fun z : ℂ => Q.eval (z - c)) ((derivative Q).eval (ζ - c) * 1) ζ :=
    HasDerivAt.comp (h₂ := fun x => Q.eval x) ζ (Q.hasDerivAt (ζ - c)) hs
  have q2 : HasDerivAt (fun z : ℂ => R.eval (z - c)⁻¹) ((derivative R).eval (ζ - c)⁻¹ * (-1 / (ζ - c) ^ 2)) ζ :=
    HasDerivAt.comp (h₂ := fun x => R.eval x) ζ (R.hasDerivAt (ζ - c)⁻¹) (hs.fun_inv hd0)
  have q3 : HasDerivAt (fun z : ℂ => ringFactor a b N (z - c)) (ringFactor' a b N (ζ - c) * 1) ζ :=
    HasDerivAt.comp ζ (ringFactor_deriv hda hdb) hs
  refine ((q1.fun_add q2).fun_mul q3).congr_deriv ?_
  generalize ζ - c = d
  ring

end PFEM
