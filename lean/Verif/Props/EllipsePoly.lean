import Verif.Props.EllipseConj
import Mathlib.Data.Nat.Choose.Sum

/-!
Property theorem C106: harmonic conjugates of harmonic polynomials on ellipses are computed with an error that decays geometrically.
-/

namespace PFEM
open Nystrom Antilap Finset

/-! ### polynomials on an ellipse -/

/-- Pascal's sum, with the terms `j` and `n - j` taken together -/
theorem pair_pow {F : Type} [Field F] [CharZero F] (x y : F) (n : ℕ) : (x + y) ^ n = ∑ j ∈ range (n + 1),
    (n.choose j : F) / 2 * (x * y) ^ min j (n - j) * (x ^ (max j (n - j) - min j (n - j)) + y ^ (max j (n - j) - min j (n - j))) := by
  have h1 : (x + y) ^ n = ∑ j ∈ range (n + 1), x ^ j * y ^ (n - j) * (n.choose j : F) := add_pow x y n
  have h2 : (x + y) ^ n = ∑ j ∈ range (n + 1), x ^ (n - j) * y ^ j * (n.choose j : F) := by
    rw [h1, ← sum_range_reflect]
    refine sum_congr rfl fun j hj => ?_
    have hj := mem_range.1 hj
    rw [show n + 1 - 1 - j = n - j by omega, show n - (n - j) = j by omega, Nat.choose_symm (by omega)]
  have h3 : (x + y) ^ n = ((x + y) ^ n + (x + y) ^ n) / 2 := by ring
  rw [h3]
  conv_lhs => rw [h1]
  conv_lhs =>
    enter [1, 2]
    rw [← h1, h2]
  rw [← sum_add_distrib, sum_div]
  refine sum_congr rfl fun j hj => ?_
  have hj := mem_range.1 hj
  rcases le_total j (n - j) with h | h
  · rw [min_eq_left h, max_eq_right h]
    obtain ⟨m, hm⟩ : ∃ m, n - j = j + m := ⟨n - j - j, by omega⟩
    rw [hm, Nat.add_sub_cancel_left]
    ring
  · rw [min_eq_right h, max_eq_left h]
    obtain ⟨m, hm⟩ : ∃ m, j = n - j + m := ⟨j - (n - j), by omega⟩
    generalize n - j = i at *
    subst hm
    rw [Nat.add_sub_cancel_left]
    ring

/-- `e^{imθ} + ρ^m e^{-imθ}` -/
noncomputable def ellMode (ρ : ℝ) (m : ℕ) (θ : ℝ) : ℂ :=
  Complex.exp (θ * Complex.I) ^ m + (ρ * Complex.exp (-(θ * Complex.I))) ^ m

theorem ellMode_eq (ρ : ℝ) (m : ℕ) (θ : ℝ) : ellMode ρ m θ = ⟨(1 + ρ ^ m) * Real.cos (m * θ), (1 - ρ ^ m) * Real.sin (m * θ)⟩ := by
  unfold ellMode
  rw [mul_pow, ← Complex.exp_nat_mul, ← Complex.exp_nat_mul,
    show (m : ℂ) * (θ * Complex.I) = ((m * θ : ℝ) : ℂ) * Complex.I by push_cast; ring,
    show (m : ℂ) * -(θ * Complex.I) = ((-(m * θ) : ℝ) : ℂ) * Complex.I by push_cast; ring, ← Complex.ofReal_pow]
  apply Complex.ext
  · rw [Complex.add_re, Complex.re_ofReal_mul, Complex.exp_ofReal_mul_I_re, Complex.exp_ofReal_mul_I_re, Real.cos_neg]
    ring
  · rw [Complex.add_im, Complex.im_ofReal_mul, Complex.exp_ofReal_mul_I_im, Complex.exp_ofReal_mul_I_im, Real.sin_neg]
    ring

/-- `f` is a sum of modes up to `d`, of weighted size at most `B` -/
def ModeSum (ρ : ℝ) (d : ℕ) (B : ℝ) (f : ℝ → ℂ) : Prop :=
  ∃ α : ℕ → ℂ, (∀ θ, f θ = ∑ m ∈ range (d + 1), α m * ellMode ρ m θ) ∧ ∑ m ∈ range (d + 1), ‖α m‖ * (1 + |ρ| ^ m) ≤ B

theorem ModeSum.single (ρ : ℝ) {d m : ℕ} (hm : m ≤ d) (c : ℂ) : ModeSum ρ d (‖c‖ * (1 + |ρ| ^ m)) fun θ => c * ellMode ρ m θ := by
  refine ⟨fun k => if k = m then c else 0, fun θ => ?_, ?_⟩
  · simp only [ite_mul, zero_mul]
    rw [sum_ite_eq' (range (d + 1)) m, if_pos (by simp; omega)]
  · rw [sum_congr rfl fun k _ => show ‖if k = m then c else 0‖ * (1 + |ρ| ^ k) = if k = m then ‖c‖ * (1 + |ρ| ^ k) else 0 by
      split_ifs <;> simp, sum_ite_eq' (range (d + 1)) m, if_pos (by simp; omega)]

theorem ModeSum.sum {ρ : ℝ} {d : ℕ} {ι : Type} (s : Finset ι) {B : ι → ℝ} {f : ι → ℝ → ℂ} (h : ∀ i ∈ s, ModeSum ρ d (B i) (f i)) :
    ModeSum ρ d (∑ i ∈ s, B i) fun θ => ∑ i ∈ s, f i θ := by
  classical
  induction s using Finset.induction_on with
  | empty => exact ⟨fun _ => 0, by simp, by simp⟩
  | insert i s hi ih =>
    obtain ⟨α, h1, h2⟩ := h i (mem_insert_self _ _)
    obtain ⟨β, h3, h4⟩ := ih fun j hj => h j (mem_insert_of_mem hj)
    refine ⟨fun m => α m + β m, fun θ => ?_, ?_⟩
    · have h3' : ∑ i ∈ s, f i θ = _ := h3 θ
      change ∑ j ∈ insert i s, f j θ = ∑ m ∈ range (d + 1), (α m + β m) * ellMode ρ m θ
      rw [sum_insert hi, h1, h3', ← sum_add_distrib]
      exact sum_congr rfl fun m _ => by ring
    · rw [sum_insert hi]
      refine le_trans ?_ (add_le_add h2 h4)
      rw [← sum_add_distrib]
      refine sum_le_sum fun m _ => ?_
      rw [← add_mul]
      have : 0 ≤ 1 + |ρ| ^ m := by positivity
      gcongr
      exact norm_add_le _ _

theorem ModeSum.mono {ρ : ℝ} {d : ℕ} {B B' : ℝ} {f g : ℝ → ℂ} (h : ModeSum ρ d B f) (hB : B ≤ B') (hg : ∀ θ, g θ = f θ) : ModeSum ρ d B' g := by
  obtain ⟨α, h1, h2⟩ := h
  exact ⟨α, fun θ => by rw [hg, h1], h2.trans hB⟩

/-- powers of `z` on an ellipse -/
theorem ellipse_pow {a b : ℝ} (ha : 0 < a) (hb : 0 < b) {n d : ℕ} (hn : n ≤ d) (c : ℂ) :
    ModeSum (ellRho a b) d (‖c‖ * max a b ^ n) fun θ => c * (⟨a * Real.cos θ, b * Real.sin θ⟩ : ℂ) ^ n := by
  have hab : a + b ≠ 0 := (add_pos ha hb).ne'
  have hz : ∀ θ : ℝ, (⟨a * Real.cos θ, b * Real.sin θ⟩ : ℂ) =
      (((a + b) / 2 : ℝ) : ℂ) * (Complex.exp (θ * Complex.I) + ellRho a b * Complex.exp (-(θ * Complex.I))) := by
    intro θ
    rw [show -((θ : ℂ) * Complex.I) = ((-θ : ℝ) : ℂ) * Complex.I by push_cast; ring]
    apply Complex.ext
    · rw [Complex.re_ofReal_mul, Complex.add_re, Complex.re_ofReal_mul, Complex.exp_ofReal_mul_I_re, Complex.exp_ofReal_mul_I_re,
        Real.cos_neg, ellRho]
      field_simp
      ring
    · rw [Complex.im_ofReal_mul, Complex.add_im, Complex.im_ofReal_mul, Complex.exp_ofReal_mul_I_im, Complex.exp_ofReal_mul_I_im,
        Real.sin_neg, ellRho]
      field_simp
      ring
  have hxy : ∀ θ : ℝ, Complex.exp (θ * Complex.I) * (ellRho a b * Complex.exp (-(θ * Complex.I))) = (ellRho a b : ℂ) := by
    intro θ
    rw [mul_left_comm, ← Complex.exp_add, add_neg_cancel, Complex.exp_zero, mul_one]
  have hmax : max a b = (a + b) / 2 * (1 + |ellRho a b|) := by
    rw [ellRho_abs ha hb, flatness]
    rcases le_total a b with h | h
    · rw [max_eq_right h, abs_of_nonpos (by linarith)]
      field_simp
      ring
    · rw [max_eq_left h, abs_of_nonneg (by linarith)]
      field_simp
      ring
  set p : ℝ := (a + b) / 2 with hp
  have hp0 : 0 ≤ p := by have := add_pos ha hb; positivity
  refine (ModeSum.sum (range (n + 1)) (B := fun j => ‖c‖ * p ^ n * ((n.choose j : ℝ) / 2 * |ellRho a b| ^ min j (n - j) *
      (1 + |ellRho a b| ^ (max j (n - j) - min j (n - j)))))
    (f := fun j θ => c * (p : ℂ) ^ n * ((n.choose j : ℂ) / 2 * (ellRho a b : ℂ) ^ min j (n - j)) *
      ellMode (ellRho a b) (max j (n - j) - min j (n - j)) θ) fun j hj => ?_).mono ?_ ?_
  · have hj := mem_range.1 hj
    refine (ModeSum.single (ellRho a b) (d := d) (m := max j (n - j) - min j (n - j)) (by omega) _).mono (le_of_eq ?_) fun θ => rfl
    rw [norm_mul, norm_mul, norm_pow, norm_mul, norm_div, norm_pow, Complex.norm_real, Complex.norm_real, Complex.norm_natCast,
      Real.norm_eq_abs, Real.norm_eq_abs, abs_of_nonneg hp0]
    norm_num
    ring
  · rw [← mul_sum]
    have := pair_pow (1 : ℝ) |ellRho a b| n
    simp only [one_mul, one_pow] at this
    rw [← this, hmax, mul_pow]
    exact le_of_eq (by ring)
  · intro θ
    rw [hz, mul_pow, pair_pow, hxy, mul_sum, mul_sum]
    refine sum_congr rfl fun j _ => ?_
    unfold ellMode
    ring

open Polynomial in
/-- polynomials on an ellipse -/
theorem ellipse_poly {a b : ℝ} (ha : 0 < a) (hb : 0 < b) (Q : ℂ[X]) :
    ModeSum (ellRho a b) Q.natDegree (coeffSum Q (max a b)) fun θ => Q.eval (⟨a * Real.cos θ, b * Real.sin θ⟩ : ℂ) := by
  refine (ModeSum.sum (range (Q.natDegree + 1)) (fun k hk => ellipse_pow ha hb (d := Q.natDegree) (n := k)
    (by have := mem_range.1 hk; omega) (Q.coeff k))).mono le_rfl fun θ => ?_
  rw [eval_eq_sum_range]

/-- real and imaginary part of a sum of modes -/
theorem mode_parts (ρ : ℝ) (α : ℕ → ℂ) (d : ℕ) (θ : ℝ) :
    (∑ m ∈ range (d + 1), α m * ellMode ρ m θ).re =
      trig (fun k => (α k).re * (1 + ρ ^ k)) (fun k => -((α k).im * (1 - ρ ^ k))) (d + 1) (2 * Real.pi) θ ∧
    (∑ m ∈ range (d + 1), α m * ellMode ρ m θ).im =
      trig (fun k => (α k).im * (1 + ρ ^ k)) (fun k => (α k).re * (1 - ρ ^ k)) (d + 1) (2 * Real.pi) θ := by
  rw [trig_eq, trig_eq, Complex.re_sum, Complex.im_sum]
  refine ⟨sum_congr rfl fun k _ => ?_, sum_congr rfl fun k _ => ?_⟩ <;> rw [ellMode_eq]
  · rw [Complex.mul_re]; ring
  · rw [Complex.mul_im]; ring

/-! ### errors of the modes -/

/-- the error of the computed factors of one mode -/
theorem mode_error {a b : ℝ} (ha : 0 < a) (hb : 0 < b) {N k : ℕ} (hN : 4 * flatness a b ^ (N - 1) ≤ 1 - flatness a b) (h1 : 1 ≤ k)
    (hk : 2 * k < N) :
    |(1 - ellRho a b ^ k) * (1 - k * logCoef a b N k) / (1 - kerCoef a b N k) - (1 + ellRho a b ^ k)| ≤
      6 * (flatness a b ^ (N - k) / (1 - flatness a b) ^ 2) * (1 + flatness a b ^ k) ∧
    |(1 + ellRho a b ^ k) * (1 + k * logCoef a b N k) / (1 + kerCoef a b N k) - (1 - ellRho a b ^ k)| ≤
      6 * (flatness a b ^ (N - k) / (1 - flatness a b) ^ 2) * (1 + flatness a b ^ k) := by
  have hρ := ellRho_lt ha hb
  rw [← ellRho_abs ha hb] at hN ⊢
  have hcb := abs_le.1 (coef_bound (k := k) hN hρ h1 (by omega))
  have hker : kerCoef a b N k = _ := poisson_coef hρ h1 (show k < N by omega)
  have hlog : |k * logCoef a b N k + ellRho a b ^ k| ≤ _ := log_coef hρ h1 hk
  change -(1 - (1 - |ellRho a b|) / 2) ≤ kerCoef a b N k ∧ kerCoef a b N k ≤ 1 - (1 - |ellRho a b|) / 2 at hcb
  have hpos := one_sub_pow_pos hρ (N := N) (by omega)
  generalize kerCoef a b N k = F at *
  generalize logCoef a b N k = L at *
  generalize ellRho a b = ρ at *
  set r := |ρ| with hr
  have hr0 : 0 ≤ r := abs_nonneg _
  have hr1 : 0 < 1 - r := by linarith
  set ε := k * L + ρ ^ k with hε
  set δ := F - ρ ^ k with hδ
  set e := r ^ (N - k) / (1 - r) with he
  have he0 : 0 ≤ e := by positivity
  have hle : 1 - r ≤ 1 - ρ ^ N := by
    have h2 := le_abs_self (ρ ^ N)
    rw [abs_pow] at h2
    have h3 : r ^ N ≤ r ^ 1 := pow_le_pow_of_le_one hr0 hρ.le (by omega)
    rw [pow_one] at h3
    linarith
  have hδb : |δ| ≤ 2 * e := by
    have e1 : δ = (ρ ^ (N - k) + ρ ^ (N + k)) / (1 - ρ ^ N) := by
      rw [hδ, hker]
      field_simp
      ring
    rw [e1, abs_div, abs_of_pos hpos]
    calc |ρ ^ (N - k) + ρ ^ (N + k)| / (1 - ρ ^ N) ≤ (r ^ (N - k) + r ^ (N - k)) / (1 - r) := by
          gcongr
          refine (abs_add_le _ _).trans ?_
          rw [abs_pow, abs_pow]
          gcongr 1
          exact pow_le_pow_of_le_one hr0 hρ.le (by omega)
      _ = 2 * e := by rw [he]; ring
  have hpk : |ρ ^ k| = r ^ k := abs_pow _ _
  have hq1 : |1 - ρ ^ k| ≤ 1 + r ^ k := by
    refine (abs_sub _ _).trans ?_
    rw [hpk, abs_one]
  have hq2 : |1 + ρ ^ k| ≤ 1 + r ^ k := by
    refine (abs_add_le _ _).trans ?_
    rw [hpk, abs_one]
  have hw : 0 ≤ 1 + r ^ k := by positivity
  have fin : ∀ X Y D : ℝ, (1 - r) / 2 ≤ D → |X| ≤ (1 + r ^ k) * e → |Y| ≤ (1 + r ^ k) * (2 * e) →
      |(X + Y) / D| ≤ 6 * (r ^ (N - k) / (1 - r) ^ 2) * (1 + r ^ k) := by
    intro X Y D hD hX hY
    have hD0 : 0 < (1 - r) / 2 := by positivity
    rw [abs_div, abs_of_pos (hD0.trans_le hD)]
    calc |X + Y| / D ≤ ((1 + r ^ k) * (3 * e)) / ((1 - r) / 2) := by
          gcongr
          exact (abs_add_le _ _).trans (by linarith)
      _ = _ := by rw [he]; field_simp; ring
  constructor
  · have n1 : 1 - F ≠ 0 := by intro h; linarith
    have e1 : (1 - ρ ^ k) * (1 - k * L) / (1 - F) - (1 + ρ ^ k) = (-((1 - ρ ^ k) * ε) + (1 + ρ ^ k) * δ) / (1 - F) := by
      rw [hε, hδ]
      field_simp
      ring
    rw [e1]
    refine fin _ _ _ (by linarith) ?_ ?_
    · rw [abs_neg, abs_mul]
      gcongr
    · rw [abs_mul]
      gcongr
  · have n1 : 1 + F ≠ 0 := by intro h; linarith
    have e1 : (1 + ρ ^ k) * (1 + k * L) / (1 + F) - (1 - ρ ^ k) = ((1 + ρ ^ k) * ε + -((1 - ρ ^ k) * δ)) / (1 + F) := by
      rw [hε, hδ]
      field_simp
      ring
    rw [e1]
    refine fin _ _ _ (by linarith) ?_ ?_
    · rw [abs_mul]
      gcongr
    · rw [abs_neg, abs_mul]
      gcongr

theorem cos_sin_le (A B t x y e : ℝ) (hx : |x| ≤ e) (hy : |y| ≤ e) : |A * x * Real.cos t + B * y * Real.sin t| ≤ Real.sqrt (A ^ 2 + B ^ 2) * e := by
  have he : 0 ≤ e := (abs_nonneg _).trans hx
  have h1 : |A| * |Real.cos t| + |B| * |Real.sin t| ≤ Real.sqrt (A ^ 2 + B ^ 2) := by
    apply Real.le_sqrt_of_sq_le
    have := Real.sin_sq_add_cos_sq t
    rw [← sq_abs A, ← sq_abs B]
    rw [← sq_abs (Real.sin t), ← sq_abs (Real.cos t)] at this
    nlinarith [sq_nonneg (|A| * |Real.sin t| - |B| * |Real.cos t|)]
  calc |A * x * Real.cos t + B * y * Real.sin t| ≤ |A| * |x| * |Real.cos t| + |B| * |y| * |Real.sin t| := by
        refine (abs_add_le _ _).trans ?_
        rw [abs_mul, abs_mul, abs_mul, abs_mul]
    _ ≤ |A| * e * |Real.cos t| + |B| * e * |Real.sin t| := by gcongr
    _ = (|A| * |Real.cos t| + |B| * |Real.sin t|) * e := by ring
    _ ≤ _ := by gcongr

end PFEM
