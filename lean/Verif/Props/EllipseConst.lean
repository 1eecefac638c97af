import Verif.Props.EllipseFlux

/-!
On an ellipse the conjugates that are computed are bounded by a constant that does not depend on the number of samples.
-/

namespace PFEM
open Nystrom Antilap Finset Polynomial

theorem eval_norm_le (Q : ℂ[X]) {z : ℂ} {R : ℝ} (hz : ‖z‖ ≤ R) : ‖Q.eval z‖ ≤ coeffSum Q R := by
  rw [eval_eq_sum_range, coeffSum]
  refine (norm_sum_le _ _).trans (sum_le_sum fun k _ => ?_)
  rw [norm_mul, norm_pow]
  gcongr

theorem ellipse_norm {a b : ℝ} (ha : 0 < a) (hb : 0 < b) (t : ℝ) : ‖(⟨a * Real.cos t, b * Real.sin t⟩ : ℂ)‖ ≤ max a b := by
  have hm : 0 < max a b := lt_of_lt_of_le ha (le_max_left _ _)
  rw [Complex.norm_def, Real.sqrt_le_left hm.le, Complex.normSq_apply]
  have h1 := Real.sin_sq_add_cos_sq t
  have h2 : a ^ 2 ≤ max a b ^ 2 := pow_le_pow_left₀ ha.le (le_max_left _ _) 2
  have h3 : b ^ 2 ≤ max a b ^ 2 := pow_le_pow_left₀ hb.le (le_max_right _ _) 2
  nlinarith [sq_nonneg (Real.sin t), sq_nonneg (Real.cos t)]

theorem kerCoef_zero_le {a b : ℝ} (ha : 0 < a) (hb : 0 < b) {N : ℕ} (hN : 0 < N) : |kerCoef a b N 0| ≤ 1 / (1 - flatness a b) ^ 2 := by
  have hr := ellRho_abs ha hb
  have hf1 := flatness_lt ha hb
  have hf0 := flatness_nonneg ha hb
  have hN' : (0 : ℝ) < N := by exact_mod_cast hN
  have key : ∀ φ, |poissonKer (ellRho a b) φ| ≤ 1 / (1 - flatness a b) ^ 2 := by
    intro φ
    have hp := poissonDen_pos (ellRho_lt ha hb) φ
    have hsq : ellRho a b ^ 2 = flatness a b ^ 2 := by rw [← hr, sq_abs]
    have hd : (1 - flatness a b) ^ 2 ≤ poissonDen (ellRho a b) φ := by
      have h1 : ellRho a b * Real.cos φ ≤ flatness a b := by
        refine (le_abs_self _).trans ?_
        rw [abs_mul, hr]
        have := Real.abs_cos_le_one φ
        nlinarith [abs_nonneg (Real.cos φ)]
      rw [poissonDen, hsq]
      nlinarith
    rw [poissonKer, abs_div, abs_of_pos hp]
    have h2 : |1 - ellRho a b ^ 2| ≤ 1 := by
      rw [hsq, abs_le]
      constructor <;> nlinarith
    have h3 : 0 < (1 - flatness a b) ^ 2 := by
      have : 0 < 1 - flatness a b := by linarith
      positivity
    exact div_le_div₀ zero_le_one h2 h3 hd
  rw [kerCoef, gridCoef, abs_div, abs_of_pos hN', div_le_iff₀ hN']
  refine (abs_sum_le_sum_abs _ _).trans ?_
  refine (sum_le_sum (g := fun _ => 1 / (1 - flatness a b) ^ 2) fun j _ => ?_).trans ?_
  · simpa using key (gridPt N j)
  · rw [sum_const, card_range, nsmul_eq_mul]
    linarith

theorem perimeter_ge {a b : ℝ} (ha : 0 < a) (hb : 0 < b) {N : ℕ} (hN : 0 < N) : 2 * Real.pi * min a b ≤ ∑ j ∈ range N, ellWeight a b N j := by
  have hN' : (0 : ℝ) < N := by exact_mod_cast hN
  have hpi := Real.pi_pos
  have h1 : ∀ j ∈ range N, 2 * Real.pi / N * min a b ≤ ellWeight a b N j := by
    intro j _
    rw [ellWeight]
    refine mul_le_mul_of_nonneg_left ?_ (by positivity)
    simp only [ellipseSample]
    refine Real.le_sqrt_of_sq_le ?_
    have h1 := Real.sin_sq_add_cos_sq (2 * Real.pi * j / N)
    have hm : 0 < min a b := lt_min ha hb
    have h2 : min a b ^ 2 ≤ a ^ 2 := pow_le_pow_left₀ hm.le (min_le_left _ _) 2
    have h3 : min a b ^ 2 ≤ b ^ 2 := pow_le_pow_left₀ hm.le (min_le_right _ _) 2
    nlinarith [sq_nonneg (Real.sin (2 * Real.pi * j / N)), sq_nonneg (Real.cos (2 * Real.pi * j / N))]
  refine le_trans (le_of_eq ?_) (sum_le_sum h1)
  rw [sum_const, card_range, nsmul_eq_mul]
  field_simp

/-- the mean of a computed conjugate on the grid -/
theorem ellConj_mean {a b : ℝ} {N : ℕ} (hN : 0 < N) (A B : ℕ → ℝ) {M : ℕ} (hM : ∀ k < M, 2 * k < N) :
    ∑ j ∈ range N, ellConj a b N A B M (gridPt N j) = 0 := by
  unfold ellConj gridPt
  rw [trig_mean hN hM]
  simp

/-- the bound of the error for all numbers of samples -/
theorem ellErr_le {a b : ℝ} (ha : 0 < a) (hb : 0 < b) (N d : ℕ) {S : ℝ} (hS : 0 ≤ S) : ellErr a b N d S ≤ 6 * S * (1 / (1 - flatness a b) ^ 2) := by
  have hf1 := flatness_lt ha hb
  have hf0 := flatness_nonneg ha hb
  rw [ellErr]
  have : flatness a b ^ (N - d) ≤ 1 := pow_le_one₀ hf0 hf1.le
  gcongr

theorem coeffSum_nonneg (Q : ℂ[X]) {R : ℝ} (hR : 0 ≤ R) : 0 ≤ coeffSum Q R := sum_nonneg fun _ _ => by positivity

/-- the conjugates that are computed for the real part of a polynomial are near its imaginary part plus a constant, and the constants are
bounded -/
theorem ellipse_conj_bounded {a b : ℝ} (ha : 0 < a) (hb : 0 < b) (Q : ℂ[X]) : ∃ C : ℝ, ∀ (gmres : Gmres) (K : CellG) (x0 y0 : ℝ) (n : ℕ)
    (strategy pc : String) (s : Solver), Exact gmres → Finds gmres → K.IsEllipse x0 y0 a b (2 * n) → (2 * n : ℕ) / (4 * 10 ^ 6) ≤ min a b →
    4 ≤ n → n ≤ 2 * 10 ^ 7 → 4 * flatness a b ^ (2 * n - 1) ≤ 1 - flatness a b → init gmres K strategy pc = .ok s → Q.natDegree < n →
    ∃ c v, |c| ≤ C ∧ conjugate gmres s (K.samplesOf (rePoly Q x0 y0)) = .ok (v, []) ∧
      Within (ellErr a b (2 * n) Q.natDegree (coeffSum Q (max a b))) v (K.samplesOf fun x y => imPoly Q x0 y0 x y + c) := by
  set S := coeffSum Q (max a b) with hSd
  have hm : 0 < max a b := lt_of_lt_of_le ha (le_max_left _ _)
  have hmin : 0 < min a b := lt_min ha hb
  have hS : 0 ≤ S := coeffSum_nonneg Q hm.le
  have hpi := Real.pi_pos
  have hf1 := flatness_lt ha hb
  set κ := 1 / (1 - flatness a b) ^ 2 with hκ
  have hκ0 : 0 ≤ κ := by positivity
  set e0 := 6 * S * κ with he0
  have he0' : 0 ≤ e0 := by positivity
  set V := 2 * (S + e0) with hV
  have hV0 : 0 ≤ V := by positivity
  refine ⟨(S + e0) + (V * ((1 + κ) / 2) / (2 * Real.pi * min a b) + V), fun gmres K x0 y0 n strategy pc s hx hf h hab h4 hn hN hs hQ => ?_⟩
  obtain ⟨A, B, k0, h1, h2, -⟩ := ellipse_conj_error ha hb hN Q (by omega)
  obtain ⟨c, hcc, hc⟩ := ellipse_conjugate_const hx hf h ha hb hab h4 hn hN hs A B (M := Q.natDegree + 1) (by omega)
  rw [show trig A B (Q.natDegree + 1) (2 * Real.pi) = _ from funext fun t => (h1 t).symm, ← ellipse_samples h] at hc
  have hNp : 0 < 2 * n := by omega
  have hNr : (0 : ℝ) < (2 * n : ℕ) := by exact_mod_cast hNp
  set N := 2 * n with hNdef
  have herr : ∀ t, |ellConj a b N A B (Q.natDegree + 1) t - ((Q.eval (⟨a * Real.cos t, b * Real.sin t⟩ : ℂ)).im + k0)| ≤ e0 :=
    fun t => (h2 t).trans (ellErr_le ha hb _ _ hS)
  have him : ∀ t, |(Q.eval (⟨a * Real.cos t, b * Real.sin t⟩ : ℂ)).im| ≤ S := fun t =>
    (Complex.abs_im_le_norm _).trans (eval_norm_le Q (ellipse_norm ha hb t))
  have hmean := ellConj_mean (a := a) (b := b) hNp A B (M := Q.natDegree + 1) (by omega)
  have hk0 : |k0| ≤ S + e0 := by
    have e1 : (N : ℝ) * k0 = -∑ j ∈ range N, (ellConj a b N A B (Q.natDegree + 1) (gridPt N j) -
        ((Q.eval (⟨a * Real.cos (gridPt N j), b * Real.sin (gridPt N j)⟩ : ℂ)).im + k0) +
        (Q.eval (⟨a * Real.cos (gridPt N j), b * Real.sin (gridPt N j)⟩ : ℂ)).im) := by
      have : ∀ j ∈ range N, ellConj a b N A B (Q.natDegree + 1) (gridPt N j) -
        ((Q.eval (⟨a * Real.cos (gridPt N j), b * Real.sin (gridPt N j)⟩ : ℂ)).im + k0) +
        (Q.eval (⟨a * Real.cos (gridPt N j), b * Real.sin (gridPt N j)⟩ : ℂ)).im = ellConj a b N A B (Q.natDegree + 1) (gridPt N j) - k0 :=
        fun j _ => by ring
      rw [sum_congr rfl this, sum_sub_distrib, hmean, sum_const, card_range, nsmul_eq_mul]
      ring
    have e2 : |(N : ℝ) * k0| ≤ N * (S + e0) := by
      rw [e1, abs_neg]
      refine (abs_sum_le_sum_abs _ _).trans ?_
      refine (sum_le_sum (g := fun _ => S + e0) fun j _ => ?_).trans (by rw [sum_const, card_range, nsmul_eq_mul])
      have := (abs_add_le _ _).trans (add_le_add (herr (gridPt N j)) (him (gridPt N j)))
      linarith
    rw [abs_mul, abs_of_pos hNr] at e2
    exact le_of_mul_le_mul_left e2 hNr
  have hv : ∀ t, |ellConj a b N A B (Q.natDegree + 1) t| ≤ V := by
    intro t
    have h1 := abs_le.1 (herr t)
    have h2 := abs_le.1 (him t)
    have h3 := abs_le.1 hk0
    rw [abs_le]
    constructor <;> linarith
  have hL := perimeter_ge ha hb hNp
  have hLp : 0 < ∑ j ∈ range N, ellWeight a b N j := lt_of_lt_of_le (by positivity) hL
  have hsum : |∑ j ∈ range N, ellConj a b N A B (Q.natDegree + 1) (gridPt N j) * ellWeight a b N j| ≤ V * ∑ j ∈ range N, ellWeight a b N j := by
    rw [mul_sum]
    refine (abs_sum_le_sum_abs _ _).trans (sum_le_sum fun j _ => ?_)
    rw [abs_mul, abs_of_pos (ellWeight_pos ha hb hNp j)]
    exact mul_le_mul_of_nonneg_right (hv _) (ellWeight_pos ha hb hNp j).le
  generalize ∑ j ∈ range N, ellConj a b N A B (Q.natDegree + 1) (gridPt N j) * ellWeight a b N j = I at hcc hsum
  generalize (∑ j ∈ range N, ellWeight a b N j) = L at hcc hsum hL hLp
  have hker := kerCoef_zero_le ha hb hNp
  have hcb : |c| ≤ V * ((1 + κ) / 2) / (2 * Real.pi * min a b) + V := by
    have e1 : |c| * L ≤ V * ((1 + κ) / 2) + V * L := by
      rw [← abs_of_pos hLp, ← abs_mul, abs_of_pos hLp, hcc]
      refine (abs_sub _ _).trans (add_le_add ?_ hsum)
      rw [mul_div_assoc]
      refine abs_mul_le' (hv _) ?_
      rw [abs_div, abs_of_pos (by norm_num : (0 : ℝ) < 2)]
      have := (abs_sub (1 : ℝ) (kerCoef a b N 0)).trans (add_le_add (le_of_eq (abs_one)) hker)
      linarith
    have e2 : V * ((1 + κ) / 2) / L ≤ V * ((1 + κ) / 2) / (2 * Real.pi * min a b) := by
      gcongr
    have e3 : |c| ≤ V * ((1 + κ) / 2) / L + V := by
      rw [div_add' _ _ _ hLp.ne', le_div_iff₀ hLp]
      exact e1
    linarith
  refine ⟨k0 + c, _, (abs_add_le _ _).trans (add_le_add hk0 hcb), hc, ?_⟩
  rw [CellG.samplesOf, h.cols, List.map_map, samples, within_range]
  intro j _
  have hθ : (j : ℝ) * (2 * Real.pi) / N = 2 * Real.pi * j / N := by ring
  have := h2 (2 * Real.pi * j / N)
  simp only [Function.comp_apply, imPoly, ellipseSample, add_sub_cancel_left, hθ]
  convert this using 2
  ring

end PFEM
