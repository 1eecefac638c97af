import Verif.Props.AnnulusRhs

/-!
Modes of the linear system on a ring: consistency and stability.
-/

namespace PFEM
open Nystrom Antilap Finset Polynomial

theorem RingSystem.sub {N : ℕ} {P : ℕ → ℕ → ℝ} {δ a b : ℝ} {U V c1 c2 r1 r2 U' V' c1' c2' r1' r2' : ℕ → ℝ}
    (h : RingSystem N P δ a b U V c1 c2 r1 r2) (h' : RingSystem N P δ a b U' V' c1' c2' r1' r2') :
    RingSystem N P δ a b (fun i => U i - U' i) (fun i => V i - V' i) (fun i => c1 i - c1' i) (fun i => c2 i - c2' i)
      (fun i => r1 i - r1' i) (fun i => r2 i - r2' i) := by
  constructor
  · intro i hi
    have e1 := h.outer i hi
    have e2 := h'.outer i hi
    simp only [mul_sub, sum_sub_distrib]
    rw [← e1, ← e2]
    ring
  · intro i hi
    have e1 := h.inner i hi
    have e2 := h'.inner i hi
    simp only [mul_sub, sum_sub_distrib]
    rw [← e1, ← e2]
    ring

theorem ringDelta_bounds {a b : ℝ} (ha : 0 < a) (hab : a < b) {N : ℕ} (hN : 0 < N) :
    0 ≤ ringDelta a b N ∧ ringDelta a b N ≤ 2 * (a / b) ^ N / (1 - a / b) := by
  obtain ⟨h0, h1, -⟩ := ring_ratio ha hab
  unfold ringDelta
  generalize a / b = r at *
  have hr : r ^ N ≤ r := by
    calc r ^ N ≤ r ^ 1 := pow_le_pow_of_le_one h0.le h1.le hN
      _ = r := pow_one r
  have h2 : 0 < 1 - r := by linarith
  have h3 : 0 < 1 - r ^ N := by linarith
  exact ⟨by positivity, by gcongr⟩

/-- stability: if the number of samples is not too small, solutions are bounded by the right-hand side -/
theorem ring_bound {a b : ℝ} (ha : 0 < a) (hab : a < b) {N : ℕ} (hN : 0 < N) (hs : 4 * ringConst a b * (a / b) ^ N ≤ 1)
    {U V c1 c2 r1 r2 : ℕ → ℝ} (h : RingSystem N (ringKer a b N) (ringDelta a b N) a b U V c1 c2 r1 r2)
    (hc : ∀ m, (∀ i < N, |U i| ≤ m ∧ |V i| ≤ m) → ∀ i < N, |c1 i| ≤ m ∧ |c2 i| ≤ m) {ε : ℝ} (hr : ∀ i < N, |r1 i| ≤ ε ∧ |r2 i| ≤ ε) :
    ∀ i < N, |U i| ≤ ringConst a b * ε ∧ |V i| ≤ ringConst a b * ε := by
  obtain ⟨h0, h1, -⟩ := ring_ratio ha hab
  have hb : 0 < b := ha.trans hab
  have hpi := Real.two_le_pi
  have hε : 0 ≤ ε := (abs_nonneg _).trans (hr 0 hN).1
  set q := (1 - a / b) / (1 + a / b) with hq
  set δ := ringDelta a b N with hδ
  have hδ0 : 0 ≤ δ := (ringDelta_bounds ha hab hN).1
  have hC : 40 / (1 - a / b) ≤ ringConst a b := by
    unfold ringConst
    have : 0 < 1 / (a + b) := by positivity
    linarith
  have h2 : 0 < 1 - a / b := by linarith
  have hCpos : 0 < ringConst a b := lt_of_lt_of_le (by positivity) hC
  have hp0 : 0 < (a / b) ^ N := by positivity
  have hp1 : (a / b) ^ N ≤ (1 - a / b) / 160 := by
    have : 40 / (1 - a / b) * (a / b) ^ N ≤ ringConst a b * (a / b) ^ N := mul_le_mul_of_nonneg_right hC hp0.le
    have h5 : 160 / (1 - a / b) * (a / b) ^ N ≤ 1 := by
      have e : 160 / (1 - a / b) * (a / b) ^ N = 4 * (40 / (1 - a / b) * (a / b) ^ N) := by ring
      rw [e]; linarith
    rw [le_div_iff₀ (by norm_num)]
    rw [div_mul_eq_mul_div, div_le_one h2] at h5
    linarith
  have hδ1 : δ ≤ 2.02 * (a / b) ^ N := by
    have h3 : 0 < 1 - (a / b) ^ N := by linarith
    rw [hδ, ringDelta, div_le_iff₀ h3]
    have : (a / b) ^ N ≤ 1 / 160 := by linarith
    nlinarith
  have hqge : (1 - a / b) / 2 ≤ q := by
    rw [hq]
    gcongr
    linarith
  have hqlt : q ≤ 1 := by
    rw [hq, div_le_one (by linarith)]
    linarith
  have hqδ : 0.48 * (1 - a / b) ≤ q - δ := by linarith
  have hqδ0 : 0 < q - δ := lt_of_lt_of_le (by positivity) hqδ
  obtain ⟨k, hk, hmax⟩ := Finset.exists_max_image (range N) (fun i => max |U i| |V i|) ⟨0, mem_range.2 hN⟩
  set m := max |U k| |V k| with hm
  have hUm : ∀ i < N, |U i| ≤ m ∧ |V i| ≤ m := fun i hi =>
    ⟨(le_max_left _ _).trans (hmax i (mem_range.2 hi)), (le_max_right _ _).trans (hmax i (mem_range.2 hi))⟩
  have hst := ring_stable hN hδ0 ha hb (by linarith) (by linarith) (fun i _ j _ => ringKer_ge ha hab N i j) (fun i _ => ringKer_sum ha hab hN i)
    (fun j _ => by rw [← ringKer_sum ha hab hN j]; exact sum_congr rfl fun i _ => ringKer_symm a b N i j) h (m := m) (ε := ε)
    (fun i hi => (hUm i hi).1) (fun i hi => (hUm i hi).2)
    (fun i hi => (hc m hUm i hi).1) (fun i hi => (hc m hUm i hi).2) (fun i hi => (hr i hi).1) (fun i hi => (hr i hi).2)
  rw [← hq] at hst
  set C := 8 / (q - δ) + 2 + 1 / (2 * Real.pi * (a + b)) with hCdef
  have hC2 : 2 * C ≤ ringConst a b := by
    have c1 : 8 / (q - δ) ≤ 17 / (1 - a / b) := by
      rw [div_le_div_iff₀ hqδ0 h2]
      linarith
    have c2 : 2 ≤ 2 / (1 - a / b) := by
      rw [le_div_iff₀ h2]
      linarith
    have c3 : 1 / (2 * Real.pi * (a + b)) ≤ 1 / (2 * (a + b)) := by
      apply one_div_le_one_div_of_le (by positivity)
      nlinarith
    have c4 : 1 / (2 * (a + b)) = 1 / (a + b) / 2 := by field_simp
    have c5 : 40 / (1 - a / b) = 2 * (17 / (1 - a / b)) + 2 * (2 / (1 - a / b)) + 2 * (1 / (1 - a / b)) := by ring
    have c6 : 0 < 1 / (1 - a / b) := by positivity
    rw [hCdef, ringConst, c5]
    linarith
  have hC0 : 0 < C := by positivity
  have hCδ : C * δ ≤ 1 / 2 := by
    calc C * δ ≤ ringConst a b / 2 * (2.02 * (a / b) ^ N) := by
          apply mul_le_mul (by linarith) hδ1 hδ0 (by positivity)
      _ ≤ 1 / 2 := by nlinarith
  have hmle : m ≤ C * (ε + δ * m) := max_le (hst k (mem_range.1 hk)).1 (hst k (mem_range.1 hk)).2
  have hm0 : 0 ≤ m := (abs_nonneg _).trans (le_max_left _ _)
  have hm1 : m ≤ ringConst a b * ε := by
    have e : C * (ε + δ * m) = C * ε + C * δ * m := by ring
    rw [e] at hmle
    have h6 : C * δ * m ≤ 1 / 2 * m := mul_le_mul_of_nonneg_right hCδ hm0
    have h7 : 2 * C * ε ≤ ringConst a b * ε := mul_le_mul_of_nonneg_right hC2 hε
    linarith
  exact fun i hi => ⟨(hUm i hi).1.trans hm1, (hUm i hi).2.trans hm1⟩

/-! ### consistency -/

/-- the size of the terms of degree `k` -/
noncomputable def modeSize (Q R : ℂ[X]) (a b : ℝ) (k : ℕ) : ℝ := ‖Q.coeff k‖ * b ^ k + ‖R.coeff k‖ * a⁻¹ ^ k

theorem mode_le {Q R : ℂ[X]} {a b s σ : ℝ} (ha : 0 < a) (has : a ≤ s) (hsb : s ≤ b) (hσ : |σ| = 1) (k : ℕ) :
    |modeRe Q R σ s k| ≤ modeSize Q R a b k ∧ |modeIm Q R σ s k| ≤ modeSize Q R a b k := by
  have hs : 0 < s := ha.trans_le has
  have h1 : s ^ k ≤ b ^ k := by gcongr
  have h2 : s⁻¹ ^ k ≤ a⁻¹ ^ k := by gcongr
  have key : ∀ x y X Y : ℝ, |x| ≤ X → |y| ≤ Y → |s ^ k * x + σ * (s⁻¹ ^ k * y)| ≤ X * b ^ k + Y * a⁻¹ ^ k := by
    intro x y X Y hx hy
    have p1 : (0 : ℝ) ≤ s ^ k := by positivity
    have p2 : (0 : ℝ) ≤ s⁻¹ ^ k := by positivity
    refine (abs_add_le _ _).trans ?_
    rw [abs_mul, abs_mul, abs_mul, hσ, one_mul, abs_of_nonneg p1, abs_of_nonneg p2, mul_comm X, mul_comm Y]
    have hX := (abs_nonneg x).trans hx
    have hY := (abs_nonneg y).trans hy
    have p3 : (0 : ℝ) ≤ b ^ k := p1.trans h1
    gcongr
  exact ⟨key _ _ _ _ (Complex.abs_re_le_norm _) (Complex.abs_re_le_norm _), key _ _ _ _ (Complex.abs_im_le_norm _) (Complex.abs_im_le_norm _)⟩

theorem modeSize_sum (Q R : ℂ[X]) (a b : ℝ) {M : ℕ} (hQ : Q.natDegree < M) (hR : R.natDegree < M) :
    ∑ k ∈ range M, modeSize Q R a b k = ringSum Q R a b := by
  have key : ∀ (P : ℂ[X]) (r : ℝ), P.natDegree < M → ∑ k ∈ range M, ‖P.coeff k‖ * r ^ k = coeffSum P r := by
    intro P r hP
    symm
    refine sum_subset (fun k hk => mem_range.2 ((mem_range.1 hk).trans_le hP)) fun k _ hk => ?_
    rw [coeff_eq_zero_of_natDegree_lt (by simp only [mem_range] at hk; omega), norm_zero, zero_mul]
  simp only [modeSize, sum_add_distrib, key Q b hQ, key R a⁻¹ hR, ringSum]

theorem modeSize_nonneg {Q R : ℂ[X]} {a b : ℝ} (ha : 0 < a) (hb : 0 < b) (k : ℕ) : 0 ≤ modeSize Q R a b k := by
  unfold modeSize; positivity

/-- the relation between the modes on the two circles -/
theorem mode_rel {a b : ℝ} (ha : 0 < a) (hb : 0 < b) (k : ℕ) : a ^ k = (a / b) ^ k * b ^ k ∧ b⁻¹ ^ k = (a / b) ^ k * a⁻¹ ^ k := by
  constructor <;> rw [← mul_pow] <;> congr 1 <;> field_simp

theorem two_terms {e1 e2 u v w E : ℝ} (h1 : |e1| ≤ 2 * E) (h2 : |e2| ≤ E) (hu : |u| ≤ w) (hv : |v| ≤ w) (s t : ℝ) (hs : |s| = 1) (ht : |t| = 1) :
    |s * (e1 * u) + t * (e2 * v)| ≤ 3 * E * w := by
  refine (abs_add_le _ _).trans ?_
  rw [abs_mul s, abs_mul t, hs, ht, one_mul, one_mul, abs_mul, abs_mul]
  have hE := (abs_nonneg e2).trans h2
  have hw := (abs_nonneg u).trans hu
  have := mul_le_mul h1 hu (abs_nonneg _) (by positivity)
  have := mul_le_mul h2 hv (abs_nonneg _) hE
  linarith

/-- the four coefficients of the residual in mode `k` -/
theorem mode_residual {Q R : ℂ[X]} {a b : ℝ} (ha : 0 < a) (hab : a < b) {N k : ℕ} (h1 : 1 ≤ k) (hk : 2 * k < N) :
    let p := ringKerCoef a b N k
    let l := k * ringLogCoef a b N k
    let E := 3 * ((a / b) ^ (N - k) / (1 - a / b)) * modeSize Q R a b k
    |modeIm Q R 1 b k - p * modeIm Q R 1 a k - modeIm Q R (-1) b k - l * modeIm Q R (-1) a k| ≤ E ∧
    |modeRe Q R (-1) b k - p * modeRe Q R (-1) a k - modeRe Q R 1 b k - l * modeRe Q R 1 a k| ≤ E ∧
    |modeIm Q R 1 a k - p * modeIm Q R 1 b k + modeIm Q R (-1) a k + l * modeIm Q R (-1) b k| ≤ E ∧
    |-modeRe Q R (-1) a k + p * modeRe Q R (-1) b k - modeRe Q R 1 a k - l * modeRe Q R 1 b k| ≤ E := by
  intro p l E
  have hb := ha.trans hab
  have e1 := ringKerCoef_err ha hab h1 hk
  have e2 := ringLogCoef_err ha hab h1 hk
  obtain ⟨r1, r2⟩ := mode_rel ha hb k
  have m := fun (σ s : ℝ) h1 h2 h3 => mode_le (Q := Q) (R := R) (a := a) (b := b) (s := s) (σ := σ) ha h1 h2 h3 k
  have one : |(1 : ℝ)| = 1 := abs_one
  have mone : |(-1 : ℝ)| = 1 := by simp
  have a1 := m 1 a le_rfl hab.le one
  have a2 := m (-1) a le_rfl hab.le mone
  have b1 := m 1 b hab.le le_rfl one
  have b2 := m (-1) b hab.le le_rfl mone
  refine ⟨?_, ?_, ?_, ?_⟩
  · refine le_trans (le_of_eq ?_) (two_terms e1 e2 a1.2 a2.2 (-1) (-1) mone mone)
    congr 1
    simp only [modeIm, r1, r2, p, l]
    ring
  · refine le_trans (le_of_eq ?_) (two_terms e1 e2 a2.1 a1.1 (-1) (-1) mone mone)
    congr 1
    simp only [modeRe, r1, r2, p, l]
    ring
  · refine le_trans (le_of_eq ?_) (two_terms e1 e2 b1.2 b2.2 (-1) 1 mone one)
    congr 1
    simp only [modeIm, r1, r2, p, l]
    ring
  · refine le_trans (le_of_eq ?_) (two_terms e1 e2 b2.1 b1.1 1 (-1) one mone)
    congr 1
    simp only [modeRe, r1, r2, p, l]
    ring

end PFEM
