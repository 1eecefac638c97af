import Verif.Props.AnnulusError

/-!
Data on a ring, their exact conjugates, and how well these solve the discrete system.
-/

namespace PFEM
open Nystrom Antilap Finset Polynomial

/-- coefficients of the data on the outer and on the inner circle -/
noncomputable def dataCos (A : ℝ) (Q R : ℂ[X]) (s : ℝ) (k : ℕ) : ℝ := modeRe Q R 1 s k + if k = 0 then A * Real.log s else 0

/-- coefficients of the conjugate -/
noncomputable def conjCos (Q R : ℂ[X]) (s : ℝ) (k : ℕ) : ℝ := if k = 0 then 0 else modeIm Q R 1 s k

noncomputable def conjSin (Q R : ℂ[X]) (σ s : ℝ) (k : ℕ) : ℝ := if k = 0 then 0 else σ * modeRe Q R (-1) s k

theorem trig_neg (X Y : ℕ → ℝ) (M : ℕ) (t : ℝ) : trig X Y M (2 * Real.pi) (-t) = trig X (fun k => -Y k) M (2 * Real.pi) t := by
  simp only [trig_eq]
  refine sum_congr rfl fun k _ => ?_
  rw [mul_neg, Real.cos_neg, Real.sin_neg]
  ring

theorem ring_values (A : ℝ) (Q R : ℂ[X]) {M : ℕ} (hQ : Q.natDegree < M) (hR : R.natDegree < M) (x0 y0 : ℝ) {s : ℝ} (hs : 0 < s) (θ : ℝ) :
    ringData A Q R x0 y0 (x0 + s * Real.cos θ) (y0 + s * Real.sin θ) =
      trig (dataCos A Q R s) (fun k => -modeIm Q R (-1) s k) M (2 * Real.pi) θ ∧
    ringConj Q R x0 y0 (x0 + s * Real.cos θ) (y0 + s * Real.sin θ) = trig (conjCos Q R s) (conjSin Q R 1 s) M (2 * Real.pi) θ := by
  obtain ⟨h1, h2⟩ := laurent_circle Q R hQ hR x0 y0 hs θ
  have hM : 0 < M := by omega
  have hr : Real.sqrt ((x0 + s * Real.cos θ - x0) ^ 2 + (y0 + s * Real.sin θ - y0) ^ 2) = s := by
    have : (x0 + s * Real.cos θ - x0) ^ 2 + (y0 + s * Real.sin θ - y0) ^ 2 = s ^ 2 := by
      linear_combination s ^ 2 * Real.sin_sq_add_cos_sq θ
    rw [this, Real.sqrt_sq hs.le]
  obtain ⟨m, rfl⟩ : ∃ m, M = m + 1 := ⟨M - 1, by omega⟩
  constructor
  · rw [ringData, h1, hr]
    simp only [trig_eq, sum_range_succ' _ m, dataCos, Nat.succ_ne_zero, if_true, if_false, add_zero, Nat.cast_zero, zero_mul, Real.cos_zero,
      Real.sin_zero, mul_one, mul_zero]
    ring
  · rw [ringConj, h2]
    simp only [trig_eq, sum_range_succ' _ m, conjCos, conjSin, Nat.succ_ne_zero, if_true, if_false, add_zero, Nat.cast_zero, zero_mul, Real.cos_zero,
      Real.sin_zero, mul_one, mul_zero, one_mul, modeIm, pow_zero, Complex.add_im]
    ring

variable {K : CellG} {x0 y0 a b : ℝ}

theorem ring_samplesOf {N : ℕ} (h : K.IsAnnulus x0 y0 a b N) {f : ℝ → ℝ → ℝ} {F G : ℝ → ℝ}
    (h1 : ∀ θ, f (x0 + b * Real.cos θ) (y0 + b * Real.sin θ) = F θ) (h2 : ∀ θ, f (x0 + a * Real.cos θ) (y0 + a * Real.sin θ) = G θ) :
    K.samplesOf f = samples N (2 * Real.pi) F ++ samples N (2 * Real.pi) (fun t => G (-t)) := by
  rw [CellG.samplesOf, h.cols, List.map_append, List.map_map, List.map_map, samples_grid, samples_grid]
  congr 1
  · refine List.map_congr_left fun j _ => ?_
    simp only [Function.comp_apply, circleSample, ← h1]
    rfl
  · refine List.map_congr_left fun j _ => ?_
    simp only [Function.comp_apply, holeSample, ← h2, Real.cos_neg, Real.sin_neg, gridPt]
    congr 1
    ring

theorem ring_data {N : ℕ} (h : K.IsAnnulus x0 y0 a b N) (ha : 0 < a) (hb : 0 < b) (A : ℝ) (Q R : ℂ[X]) {M : ℕ} (hQ : Q.natDegree < M)
    (hR : R.natDegree < M) :
    K.samplesOf (ringData A Q R x0 y0) =
      samples N (2 * Real.pi) (trig (dataCos A Q R b) (fun k => -modeIm Q R (-1) b k) M (2 * Real.pi)) ++
      samples N (2 * Real.pi) (trig (dataCos A Q R a) (modeIm Q R (-1) a) M (2 * Real.pi)) := by
  rw [ring_samplesOf h (fun θ => (ring_values A Q R hQ hR x0 y0 hb θ).1) (fun θ => (ring_values A Q R hQ hR x0 y0 ha θ).1)]
  simp only [trig_neg, neg_neg]

theorem ring_conj {N : ℕ} (h : K.IsAnnulus x0 y0 a b N) (ha : 0 < a) (hb : 0 < b) (Q R : ℂ[X]) {M : ℕ} (hQ : Q.natDegree < M)
    (hR : R.natDegree < M) :
    K.samplesOf (ringConj Q R x0 y0) = samples N (2 * Real.pi) (trig (conjCos Q R b) (conjSin Q R 1 b) M (2 * Real.pi)) ++
      samples N (2 * Real.pi) (trig (conjCos Q R a) (conjSin Q R (-1) a) M (2 * Real.pi)) := by
  rw [ring_samplesOf h (fun θ => (ring_values 0 Q R hQ hR x0 y0 hb θ).2) (fun θ => (ring_values 0 Q R hQ hR x0 y0 ha θ).2)]
  have e : (fun k => -conjSin Q R 1 a k) = conjSin Q R (-1) a := by
    funext k
    simp only [conjSin]
    split <;> ring
  simp only [trig_neg, e]

theorem ringSum_nonneg {Q R : ℂ[X]} (ha : 0 < a) (hb : 0 < b) : 0 ≤ ringSum Q R a b := by
  rw [← modeSize_sum Q R a b (M := max Q.natDegree R.natDegree + 1) (by omega) (by omega)]
  exact sum_nonneg fun k _ => modeSize_nonneg ha hb k

/-- sums of small coefficients -/
theorem mode_sum {Q R : ℂ[X]} (ha : 0 < a) (hab : a < b) {N d : ℕ} (hd : 2 * d < N) (hQ : Q.natDegree ≤ d) (hR : R.natDegree ≤ d) {X Y : ℕ → ℝ}
    (hX : X 0 = 0) (hY : Y 0 = 0)
    (h : ∀ k, 1 ≤ k → k ≤ d → |X k| ≤ 3 * ((a / b) ^ (N - k) / (1 - a / b)) * modeSize Q R a b k ∧
      |Y k| ≤ 3 * ((a / b) ^ (N - k) / (1 - a / b)) * modeSize Q R a b k) (t : ℝ) :
    |trig X Y (d + 1) (2 * Real.pi) t| ≤ 6 * ((a / b) ^ (N - d) / (1 - a / b)) * ringSum Q R a b := by
  obtain ⟨h0, h1, -⟩ := ring_ratio ha hab
  have h2 : 0 < 1 - a / b := by linarith
  refine (trig_le _ _ _ _).trans ?_
  rw [← modeSize_sum Q R a b (M := d + 1) (by omega) (by omega), mul_sum]
  refine sum_le_sum fun k hk => ?_
  have hk : k ≤ d := by have := mem_range.1 hk; omega
  have hm := modeSize_nonneg (Q := Q) (R := R) ha (ha.trans hab) k
  rcases Nat.eq_zero_or_pos k with rfl | hk1
  · rw [hX, hY, abs_zero, add_zero]
    positivity
  · obtain ⟨e1, e2⟩ := h k hk1 hk
    have hp : (a / b) ^ (N - k) ≤ (a / b) ^ (N - d) := pow_le_pow_of_le_one h0.le h1.le (by omega)
    have : 3 * ((a / b) ^ (N - k) / (1 - a / b)) * modeSize Q R a b k ≤ 3 * ((a / b) ^ (N - d) / (1 - a / b)) * modeSize Q R a b k := by gcongr
    linarith

/-- exact conjugates are bounded -/
theorem conj_le {Q R : ℂ[X]} (ha : 0 < a) (hab : a < b) {d : ℕ} (hQ : Q.natDegree ≤ d) (hR : R.natDegree ≤ d) {σ s : ℝ} (hσ : |σ| = 1)
    (h1 : a ≤ s) (h2 : s ≤ b) (t : ℝ) : |trig (conjCos Q R s) (conjSin Q R σ s) (d + 1) (2 * Real.pi) t| ≤ 2 * ringSum Q R a b := by
  refine (trig_le _ _ _ _).trans ?_
  rw [← modeSize_sum Q R a b (M := d + 1) (by omega) (by omega), mul_sum]
  refine sum_le_sum fun k _ => ?_
  have hm := modeSize_nonneg (Q := Q) (R := R) ha (ha.trans hab) k
  have m1 := (mode_le (Q := Q) (R := R) ha h1 h2 (σ := 1) abs_one k).2
  have m2 := (mode_le (Q := Q) (R := R) ha h1 h2 (σ := -1) (by simp) k).1
  unfold conjCos conjSin
  split
  · simp; linarith
  · rw [abs_mul, hσ, one_mul]
    linarith

theorem ring_small (ha : 0 < a) (hab : a < b) {N : ℕ} (hs : 4 * ringConst a b * (a / b) ^ N ≤ 1) : (a / b) ^ N ≤ (1 - a / b) / 160 := by
  obtain ⟨h0, h1, -⟩ := ring_ratio ha hab
  have hb := ha.trans hab
  have h2 : 0 < 1 - a / b := by linarith
  have hC : 40 / (1 - a / b) ≤ ringConst a b := by
    unfold ringConst
    have : 0 < 1 / (a + b) := by positivity
    linarith
  have hp0 : 0 < (a / b) ^ N := by positivity
  have : 40 / (1 - a / b) * (a / b) ^ N ≤ ringConst a b * (a / b) ^ N := mul_le_mul_of_nonneg_right hC hp0.le
  have h5 : 160 / (1 - a / b) * (a / b) ^ N ≤ 1 := by
    have e : 160 / (1 - a / b) * (a / b) ^ N = 4 * (40 / (1 - a / b) * (a / b) ^ N) := by ring
    rw [e]; linarith
  rw [le_div_iff₀ (by norm_num)]
  rw [div_mul_eq_mul_div, div_le_one h2] at h5
  linarith

/-- rows of functions with mean zero are bounded -/
theorem ring_row_le (ha : 0 < a) (hab : a < b) {N : ℕ} (hN : 0 < N) (hs : 4 * ringConst a b * (a / b) ^ N ≤ 1) {U V c1 c2 r1 r2 : ℕ → ℝ}
    (h : RingSystem N (ringKer a b N) (ringDelta a b N) a b U V c1 c2 r1 r2) {m : ℝ} (hU : ∑ j ∈ range N, U j = 0) (hV : ∑ j ∈ range N, V j = 0)
    (hm : ∀ i < N, |U i| ≤ 2 * m ∧ |V i| ≤ 2 * m ∧ |c1 i| ≤ 2 * m ∧ |c2 i| ≤ 2 * m) : ∀ i < N, |r1 i| ≤ 3 * m ∧ |r2 i| ≤ 3 * m := by
  obtain ⟨h0, h1, -⟩ := ring_ratio ha hab
  have h2 : 0 < 1 - a / b := by linarith
  have hN' : (0 : ℝ) < N := by exact_mod_cast hN
  obtain ⟨d0, d1⟩ := ringDelta_bounds ha hab hN
  have hp := ring_small ha hab hs
  have hm0 : 0 ≤ m := by have := (abs_nonneg _).trans (hm 0 hN).1; linarith
  have d2 : ringDelta a b N ≤ 1 / 80 := by
    refine d1.trans ?_
    rw [div_le_iff₀ h2]
    linarith
  have hker : ∀ (W : ℕ → ℝ), (∀ i < N, |W i| ≤ 2 * m) → ∀ i, |(∑ j ∈ range N, ringKer a b N i j * W j) / N| ≤ (1 + 1 / 80) * (2 * m) := by
    intro W hW i
    rw [abs_div, abs_of_pos hN', div_le_iff₀ hN']
    calc |∑ j ∈ range N, ringKer a b N i j * W j| ≤ ∑ j ∈ range N, |ringKer a b N i j * W j| := abs_sum_le_sum_abs _ _
      _ ≤ ∑ j ∈ range N, ringKer a b N i j * (2 * m) := sum_le_sum fun j hj => by
          have hk : 0 ≤ ringKer a b N i j := le_trans (div_nonneg h2.le (by linarith)) (ringKer_ge ha hab N i j)
          rw [abs_mul, abs_of_nonneg hk]
          exact mul_le_mul_of_nonneg_left (hW j (mem_range.1 hj)) hk
      _ = (1 + ringDelta a b N) * (2 * m) * N := by rw [← sum_mul, ringKer_sum ha hab hN]; ring
      _ ≤ (1 + 1 / 80) * (2 * m) * N := by gcongr
  have fin : ∀ u k c : ℝ, |u| ≤ 2 * m → |k| ≤ (1 + 1 / 80) * (2 * m) → |c| ≤ 2 * m → |u / 2 - k / 2 + ringDelta a b N / 2 * c| ≤ 3 * m := by
    intro u k c hu hk hc
    have : |ringDelta a b N / 2 * c| ≤ 1 / 80 / 2 * (2 * m) := by
      rw [abs_mul, abs_of_nonneg (by positivity)]
      gcongr
    rw [abs_le] at *
    constructor <;> linarith [hu.1, hu.2, hk.1, hk.2, this.1, this.2]
  intro i hi
  obtain ⟨m1, m2, m3, m4⟩ := hm i hi
  have e1 := h.outer i hi
  have e2 := h.inner i hi
  rw [hU, hV] at e1 e2
  simp only [zero_div, mul_zero, add_zero, sub_zero] at e1 e2
  rw [← e1, ← e2]
  exact ⟨fin _ _ _ m1 (hker V (fun j hj => (hm j hj).2.1) i) m3, fin _ _ _ m2 (hker U (fun j hj => (hm j hj).1) i) m4⟩

variable {n : ℕ}

/-- entries at the vertices of the cell are entries at the first samples of the circles -/
theorem CellG.IsAnnulus.vertex (h : K.IsAnnulus x0 y0 a b (2 * n)) (h4 : 4 ≤ n) (u : List ℝ) {m : ℝ}
    (hu : ∀ i < 2 * n, |vec u i| ≤ m ∧ |vec u (2 * n + i)| ≤ m) {i : ℕ} (hi : i < 2 * (2 * n)) : |vec u (K.closest.getD i 0)| ≤ m := by
  have hl : i < K.closest.length := by rw [h.vertices.1]; exact hi
  rw [List.getD_eq_getElem _ _ hl]
  rcases h.vertices.2 _ (List.getElem_mem hl) with e | e <;> rw [e]
  · exact (hu 0 (by omega)).1
  · exact (hu 0 (by omega)).2

/-- the exact conjugate solves the discrete system up to a small residual, and the right-hand side is bounded -/
theorem ring_consistent (h : K.IsAnnulus x0 y0 a b (2 * n)) (ha : 1 / 10 ^ 14 ≤ a) (hab : a < b) (h4 : 4 ≤ n)
    (hn : n ≤ 2 * 10 ^ 7) {o : Ops} (ho : build K = .ok o) (A : ℝ) (Q R : ℂ[X]) {d : ℕ} (hd : d < n) (hQ : Q.natDegree ≤ d) (hR : R.natDegree ≤ d) :
    ∃ t c y z, wtdFromTrace K (K.samplesOf (ringData A Q R x0 y0)) = .ok t ∧ o.single (t.map (- ·)) = .ok c ∧ c.length = 2 * (2 * n) ∧
      augmented o (logTermsOf o) (K.samplesOf (ringConj Q R x0 y0) ++ [A]) = .ok (y ++ [z]) ∧ y.length = 2 * (2 * n) ∧
      sn K (logTermsOf o).lam (K.samplesOf (ringData A Q R x0 y0)) = .ok [z] ∧ z = A * (2 * Real.pi * (Real.log b - Real.log a)) ∧
      RingSystem (2 * n) (ringKer a b (2 * n)) (ringDelta a b (2 * n)) a b (fun j => vec (K.samplesOf (ringConj Q R x0 y0)) j)
        (fun j => vec (K.samplesOf (ringConj Q R x0 y0)) (2 * n + j)) (fun i => vec (K.samplesOf (ringConj Q R x0 y0)) (K.closest.getD i 0))
        (fun i => vec (K.samplesOf (ringConj Q R x0 y0)) (K.closest.getD (2 * n + i) 0)) (fun i => vec y i) (fun i => vec y (2 * n + i)) ∧
      (4 * ringConst a b * (a / b) ^ (2 * n) ≤ 1 → ∀ i < 2 * n, |vec y i| ≤ 3 * ringSum Q R a b ∧ |vec y (2 * n + i)| ≤ 3 * ringSum Q R a b) ∧
      ∀ i < 2 * n, |vec y i - vec c i| ≤ 5 * ((a / b) ^ (2 * n - d) / (1 - a / b)) * ringSum Q R a b ∧
        |vec y (2 * n + i) - vec c (2 * n + i)| ≤ 5 * ((a / b) ^ (2 * n - d) / (1 - a / b)) * ringSum Q R a b := by
  have ha0 : 0 < a := lt_of_lt_of_le (by positivity) ha
  have hb0 : 0 < b := ha0.trans hab
  obtain ⟨r0, r1, -⟩ := ring_ratio ha0 hab
  have r2 : 0 < 1 - a / b := by linarith
  have hNp : 0 < 2 * n := by omega
  have hM : ∀ k < d + 1, 2 * k < 2 * n := fun k hk => by omega
  have hS := ringSum_nonneg (Q := Q) (R := R) ha0 hb0
  have e1 := ring_data h ha0 hb0 A Q R (M := d + 1) (by omega) (by omega)
  have e2 := ring_conj h ha0 hb0 Q R (M := d + 1) (by omega) (by omega)
  set phi := K.samplesOf (ringData A Q R x0 y0) with hphi
  set psi := K.samplesOf (ringConj Q R x0 y0) with hpsi
  have hpl : psi.length = 2 * (2 * n) := by rw [e2]; simp [samples]; omega
  have hfl : phi.length = 2 * (2 * n) := by rw [e1]; simp [samples]; omega
  have hder := ring_derivative h h4 (dataCos A Q R b) (fun k => -modeIm Q R (-1) b k) (dataCos A Q R a) (modeIm Q R (-1) a) hM
  rw [← e1] at hder
  obtain ⟨c, hc, hcl, hc1, hc2⟩ := ring_rhs h ha hab h4 hn ho (dataCos A Q R b) (fun k => -modeIm Q R (-1) b k) (dataCos A Q R a)
    (modeIm Q R (-1) a) hM rfl
  obtain ⟨y, z, hy, hyl, hsys, hz⟩ := ring_rows h ha hab h4 hn ho hpl A
  obtain ⟨p, hp, hx, hy0⟩ := h.pole
  have hsn : sn K (logTermsOf o).lam phi = .ok [z] := by
    have hK := (build_shape h.ready ho).1
    have : (logTermsOf o).lam = [p].map (lamOf K) := by rw [← hp]; simp only [logTermsOf, hK]
    rw [this, sn_ok h.ready h.edges_ne _ (by rw [hfl, h.numPts]), List.map_singleton, ring_pair h ha0 hb0 hx hy0 hfl, hz]
    have s1 : ∑ j ∈ range (2 * n), vec phi j = (2 * n : ℕ) * dataCos A Q R b 0 := by
      rw [sum_congr rfl fun j hj => by rw [e1, (ring_block _ _ _ (mem_range.1 hj)).1]]
      have := trig_mean hNp hM (dataCos A Q R b) (fun k => -modeIm Q R (-1) b k)
      simpa [gridPt] using this
    have s2 : ∑ j ∈ range (2 * n), vec phi (2 * n + j) = (2 * n : ℕ) * dataCos A Q R a 0 := by
      rw [sum_congr rfl fun j hj => by rw [e1, (ring_block _ _ _ (mem_range.1 hj)).2]]
      have := trig_mean hNp hM (dataCos A Q R a) (modeIm Q R (-1) a)
      simpa [gridPt] using this
    have hN : ((2 * n : ℕ) : ℝ) ≠ 0 := by exact_mod_cast hNp.ne'
    rw [s1, s2, mul_div_cancel_left₀ _ hN, mul_div_cancel_left₀ _ hN]
    simp only [dataCos, if_true, modeRe, pow_zero]
    congr 2
    ring
  refine ⟨_, c, y, z, hder, hc, hcl, hy, hyl, hsn, hz, hsys, ?_⟩
  have zero : ∀ σ s : ℝ, ∑ j ∈ range (2 * n), trig (conjCos Q R s) (conjSin Q R σ s) (d + 1) (2 * Real.pi) (gridPt (2 * n) j) = 0 := by
    intro σ s
    have := trig_mean hNp hM (conjCos Q R s) (conjSin Q R σ s)
    simpa [gridPt, conjCos] using this
  have u1 : ∀ j < 2 * n, vec psi j = trig (conjCos Q R b) (conjSin Q R 1 b) (d + 1) (2 * Real.pi) (gridPt (2 * n) j) :=
    fun j hj => by rw [e2, (ring_block _ _ _ hj).1]
  have u2 : ∀ j < 2 * n, vec psi (2 * n + j) = trig (conjCos Q R a) (conjSin Q R (-1) a) (d + 1) (2 * Real.pi) (gridPt (2 * n) j) :=
    fun j hj => by rw [e2, (ring_block _ _ _ hj).2]
  have k1 : ∑ j ∈ range (2 * n), vec psi j = 0 := by rw [sum_congr rfl fun j hj => u1 j (mem_range.1 hj), zero]
  have k2 : ∑ j ∈ range (2 * n), vec psi (2 * n + j) = 0 := by rw [sum_congr rfl fun j hj => u2 j (mem_range.1 hj), zero]
  have hcor : ∀ i < 2 * (2 * n), |vec psi (K.closest.getD i 0)| ≤ 2 * ringSum Q R a b := by
    intro i hi
    refine h.vertex h4 psi (fun j hj => ⟨?_, ?_⟩) hi
    · rw [u1 j hj]; exact conj_le ha0 hab hQ hR abs_one hab.le le_rfl _
    · rw [u2 j hj]; exact conj_le ha0 hab hQ hR (by simp) le_rfl hab.le _
  have hδ : ∀ c : ℝ, |c| ≤ 2 * ringSum Q R a b → |ringDelta a b (2 * n) / 2 * c| ≤ 2 * ((a / b) ^ (2 * n - d) / (1 - a / b)) * ringSum Q R a b := by
    intro c hc
    obtain ⟨d0, d1⟩ := ringDelta_bounds ha0 hab hNp
    have hp : (a / b) ^ (2 * n) ≤ (a / b) ^ (2 * n - d) := pow_le_pow_of_le_one r0.le r1.le (by omega)
    have d2 : ringDelta a b (2 * n) ≤ 2 * ((a / b) ^ (2 * n - d) / (1 - a / b)) := by
      refine d1.trans ?_
      rw [mul_div_assoc]
      gcongr
    rw [abs_mul, abs_of_nonneg (by positivity)]
    calc ringDelta a b (2 * n) / 2 * |c| ≤ ringDelta a b (2 * n) / 2 * (2 * ringSum Q R a b) := by gcongr
      _ = ringDelta a b (2 * n) * ringSum Q R a b := by ring
      _ ≤ _ := by gcongr
  have fin : ∀ X Y : ℕ → ℝ, X 0 = 0 → Y 0 = 0 →
      (∀ k, 1 ≤ k → k ≤ d → |X k| ≤ 3 * ((a / b) ^ (2 * n - k) / (1 - a / b)) * modeSize Q R a b k ∧
        |Y k| ≤ 3 * ((a / b) ^ (2 * n - k) / (1 - a / b)) * modeSize Q R a b k) → ∀ (t c : ℝ), |c| ≤ 2 * ringSum Q R a b →
      |trig X Y (d + 1) (2 * Real.pi) t / 2 + ringDelta a b (2 * n) / 2 * c| ≤ 5 * ((a / b) ^ (2 * n - d) / (1 - a / b)) * ringSum Q R a b := by
    intro X Y hX hY hXY t c hc
    have f1 := mode_sum ha0 hab (N := 2 * n) (by omega) hQ hR hX hY hXY t
    have f2 := hδ c hc
    refine (abs_add_le _ _).trans ?_
    rw [abs_div, abs_two]
    linarith
  refine ⟨fun hs => ring_row_le ha0 hab hNp hs hsys k1 k2 fun i hi => ⟨?_, ?_, hcor i (by omega), hcor (2 * n + i) (by omega)⟩, fun i hi => ?_⟩
  · simp only [u1 i hi]; exact conj_le ha0 hab hQ hR abs_one hab.le le_rfl _
  · simp only [u2 i hi]; exact conj_le ha0 hab hQ hR (by simp) le_rfl hab.le _
  constructor
  · have row := hsys.outer i hi
    have k3 : (∑ j ∈ range (2 * n), ringKer a b (2 * n) i j * vec psi (2 * n + j)) / (2 * n : ℕ) =
        trig (fun k => ringKerCoef a b (2 * n) k * conjCos Q R a k) (fun k => -(ringKerCoef a b (2 * n) k * conjSin Q R (-1) a k)) (d + 1)
          (2 * Real.pi) (gridPt (2 * n) i) := by
      rw [sum_congr rfl fun j hj => by rw [u2 j (mem_range.1 hj)], ringKer_trig a b hNp,
        mul_div_cancel_left₀ _ (by exact_mod_cast hNp.ne' : ((2 * n : ℕ) : ℝ) ≠ 0)]
    rw [k1, k2, k3, u1 i hi] at row
    rw [← row, hc1 i hi]
    refine le_trans (le_of_eq ?_) (fin
      (fun k => if k = 0 then 0 else modeIm Q R 1 b k - ringKerCoef a b (2 * n) k * modeIm Q R 1 a k - modeIm Q R (-1) b k -
        k * ringLogCoef a b (2 * n) k * modeIm Q R (-1) a k)
      (fun k => if k = 0 then 0 else modeRe Q R (-1) b k - ringKerCoef a b (2 * n) k * modeRe Q R (-1) a k - modeRe Q R 1 b k -
        k * ringLogCoef a b (2 * n) k * modeRe Q R 1 a k) rfl rfl (fun k hk1 hk2 => ?_) (gridPt (2 * n) i) (vec psi (K.closest.getD i 0))
      (hcor i (by omega)))
    · congr 1
      have : ∀ s t w u v : ℝ, (s - 0 / (2 * n : ℕ)) / 2 - (t - 0 / (2 * n : ℕ)) / 2 + u + 2 * Real.pi * (b * (0 / (2 * n : ℕ)) + a * (0 / (2 * n : ℕ))) -
          w / 2 = v / 2 + u ↔ s - t - w = v := by
        intro s t w u v
        simp only [zero_div, mul_zero, add_zero, sub_zero]
        constructor <;> intro hh <;> linarith
      rw [this]
      simp only [trig_eq, ← sum_sub_distrib]
      refine sum_congr rfl fun k _ => ?_
      by_cases hk : k = 0
      · simp [hk, conjCos, conjSin]
      · simp only [hk, conjCos, conjSin, dataCos, if_false]
        ring
    · have hk : k ≠ 0 := by omega
      simp only [hk, if_false]
      obtain ⟨m1, m2, -⟩ := mode_residual (Q := Q) (R := R) ha0 hab hk1 (by omega : 2 * k < 2 * n)
      exact ⟨m1, m2⟩
  · have row := hsys.inner i hi
    have k3 : (∑ j ∈ range (2 * n), ringKer a b (2 * n) i j * vec psi j) / (2 * n : ℕ) =
        trig (fun k => ringKerCoef a b (2 * n) k * conjCos Q R b k) (fun k => -(ringKerCoef a b (2 * n) k * conjSin Q R 1 b k)) (d + 1)
          (2 * Real.pi) (gridPt (2 * n) i) := by
      rw [sum_congr rfl fun j hj => by rw [u1 j (mem_range.1 hj)], ringKer_trig a b hNp,
        mul_div_cancel_left₀ _ (by exact_mod_cast hNp.ne' : ((2 * n : ℕ) : ℝ) ≠ 0)]
    rw [k1, k2, k3, u2 i hi] at row
    rw [← row, hc2 i hi]
    refine le_trans (le_of_eq ?_) (fin
      (fun k => if k = 0 then 0 else modeIm Q R 1 a k - ringKerCoef a b (2 * n) k * modeIm Q R 1 b k + modeIm Q R (-1) a k +
        k * ringLogCoef a b (2 * n) k * modeIm Q R (-1) b k)
      (fun k => if k = 0 then 0 else -modeRe Q R (-1) a k + ringKerCoef a b (2 * n) k * modeRe Q R (-1) b k - modeRe Q R 1 a k -
        k * ringLogCoef a b (2 * n) k * modeRe Q R 1 b k) rfl rfl (fun k hk1 hk2 => ?_) (gridPt (2 * n) i)
      (vec psi (K.closest.getD (2 * n + i) 0)) (hcor (2 * n + i) (by omega)))
    · congr 1
      have : ∀ s t w u v : ℝ, (s + 0 / (2 * n : ℕ)) / 2 - (t + 0 / (2 * n : ℕ)) / 2 + u + 2 * Real.pi * (b * (0 / (2 * n : ℕ)) + a * (0 / (2 * n : ℕ))) -
          w / 2 = v / 2 + u ↔ s - t - w = v := by
        intro s t w u v
        simp only [zero_div, mul_zero, add_zero]
        constructor <;> intro hh <;> linarith
      rw [this]
      simp only [trig_eq, ← sum_sub_distrib]
      refine sum_congr rfl fun k _ => ?_
      by_cases hk : k = 0
      · simp [hk, conjCos, conjSin]
      · simp only [hk, conjCos, conjSin, dataCos, if_false]
        ring
    · have hk : k ≠ 0 := by omega
      simp only [hk, if_false]
      obtain ⟨-, -, m3, m4⟩ := mode_residual (Q := Q) (R := R) ha0 hab hk1 (by omega : 2 * k < 2 * n)
      exact ⟨m3, m4⟩

end PFEM
