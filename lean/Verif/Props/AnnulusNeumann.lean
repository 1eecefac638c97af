import Verif.Props.AnnulusSolve
import Mathlib.Analysis.Calculus.Deriv.Inv
import Mathlib.Analysis.Calculus.Deriv.Polynomial
import Mathlib.Analysis.Complex.RealDeriv

/-!
Property theorems C130: Neumann problems on a ring between two concentric circles.
-/

namespace PFEM
open Nystrom Antilap Finset Polynomial

variable {K : CellG} {x0 y0 a b : ℝ} {n : ℕ}

/-- the derivative of the Laurent polynomial -/
noncomputable def laurentDeriv (Q R : ℂ[X]) (x0 y0 x y : ℝ) : ℂ :=
  Q.derivative.eval ⟨x - x0, y - y0⟩ - R.derivative.eval ((⟨x - x0, y - y0⟩ : ℂ)⁻¹) * ((⟨x - x0, y - y0⟩ : ℂ)⁻¹) ^ 2

theorem laurent_path (Q R : ℂ[X]) {w : ℝ → ℂ} {w' : ℂ} {t : ℝ} (hw : HasDerivAt w w' t) (h0 : w t ≠ 0) :
    HasDerivAt (fun t => Q.eval (w t) + R.eval (w t)⁻¹)
      ((Q.derivative.eval (w t) - R.derivative.eval (w t)⁻¹ * (w t)⁻¹ ^ 2) * w') t := by
  have h1 : HasDerivAt (fun z : ℂ => Q.eval z) (Q.derivative.eval (w t)) (w t) := Q.hasDerivAt (w t)
  have h2 : HasDerivAt (fun z : ℂ => R.eval z⁻¹) (R.derivative.eval (w t)⁻¹ * (-(w t ^ 2)⁻¹)) (w t) :=
    HasDerivAt.comp (w t) (R.hasDerivAt (w t)⁻¹) (hasDerivAt_inv h0)
  have h3 := (h1.add h2).comp_of_eq t hw rfl
  refine h3.congr_deriv ?_
  rw [inv_pow]
  ring

theorem re_path {f : ℝ → ℂ} {f' : ℂ} {t : ℝ} (h : HasDerivAt f f' t) : HasDerivAt (fun t => (f t).re) f'.re t :=
  (Complex.reCLM.hasFDerivAt.comp_hasDerivAt t h)

theorem mk_eq (x y : ℝ) : (⟨x, y⟩ : ℂ) = (x : ℂ) + (y : ℂ) * Complex.I := by
  apply Complex.ext <;> simp

/-- the gradient of the real part of the Laurent polynomial -/
theorem laurent_gradient (Q R : ℂ[X]) {x0 y0 x y : ℝ} (h : ¬(x = x0 ∧ y = y0)) :
    HasDerivAt (fun t => (laurent Q R x0 y0 t y).re) (laurentDeriv Q R x0 y0 x y).re x ∧
    HasDerivAt (fun t => (laurent Q R x0 y0 x t).re) (-(laurentDeriv Q R x0 y0 x y).im) y := by
  have h0 : (⟨x - x0, y - y0⟩ : ℂ) ≠ 0 := by
    intro hh
    have h1 := congrArg Complex.re hh
    have h2 := congrArg Complex.im hh
    simp only [Complex.zero_re, Complex.zero_im] at h1 h2
    exact h ⟨by linarith, by linarith⟩
  constructor
  · have hw : HasDerivAt (fun t : ℝ => (⟨t - x0, y - y0⟩ : ℂ)) 1 x := by
      simp only [mk_eq]
      have := ((hasDerivAt_id x).sub_const x0).ofReal_comp.add_const (((y - y0 : ℝ) : ℂ) * Complex.I)
      simpa using this
    have := re_path (laurent_path Q R hw h0)
    simpa [laurent, laurentDeriv] using this
  · have hw : HasDerivAt (fun t : ℝ => (⟨x - x0, t - y0⟩ : ℂ)) Complex.I y := by
      simp only [mk_eq]
      have := (((hasDerivAt_id y).sub_const y0).ofReal_comp.mul_const Complex.I).const_add ((x - x0 : ℝ) : ℂ)
      simpa using this
    have := re_path (laurent_path Q R hw h0)
    rw [Complex.mul_I_re] at this
    exact this

/-- the derivative along a circle -/
theorem laurent_angle (Q R : ℂ[X]) (x0 y0 : ℝ) {s : ℝ} (hs : 0 < s) (θ : ℝ) :
    HasDerivAt (fun θ => (laurent Q R x0 y0 (x0 + s * Real.cos θ) (y0 + s * Real.sin θ)).re)
      (laurentDeriv Q R x0 y0 (x0 + s * Real.cos θ) (y0 + s * Real.sin θ) * ⟨-(s * Real.sin θ), s * Real.cos θ⟩).re θ := by
  have h0 : (⟨s * Real.cos θ, s * Real.sin θ⟩ : ℂ) ≠ 0 := by
    intro hh
    have h1 := congrArg Complex.re hh
    have h2 := congrArg Complex.im hh
    simp only [Complex.zero_re, Complex.zero_im] at h1 h2
    have := Real.sin_sq_add_cos_sq θ
    have : s ^ 2 = 0 := by nlinarith
    exact hs.ne' (by simpa using this)
  have hw : HasDerivAt (fun θ : ℝ => (⟨s * Real.cos θ, s * Real.sin θ⟩ : ℂ)) ⟨-(s * Real.sin θ), s * Real.cos θ⟩ θ := by
    simp only [mk_eq]
    have := ((Real.hasDerivAt_cos θ).const_mul s).ofReal_comp.fun_add (((Real.hasDerivAt_sin θ).const_mul s).ofReal_comp.mul_const Complex.I)
    simpa using this
  have := re_path (laurent_path Q R hw h0)
  simpa only [laurent, laurentDeriv, add_sub_cancel_left] using this

theorem laurent_mul_I (Q R : ℂ[X]) (x0 y0 x y : ℝ) :
    laurent (C Complex.I * Q) (C Complex.I * R) x0 y0 x y = Complex.I * laurent Q R x0 y0 x y ∧
    laurentDeriv (C Complex.I * Q) (C Complex.I * R) x0 y0 x y = Complex.I * laurentDeriv Q R x0 y0 x y := by
  constructor
  · simp only [laurent, eval_mul, eval_C]; ring
  · simp only [laurentDeriv, derivative_C_mul, eval_mul, eval_C]; ring

theorem natDegree_I (Q : ℂ[X]) : (C Complex.I * Q).natDegree = Q.natDegree := natDegree_C_mul Complex.I_ne_zero

theorem ringSum_I (Q R : ℂ[X]) (a b : ℝ) : ringSum (C Complex.I * Q) (C Complex.I * R) a b = ringSum Q R a b := by
  simp only [ringSum, coeffSum, natDegree_I, coeff_C_mul, norm_mul, Complex.norm_I, one_mul]

/-- the tangential derivative that the code computes for the conjugate data is minus the weighted normal derivative -/
theorem ring_flux (h : K.IsAnnulus x0 y0 a b (2 * n)) (ha : 0 < a) (hb : 0 < b) (h4 : 4 ≤ n) {Q R : ℂ[X]} (hQ : Q.natDegree < n)
    (hR : R.natDegree < n) :
    wtdFromTrace K (K.samplesOf (ringData 0 (C Complex.I * Q) (C Complex.I * R) x0 y0)) =
      .ok ((K.normalOf (fun x y => (laurentDeriv Q R x0 y0 x y).re) (fun x y => -(laurentDeriv Q R x0 y0 x y).im)).map (- ·)) := by
  have hQ' : (C Complex.I * Q).natDegree < n := by rwa [natDegree_I]
  have hR' : (C Complex.I * R).natDegree < n := by rwa [natDegree_I]
  have hM : ∀ k < n, 2 * k < 2 * n := fun k hk => by omega
  set g1 : ℝ → ℝ → ℝ := fun x y => (laurentDeriv Q R x0 y0 x y).re with hg1
  set g2 : ℝ → ℝ → ℝ := fun x y => -(laurentDeriv Q R x0 y0 x y).im with hg2
  -- the derivative of the data along a circle
  have hder : ∀ s θ : ℝ, 0 < s → trig (fun k => k * -modeIm (C Complex.I * Q) (C Complex.I * R) (-1) s k)
      (fun k => -(k * dataCos 0 (C Complex.I * Q) (C Complex.I * R) s k)) n (2 * Real.pi) θ =
      -(s * (g1 (x0 + s * Real.cos θ) (y0 + s * Real.sin θ) * Real.cos θ + g2 (x0 + s * Real.cos θ) (y0 + s * Real.sin θ) * Real.sin θ)) := by
    intro s θ hs
    have h1 : HasDerivAt (fun θ => (laurent (C Complex.I * Q) (C Complex.I * R) x0 y0 (x0 + s * Real.cos θ) (y0 + s * Real.sin θ)).re) _ θ :=
      laurent_angle _ _ x0 y0 hs θ
    have h2 : (fun θ => (laurent (C Complex.I * Q) (C Complex.I * R) x0 y0 (x0 + s * Real.cos θ) (y0 + s * Real.sin θ)).re) =
        trig (dataCos 0 (C Complex.I * Q) (C Complex.I * R) s) (fun k => -modeIm (C Complex.I * Q) (C Complex.I * R) (-1) s k) n (2 * Real.pi) := by
      funext θ
      rw [← (ring_values 0 _ _ hQ' hR' x0 y0 hs θ).1, ringData, zero_mul, zero_add]
    rw [h2] at h1
    rw [← trig'_eq, (trig_deriv _ _ _ _ _).unique h1, (laurent_mul_I Q R x0 y0 _ _).2]
    simp only [hg1, hg2, Complex.mul_re, Complex.mul_im, Complex.I_re, Complex.I_im]
    ring
  rw [ring_data h ha hb 0 _ _ hQ' hR', ring_derivative h h4 _ _ _ _ hM, CellG.normalOf, h.cols, List.map_append, List.map_append, List.map_map,
    List.map_map, List.map_map, List.map_map, samples_grid, samples_grid]
  refine congrArg _ (congrArg₂ _ (List.map_congr_left fun j _ => ?_) (List.map_congr_left fun j _ => ?_))
  · rw [hder b _ hb]
    simp only [Function.comp_apply, circleSample, gridPt]
    ring
  · have := hder a (-gridPt (2 * n) j) ha
    rw [trig_neg] at this
    simp only [Real.cos_neg, Real.sin_neg, mul_neg, neg_neg] at this
    have e : ∀ X Y : ℕ → ℝ, trig (fun k => -X k) Y n (2 * Real.pi) (gridPt (2 * n) j) =
        -trig X (fun k => -Y k) n (2 * Real.pi) (gridPt (2 * n) j) := by
      intro X Y
      simp only [trig_eq, ← sum_neg_distrib]
      exact sum_congr rfl fun k _ => by ring
    rw [e, neg_inj] at this
    rw [this]
    simp only [Function.comp_apply, holeSample, gridPt, sub_eq_add_neg]
    ring

/-- rows of the Neumann system on a ring -/
theorem ring_neumann_rows (h : K.IsAnnulus x0 y0 a b (2 * n)) (ha : 1 / 10 ^ 14 ≤ a) (hab : a < b) (h4 : 4 ≤ n)
    (hn : n ≤ 2 * 10 ^ 7) {o : Ops} (ho : build K = .ok o) {psi : List ℝ} (hpsi : psi.length = 2 * (2 * n)) (α : ℝ) {y : List ℝ} {z : ℝ}
    (hy : augmented o (logTermsOf o) (psi ++ [α]) = .ok (y ++ [z])) (hyl : y.length = 2 * (2 * n)) : o.neumann psi = .ok y := by
  have ha0 : 0 < a := lt_of_lt_of_le (by positivity) ha
  have hb0 : 0 < b := ha0.trans hab
  have hc := h.corners (by omega : 0 < 2 * n)
  have hpsi' : psi.length = K.numPts := by rw [hpsi, h.numPts]
  obtain ⟨y', z', d, e1, e2, e3, hd, hdl, hrow, -⟩ := augmented_eq h.ready (h.even rfl h4 hn) h.edges_ne hc ho hpsi' (a := [α])
    (by rw [h.numHoles]; rfl)
  rw [e1] at hy
  obtain ⟨rfl, -⟩ := List.append_inj (Except.ok.inj hy) (by rw [e2, hyl, h.numPts])
  obtain ⟨p, hp, hx, hy0⟩ := h.pole
  obtain ⟨l1, -, -⟩ := ring_lam h ha0 hb0 hx hy0
  have hK := (build_shape h.ready ho).1
  have hT : ∀ i, singleAt o (((poles K).map (lamT K)).getD 0 []) i = 0 := by
    intro i
    rw [hp]
    simp only [List.map_cons, List.map_nil, List.getD_cons_zero, l1, singleAt, hK, h.numPts]
    exact sum_eq_zero fun j hj => by rw [vec_replicate _ (mem_range.1 hj), mul_zero]
  have hI := cell_integrate h.ready h.edges_ne (hpsi'.trans h.ready.numPts)
  simp only [Ops.neumann, call, hK, hpsi', ne_eq, not_true_eq_false, if_false, hd, py_ok_bind, hI]
  refine congrArg _ (vec_ext (by simp [hdl, e2]) fun i hi => ?_)
  have hi : i < K.numPts := by simpa [hdl] using hi
  rw [hrow i hi, h.numHoles, sum_range_one, hT, mul_zero, sub_zero, vec_map _ (by rw [hdl]; exact hi)]

/-- C130: on a ring with enough samples the linear system that the code sets up for Neumann problems has exactly one solution for every right-hand
side. -/
theorem C130_solvable (h : K.IsAnnulus x0 y0 a b (2 * n)) (ha : 1 / 10 ^ 14 ≤ a) (hab : a < b) (h4 : 4 ≤ n) (hn : n ≤ 2 * 10 ^ 7)
    (hs : 4 * ringConst a b * (a / b) ^ (2 * n) ≤ 1) {gmres : Gmres} {strategy pc : String} {s : Nystrom.Solver}
    (hi : init gmres K strategy pc = .ok s) {rhs : List ℝ} (hr : rhs.length = K.numPts) : ∃! x, s.ops.neumann x = .ok rhs := by
  have ha0 : 0 < a := lt_of_lt_of_le (by positivity) ha
  have hlog : 0 < Real.log b - Real.log a := sub_pos.2 (Real.log_lt_log ha0 hab)
  have ho := (init_parts hi).1
  have hK := (build_shape h.ready ho).1
  have hr' : rhs.length = 2 * (2 * n) := by rw [hr, h.numPts]
  have hcl : ∀ i ∈ K.closest, i < 2 * (2 * n) := fun i hi => by rcases h.vertices.2 i hi with e | e <;> omega
  obtain ⟨u, hu⟩ := ring_surjective ha0 hab h h4 hs (fun i => vec rhs i)
  set psi := (List.range (2 * (2 * n))).map u with hpsi
  have hpv : ∀ j < 2 * (2 * n), vec psi j = u j := fun j hj => vec_range _ hj
  obtain ⟨y, z, e1, e2, e3, -⟩ := ring_rows h ha hab h4 hn ho (psi := psi) (by simp [hpsi]) 0
  have e5 := ringRow_system.1 e3
  have hyv : y = rhs := by
    refine vec_ext (e2.trans hr'.symm) fun i hi => ?_
    rw [e2] at hi
    have hrow : ringRow K a b (2 * n) (fun j => vec psi j) i = vec rhs i := by
      rw [← hu i hi]
      exact ringRow_congr hcl h.vertices.1 hpv hi
    rw [← hrow]
    by_cases hi' : i < 2 * n
    · exact (e5 i hi').1.symm
    · have := (e5 (i - 2 * n) (by omega)).2
      rw [show 2 * n + (i - 2 * n) = i by omega] at this
      exact this.symm
  refine ⟨psi, by change s.ops.neumann psi = _; rw [ring_neumann_rows h ha hab h4 hn ho (by simp [hpsi]) 0 e1 e2, hyv], fun x hx => ?_⟩
  have hxl : x.length = 2 * (2 * n) := by
    by_contra hl
    have : ¬ x.length = K.numPts := by rw [h.numPts]; exact hl
    simp [Ops.neumann, call, hK, this] at hx
  obtain ⟨y', z', f1, f2, f3, -⟩ := ring_rows h ha hab h4 hn ho hxl 0
  have hx : s.ops.neumann x = .ok rhs := hx
  rw [ring_neumann_rows h ha hab h4 hn ho hxl 0 f1 f2, ← hyv] at hx
  cases hx
  have h0 := ring_injective ha0 hab h h4 hs (u := fun j => vec x j - vec psi j) (by simpa only [sub_self] using f3.sub e3)
  exact vec_ext (hxl.trans (by simp [hpsi])) fun i hi => sub_eq_zero.1 (h0 i (by omega))

/-- the mean of the logarithm on the grid -/
theorem ringLog_mean (ha : 0 < a) (hab : a < b) {N : ℕ} (hN : 0 < N) : |ringLogCoef a b N 0| ≤ 2 * ((a / b) ^ N / (1 - a / b)) := by
  obtain ⟨h0, h2, hρ⟩ := ring_ratio ha hab
  unfold ringLogCoef
  generalize a / b = r at *
  set κ : ℕ → ℝ := fun m => (∑ j ∈ range N, Real.cos (m * gridPt N j) * Real.cos ((0 : ℕ) * gridPt N j)) / N with hκ
  have s1 : HasSum (fun m : ℕ => -2 * r ^ m / m * κ m) (gridCoef (fun φ => Real.log (poissonDen r φ)) N 0) := by
    have h := (hasSum_sum fun j (_ : j ∈ range N) => (log_series hρ (gridPt N j)).mul_right (Real.cos ((0 : ℕ) * gridPt N j))).div_const (N : ℝ)
    have e : (fun m : ℕ => -2 * r ^ m / m * κ m) = fun i : ℕ =>
        (∑ j ∈ range N, -2 * r ^ i / i * Real.cos (i * gridPt N j) * Real.cos ((0 : ℕ) * gridPt N j)) / N := by
      funext m
      simp only [hκ]
      rw [mul_div_assoc', mul_sum]
      congr 1
      exact sum_congr rfl fun j _ => by ring
    rw [e]
    exact h
  have hκv : ∀ m, κ m = if N ∣ m then 1 else 0 := by
    intro m
    rw [hκ]
    simp only
    rw [grid_cos_cos hN m 0]
    simp only [Nat.cast_zero, add_zero, sub_zero, Int.natCast_dvd_natCast]
    split_ifs <;> norm_num
  have hz : ∀ m < N, -2 * r ^ m / m * κ m = 0 := by
    intro m hm
    rcases Nat.eq_zero_or_pos m with rfl | h
    · simp
    · rw [hκv, if_neg (fun hd => by have := Nat.le_of_dvd h hd; omega), mul_zero]
  have s4 : HasSum (fun m => -2 * r ^ (m + N) / ((m + N : ℕ) : ℝ) * κ (m + N)) (gridCoef (fun φ => Real.log (poissonDen r φ)) N 0) := by
    have := (hasSum_nat_add_iff' N).2 s1
    rwa [sum_eq_zero (fun m hm => hz m (mem_range.1 hm)), sub_zero] at this
  have s5 : HasSum (fun m : ℕ => 2 * r ^ N * r ^ m) (2 * (r ^ N / (1 - r))) := by
    rw [← mul_div_assoc, div_eq_mul_inv]
    exact (hasSum_geometric_of_lt_one h0.le h2).mul_left _
  rw [← s4.tsum_eq, ← Real.norm_eq_abs]
  refine tsum_of_norm_bounded s5 fun m => ?_
  have hm0 : (1 : ℝ) ≤ ((m + N : ℕ) : ℝ) := by exact_mod_cast (by omega)
  have hp : 0 ≤ r ^ (m + N) := by positivity
  have hk : |κ (m + N)| ≤ 1 := by rw [hκv]; split_ifs <;> simp
  have e : 2 * r ^ N * r ^ m = 2 * r ^ (m + N) := by rw [pow_add]; ring
  rw [Real.norm_eq_abs, abs_mul, abs_div, abs_mul, abs_of_nonneg hp, Nat.abs_cast, show |(-2 : ℝ)| = 2 by norm_num, e]
  calc 2 * r ^ (m + N) / ((m + N : ℕ) : ℝ) * |κ (m + N)| ≤ 2 * r ^ (m + N) / 1 * 1 := by gcongr
    _ = _ := by ring

/-- the logarithm on a ring: its normal derivative is constant on both circles, and the values without their mean nearly solve the system -/
theorem ring_log (h : K.IsAnnulus x0 y0 a b (2 * n)) (ha : 1 / 10 ^ 14 ≤ a) (hab : a < b) (h4 : 4 ≤ n) (hn : n ≤ 2 * 10 ^ 7)
    {o : Ops} (ho : build K = .ok o) {w u : List ℝ} (hw : w = List.replicate (2 * n) 1 ++ List.replicate (2 * n) (-1))
    (hu : u = List.replicate (2 * n) (a * (Real.log b - Real.log a) / (b + a)) ++
      List.replicate (2 * n) (-(b * (Real.log b - Real.log a) / (b + a)))) :
    ∃ y, RingSystem (2 * n) (ringKer a b (2 * n)) (ringDelta a b (2 * n)) a b (fun j => vec u j) (fun j => vec u (2 * n + j))
        (fun i => vec u (K.closest.getD i 0)) (fun i => vec u (K.closest.getD (2 * n + i) 0)) (fun i => vec y i) (fun i => vec y (2 * n + i)) ∧
      ∀ i < 2 * (2 * n), |vec y i - ∑ j ∈ range (2 * (2 * n)), o.S.at' i j * vec w j| ≤
          5 * ((a / b) ^ (2 * n) / (1 - a / b)) * (1 + (Real.log b - Real.log a)) ∧
        |∑ j ∈ range (2 * (2 * n)), o.S.at' i j * vec w j| ≤ (a / b) ^ (2 * n) / (1 - a / b) + (Real.log b - Real.log a) := by
  have ha0 : 0 < a := lt_of_lt_of_le (by positivity) ha
  have hb0 : 0 < b := ha0.trans hab
  have hNp : 0 < 2 * n := by omega
  have hN : ((2 * n : ℕ) : ℝ) ≠ 0 := by exact_mod_cast (by omega)
  have hl : 0 < Real.log b - Real.log a := sub_pos.2 (Real.log_lt_log ha0 hab)
  obtain ⟨r0, r1, -⟩ := ring_ratio ha0 hab
  have r2 : 0 < 1 - a / b := by linarith
  obtain ⟨d0, d1⟩ := ringDelta_bounds ha0 hab hNp
  have hL := ringLog_mean ha0 hab hNp
  set l := Real.log b - Real.log a with hldef
  set U := a * l / (b + a) with hU
  set V := -(b * l / (b + a)) with hV
  set ε := (a / b) ^ (2 * n) / (1 - a / b) with hε
  have hε0 : 0 ≤ ε := by positivity
  have hd2 : ringDelta a b (2 * n) ≤ 2 * ε := by rw [hε, ← mul_div_assoc]; exact d1
  have hUV : U - V = l := by rw [hU, hV]; field_simp; ring
  have hU0 : 0 ≤ U := by positivity
  have hV0 : V ≤ 0 := by rw [hV, neg_nonpos]; positivity
  have hwo : ∀ j < 2 * n, vec w j = 1 := fun j hj => by rw [hw, vec_app_left (by simp) hj, vec_replicate _ hj]
  have hwi : ∀ j < 2 * n, vec w (2 * n + j) = -1 := fun j hj => by rw [hw, vec_app_right _ (by simp), vec_replicate _ hj]
  have huo : ∀ j < 2 * n, vec u j = U := fun j hj => by rw [hu, vec_app_left (by simp) hj, vec_replicate _ hj]
  have hui : ∀ j < 2 * n, vec u (2 * n + j) = V := fun j hj => by rw [hu, vec_app_right _ (by simp), vec_replicate _ hj]
  have hcor : ∀ i < 2 * (2 * n), |vec u (K.closest.getD i 0)| ≤ l := by
    intro i hi
    refine h.vertex h4 u (fun j hj => ?_) hi
    rw [huo j hj, hui j hj]
    constructor <;> rw [abs_le] <;> constructor <;> linarith
  have hmart : ∀ i, ∑ j ∈ range (2 * n), martensenWeight (2 * n) (max i j - min i j) = 0 := by
    intro i
    have := martensen_exact (N := 2 * n) (M := 1) (fun k hk => by omega) (fun _ => 1) (fun _ => 0) i
    simpa [trig] using this
  have hlogs : ∀ i, ∑ j ∈ range (2 * n), ringLog a b (2 * n) i j = (2 * n : ℕ) * ringLogCoef a b (2 * n) 0 := by
    intro i
    have := ringLog_trig a b hNp (fun _ => 1) (fun _ => 0) 1 i
    simpa [trig] using this
  have s1 : ∑ j ∈ range (2 * n), vec u j = (2 * n : ℕ) * U := by
    rw [sum_congr rfl fun j hj => huo j (mem_range.1 hj), sum_const, card_range, nsmul_eq_mul]
  have s2 : ∑ j ∈ range (2 * n), vec u (2 * n + j) = (2 * n : ℕ) * V := by
    rw [sum_congr rfl fun j hj => hui j (mem_range.1 hj), sum_const, card_range, nsmul_eq_mul]
  have s3 : ∀ i, ∑ j ∈ range (2 * n), ringKer a b (2 * n) i j * vec u j = (2 * n : ℕ) * (1 + ringDelta a b (2 * n)) * U := by
    intro i
    rw [sum_congr rfl fun j hj => by rw [huo j (mem_range.1 hj)], ← sum_mul, ringKer_sum ha0 hab hNp]
  have s4 : ∀ i, ∑ j ∈ range (2 * n), ringKer a b (2 * n) i j * vec u (2 * n + j) = (2 * n : ℕ) * (1 + ringDelta a b (2 * n)) * V := by
    intro i
    rw [sum_congr rfl fun j hj => by rw [hui j (mem_range.1 hj)], ← sum_mul, ringKer_sum ha0 hab hNp]
  have hbal : b * U + a * V = 0 := by rw [hU, hV]; ring
  have so : ∀ i < 2 * n, ∑ j ∈ range (2 * (2 * n)), o.S.at' i j * vec w j = ringLogCoef a b (2 * n) 0 / 2 := by
    intro i hi
    have q1 : ∑ j ∈ range (2 * n), o.S.at' i j * vec w j =
        ∑ j ∈ range (2 * n), (-(1 / (2 * n : ℕ)) * Real.log b + martensenWeight (2 * n) (max i j - min i j)) := sum_congr rfl fun j hj => by
      rw [(ring_matrices h ha hab h4 hn ho hi (mem_range.1 hj)).1.1, hwo j (mem_range.1 hj), mul_one]
    have q2 : ∑ j ∈ range (2 * n), o.S.at' i (2 * n + j) * vec w (2 * n + j) =
        ∑ j ∈ range (2 * n), (1 / (2 * n : ℕ) * Real.log b + 1 / (2 * (2 * n : ℕ)) * ringLog a b (2 * n) i j) := sum_congr rfl fun j hj => by
      rw [(ring_matrices h ha hab h4 hn ho hi (mem_range.1 hj)).1.2.1, hwi j (mem_range.1 hj)]; ring
    rw [sum_two, q1, q2]
    simp only [sum_add_distrib, sum_const, card_range, nsmul_eq_mul, hmart, ← mul_sum, hlogs]
    field_simp
    ring
  have si : ∀ i < 2 * n, ∑ j ∈ range (2 * (2 * n)), o.S.at' (2 * n + i) j * vec w j = -l - ringLogCoef a b (2 * n) 0 / 2 := by
    intro i hi
    have q1 : ∑ j ∈ range (2 * n), o.S.at' (2 * n + i) j * vec w j =
        ∑ j ∈ range (2 * n), (-(1 / (2 * n : ℕ)) * Real.log b - 1 / (2 * (2 * n : ℕ)) * ringLog a b (2 * n) i j) := sum_congr rfl fun j hj => by
      rw [(ring_matrices h ha hab h4 hn ho hi (mem_range.1 hj)).1.2.2.1, hwo j (mem_range.1 hj), mul_one]
    have q2 : ∑ j ∈ range (2 * n), o.S.at' (2 * n + i) (2 * n + j) * vec w (2 * n + j) =
        ∑ j ∈ range (2 * n), (1 / (2 * n : ℕ) * Real.log a - martensenWeight (2 * n) (max i j - min i j)) := sum_congr rfl fun j hj => by
      rw [(ring_matrices h ha hab h4 hn ho hi (mem_range.1 hj)).1.2.2.2, hwi j (mem_range.1 hj)]; ring
    rw [sum_two, q1, q2]
    simp only [sum_sub_distrib, sum_const, card_range, nsmul_eq_mul, hmart, ← mul_sum, hlogs, hldef]
    field_simp
    ring
  refine ⟨(List.range (2 * (2 * n))).map (ringRow K a b (2 * n) fun j => vec u j), ?_, ?_⟩
  · refine ringRow_system.2 fun i hi => ?_
    rw [vec_range _ (by omega), vec_range _ (by omega)]
    exact ⟨rfl, rfl⟩
  · intro i hi
    have hc := hcor i hi
    rw [vec_range _ hi]
    have hprod : |ringDelta a b (2 * n) / 2 * vec u (K.closest.getD i 0)| ≤ ε * l := by
      rw [abs_mul, abs_of_nonneg (by positivity)]
      exact mul_le_mul (by linarith) hc (abs_nonneg _) hε0
    have hpU : |ringDelta a b (2 * n) / 2 * U| ≤ ε * l := by
      rw [abs_mul, abs_of_nonneg (by positivity)]
      exact mul_le_mul (by linarith) (by rw [abs_of_nonneg hU0]; linarith) (abs_nonneg _) hε0
    have hpV : |ringDelta a b (2 * n) / 2 * V| ≤ ε * l := by
      rw [abs_mul, abs_of_nonneg (by positivity)]
      exact mul_le_mul (by linarith) (by rw [abs_of_nonpos hV0]; linarith) (abs_nonneg _) hε0
    have hεl : 0 ≤ ε * l := by positivity
    have fin : ∀ p q : ℝ, |p| ≤ ε * l → |q| ≤ ε * l → |-p + q - ringLogCoef a b (2 * n) 0 / 2| ≤ 5 * ε * (1 + l) := by
      intro p q hp hq
      rw [show 5 * ε * (1 + l) = 5 * ε + 5 * (ε * l) by ring]
      rw [abs_le] at hp hq hL ⊢
      constructor <;> linarith [hp.1, hp.2, hq.1, hq.2, hL.1, hL.2]
    unfold ringRow
    dsimp only
    by_cases hi' : i < 2 * n
    · rw [if_pos hi', so i hi', s1, s2, s4, huo i hi']
      have e : (U - (2 * n : ℕ) * U / (2 * n : ℕ)) / 2 - ((2 * n : ℕ) * (1 + ringDelta a b (2 * n)) * V / (2 * n : ℕ) - (2 * n : ℕ) * V / (2 * n : ℕ)) / 2 +
          ringDelta a b (2 * n) / 2 * vec u (K.closest.getD i 0) + 2 * Real.pi * (b * ((2 * n : ℕ) * U / (2 * n : ℕ)) + a * ((2 * n : ℕ) * V / (2 * n : ℕ))) =
          -(ringDelta a b (2 * n) / 2 * V) + ringDelta a b (2 * n) / 2 * vec u (K.closest.getD i 0) := by
        rw [mul_assoc, mul_div_cancel_left₀ _ hN, mul_div_cancel_left₀ _ hN, mul_div_cancel_left₀ _ hN, hbal]
        ring
      rw [e]
      exact ⟨fin _ _ hpV hprod, by rw [abs_le] at hL ⊢; constructor <;> linarith [hL.1, hL.2]⟩
    · obtain ⟨k, rfl⟩ : ∃ k, i = 2 * n + k := ⟨i - 2 * n, by omega⟩
      have hk : k < 2 * n := by omega
      rw [if_neg hi', Nat.add_sub_cancel_left, si k hk, s1, s2, s3, hui k hk]
      have e : (V + (2 * n : ℕ) * V / (2 * n : ℕ)) / 2 - ((2 * n : ℕ) * (1 + ringDelta a b (2 * n)) * U / (2 * n : ℕ) + (2 * n : ℕ) * U / (2 * n : ℕ)) / 2 +
          ringDelta a b (2 * n) / 2 * vec u (K.closest.getD (2 * n + k) 0) +
          2 * Real.pi * (b * ((2 * n : ℕ) * U / (2 * n : ℕ)) + a * ((2 * n : ℕ) * V / (2 * n : ℕ))) =
          -l - ringDelta a b (2 * n) / 2 * U + ringDelta a b (2 * n) / 2 * vec u (K.closest.getD (2 * n + k) 0) := by
        rw [mul_assoc, mul_div_cancel_left₀ _ hN, mul_div_cancel_left₀ _ hN, mul_div_cancel_left₀ _ hN, hbal, ← hUV]
        ring
      rw [e]
      refine ⟨?_, by rw [abs_le] at hL ⊢; constructor <;> linarith [hL.1, hL.2]⟩
      rw [← abs_neg]
      refine le_of_eq_of_le (congrArg _ ?_) (fin _ _ (by rw [abs_neg]; exact hpU) (by rw [abs_neg]; exact hprod))
      ring

theorem log_gradient (A : ℝ) (Q R : ℂ[X]) {x0 y0 x y : ℝ} (h : ¬(x = x0 ∧ y = y0)) :
    HasDerivAt (fun t => ringData A Q R x0 y0 t y) (A * ((x - x0) / ((x - x0) ^ 2 + (y - y0) ^ 2)) + (laurentDeriv Q R x0 y0 x y).re) x ∧
    HasDerivAt (fun t => ringData A Q R x0 y0 x t) (A * ((y - y0) / ((x - x0) ^ 2 + (y - y0) ^ 2)) + -(laurentDeriv Q R x0 y0 x y).im) y := by
  obtain ⟨g1, g2⟩ := laurent_gradient Q R h
  have hpos : (x - x0) ^ 2 + (y - y0) ^ 2 ≠ 0 := by
    intro hh
    have h1 : (x - x0) ^ 2 = 0 := by nlinarith [pow_two_nonneg (x - x0), pow_two_nonneg (y - y0)]
    have h2 : (y - y0) ^ 2 = 0 := by nlinarith [pow_two_nonneg (x - x0), pow_two_nonneg (y - y0)]
    rw [pow_eq_zero_iff two_ne_zero] at h1 h2
    exact h ⟨by linarith, by linarith⟩
  have half : ∀ z : ℝ, 0 ≤ z → Real.log (Real.sqrt z) = Real.log z / 2 := fun z hz => Real.log_sqrt hz
  unfold ringData
  constructor
  · have h1 : HasDerivAt (fun t : ℝ => (t - x0) ^ 2 + (y - y0) ^ 2) (2 * (x - x0)) x := by
      have := (((hasDerivAt_id x).sub_const x0).fun_pow 2).add_const ((y - y0) ^ 2)
      simpa using this
    have h2 := ((h1.log hpos).div_const 2).const_mul A
    have e : (fun t : ℝ => A * Real.log (Real.sqrt ((t - x0) ^ 2 + (y - y0) ^ 2))) = fun t => A * (Real.log ((t - x0) ^ 2 + (y - y0) ^ 2) / 2) := by
      funext t
      rw [half _ (by positivity)]
    refine (HasDerivAt.fun_add (f := fun t : ℝ => A * Real.log (Real.sqrt ((t - x0) ^ 2 + (y - y0) ^ 2))) (e ▸ h2) g1).congr_deriv ?_
    ring
  · have h1 : HasDerivAt (fun t : ℝ => (x - x0) ^ 2 + (t - y0) ^ 2) (2 * (y - y0)) y := by
      have := (((hasDerivAt_id y).sub_const y0).fun_pow 2).const_add ((x - x0) ^ 2)
      simpa using this
    have h2 := ((h1.log hpos).div_const 2).const_mul A
    have e : (fun t : ℝ => A * Real.log (Real.sqrt ((x - x0) ^ 2 + (t - y0) ^ 2))) = fun t => A * (Real.log ((x - x0) ^ 2 + (t - y0) ^ 2) / 2) := by
      funext t
      rw [half _ (by positivity)]
    refine (HasDerivAt.fun_add (f := fun t : ℝ => A * Real.log (Real.sqrt ((x - x0) ^ 2 + (t - y0) ^ 2))) (e ▸ h2) g2).congr_deriv ?_
    ring

theorem circle_off {x0 y0 s : ℝ} (hs : 0 < s) (θ : ℝ) : ¬(x0 + s * Real.cos θ = x0 ∧ y0 + s * Real.sin θ = y0) := by
  rintro ⟨e1, e2⟩
  have h1 : s * Real.cos θ = 0 := by linarith
  have h2 : s * Real.sin θ = 0 := by linarith
  have := Real.sin_sq_add_cos_sq θ
  have : s ^ 2 = 0 := by nlinarith
  exact hs.ne' (by simpa using this)

/-- the weighted normal derivative of the data: a constant on both circles and the derivative of the Laurent polynomial -/
theorem ring_normal {N : ℕ} (h : K.IsAnnulus x0 y0 a b N) (ha : 0 < a) (hb : 0 < b) {A : ℝ} {Q R : ℂ[X]} {g1 g2 : ℝ → ℝ → ℝ}
    (hg : RingGradient A Q R x0 y0 g1 g2) :
    K.normalOf g1 g2 = List.zipWith (fun u v => A * u + v) (List.replicate N 1 ++ List.replicate N (-1))
      (K.normalOf (fun x y => (laurentDeriv Q R x0 y0 x y).re) (fun x y => -(laurentDeriv Q R x0 y0 x y).im)) := by
  have key : ∀ s θ : ℝ, 0 < s → s * (g1 (x0 + s * Real.cos θ) (y0 + s * Real.sin θ) * Real.cos θ + g2 (x0 + s * Real.cos θ) (y0 + s * Real.sin θ) * Real.sin θ) =
      A + s * ((laurentDeriv Q R x0 y0 (x0 + s * Real.cos θ) (y0 + s * Real.sin θ)).re * Real.cos θ -
        (laurentDeriv Q R x0 y0 (x0 + s * Real.cos θ) (y0 + s * Real.sin θ)).im * Real.sin θ) := by
    intro s θ hs
    obtain ⟨u1, u2⟩ := hg _ _ (circle_off hs θ)
    obtain ⟨v1, v2⟩ := log_gradient A Q R (circle_off (x0 := x0) (y0 := y0) hs θ)
    have hr : (x0 + s * Real.cos θ - x0) ^ 2 + (y0 + s * Real.sin θ - y0) ^ 2 = s ^ 2 := by
      linear_combination s ^ 2 * Real.sin_sq_add_cos_sq θ
    rw [u1.unique v1, u2.unique v2, hr]
    have := Real.sin_sq_add_cos_sq θ
    field_simp
    linear_combination A * s * this
  simp only [CellG.normalOf, h.cols, List.map_append, List.map_map]
  rw [List.zipWith_append (by simp)]
  congr 1
  · refine List.ext_getElem (by simp) fun j h1 h2 => ?_
    simp only [List.length_map, List.length_range] at h1
    have := key b (2 * Real.pi * j / N) hb
    simp only [List.getElem_map, List.getElem_range, List.getElem_zipWith, List.getElem_replicate, Function.comp_apply, circleSample]
    linear_combination this
  · refine List.ext_getElem (by simp) fun j h1 h2 => ?_
    simp only [List.length_map, List.length_range] at h1
    have := key a (-(2 * Real.pi * j / N)) ha
    simp only [Real.cos_neg, Real.sin_neg, mul_neg, ← sub_eq_add_neg] at this
    simp only [List.getElem_map, List.getElem_range, List.getElem_zipWith, List.getElem_replicate, Function.comp_apply, holeSample]
    linear_combination -this

/-- the values without their mean -/
theorem ring_centred {N : ℕ} (h : K.IsAnnulus x0 y0 a b N) (ha : 0 < a) (hb : 0 < b) (A : ℝ) (Q R : ℂ[X]) :
    K.samplesOf (fun x y => ringData A Q R x0 y0 x y - ringMean A Q R a b) = List.zipWith (fun u v => A * u + v)
      (List.replicate N (a * (Real.log b - Real.log a) / (b + a)) ++ List.replicate N (-(b * (Real.log b - Real.log a) / (b + a))))
      (K.samplesOf (ringConj (C Complex.I * Q) (C Complex.I * R) x0 y0)) := by
  have key : ∀ s θ : ℝ, 0 < s → ringData A Q R x0 y0 (x0 + s * Real.cos θ) (y0 + s * Real.sin θ) - ringMean A Q R a b =
      A * (Real.log s - (b * Real.log b + a * Real.log a) / (b + a)) +
        ringConj (C Complex.I * Q) (C Complex.I * R) x0 y0 (x0 + s * Real.cos θ) (y0 + s * Real.sin θ) := by
    intro s θ hs
    have hr : (x0 + s * Real.cos θ - x0) ^ 2 + (y0 + s * Real.sin θ - y0) ^ 2 = s ^ 2 := by
      linear_combination s ^ 2 * Real.sin_sq_add_cos_sq θ
    rw [ringData, ringMean, ringConj, hr, Real.sqrt_sq hs.le, (laurent_mul_I Q R x0 y0 _ _).1, coeff_C_mul, coeff_C_mul, ← mul_add, Complex.I_mul_im,
      Complex.I_mul_im]
    ring
  simp only [CellG.samplesOf, h.cols, List.map_append, List.map_map]
  rw [List.zipWith_append (by simp)]
  congr 1
  · refine List.ext_getElem (by simp) fun j h1 h2 => ?_
    have := key b (2 * Real.pi * j / N) hb
    simp only [List.getElem_map, List.getElem_range, List.getElem_zipWith, List.getElem_replicate, Function.comp_apply, circleSample]
    rw [this]
    field_simp
    ring
  · refine List.ext_getElem (by simp) fun j h1 h2 => ?_
    have := key a (-(2 * Real.pi * j / N)) ha
    simp only [Real.cos_neg, Real.sin_neg, mul_neg, ← sub_eq_add_neg] at this
    simp only [List.getElem_map, List.getElem_range, List.getElem_zipWith, List.getElem_replicate, Function.comp_apply, holeSample]
    rw [this]
    field_simp
    ring

/-- C130: the Neumann solver succeeds on such a ring, for all data of the right length, if the solver of linear systems finds solutions that exist. -/
theorem C130_returns {gmres : Gmres} (hf : Finds gmres) (h : K.IsAnnulus x0 y0 a b (2 * n)) (ha : 1 / 10 ^ 14 ≤ a) (hab : a < b) (h4 : 4 ≤ n)
    (hn : n ≤ 2 * 10 ^ 7) (hs : 4 * ringConst a b * (a / b) ^ (2 * n) ≤ 1) {strategy pc : String} {s : Nystrom.Solver}
    (hi : init gmres K strategy pc = .ok s) {w : List ℝ} (hw : w.length = K.numPts) : ∃ u, solveNeumann gmres s.ops s.diag w = .ok u := by
  have ho := (init_parts hi).1
  have hsi := single_ok h.ready (h.even rfl h4 hn) ho hw
  obtain ⟨x, hx, -⟩ := C130_solvable h ha hab h4 hn hs hi
    (rhs := (List.range K.numPts).map fun i => ∑ j ∈ range K.numPts, s.ops.S.at' i j * vec w j) (by simp)
  obtain ⟨x', hx'⟩ := hf _ _ (precond s.ops.K.numPts s.diag) _ hx
  exact ⟨x', by simp only [solveNeumann, hsi, py_ok_bind]; exact hx'⟩

/-- C130: on a ring let the data of the Neumann problem be the weighted normal derivative of `A log |w| + Re (Q(w) + R(1/w))`, `w` the position
relative to the centre, with polynomials `Q` and `R` of degrees at most `d`, less than half the number `2n` of samples of a circle.  If the linear
solver leaves residuals of at most `tol`, then what `solve_neumann_zero_average` returns differs from the values of that function, minus their mean
over the boundary, by at most a constant times `tol + 5 (a/b)^(2n-d) S / (1 - a/b)`.  The constant depends only on the ring and `S` bounds the terms of
the function; `tol` may depend on the right-hand side, whose entries are bounded. -/
theorem C130_neumann {gmres : Gmres} {tol : List ℝ → ℝ} (hg : ResidualWithin gmres tol) (h : K.IsAnnulus x0 y0 a b (2 * n)) (ha : 1 / 10 ^ 14 ≤ a)
    (hab : a < b) (h4 : 4 ≤ n) (hn : n ≤ 2 * 10 ^ 7) (hs : 4 * ringConst a b * (a / b) ^ (2 * n) ≤ 1) {strategy pc : String} {s : Nystrom.Solver}
    (hi : init gmres K strategy pc = .ok s) {A : ℝ} {Q R : ℂ[X]} {d : ℕ} (hd : d < n) (hQ : Q.natDegree ≤ d) (hR : R.natDegree ≤ d)
    {g1 g2 : ℝ → ℝ → ℝ} (hgr : RingGradient A Q R x0 y0 g1 g2) {u : List ℝ} (hr : solveNeumann gmres s.ops s.diag (K.normalOf g1 g2) = .ok u) :
    ∃ rhs : List ℝ, rhs.length = K.numPts ∧
      (∀ t ∈ rhs, |t| ≤ (3 + 5 * ((a / b) ^ (2 * n - d) / (1 - a / b))) * (ringSum Q R a b + |A| * (1 + Real.log (b / a)))) ∧
      Within (ringConst a b * (tol rhs + 5 * ((a / b) ^ (2 * n - d) / (1 - a / b)) * (ringSum Q R a b + |A| * (1 + Real.log (b / a))))) u
        (K.samplesOf fun x y => ringData A Q R x0 y0 x y - ringMean A Q R a b) := by
  have ha0 : 0 < a := lt_of_lt_of_le (by positivity) ha
  have hb0 : 0 < b := ha0.trans hab
  have hNp : 0 < 2 * n := by omega
  obtain ⟨r0, r1, -⟩ := ring_ratio ha0 hab
  have r2 : 0 < 1 - a / b := by linarith
  have hl : 0 < Real.log b - Real.log a := sub_pos.2 (Real.log_lt_log ha0 hab)
  rw [Real.log_div hb0.ne' ha0.ne']
  set l := Real.log b - Real.log a with hldef
  have ho := (init_parts hi).1
  have hK := (build_shape h.ready ho).1
  have hnp := h.numPts
  have hsi := fun {u : List ℝ} => single_ok h.ready (h.even rfl h4 hn) ho (u := u)
  obtain ⟨t, c, y1, z1, c1, c2, c3, c4, c5, -, -, c8, c10, c9⟩ := ring_consistent h ha hab h4 hn ho 0 (C Complex.I * Q) (C Complex.I * R) hd
    (by rw [natDegree_I]; exact hQ) (by rw [natDegree_I]; exact hR)
  rw [ringSum_I] at c10 c9
  rw [ring_flux h ha0 hb0 h4 (by omega) (by omega)] at c1
  cases c1
  set f := K.normalOf (fun x y => (laurentDeriv Q R x0 y0 x y).re) (fun x y => -(laurentDeriv Q R x0 y0 x y).im) with hf
  have hfl : f.length = 2 * (2 * n) := by simp [hf, CellG.normalOf, h.cols]; omega
  rw [List.map_map, show ((fun x : ℝ => -x) ∘ fun x => -x) = id from funext fun x => neg_neg x, List.map_id] at c2
  set w0 : List ℝ := List.replicate (2 * n) 1 ++ List.replicate (2 * n) (-1) with hw0
  set u0 : List ℝ := List.replicate (2 * n) (a * l / (b + a)) ++ List.replicate (2 * n) (-(b * l / (b + a))) with hu0
  obtain ⟨y0', p1, p2⟩ := ring_log h ha hab h4 hn ho hw0 hu0
  set w := K.normalOf g1 g2 with hwdef
  have hw : w = List.zipWith (fun u v => A * u + v) w0 f := ring_normal h ha0 hb0 hgr
  have hw0l : w0.length = 2 * (2 * n) := by simp [hw0]; omega
  have hu0l : u0.length = 2 * (2 * n) := by simp [hu0]; omega
  have hwl : w.length = 2 * (2 * n) := by rw [hw]; simp [hw0l, hfl]
  rw [hsi (by rw [hfl, hnp])] at c2
  have c2 := Except.ok.inj c2
  have hcv : ∀ i < 2 * (2 * n), vec c i = ∑ j ∈ range (2 * (2 * n)), s.ops.S.at' i j * vec f j := by
    intro i hi
    rw [← c2, hnp, vec_range _ hi]
  set rhs := (List.range K.numPts).map fun i => ∑ j ∈ range K.numPts, s.ops.S.at' i j * vec w j with hrhs
  have hrv : ∀ i < 2 * (2 * n), vec rhs i = A * (∑ j ∈ range (2 * (2 * n)), s.ops.S.at' i j * vec w0 j) + vec c i := by
    intro i hi
    rw [hrhs, hnp, vec_range _ hi, hcv i hi, mul_sum, ← sum_add_distrib]
    refine sum_congr rfl fun j hj => ?_
    rw [hw, vec_zipWith _ (hw0l.trans hfl.symm) (by rw [hw0l]; exact mem_range.1 hj)]
    ring
  have hrl : rhs.length = 2 * (2 * n) := by simp [hrhs, hnp]
  simp only [solveNeumann, hsi (hwl.trans hnp.symm), py_ok_bind] at hr
  obtain ⟨y', hy', hres⟩ := hg _ _ _ _ hr
  have hul : u.length = 2 * (2 * n) := by
    by_contra hl
    have : ¬ u.length = K.numPts := by rw [hnp]; exact hl
    simp [Ops.neumann, call, hK, this] at hy'
  obtain ⟨y, z, f1, f2, f3, -⟩ := ring_rows h ha hab h4 hn ho hul 0
  rw [ring_neumann_rows h ha hab h4 hn ho hul 0 f1 f2] at hy'
  rw [← Except.ok.inj hy'] at hres
  set psi := K.samplesOf (ringConj (C Complex.I * Q) (C Complex.I * R) x0 y0) with hpsi
  have hpl : psi.length = 2 * (2 * n) := by simp [hpsi, CellG.samplesOf, h.cols]; omega
  have hexact : K.samplesOf (fun x y => ringData A Q R x0 y0 x y - ringMean A Q R a b) = List.zipWith (fun u v => A * u + v) u0 psi :=
    ring_centred h ha0 hb0 A Q R
  rw [hexact]
  set S := ringSum Q R a b + |A| * (1 + l) with hS
  set ε := (a / b) ^ (2 * n - d) / (1 - a / b) with hε
  have hS0 := ringSum_nonneg (Q := Q) (R := R) ha0 hb0
  have hε0 : 0 ≤ ε := by positivity
  have hεε : (a / b) ^ (2 * n) / (1 - a / b) ≤ ε := by
    rw [hε]
    gcongr ?_ / _
    exact pow_le_pow_of_le_one r0.le r1.le (by omega)
  -- the rows of the exact solution
  have hE : RingSystem (2 * n) (ringKer a b (2 * n)) (ringDelta a b (2 * n)) a b (fun j => A * vec u0 j + vec psi j)
      (fun j => A * vec u0 (2 * n + j) + vec psi (2 * n + j)) (fun i => A * vec u0 (K.closest.getD i 0) + vec psi (K.closest.getD i 0))
      (fun i => A * vec u0 (K.closest.getD (2 * n + i) 0) + vec psi (K.closest.getD (2 * n + i) 0)) (fun i => A * vec y0' i + vec y1 i)
      (fun i => A * vec y0' (2 * n + i) + vec y1 (2 * n + i)) := by
    refine ringRow_system (u := fun j => A * vec u0 j + vec psi j).2 fun i hi => ?_
    have q1 := ringRow_system (u := fun j => vec u0 j).1 p1 i hi
    have q2 := ringRow_system (u := fun j => vec psi j).1 c8 i hi
    simp only [ringRow_add, ringRow_smul, q1.1, q1.2, q2.1, q2.2, and_self]
  have hcons : ∀ i < 2 * (2 * n), |(A * vec y0' i + vec y1 i) - vec rhs i| ≤ 5 * ε * S ∧ |vec rhs i| ≤ (3 + 5 * ε) * S := by
    intro i hi
    obtain ⟨q1, q2⟩ := p2 i hi
    set σ := ∑ j ∈ range (2 * (2 * n)), s.ops.S.at' i j * vec w0 j with hσ
    have q3 : |vec y1 i - vec c i| ≤ 5 * ε * ringSum Q R a b ∧ |vec y1 i| ≤ 3 * ringSum Q R a b := by
      by_cases hi' : i < 2 * n
      · exact ⟨(c9 i hi').1, (c10 hs i hi').1⟩
      · have e1 := (c9 (i - 2 * n) (by omega)).2
        have e2 := (c10 hs (i - 2 * n) (by omega)).2
        rw [show 2 * n + (i - 2 * n) = i by omega] at e1 e2
        exact ⟨e1, e2⟩
    have q4 : |A * (vec y0' i - σ)| ≤ 5 * ε * (|A| * (1 + l)) := by
      rw [abs_mul]
      calc |A| * |vec y0' i - σ| ≤ |A| * (5 * ε * (1 + l)) := by
            refine mul_le_mul_of_nonneg_left (q1.trans ?_) (abs_nonneg _)
            gcongr
        _ = _ := by ring
    have q5 : |A * σ| ≤ 3 * (|A| * (1 + l)) := by
      rw [abs_mul]
      have hsm : (a / b) ^ (2 * n) / (1 - a / b) ≤ 1 := by
        rw [div_le_one r2]
        have := ring_small ha0 hab hs
        linarith
      calc |A| * |σ| ≤ |A| * (1 + l) := mul_le_mul_of_nonneg_left (q2.trans (by linarith)) (abs_nonneg _)
        _ ≤ 3 * (|A| * (1 + l)) := by nlinarith [mul_nonneg (abs_nonneg A) (by linarith : 0 ≤ 1 + l)]
    have hAl : 0 ≤ 5 * ε * (|A| * (1 + l)) := by positivity
    rw [hrv i hi]
    have e1 : A * vec y0' i + vec y1 i - (A * σ + vec c i) = A * (vec y0' i - σ) + (vec y1 i - vec c i) := by ring
    have e2 : 5 * ε * S = 5 * ε * (|A| * (1 + l)) + 5 * ε * ringSum Q R a b := by rw [hS]; ring
    have e3 : (3 + 5 * ε) * S = 3 * (|A| * (1 + l)) + 5 * ε * (|A| * (1 + l)) + 3 * ringSum Q R a b + 5 * ε * ringSum Q R a b := by rw [hS]; ring
    constructor
    · rw [e1, e2]
      exact (abs_add_le _ _).trans (add_le_add q4 q3.1)
    · have q6 : |vec c i| ≤ 3 * ringSum Q R a b + 5 * ε * ringSum Q R a b := by
        have := abs_sub_abs_le_abs_sub (vec c i) (vec y1 i)
        rw [abs_sub_comm] at this
        linarith [q3.1, q3.2]
      rw [e3]
      refine (abs_add_le _ _).trans ?_
      linarith
  set η := tol rhs with hη
  have hent : ∀ i < 2 * (2 * n), |vec y i - vec rhs i| ≤ η := by
    intro i hi
    unfold Within at hres
    rw [List.forall₂_iff_get] at hres
    have hv : ∀ {l : List ℝ} (hi : i < l.length), l.get ⟨i, hi⟩ = vec l i := fun hi => by
      rw [vec, List.getD_eq_getElem _ _ hi]; rfl
    have := hres.2 i (by omega) (by rw [← hrhs, hrl]; exact hi)
    rw [hv, hv] at this
    exact this
  have hcorner : ∀ (u : ℕ → ℝ) (m : ℝ), (∀ i < 2 * n, |u i| ≤ m ∧ |u (2 * n + i)| ≤ m) → ∀ i < 2 * (2 * n), |u (K.closest.getD i 0)| ≤ m := by
    intro u m hm i hi
    have hl : i < K.closest.length := by rw [h.vertices.1]; exact hi
    rw [List.getD_eq_getElem _ _ hl]
    rcases h.vertices.2 _ (List.getElem_mem hl) with e | e <;> rw [e]
    · exact (hm 0 (by omega)).1
    · exact (hm 0 (by omega)).2
  have hb := ring_bound ha0 hab hNp hs (f3.sub hE) (ε := η + 5 * ε * S)
    (fun m hm i hi => ⟨hcorner (fun j => vec u j - (A * vec u0 j + vec psi j)) m hm i (by omega),
      hcorner (fun j => vec u j - (A * vec u0 j + vec psi j)) m hm (2 * n + i) (by omega)⟩)
    (fun i hi => by
      have tri : ∀ p q r : ℝ, |p - r| ≤ η → |q - r| ≤ 5 * ε * S → |p - q| ≤ η + 5 * ε * S := by
        intro p q r h1 h2
        rw [abs_le] at *
        constructor <;> linarith [h1.1, h1.2, h2.1, h2.2]
      exact ⟨tri _ _ _ (hent i (by omega)) (hcons i (by omega)).1, tri _ _ _ (hent (2 * n + i) (by omega)) (hcons (2 * n + i) (by omega)).1⟩)
  refine ⟨rhs, hrl.trans hnp.symm, fun t ht => ?_, ?_⟩
  · obtain ⟨i, hi, rfl⟩ := List.getElem_of_mem ht
    have hv : rhs[i] = vec rhs i := by rw [vec, List.getD_eq_getElem _ _ hi]
    rw [hv]
    exact (hcons i (by omega)).2
  · unfold Within
    rw [List.forall₂_iff_get]
    refine ⟨by simp [hul, hu0l, hpl], fun i h1 h2 => ?_⟩
    have hv : ∀ {l : List ℝ} (hi : i < l.length), l.get ⟨i, hi⟩ = vec l i := fun hi => by
      rw [vec, List.getD_eq_getElem _ _ hi]; rfl
    rw [hv, hv, vec_zipWith _ (hu0l.trans hpl.symm) (by omega)]
    by_cases hi' : i < 2 * n
    · exact (hb i hi').1
    · have := (hb (i - 2 * n) (by omega)).2
      simpa only [show 2 * n + (i - 2 * n) = i by omega] using this

/-- C130: the exact solution in `C130_neumann` is the one with mean value zero over the boundary, also in the sense of the quadrature rule of the code. -/
theorem C130_mean (h : K.IsAnnulus x0 y0 a b (2 * n)) (ha : 0 < a) (hb : 0 < b) (h4 : 4 ≤ n) (A : ℝ) {Q R : ℂ[X]} (hQ : Q.natDegree < n)
    (hR : R.natDegree < n) : K.integrate (K.samplesOf fun x y => ringData A Q R x0 y0 x y - ringMean A Q R a b) = .ok 0 := by
  have hNp : 0 < 2 * n := by omega
  have hN : ((2 * n : ℕ) : ℝ) ≠ 0 := by exact_mod_cast hNp.ne'
  have hQ' : (C Complex.I * Q).natDegree < n := by rwa [natDegree_I]
  have hR' : (C Complex.I * R).natDegree < n := by rwa [natDegree_I]
  have hM : ∀ k < n, 2 * k < 2 * n := fun k hk => by omega
  have e2 := ring_conj h ha hb _ _ hQ' hR'
  rw [ring_centred h ha hb]
  set psi := K.samplesOf (ringConj (C Complex.I * Q) (C Complex.I * R) x0 y0) with hpsi
  have hpl : psi.length = 2 * (2 * n) := by simp [hpsi, CellG.samplesOf, h.cols]; omega
  set u0 : List ℝ := List.replicate (2 * n) (a * (Real.log b - Real.log a) / (b + a)) ++
    List.replicate (2 * n) (-(b * (Real.log b - Real.log a) / (b + a))) with hu0
  have hu0l : u0.length = 2 * (2 * n) := by simp [hu0]; omega
  set v := List.zipWith (fun u v => A * u + v) u0 psi with hv
  have hvl : v.length = 2 * (2 * n) := by simp [hv, hu0l, hpl]
  have zero : ∀ σ s : ℝ, ∑ j ∈ range (2 * n), trig (conjCos (C Complex.I * Q) (C Complex.I * R) s) (conjSin (C Complex.I * Q) (C Complex.I * R) σ s) n
      (2 * Real.pi) (gridPt (2 * n) j) = 0 := by
    intro σ s
    have := trig_mean hNp hM (conjCos (C Complex.I * Q) (C Complex.I * R) s) (conjSin (C Complex.I * Q) (C Complex.I * R) σ s)
    simpa [gridPt, conjCos] using this
  have v1 : ∀ j ∈ range (2 * n), vec v j = A * (a * (Real.log b - Real.log a) / (b + a)) +
      trig (conjCos (C Complex.I * Q) (C Complex.I * R) b) (conjSin (C Complex.I * Q) (C Complex.I * R) 1 b) n (2 * Real.pi) (gridPt (2 * n) j) := by
    intro j hj
    have hj := mem_range.1 hj
    rw [hv, vec_zipWith _ (hu0l.trans hpl.symm) (by omega), hu0, vec_app_left (by simp) hj, vec_replicate _ hj, e2, (ring_block _ _ _ hj).1]
  have v2 : ∀ j ∈ range (2 * n), vec v (2 * n + j) = A * -(b * (Real.log b - Real.log a) / (b + a)) +
      trig (conjCos (C Complex.I * Q) (C Complex.I * R) a) (conjSin (C Complex.I * Q) (C Complex.I * R) (-1) a) n (2 * Real.pi) (gridPt (2 * n) j) := by
    intro j hj
    have hj := mem_range.1 hj
    rw [hv, vec_zipWith _ (hu0l.trans hpl.symm) (by omega), hu0, vec_app_right _ (by simp), vec_replicate _ hj, e2, (ring_block _ _ _ hj).2]
  rw [cell_integrate h.ready h.edges_ne ((hvl.trans h.numPts.symm).trans h.ready.numPts), ring_weights h, dot_vec hvl (by simp; omega), sum_two]
  have w1 : ∀ j ∈ range (2 * n), vec v j * vec (List.replicate (2 * n) (2 * Real.pi / (2 * n : ℕ) * b) ++
      List.replicate (2 * n) (2 * Real.pi / (2 * n : ℕ) * a)) j = 2 * Real.pi / (2 * n : ℕ) * b * vec v j := by
    intro j hj
    have hj := mem_range.1 hj
    rw [vec_app_left (by simp) hj, vec_replicate _ hj]
    ring
  have w2 : ∀ j ∈ range (2 * n), vec v (2 * n + j) * vec (List.replicate (2 * n) (2 * Real.pi / (2 * n : ℕ) * b) ++
      List.replicate (2 * n) (2 * Real.pi / (2 * n : ℕ) * a)) (2 * n + j) = 2 * Real.pi / (2 * n : ℕ) * a * vec v (2 * n + j) := by
    intro j hj
    have hj := mem_range.1 hj
    rw [vec_app_right _ (by simp), vec_replicate _ hj]
    ring
  rw [sum_congr rfl w1, sum_congr rfl w2, ← mul_sum, ← mul_sum, sum_congr rfl v1, sum_congr rfl v2, sum_add_distrib, sum_add_distrib, zero, zero,
    sum_const, sum_const, card_range, nsmul_eq_mul, nsmul_eq_mul]
  congr 1
  ring

end PFEM
