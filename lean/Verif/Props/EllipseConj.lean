import Verif.Props.Ellipse

/-!
Harmonic conjugates of trigonometric polynomials on ellipses, as computed by the solver.
-/

namespace PFEM
open Nystrom Antilap

/-- the coefficients of `log (1 + ρ² - 2ρ cos φ)` and of the Poisson kernel on the grid -/
noncomputable def logCoef (a b : ℝ) (N k : ℕ) : ℝ := gridCoef (fun φ => Real.log (poissonDen (ellRho a b) φ)) N k
noncomputable def kerCoef (a b : ℝ) (N k : ℕ) : ℝ := gridCoef (poissonKer (ellRho a b)) N k

/-- the right-hand side of the system for a trigonometric polynomial -/
theorem ellipse_rhs {K : CellG} {x0 y0 a b : ℝ} {n : ℕ} (h : K.IsEllipse x0 y0 a b (2 * n)) (ha : 0 < a) (hb : 0 < b)
    (hab : (2 * n : ℕ) / (4 * 10 ^ 6) ≤ min a b) (h4 : 4 ≤ n) (hn : n ≤ 2 * 10 ^ 7) {o : Ops} (ho : build K = .ok o) (A B : ℕ → ℝ) {M : ℕ}
    (hM : ∀ k < M, 2 * k < 2 * n) {t : List ℝ}
    (ht : t = (samples (2 * n) (2 * Real.pi) fun x => deriv (trig A B M (2 * Real.pi)) x).map (-1 * ·)) :
    o.single t = .ok ((List.range (2 * n)).map fun i : ℕ =>
      trig (fun k => if k = 0 then 0 else -(B k * (1 - k * logCoef a b (2 * n) k))) (fun k => A k * (1 + k * logCoef a b (2 * n) k)) M
        (2 * Real.pi) (gridPt (2 * n) i) / 2) := by
  have hNp : 0 < 2 * n := by omega
  have hN' : ((2 * n : ℕ) : ℝ) ≠ 0 := by exact_mod_cast hNp.ne'
  have htl : t.length = 2 * n := by rw [ht]; simp [samples]
  rw [single_ok h.ready (h.even rfl h4 hn) ho (by rw [htl, h.numPts]), h.numPts]
  congr 1
  refine List.map_congr_left fun i hi => ?_
  have hi := List.mem_range.1 hi
  have hv : ∀ j < 2 * n, vec t j = -trig (fun k => k * B k) (fun k => -(k * A k)) M (2 * Real.pi) (gridPt (2 * n) j) := by
    intro j hj
    rw [ht, vec_map _ (by simpa [samples] using hj), samples, vec_range _ hj, (trig_deriv _ _ _ _ _).deriv, trig'_eq]
    unfold gridPt
    ring_nf
  have e : ∀ j ∈ Finset.range (2 * n), o.S.at' i j * vec t j =
      1 / (2 * (2 * n : ℕ)) * Real.log (((a + b) / 2) ^ 2) * trig (fun k => k * B k) (fun k => -(k * A k)) M (2 * Real.pi) (gridPt (2 * n) j) +
      1 / (2 * (2 * n : ℕ)) * (Real.log (poissonDen (ellRho a b) (gridPt (2 * n) i + gridPt (2 * n) j)) *
        trig (fun k => k * B k) (fun k => -(k * A k)) M (2 * Real.pi) (gridPt (2 * n) j)) -
      martensenWeight (2 * n) (max i j - min i j) * trig (fun k => k * B k) (fun k => -(k * A k)) M (2 * Real.pi) (gridPt (2 * n) j) := by
    intro j hj
    rw [hv j (Finset.mem_range.1 hj), (ellipse_matrices h ha hb hab h4 hn ho hi (Finset.mem_range.1 hj)).1]
    ring
  rw [Finset.sum_congr rfl e, Finset.sum_sub_distrib, Finset.sum_add_distrib, ← Finset.mul_sum, ← Finset.mul_sum,
    ker_trig a b Real.log hNp]
  have m1 : ∑ j ∈ Finset.range (2 * n), trig (fun k => k * B k) (fun k => -(k * A k)) M (2 * Real.pi) (gridPt (2 * n) j) = 0 := by
    have := trig_mean hNp hM (fun k => k * B k) (fun k => -(k * A k))
    simpa [gridPt] using this
  have m2 := martensen_exact hM (fun k => k * B k) (fun k => -(k * A k)) i
  change ∑ j ∈ Finset.range (2 * n), martensenWeight (2 * n) (max i j - min i j) *
    trig (fun k => k * B k) (fun k => -(k * A k)) M (2 * Real.pi) (gridPt (2 * n) j) = trig _ _ M (2 * Real.pi) (gridPt (2 * n) i) at m2
  rw [m1, m2]
  simp only [trig_eq, logCoef]
  rw [mul_zero, zero_add, ← mul_assoc, show 1 / (2 * ((2 * n : ℕ) : ℝ)) * (2 * n : ℕ) = 1 / 2 by field_simp, Finset.mul_sum,
    ← Finset.sum_sub_distrib, Finset.sum_div]
  refine Finset.sum_congr rfl fun k _ => ?_
  rcases Nat.eq_zero_or_pos k with rfl | hk
  · simp
  · have hk' : (k : ℝ) ≠ 0 := by exact_mod_cast hk.ne'
    rw [if_neg hk.ne']
    field_simp
    ring

/-- the computed conjugate, up to a constant -/
noncomputable def ellConj (a b : ℝ) (N : ℕ) (A B : ℕ → ℝ) (M : ℕ) : ℝ → ℝ :=
  trig (fun k => if k = 0 then 0 else -(B k * (1 - k * logCoef a b N k)) / (1 - kerCoef a b N k))
    (fun k => A k * (1 + k * logCoef a b N k) / (1 + kerCoef a b N k)) M (2 * Real.pi)

/-- the computed conjugate solves the system -/
theorem ellipse_solution {K : CellG} {x0 y0 a b : ℝ} {n : ℕ} (h : K.IsEllipse x0 y0 a b (2 * n)) (ha : 0 < a) (hb : 0 < b)
    (hab : (2 * n : ℕ) / (4 * 10 ^ 6) ≤ min a b) (h4 : 4 ≤ n) (hn : n ≤ 2 * 10 ^ 7)
    (hN : 4 * flatness a b ^ (2 * n - 1) ≤ 1 - flatness a b) {o : Ops} (ho : build K = .ok o) (A B : ℕ → ℝ) {M : ℕ}
    (hM : ∀ k < M, 2 * k < 2 * n) :
    ∃ c, c * ∑ j ∈ Finset.range (2 * n), ellWeight a b (2 * n) j = ellConj a b (2 * n) A B M (gridPt (2 * n) 0) * (1 - kerCoef a b (2 * n) 0) / 2 -
        ∑ j ∈ Finset.range (2 * n), ellConj a b (2 * n) A B M (gridPt (2 * n) j) * ellWeight a b (2 * n) j ∧
      o.neumann (samples (2 * n) (2 * Real.pi) fun t => ellConj a b (2 * n) A B M t + c) = .ok ((List.range (2 * n)).map fun i : ℕ =>
      trig (fun k => if k = 0 then 0 else -(B k * (1 - k * logCoef a b (2 * n) k))) (fun k => A k * (1 + k * logCoef a b (2 * n) k)) M
        (2 * Real.pi) (gridPt (2 * n) i) / 2) := by
  have hNp : 0 < 2 * n := by omega
  have hN' : ((2 * n : ℕ) : ℝ) ≠ 0 := by exact_mod_cast hNp.ne'
  have hρ := ellRho_lt ha hb
  rw [← ellRho_abs ha hb] at hN
  set N := 2 * n with hNdef
  set v : ℕ → ℝ := fun j => ellConj a b N A B M (gridPt N j) with hv
  set L := ∑ j ∈ Finset.range N, ellWeight a b N j with hL
  have hLp : 0 < L := Finset.sum_pos (fun j _ => ellWeight_pos ha hb hNp j) ⟨0, by simpa using hNp⟩
  set I := ∑ j ∈ Finset.range N, v j * ellWeight a b N j with hI
  refine ⟨(v 0 * (1 - kerCoef a b N 0) / 2 - I) / L, ?_, ?_⟩
  · change _ * L = v 0 * (1 - kerCoef a b N 0) / 2 - I
    field_simp
  set c := (v 0 * (1 - kerCoef a b N 0) / 2 - I) / L with hc
  have hcL : c * L = v 0 * (1 - kerCoef a b N 0) / 2 - I := by rw [hc]; field_simp
  have hu : ∀ j < N, vec (samples N (2 * Real.pi) fun t => ellConj a b N A B M t + c) j = v j + c := by
    intro j hj
    rw [samples, vec_range _ hj]
    simp only [hv, gridPt]
    ring_nf
  rw [ellipse_neumann h ha hb hab h4 hn ho (by simp [samples, hNdef])]
  congr 1
  refine List.map_congr_left fun i hi => ?_
  have hi := List.mem_range.1 hi
  rw [hu i hi, hu 0 hNp]
  have e1 : ∑ j ∈ Finset.range N, vec (samples N (2 * Real.pi) fun t => ellConj a b N A B M t + c) j * ellWeight a b N j = I + c * L := by
    rw [hI, hL, Finset.mul_sum, ← Finset.sum_add_distrib]
    exact Finset.sum_congr rfl fun j hj => by rw [hu j (Finset.mem_range.1 hj)]; ring
  have e2 : ∑ j ∈ Finset.range N, poissonKer (ellRho a b) (gridPt N i + gridPt N j) *
      (vec (samples N (2 * Real.pi) fun t => ellConj a b N A B M t + c) j - (v 0 + c)) =
      ∑ j ∈ Finset.range N, poissonKer (ellRho a b) (gridPt N i + gridPt N j) * v j - v 0 * (N * kerCoef a b N 0) := by
    have e3 := (even_conv (f := poissonKer (ellRho a b)) (fun x => by simp only [poissonKer, poissonDen_period])
      (fun x => by simp only [poissonKer, poissonDen_neg]) hNp 0 i).1
    simp only [Nat.cast_zero, zero_mul, Real.cos_zero, mul_one] at e3
    rw [kerCoef, ← e3, Finset.mul_sum, ← Finset.sum_sub_distrib]
    exact Finset.sum_congr rfl fun j hj => by rw [hu j (Finset.mem_range.1 hj)]; ring
  rw [e1, e2, hcL]
  have e4 := ker_trig a b (fun x => (1 - ellRho a b ^ 2) / x) hNp
    (fun k => if k = 0 then 0 else -(B k * (1 - k * logCoef a b N k)) / (1 - kerCoef a b N k))
    (fun k => A k * (1 + k * logCoef a b N k) / (1 + kerCoef a b N k)) M i
  rw [show ∑ j ∈ Finset.range N, poissonKer (ellRho a b) (gridPt N i + gridPt N j) * v j = _ from e4]
  have e5 : ∀ k, gridCoef (fun φ => (1 - ellRho a b ^ 2) / poissonDen (ellRho a b) φ) N k = kerCoef a b N k := fun _ => rfl
  simp only [e5]
  have e6 : v i / 2 - trig (fun k => kerCoef a b N k * if k = 0 then 0 else -(B k * (1 - k * logCoef a b N k)) / (1 - kerCoef a b N k))
      (fun k => -(kerCoef a b N k * (A k * (1 + k * logCoef a b N k) / (1 + kerCoef a b N k)))) M (2 * Real.pi) (gridPt N i) / 2 =
      trig (fun k => if k = 0 then 0 else -(B k * (1 - k * logCoef a b N k))) (fun k => A k * (1 + k * logCoef a b N k)) M
        (2 * Real.pi) (gridPt N i) / 2 := by
    simp only [hv, ellConj, trig_eq]
    rw [← sub_div, ← Finset.sum_sub_distrib]
    congr 1
    refine Finset.sum_congr rfl fun k hk => ?_
    rcases Nat.eq_zero_or_pos k with rfl | hk0
    · simp
    · have hk := hM k (Finset.mem_range.1 hk)
      have hb' := abs_le.1 (coef_bound (k := k) hN hρ hk0 (by omega))
      have n1 : 1 - kerCoef a b N k ≠ 0 := by
        have : kerCoef a b N k ≤ _ := hb'.2
        intro h0
        linarith
      have n2 : 1 + kerCoef a b N k ≠ 0 := by
        have : _ ≤ kerCoef a b N k := hb'.1
        intro h0
        linarith
      simp only [if_neg hk0.ne']
      field_simp
      ring
  rw [← e6, ← hNdef]
  field_simp
  ring

/-- `get_harmonic_conjugate` for samples of a trigonometric polynomial on an ellipse, with the constant -/
theorem ellipse_conjugate_const {gmres : Gmres} (hx : Exact gmres) (hf : Finds gmres) {K : CellG} {x0 y0 a b : ℝ} {n : ℕ}
    (h : K.IsEllipse x0 y0 a b (2 * n)) (ha : 0 < a) (hb : 0 < b) (hab : (2 * n : ℕ) / (4 * 10 ^ 6) ≤ min a b) (h4 : 4 ≤ n)
    (hn : n ≤ 2 * 10 ^ 7) (hN : 4 * flatness a b ^ (2 * n - 1) ≤ 1 - flatness a b) {strategy pc : String} {s : Solver}
    (hs : init gmres K strategy pc = .ok s) (A B : ℕ → ℝ) {M : ℕ} (hM : ∀ k < M, 2 * k < 2 * n) :
    ∃ c, c * ∑ j ∈ Finset.range (2 * n), ellWeight a b (2 * n) j = ellConj a b (2 * n) A B M (gridPt (2 * n) 0) * (1 - kerCoef a b (2 * n) 0) / 2 -
        ∑ j ∈ Finset.range (2 * n), ellConj a b (2 * n) A B M (gridPt (2 * n) j) * ellWeight a b (2 * n) j ∧
      conjugate gmres s (samples (2 * n) (2 * Real.pi) (trig A B M (2 * Real.pi))) =
      .ok (samples (2 * n) (2 * Real.pi) fun t => ellConj a b (2 * n) A B M t + c, []) := by
  obtain ⟨ho, -⟩ := init_parts hs
  obtain ⟨hK, -⟩ := build_shape h.ready ho
  have hd : wtdFromTrace K (samples (2 * n) (2 * Real.pi) (trig A B M (2 * Real.pi))) =
      .ok (samples (2 * n) (2 * Real.pi) fun t => deriv (trig A B M (2 * Real.pi)) t) := by
    obtain ⟨c, e, h1, h2, -, h3⟩ := h.ellipse
    have hu : Fits K [samples (2 * n) (2 * Real.pi) (trig A B M (2 * Real.pi))] := by
      simp [Fits, h1, ContourG.cols, h2, h3, samples]
    obtain ⟨vs, hv, hw⟩ := (C49_cell h.ready h.edges_ne hu).1
    rw [List.flatten_singleton] at hw
    rw [hw]
    simp only [h1, List.zip_cons_cons, List.zip_nil_right] at hv
    cases hv with
    | cons hv1 hv2 =>
      cases hv2
      simp only [h2, List.length_singleton, Nat.cast_one, mul_one] at hv1
      rw [C49_exact _ (by omega) _ (by have := Real.pi_pos; positivity) A B M hM] at hv1
      cases hv1
      simp
  obtain ⟨c, hcc, hc⟩ := ellipse_solution h ha hb hab h4 hn hN ho A B hM
  refine ⟨c, hcc, ?_⟩
  simp only [conjugate, hK, hd, py_ok_bind, h.numHoles, if_true, solveNeumann]
  rw [ellipse_rhs h ha hb hab h4 hn ho A B hM rfl, py_ok_bind]
  obtain ⟨x, hx'⟩ := hf _ _ (precond K.numPts s.diag) _ hc
  have := ellipse_injective h ha hb hab h4 hn hN ho (hx _ _ _ _ hx') hc
  rw [hx', py_ok_bind, this]

/-- `get_harmonic_conjugate` for samples of a trigonometric polynomial on an ellipse -/
theorem ellipse_conjugate {gmres : Gmres} (hx : Exact gmres) (hf : Finds gmres) {K : CellG} {x0 y0 a b : ℝ} {n : ℕ}
    (h : K.IsEllipse x0 y0 a b (2 * n)) (ha : 0 < a) (hb : 0 < b) (hab : (2 * n : ℕ) / (4 * 10 ^ 6) ≤ min a b) (h4 : 4 ≤ n)
    (hn : n ≤ 2 * 10 ^ 7) (hN : 4 * flatness a b ^ (2 * n - 1) ≤ 1 - flatness a b) {strategy pc : String} {s : Solver}
    (hs : init gmres K strategy pc = .ok s) (A B : ℕ → ℝ) {M : ℕ} (hM : ∀ k < M, 2 * k < 2 * n) :
    ∃ c, conjugate gmres s (samples (2 * n) (2 * Real.pi) (trig A B M (2 * Real.pi))) =
      .ok (samples (2 * n) (2 * Real.pi) fun t => ellConj a b (2 * n) A B M t + c, []) := by
  obtain ⟨c, -, hc⟩ := ellipse_conjugate_const hx hf h ha hb hab h4 hn hN hs A B hM
  exact ⟨c, hc⟩

end PFEM
