import Verif.Props.Annulus
import Verif.Props.Augmented

/-!
The linear system for harmonic conjugates on a ring.
-/

namespace PFEM
open Nystrom Antilap Finset

/-- the defect of the Poisson kernel on the grid -/
noncomputable def ringDelta (a b : ℝ) (N : ℕ) : ℝ := 2 * (a / b) ^ N / (1 - (a / b) ^ N)

theorem ringKer_symm (a b : ℝ) (N i j : ℕ) : ringKer a b N i j = ringKer a b N j i := by rw [ringKer, add_comm, ringKer]

theorem poissonKer_period (ρ x : ℝ) : poissonKer ρ (x + 2 * Real.pi) = poissonKer ρ x := by rw [poissonKer, poissonDen_period, poissonKer]

theorem poissonKer_neg (ρ x : ℝ) : poissonKer ρ (-x) = poissonKer ρ x := by rw [poissonKer, poissonDen_neg, poissonKer]

/-- row sums of the kernel -/
theorem ringKer_sum {a b : ℝ} (ha : 0 < a) (hab : a < b) {N : ℕ} (hN : 0 < N) (i : ℕ) :
    ∑ j ∈ range N, ringKer a b N i j = N * (1 + ringDelta a b N) := by
  have hN' : (N : ℝ) ≠ 0 := by exact_mod_cast hN.ne'
  obtain ⟨-, -, hρ⟩ := ring_ratio ha hab
  have hpos := one_sub_pow_pos hρ hN
  have h1 := (even_conv (poissonKer_period (a / b)) (poissonKer_neg (a / b)) hN 0 i).1
  simp only [Nat.cast_zero, zero_mul, Real.cos_zero, mul_one] at h1
  change ∑ j ∈ range N, ringKer a b N i j = _ at h1
  rw [h1, gridCoef]
  simp only [Nat.cast_zero, zero_mul, Real.cos_zero, mul_one]
  have h2 : (1 - (a / b) ^ N) * (∑ j ∈ range N, poissonKer (a / b) (gridPt N j) + N) = 2 * N := by
    have e1 : (1 - (a / b) ^ N) * (∑ j ∈ range N, poissonKer (a / b) (gridPt N j) + N) =
        ∑ j ∈ range N, (1 - (a / b) ^ N) * (poissonKer (a / b) (gridPt N j) + 1) := by
      rw [← mul_sum, sum_add_distrib]
      simp
    rw [e1, sum_congr rfl fun j _ => poisson_grid hρ hN j, ← mul_sum, sum_comm]
    have e2 : ∀ m ∈ range N, ∑ j ∈ range N, (a / b) ^ m * Real.cos (m * gridPt N j) = if m = 0 then (N : ℝ) else 0 := by
      intro m hm
      have hm := mem_range.1 hm
      rw [← mul_sum]
      have := grid_cos hN m
      rw [Int.cast_natCast] at this
      rw [this]
      by_cases h0 : m = 0
      · simp [h0]
      · rw [if_neg h0, if_neg, mul_zero]
        intro hd
        have := Int.le_of_dvd (by omega) hd
        omega
    rw [sum_congr rfl e2]
    simp [hN]
  rw [ringDelta]
  generalize ∑ j ∈ range N, poissonKer (a / b) (gridPt N j) = s at *
  field_simp
  linear_combination h2

theorem ringKer_ge {a b : ℝ} (ha : 0 < a) (hab : a < b) (N i j : ℕ) : (1 - a / b) / (1 + a / b) ≤ ringKer a b N i j := by
  obtain ⟨h0, h1, hρ⟩ := ring_ratio ha hab
  have hd := poissonDen_pos hρ (gridPt N i + gridPt N j)
  rw [ringKer, poissonKer, div_le_div_iff₀ (by linarith) hd, poissonDen]
  have := Real.neg_one_le_cos (gridPt N i + gridPt N j)
  nlinarith [mul_pos h0 (sub_pos.2 h1)]

theorem sum_two (f : ℕ → ℝ) (N : ℕ) : ∑ j ∈ range (2 * N), f j = ∑ j ∈ range N, f j + ∑ j ∈ range N, f (N + j) := by
  rw [two_mul, sum_range_add]

variable {K : CellG} {x0 y0 a b : ℝ} {n : ℕ}

theorem ring_lam {N : ℕ} (h : K.IsAnnulus x0 y0 a b N) (ha : 0 < a) (hb : 0 < b) {p : Vert} (hx : p.x = x0) (hy : p.y = y0) :
    lamT K p = List.replicate (2 * N) 0 ∧ lamN K p = List.replicate N 1 ++ List.replicate N (-1) ∧
      K.samplesOf (logDist p) = List.replicate N (Real.log b) ++ List.replicate N (Real.log a) := by
  have k1 : ∀ (r : ℝ), 0 < r → ∀ j : ℕ, sq p (circleSample x0 y0 r N j).x (circleSample x0 y0 r N j).y = r ^ 2 := by
    intro r _ j
    have := Real.sin_sq_add_cos_sq (2 * Real.pi * j / N)
    simp only [sq, hx, hy, circleSample]
    linear_combination r ^ 2 * this
  have k2 : ∀ (r : ℝ), 0 < r → ∀ j : ℕ, sq p (holeSample x0 y0 r N j).x (holeSample x0 y0 r N j).y = r ^ 2 := by
    intro r _ j
    have := Real.sin_sq_add_cos_sq (2 * Real.pi * j / N)
    simp only [sq, hx, hy, holeSample]
    linear_combination r ^ 2 * this
  have rep : ∀ (x : ℝ) (m : ℕ), List.replicate m x = (List.range m).map fun _ => x := fun x m => by simp
  refine ⟨?_, ?_, ?_⟩
  · rw [lamT, CellG.tangentOf, h.cols, List.map_append, two_mul, List.replicate_add, rep, List.map_map, List.map_map]
    congr 1 <;> refine List.map_congr_left fun j _ => ?_
    · simp only [Function.comp_apply, k1 b hb j]
      simp only [circleSample, hx, hy]
      ring
    · simp only [Function.comp_apply, k2 a ha j]
      simp only [holeSample, hx, hy]
      ring
  · rw [lamN, CellG.normalOf, h.cols, List.map_append, rep, rep, List.map_map, List.map_map]
    congr 1 <;> refine List.map_congr_left fun j _ => ?_
    · have := Real.sin_sq_add_cos_sq (2 * Real.pi * j / N)
      simp only [Function.comp_apply, k1 b hb j]
      simp only [circleSample, hx, hy]
      field_simp
      linear_combination b * this
    · have := Real.sin_sq_add_cos_sq (2 * Real.pi * j / N)
      simp only [Function.comp_apply, k2 a ha j]
      simp only [holeSample, hx, hy]
      field_simp
      linear_combination -a * this
  · rw [CellG.samplesOf, h.cols, List.map_append, rep, rep, List.map_map, List.map_map]
    congr 1 <;> refine List.map_congr_left fun j _ => ?_
    · simp only [Function.comp_apply, logDist_eq, k1 b hb j, Real.log_pow]
      norm_num
      ring
    · simp only [Function.comp_apply, logDist_eq, k2 a ha j, Real.log_pow]
      norm_num
      ring

theorem vec_app_left {u v : List ℝ} {i N : ℕ} (hu : u.length = N) (hi : i < N) : vec (u ++ v) i = vec u i :=
  vec_append_left (by omega)

theorem vec_app_right {u v : List ℝ} (i : ℕ) {N : ℕ} (hu : u.length = N) : vec (u ++ v) (N + i) = vec v i := by
  simp [vec, List.getD_eq_getElem?_getD, List.getElem?_append_right, ← hu]

theorem ring_steps {N : ℕ} (h : K.IsAnnulus x0 y0 a b N) : steps K = List.replicate (2 * N) (2 * Real.pi / N) := by
  obtain ⟨c, d, e, f, h1, h2, h3, -, -, h6, h5, -⟩ := h.circles
  simp only [steps, h1, ContourG.cols, h2, h3, h6, h5, List.flatMap_cons, List.flatMap_nil, List.append_nil, List.map_map,
    List.length_map, List.length_range, List.length_singleton, Nat.cast_one, mul_one]
  rw [two_mul N, List.replicate_add, show List.replicate N (2 * Real.pi / (N : ℝ)) = (List.range N).map fun _ => 2 * Real.pi / (N : ℝ) by simp]
  rfl

theorem ring_weights {N : ℕ} (h : K.IsAnnulus x0 y0 a b N) :
    cellWeights K = List.replicate N (2 * Real.pi / N * b) ++ List.replicate N (2 * Real.pi / N * a) := by
  obtain ⟨c, d, e, f, h1, h2, h3, -, -, h6, h5, -⟩ := h.circles
  have rep : ∀ (x : ℝ) (m : ℕ), List.replicate m x = (List.range m).map fun _ => x := fun x m => by simp
  simp only [cellWeights, h1, ContourG.cols, h2, h3, h6, h5, List.flatMap_cons, List.flatMap_nil, List.append_nil, List.map_map,
    List.length_map, List.length_range, List.length_singleton, Nat.cast_one, mul_one]
  rw [rep, rep]
  rfl

/-- the pairing with the normal derivative of the logarithmic term -/
theorem ring_pair {N : ℕ} (h : K.IsAnnulus x0 y0 a b N) (ha : 0 < a) (hb : 0 < b) {p : Vert} (hx : p.x = x0) (hy : p.y = y0) {u : List ℝ}
    (hu : u.length = 2 * N) : dot (List.zipWith (· * ·) u (lamN K p)) (steps K) =
      2 * Real.pi * ((∑ j ∈ range N, vec u j) / N - (∑ j ∈ range N, vec u (N + j)) / N) := by
  have hK := h.numPts
  rw [dot_prod h.ready (by rw [hu, hK]) (lamN_len h.ready p), hK, sum_two, ring_steps h, (ring_lam h ha hb hx hy).2.1]
  have e1 : ∀ j ∈ range N, vec u j * vec (List.replicate N 1 ++ List.replicate N (-1)) j * vec (List.replicate (2 * N) (2 * Real.pi / N)) j =
      2 * Real.pi / N * vec u j := by
    intro j hj
    have hj := mem_range.1 hj
    rw [vec_app_left (by simp) hj, vec_replicate _ hj, vec_replicate _ (by omega)]
    ring
  have e2 : ∀ j ∈ range N, vec u (N + j) * vec (List.replicate N 1 ++ List.replicate N (-1)) (N + j) *
      vec (List.replicate (2 * N) (2 * Real.pi / N)) (N + j) = -(2 * Real.pi / N) * vec u (N + j) := by
    intro j hj
    have hj := mem_range.1 hj
    rw [vec_app_right _ (by simp), vec_replicate _ hj, vec_replicate _ (by omega)]
    ring
  rw [sum_congr rfl e1, sum_congr rfl e2, ← mul_sum, ← mul_sum]
  ring

/-- rows of the augmented system on a ring -/
theorem ring_rows (h : K.IsAnnulus x0 y0 a b (2 * n)) (ha : 1 / 10 ^ 14 ≤ a) (hab : a < b) (h4 : 4 ≤ n)
    (hn : n ≤ 2 * 10 ^ 7) {o : Ops} (ho : build K = .ok o) {psi : List ℝ} (hpsi : psi.length = 2 * (2 * n)) (α : ℝ) :
    ∃ y z, augmented o (logTermsOf o) (psi ++ [α]) = .ok (y ++ [z]) ∧ y.length = 2 * (2 * n) ∧
      RingSystem (2 * n) (ringKer a b (2 * n)) (ringDelta a b (2 * n)) a b (fun j => vec psi j) (fun j => vec psi (2 * n + j))
        (fun i => vec psi (K.closest.getD i 0)) (fun i => vec psi (K.closest.getD (2 * n + i) 0)) (fun i => vec y i) (fun i => vec y (2 * n + i)) ∧
      z = α * (2 * Real.pi * (Real.log b - Real.log a)) := by
  have ha0 : 0 < a := lt_of_lt_of_le (by positivity) ha
  have hb0 : 0 < b := ha0.trans hab
  have hNp : 0 < 2 * n := by omega
  have hN : ((2 * n : ℕ) : ℝ) ≠ 0 := by exact_mod_cast (by omega)
  have hc := h.corners hNp
  have hpsi' : psi.length = K.numPts := by rw [hpsi, h.numPts]
  obtain ⟨y, z, d, e1, hyl, hzl, hd, hdl, hy, hz⟩ := augmented_eq h.ready (h.even rfl h4 hn) h.edges_ne hc ho hpsi' (a := [α])
    (by rw [h.numHoles]; rfl)
  obtain ⟨d', hd', -, hrow⟩ := C50_formula h.ready hc ho hpsi'
  rw [hd] at hd'
  cases hd'
  obtain ⟨p, hp, hx, hy0⟩ := h.pole
  obtain ⟨l1, l2, l3⟩ := ring_lam h ha0 hb0 hx hy0
  have hnp := h.numPts
  have hI : dot psi (cellWeights K) = 2 * Real.pi * (b * ((∑ j ∈ range (2 * n), vec psi j) / (2 * n : ℕ)) +
      a * ((∑ j ∈ range (2 * n), vec psi (2 * n + j)) / (2 * n : ℕ))) := by
    rw [ring_weights h, dot_vec hpsi (by simp; omega), sum_two]
    have w1 : ∀ j ∈ range (2 * n), vec psi j * vec (List.replicate (2 * n) (2 * Real.pi / (2 * n : ℕ) * b) ++
        List.replicate (2 * n) (2 * Real.pi / (2 * n : ℕ) * a)) j = 2 * Real.pi / (2 * n : ℕ) * b * vec psi j := by
      intro j hj
      have hj := mem_range.1 hj
      rw [vec_app_left (by simp) hj, vec_replicate _ hj]
      ring
    have w2 : ∀ j ∈ range (2 * n), vec psi (2 * n + j) * vec (List.replicate (2 * n) (2 * Real.pi / (2 * n : ℕ) * b) ++
        List.replicate (2 * n) (2 * Real.pi / (2 * n : ℕ) * a)) (2 * n + j) = 2 * Real.pi / (2 * n : ℕ) * a * vec psi (2 * n + j) := by
      intro j hj
      have hj := mem_range.1 hj
      rw [vec_app_right _ (by simp), vec_replicate _ hj]
      ring
    rw [sum_congr rfl w1, sum_congr rfl w2, ← mul_sum, ← mul_sum]
    ring
  have hT : ∀ i, singleAt o (((poles K).map (lamT K)).getD 0 []) i = 0 := by
    intro i
    have hK := (build_shape h.ready ho).1
    rw [hp]
    simp only [List.map_cons, List.map_nil, List.getD_cons_zero, l1, singleAt, hK, hnp]
    exact sum_eq_zero fun j hj => by rw [vec_replicate _ (mem_range.1 hj), mul_zero]
  have hy' : ∀ i < 2 * (2 * n), vec y i = vec d i + dot psi (cellWeights K) := by
    intro i hi
    rw [hy i (by rw [hnp]; exact hi), h.numHoles, sum_range_one, hT, mul_zero, sub_zero]
  have hcl : ∀ i < 2 * (2 * n), K.closest[i]? = some (K.closest.getD i 0) := by
    intro i hi
    have : i < K.closest.length := by rw [h.vertices.1]; exact hi
    simp [List.getD_eq_getElem?_getD, this]
  obtain ⟨z0, rfl⟩ := List.length_eq_one_iff.1 (hzl.trans h.numHoles)
  refine ⟨y, z0, e1, by rw [hyl, hnp], ⟨?_, ?_⟩, ?_⟩
  · intro i hi
    rw [hy' i (by omega), hrow i _ (by rw [hnp]; omega) (hcl i (by omega)), hnp, sum_two _ (2 * n), hI]
    generalize vec psi (K.closest.getD i 0) = c
    have s1 : ∑ j ∈ range (2 * n), o.D.at' i j * (vec psi j - c) =
        -(1 / (2 * (2 * n : ℕ))) * (∑ j ∈ range (2 * n), vec psi j) + c / 2 := by
      rw [sum_congr rfl fun j hj => by rw [(ring_matrices h ha hab h4 hn ho hi (mem_range.1 hj)).2.1], ← mul_sum, sum_sub_distrib, sum_const,
        card_range, nsmul_eq_mul]
      field_simp
      ring
    have s2 : ∑ j ∈ range (2 * n), o.D.at' i (2 * n + j) * (vec psi (2 * n + j) - c) =
        -(1 / (2 * (2 * n : ℕ))) * (∑ j ∈ range (2 * n), ringKer a b (2 * n) i j * vec psi (2 * n + j)) +
        1 / (2 * (2 * n : ℕ)) * (∑ j ∈ range (2 * n), vec psi (2 * n + j)) + c / 2 * ringDelta a b (2 * n) := by
      have : ∀ j ∈ range (2 * n), o.D.at' i (2 * n + j) * (vec psi (2 * n + j) - c) =
          -(1 / (2 * (2 * n : ℕ))) * (ringKer a b (2 * n) i j * vec psi (2 * n + j)) + 1 / (2 * (2 * n : ℕ)) * vec psi (2 * n + j) +
            (c / (2 * (2 * n : ℕ)) * ringKer a b (2 * n) i j - c / (2 * (2 * n : ℕ))) := by
        intro j hj
        rw [(ring_matrices h ha hab h4 hn ho hi (mem_range.1 hj)).2.2.1]
        ring
      rw [sum_congr rfl this, sum_add_distrib, sum_add_distrib, sum_sub_distrib, ← mul_sum, ← mul_sum, ← mul_sum, ringKer_sum ha0 hab hNp, sum_const,
        card_range, nsmul_eq_mul]
      field_simp
      ring
    rw [s1, s2]
    field_simp
    ring
  · intro i hi
    rw [hy' (2 * n + i) (by omega), hrow (2 * n + i) _ (by rw [hnp]; omega) (hcl (2 * n + i) (by omega)), hnp, sum_two _ (2 * n), hI]
    generalize vec psi (K.closest.getD (2 * n + i) 0) = c
    have s1 : ∑ j ∈ range (2 * n), o.D.at' (2 * n + i) (2 * n + j) * (vec psi (2 * n + j) - c) =
        1 / (2 * (2 * n : ℕ)) * (∑ j ∈ range (2 * n), vec psi (2 * n + j)) - c / 2 := by
      rw [sum_congr rfl fun j hj => by rw [(ring_matrices h ha hab h4 hn ho hi (mem_range.1 hj)).2.2.2.2], ← mul_sum, sum_sub_distrib, sum_const,
        card_range, nsmul_eq_mul]
      field_simp
    have s2 : ∑ j ∈ range (2 * n), o.D.at' (2 * n + i) j * (vec psi j - c) =
        -(1 / (2 * (2 * n : ℕ))) * (∑ j ∈ range (2 * n), ringKer a b (2 * n) i j * vec psi j) -
        1 / (2 * (2 * n : ℕ)) * (∑ j ∈ range (2 * n), vec psi j) + c / 2 * (ringDelta a b (2 * n) + 2) := by
      have : ∀ j ∈ range (2 * n), o.D.at' (2 * n + i) j * (vec psi j - c) =
          -(1 / (2 * (2 * n : ℕ))) * (ringKer a b (2 * n) i j * vec psi j) - 1 / (2 * (2 * n : ℕ)) * vec psi j +
            (c / (2 * (2 * n : ℕ)) * ringKer a b (2 * n) i j + c / (2 * (2 * n : ℕ))) := by
        intro j hj
        rw [(ring_matrices h ha hab h4 hn ho hi (mem_range.1 hj)).2.2.2.1]
        ring
      rw [sum_congr rfl this, sum_add_distrib, sum_sub_distrib, sum_add_distrib, ← mul_sum, ← mul_sum, ← mul_sum, ringKer_sum ha0 hab hNp, sum_const,
        card_range, nsmul_eq_mul]
      field_simp
      ring
    rw [s1, s2]
    field_simp
    ring
  · have := hz 0 p (by rw [hp]; rfl)
    rw [h.numHoles, sum_range_one, hp] at this
    simp only [List.map_cons, List.map_nil, List.getD_cons_zero] at this
    have hv : vec [z0] 0 = z0 := rfl
    have hα : vec [α] 0 = α := rfl
    rw [hv, hα, ring_pair h ha0 hb0 hx hy0 (by rw [samples_len h.ready, hnp]), l3] at this
    have q1 : ∑ j ∈ range (2 * n), vec (List.replicate (2 * n) (Real.log b) ++ List.replicate (2 * n) (Real.log a)) j =
        (2 * n : ℕ) * Real.log b := by
      rw [sum_congr rfl fun j hj => by rw [vec_app_left (by simp) (mem_range.1 hj), vec_replicate _ (mem_range.1 hj)]]
      simp
    have q2 : ∑ j ∈ range (2 * n), vec (List.replicate (2 * n) (Real.log b) ++ List.replicate (2 * n) (Real.log a)) (2 * n + j) =
        (2 * n : ℕ) * Real.log a := by
      rw [sum_congr rfl fun j hj => by rw [vec_app_right _ (by simp), vec_replicate _ (mem_range.1 hj)]]
      simp
    have q3 : dot (List.zipWith (· * ·) psi (lamT K p)) (steps K) = 0 := by
      rw [dot_prod h.ready hpsi' (lamT_len h.ready p), l1, hnp]
      exact sum_eq_zero fun j hj => by rw [vec_replicate _ (mem_range.1 hj)]; ring
    rw [q1, q2, q3] at this
    rw [this]
    field_simp
    ring

end PFEM
