import Verif.Spec.Disc
import Verif.Lemmas.TrigSum
import Verif.Props.PoissonInit
import Mathlib.Analysis.Calculus.Deriv.Polynomial
import Mathlib.Analysis.Complex.RealDeriv

/-!
Property theorems C76: on a disc the solver is exact for harmonic polynomials.
-/

namespace PFEM
open Nystrom Antilap

namespace CellG.IsDisc

variable {K : CellG} {x0 y0 r : ℝ} {N : ℕ}

theorem cols (h : K.IsDisc x0 y0 r N) : K.cols = (List.range N).map (circleSample x0 y0 r N) := by
  obtain ⟨c, e, h1, h2, -, h3⟩ := h.circle
  simp [CellG.cols, h1, ContourG.cols, h2, h3]

theorem numPts (h : K.IsDisc x0 y0 r N) : K.numPts = N := by
  rw [h.ready.numPts, h.cols]; simp

theorem numHoles (h : K.IsDisc x0 y0 r N) : K.numHoles = 0 := by
  obtain ⟨c, e, h1, -⟩ := h.circle
  simp [CellG.numHoles, h1]

theorem even (h : K.IsDisc x0 y0 r N) {n : ℕ} (hN : N = 2 * n) (h4 : 4 ≤ n) (hn : n ≤ 2 * 10 ^ 7) : K.Even := by
  obtain ⟨c, e, h1, h2, -, h3⟩ := h.circle
  intro c' hc' e' he'
  rw [h1, List.mem_singleton] at hc'
  subst hc'
  rw [h2, List.mem_singleton] at he'
  subst he'
  exact ⟨n, h4, hn, by simp [h3, hN]⟩

theorem edges_ne (h : K.IsDisc x0 y0 r N) : ∀ c ∈ K.components, c.edges ≠ [] := by
  obtain ⟨c, e, h1, h2, -⟩ := h.circle
  intro c' hc'
  rw [h1, List.mem_singleton] at hc'
  subst hc'
  simp [h2]

theorem holes (h : K.IsDisc x0 y0 r N) : K.Holes := by
  obtain ⟨c, e, h1, -⟩ := h.circle
  intro c' hc'
  simp [h1] at hc'

theorem uniform (h : K.IsDisc x0 y0 r N) : Uniform K := by
  obtain ⟨c, e, h1, h2, -, h3⟩ := h.circle
  intro c' hc'
  refine ⟨h.edges_ne c' hc', N, ?_⟩
  rw [h1, List.mem_singleton] at hc'
  subst hc'
  intro e' he'
  rw [h2, List.mem_singleton] at he'
  subst he'
  simp [h3]

theorem normals (h : K.IsDisc x0 y0 r N) : K.Normals := by
  intro s hs
  rw [h.cols] at hs
  obtain ⟨j, -, rfl⟩ := List.mem_map.1 hs
  simp [circleSample]

/-- the sample with number `j` as a node -/
theorem node (h : K.IsDisc x0 y0 r N) {j : ℕ} (hj : j < N) : ∃ P : Node K, P.i = 0 ∧ P.k = 0 ∧ P.a = j ∧ P.pos = j ∧
    P.s = circleSample x0 y0 r N j ∧ P.e.cols.length = N ∧ ¬ P.Skipped := by
  obtain ⟨c, e, h1, h2, hk, h3⟩ := h.circle
  refine ⟨⟨0, 0, j, c, e, circleSample x0 y0 r N j, by simp [h1], by simp [h2], by simp [h3, hj]⟩, rfl, rfl, rfl, ?_, rfl, by simp [h3],
    fun hs => hk hs.1⟩
  simp [Node.pos, blockStart]

theorem node_only (h : K.IsDisc x0 y0 r N) (P : Node K) : P.i = 0 ∧ P.k = 0 ∧ P.a < N ∧ P.s = circleSample x0 y0 r N P.a ∧
    P.e.cols.length = N := by
  obtain ⟨c, e, h1, h2, hk, h3⟩ := h.circle
  have hi : P.i < [c].length := by rw [← h1]; exact (List.getElem?_eq_some_iff.1 P.hc).1
  have hi : P.i = 0 := by simpa using hi
  have hc := P.hc
  rw [hi, h1] at hc
  have hc : c = P.c := by simpa using hc
  have hk2 : P.k < [e].length := by rw [← h2, hc]; exact (List.getElem?_eq_some_iff.1 P.he).1
  have hk2 : P.k = 0 := by simpa using hk2
  have he := P.he
  rw [hk2, ← hc, h2] at he
  have he : e = P.e := by simpa using he
  have hs := P.hs
  rw [← he, h3] at hs
  have ha : P.a < N := by simpa using (List.getElem?_eq_some_iff.1 hs).1
  refine ⟨hi, hk2, ha, ?_, by rw [← he, h3]; simp⟩
  simpa [ha] using hs.symm

end CellG.IsDisc

/-- squared distance of two samples of a circle -/
theorem circle_dist (x0 y0 r : ℝ) (N i j : ℕ) : sqDist (circleSample x0 y0 r N i) (circleSample x0 y0 r N j) =
    r ^ 2 * (2 * Real.sin (Real.pi * (i - j) / N)) ^ 2 := by
  have e : Real.pi * ((i : ℝ) - j) / N = (2 * Real.pi * i / N) / 2 - (2 * Real.pi * j / N) / 2 := by ring
  simp only [sqDist, circleSample]
  rw [e, Real.sin_sub]
  set α := 2 * Real.pi * (i : ℝ) / N
  set β := 2 * Real.pi * (j : ℝ) / N
  have hα : α = 2 * (α / 2) := by ring
  have hβ : β = 2 * (β / 2) := by ring
  have c1 : Real.cos α = 2 * Real.cos (α / 2) ^ 2 - 1 := by rw [← Real.cos_two_mul, ← hα]
  have c2 : Real.cos β = 2 * Real.cos (β / 2) ^ 2 - 1 := by rw [← Real.cos_two_mul, ← hβ]
  have s1 : Real.sin α = 2 * Real.sin (α / 2) * Real.cos (α / 2) := by rw [← Real.sin_two_mul, ← hα]
  have s2 : Real.sin β = 2 * Real.sin (β / 2) * Real.cos (β / 2) := by rw [← Real.sin_two_mul, ← hβ]
  rw [c1, c2, s1, s2]
  have p1 := Real.sin_sq_add_cos_sq (α / 2)
  have p2 := Real.sin_sq_add_cos_sq (β / 2)
  generalize Real.sin (α / 2) = A at *
  generalize Real.cos (α / 2) = B at *
  generalize Real.sin (β / 2) = C at *
  generalize Real.cos (β / 2) = D at *
  linear_combination (4 * r ^ 2 * B ^ 2 - 4 * r ^ 2 * D ^ 2) * p1 + (4 * r ^ 2 * D ^ 2 - 4 * r ^ 2 * B ^ 2) * p2

theorem sin_ne {N i j : ℕ} (hi : i < N) (hj : j < N) (hij : i ≠ j) : Real.sin (Real.pi * ((i : ℝ) - j) / N) ≠ 0 := by
  have hN : (0 : ℝ) < N := by exact_mod_cast (by omega : 0 < N)
  intro h
  obtain ⟨n, hn⟩ := Real.sin_eq_zero_iff.1 h
  have hpi := Real.pi_ne_zero
  have e : ((n * N : ℤ) : ℝ) = ((i - j : ℤ) : ℝ) := by
    push_cast
    field_simp at hn
    exact hn
  have e : n * N = (i - j : ℤ) := by exact_mod_cast e
  have : n = 0 := by
    by_contra h0
    rcases lt_or_gt_of_ne h0 with h1 | h1
    · have : n * N ≤ -(N : ℤ) := by nlinarith
      omega
    · have : (N : ℤ) ≤ n * N := by nlinarith
      omega
  rw [this, zero_mul] at e
  omega

theorem CellG.IsDisc.simple {K : CellG} {x0 y0 r : ℝ} {N : ℕ} (h : K.IsDisc x0 y0 r N) (hr : 0 < r) : K.Simple := by
  intro P Q _ hPQ
  obtain ⟨p1, p2, p3, p4, -⟩ := h.node_only P
  obtain ⟨q1, q2, q3, q4, -⟩ := h.node_only Q
  have hne : P.a ≠ Q.a := fun e => hPQ ⟨⟨p1.trans q1.symm, p2.trans q2.symm⟩, e⟩
  rw [p4, q4, circle_dist]
  have := sin_ne p3 q3 hne
  positivity

theorem CellG.IsDisc.apart {K : CellG} {x0 y0 r : ℝ} {N : ℕ} (h : K.IsDisc x0 y0 r N) : K.Apart := by
  intro P Q _ hPQ
  obtain ⟨p1, p2, -⟩ := h.node_only P
  obtain ⟨q1, q2, -⟩ := h.node_only Q
  exact absurd ⟨p1.trans q1.symm, p2.trans q2.symm⟩ hPQ

/-- the matrices on a disc -/
theorem disc_matrices {K : CellG} {x0 y0 r : ℝ} {n : ℕ} (h : K.IsDisc x0 y0 r (2 * n)) (hr : 1 / 10 ^ 14 ≤ r) (h4 : 4 ≤ n)
    (hn : n ≤ 2 * 10 ^ 7) {o : Ops} (ho : build K = .ok o) {i j : ℕ} (hi : i < 2 * n) (hj : j < 2 * n) :
    o.S.at' i j = -(1 / (2 * n : ℕ)) * Real.log r + martensenWeight (2 * n) (max i j - min i j) ∧ o.D.at' i j = -(1 / (2 * (2 * n : ℕ))) := by
  have hr0 : 0 < r := lt_of_lt_of_le (by positivity) hr
  have hN : ((2 * n : ℕ) : ℝ) ≠ 0 := by exact_mod_cast (by omega)
  obtain ⟨S, hS, -, -, hSe⟩ := C51_single h.ready (h.even rfl h4 hn) (h.simple hr0)
  obtain ⟨D, hD, -, -, hDe⟩ := C51_double h.ready h.apart
  have hb : build K = .ok ⟨K, S, D, D.rowSums⟩ := by simp only [build, hS, hD, bind, Except.bind]
  rw [hb] at ho
  cases ho
  obtain ⟨P, p1, p2, p3, p4, p5, -, -⟩ := h.node hi
  obtain ⟨Q, q1, q2, q3, q4, q5, q6, q7⟩ := h.node hj
  have hse : P.SameEdge Q := ⟨p1.trans q1.symm, p2.trans q2.symm⟩
  have h1 := hSe P Q
  have h2 := hDe P Q
  rw [p4, q4] at h1 h2
  constructor
  · show S.at' i j = _
    rw [h1]
    simp only [singleEntry, if_neg q7, if_pos hse, q6, p3, q3, p5, q5]
    congr 1
    split_ifs with hij hd
    · exact absurd hd (by simp only [circleSample]; linarith)
    · rfl
    · rw [circle_dist, mul_div_assoc, div_self (by have := sin_ne hi hj hij; positivity), mul_one, Real.log_pow]
      push_cast
      field_simp
  · show D.at' i j = _
    rw [h2]
    simp only [doubleEntry, if_neg q7, q6, p5, q5]
    split_ifs with hd
    · simp only [circleSample]
      field_simp
    · have hdist : sqDist (circleSample x0 y0 r (2 * n) i) (circleSample x0 y0 r (2 * n) j) ≠ 0 := by
        intro h0
        exact hd ⟨hse, by rw [h0]; positivity⟩
      have e : (((circleSample x0 y0 r (2 * n) i).x - (circleSample x0 y0 r (2 * n) j).x) * (circleSample x0 y0 r (2 * n) j).nx +
          ((circleSample x0 y0 r (2 * n) i).y - (circleSample x0 y0 r (2 * n) j).y) * (circleSample x0 y0 r (2 * n) j).ny) =
          -(1 / (2 * r)) * sqDist (circleSample x0 y0 r (2 * n) i) (circleSample x0 y0 r (2 * n) j) := by
        simp only [sqDist, circleSample]
        set α := 2 * Real.pi * (i : ℝ) / (2 * n : ℕ)
        set β := 2 * Real.pi * (j : ℝ) / (2 * n : ℕ)
        have p1 := Real.sin_sq_add_cos_sq α
        have p2 := Real.sin_sq_add_cos_sq β
        have q1 : Real.sin α ^ 2 = 1 - Real.cos α ^ 2 := by linarith
        have q2 : Real.sin β ^ 2 = 1 - Real.cos β ^ 2 := by linarith
        field_simp
        ring_nf
        rw [q1, q2]
        ring
      rw [e, mul_div_assoc (-(1 / (2 * r))), div_self hdist]
      simp only [circleSample]
      field_simp

/-- what the operator of the Neumann problem does on a disc -/
theorem disc_neumann {K : CellG} {x0 y0 r : ℝ} {n : ℕ} (h : K.IsDisc x0 y0 r (2 * n)) (hc : Corners K) (hr : 1 / 10 ^ 14 ≤ r) (h4 : 4 ≤ n)
    (hn : n ≤ 2 * 10 ^ 7) {o : Ops} (ho : build K = .ok o) {u : List ℝ} (hu : u.length = 2 * n) :
    o.neumann u = .ok ((List.range (2 * n)).map fun i => vec u i / 2 +
      (2 * Real.pi * r - 1 / 2) * ((∑ j ∈ Finset.range (2 * n), vec u j) / (2 * n : ℕ))) := by
  have hN : ((2 * n : ℕ) : ℝ) ≠ 0 := by exact_mod_cast (by omega)
  have hu' : u.length = K.numPts := by rw [hu, h.numPts]
  obtain ⟨y, hy, hyl, hyv⟩ := C50_formula h.ready hc ho hu'
  obtain ⟨y', I, e1, e2, e3⟩ := C50_neumann h.ready h.edges_ne hc ho hu'
  rw [hy] at e1
  cases e1
  have hI : I = 2 * Real.pi * r * ((∑ j ∈ Finset.range (2 * n), vec u j) / (2 * n : ℕ)) := by
    rw [cell_integrate h.ready h.edges_ne (hu'.trans h.ready.numPts)] at e2
    have hw : cellWeights K = (List.range (2 * n)).map fun _ => 2 * Real.pi / (2 * n : ℕ) * r := by
      obtain ⟨c, e, h1, h2, -, h3⟩ := h.circle
      simp only [cellWeights, h1, ContourG.cols, h2, h3, List.flatMap_cons, List.flatMap_nil, List.append_nil, List.map_map,
        List.length_map, List.length_range, List.length_singleton, Nat.cast_one, mul_one]
      rfl
    rw [hw, dot_vec hu (by simp)] at e2
    cases e2
    rw [Finset.sum_congr rfl fun i hi => by rw [vec_range _ (Finset.mem_range.1 hi)], ← Finset.sum_mul]
    ring
  rw [e3, hI]
  congr 1
  refine vec_ext (by simp [hyl, h.numPts]) fun i hi => ?_
  have hi' : i < 2 * n := by simpa [hyl, h.numPts] using hi
  have hcl : i < K.closest.length := by rw [hc.1, h.numPts]; exact hi'
  rw [vec_map _ (by simpa using hi), vec_range _ hi', hyv i K.closest[i] (by rw [h.numPts]; exact hi') (by simp [hcl]), h.numPts]
  have : ∑ j ∈ Finset.range (2 * n), o.D.at' i j * (vec u j - vec u K.closest[i]) =
      -(1 / (2 * (2 * n : ℕ))) * ((∑ j ∈ Finset.range (2 * n), vec u j) - (2 * n : ℕ) * vec u K.closest[i]) := by
    rw [Finset.sum_congr rfl fun j hj => by rw [(disc_matrices h hr h4 hn ho hi' (Finset.mem_range.1 hj)).2], ← Finset.mul_sum,
      Finset.sum_sub_distrib]
    simp
  rw [this]
  field_simp
  ring

/-- the operator of the Neumann problem on a disc is one to one -/
theorem disc_injective {K : CellG} {x0 y0 r : ℝ} {n : ℕ} (h : K.IsDisc x0 y0 r (2 * n)) (hc : Corners K) (hr : 1 / 10 ^ 14 ≤ r) (h4 : 4 ≤ n)
    (hn : n ≤ 2 * 10 ^ 7) {o : Ops} (ho : build K = .ok o) {u v b : List ℝ} (hu : o.neumann u = .ok b) (hv : o.neumann v = .ok b) :
    u = v := by
  have hK := (build_shape h.ready ho).1
  have hr0 : 0 < r := lt_of_lt_of_le (by positivity) hr
  have hN : ((2 * n : ℕ) : ℝ) ≠ 0 := by exact_mod_cast (by omega)
  have hlen : ∀ {w}, o.neumann w = .ok b → w.length = 2 * n := by
    intro w hw
    by_contra hl
    rw [(C50_neumann_linear h.ready h.edges_ne hc ho).2 w (by rwa [h.numPts])] at hw
    cases hw
  have hul := hlen hu
  have hvl := hlen hv
  rw [disc_neumann h hc hr h4 hn ho hul] at hu
  rw [disc_neumann h hc hr h4 hn ho hvl, ← hu] at hv
  simp only [Except.ok.injEq] at hv
  have hi : ∀ i < 2 * n, vec v i / 2 + (2 * Real.pi * r - 1 / 2) * ((∑ j ∈ Finset.range (2 * n), vec v j) / (2 * n : ℕ)) =
      vec u i / 2 + (2 * Real.pi * r - 1 / 2) * ((∑ j ∈ Finset.range (2 * n), vec u j) / (2 * n : ℕ)) := by
    intro i hi
    have := congrArg (fun l => vec l i) hv
    simpa only [vec_range _ hi] using this
  have hs := Finset.sum_congr rfl fun i (hi' : i ∈ Finset.range (2 * n)) => hi i (Finset.mem_range.1 hi')
  rw [Finset.sum_add_distrib, Finset.sum_add_distrib, ← Finset.sum_div, ← Finset.sum_div, Finset.sum_const, Finset.sum_const,
    Finset.card_range, nsmul_eq_mul, nsmul_eq_mul] at hs
  have hsum : ∑ j ∈ Finset.range (2 * n), vec v j = ∑ j ∈ Finset.range (2 * n), vec u j := by
    generalize ∑ j ∈ Finset.range (2 * n), vec v j = V at *
    generalize ∑ j ∈ Finset.range (2 * n), vec u j = U at *
    field_simp at hs
    exact hs
  refine vec_ext (hul.trans hvl.symm) fun i hi' => ?_
  have := hi i (by rwa [hul] at hi')
  rw [hsum] at this
  linarith

/-- the trigonometric polynomial `Σ (a_k sin kt - b_k cos kt)` over `k ≥ 1`, conjugate to `Σ (a_k cos kt + b_k sin kt)` -/
noncomputable def conjTrig (a b : ℕ → ℝ) (M : ℕ) : ℝ → ℝ := trig (fun k => if k = 0 then 0 else -b k) a M (2 * Real.pi)

/-- the right-hand side of the system for a trigonometric polynomial -/
theorem disc_rhs {K : CellG} {x0 y0 r : ℝ} {n : ℕ} (h : K.IsDisc x0 y0 r (2 * n)) (hr : 1 / 10 ^ 14 ≤ r) (h4 : 4 ≤ n)
    (hn : n ≤ 2 * 10 ^ 7) {o : Ops} (ho : build K = .ok o) (a b : ℕ → ℝ) {M : ℕ} (hM : ∀ k < M, 2 * k < 2 * n) {t : List ℝ}
    (ht : t = (samples (2 * n) (2 * Real.pi) fun x => deriv (trig a b M (2 * Real.pi)) x).map (-1 * ·)) :
    o.single t = .ok ((List.range (2 * n)).map fun i : ℕ => conjTrig a b M (2 * Real.pi * i / (2 * n : ℕ)) / 2) := by
  have htl : t.length = 2 * n := by rw [ht]; simp [samples]
  rw [single_ok h.ready (h.even rfl h4 hn) ho (by rw [htl, h.numPts]), h.numPts]
  congr 1
  refine List.map_congr_left fun i hi => ?_
  have hi := List.mem_range.1 hi
  have hv : ∀ j < 2 * n, vec t j = -trig (fun k => k * b k) (fun k => -(k * a k)) M (2 * Real.pi) (2 * Real.pi * j / (2 * n : ℕ)) := by
    intro j hj
    rw [ht, vec_map _ (by simpa [samples] using hj), samples, vec_range _ hj, (trig_deriv _ _ _ _ _).deriv, trig'_eq]
    ring_nf
  rw [Finset.sum_congr rfl fun j hj => by
    rw [hv j (Finset.mem_range.1 hj), (disc_matrices h hr h4 hn ho hi (Finset.mem_range.1 hj)).1, mul_neg, add_mul]]
  rw [Finset.sum_neg_distrib, Finset.sum_add_distrib, ← Finset.mul_sum, trig_mean (by omega) hM, martensen_exact hM]
  simp only [conjTrig, trig_eq]
  have : (if 0 < M then ((0 : ℕ) : ℝ) * b 0 else 0) = 0 := by simp
  rw [this, Finset.sum_div, mul_zero, mul_zero, zero_add, ← Finset.sum_neg_distrib]
  refine Finset.sum_congr rfl fun k _ => ?_
  rcases Nat.eq_zero_or_pos k with rfl | hk
  · simp
  · have hk' : (k : ℝ) ≠ 0 := by exact_mod_cast hk.ne'
    rw [if_neg hk.ne']
    field_simp
    ring

/-- the conjugate polynomial solves the system -/
theorem disc_solution {K : CellG} {x0 y0 r : ℝ} {n : ℕ} (h : K.IsDisc x0 y0 r (2 * n)) (hc : Corners K) (hr : 1 / 10 ^ 14 ≤ r) (h4 : 4 ≤ n)
    (hn : n ≤ 2 * 10 ^ 7) {o : Ops} (ho : build K = .ok o) (a b : ℕ → ℝ) {M : ℕ} (hM : ∀ k < M, 2 * k < 2 * n) :
    o.neumann (samples (2 * n) (2 * Real.pi) (conjTrig a b M)) =
      .ok ((List.range (2 * n)).map fun i : ℕ => conjTrig a b M (2 * Real.pi * i / (2 * n : ℕ)) / 2) := by
  rw [disc_neumann h hc hr h4 hn ho (by simp [samples])]
  have hv : ∀ j < 2 * n, vec (samples (2 * n) (2 * Real.pi) (conjTrig a b M)) j = conjTrig a b M (2 * Real.pi * j / (2 * n : ℕ)) := by
    intro j hj
    rw [samples, vec_range _ hj]
    ring_nf
  rw [Finset.sum_congr rfl fun j hj => hv j (Finset.mem_range.1 hj)]
  simp only [conjTrig]
  rw [trig_mean (by omega) hM]
  congr 1
  refine List.map_congr_left fun i hi => ?_
  have := hv i (List.mem_range.1 hi)
  simp only [conjTrig] at this
  rw [this]
  simp

/-- C76, harmonic conjugates on a disc: given boundary values that are samples of a trigonometric polynomial of degree below half the number of
samples, `get_harmonic_conjugate` returns exactly the samples of the conjugate polynomial, and no logarithmic coefficients. -/
theorem C76_conjugate {gmres : Gmres} (hx : Exact gmres) (hf : Finds gmres) {K : CellG} {x0 y0 r : ℝ} {n : ℕ} (h : K.IsDisc x0 y0 r (2 * n))
    (hc : Corners K) (hr : 1 / 10 ^ 14 ≤ r) (h4 : 4 ≤ n) (hn : n ≤ 2 * 10 ^ 7) {strategy pc : String} {s : Solver}
    (hs : init gmres K strategy pc = .ok s) (a b : ℕ → ℝ) {M : ℕ} (hM : ∀ k < M, 2 * k < 2 * n) :
    conjugate gmres s (samples (2 * n) (2 * Real.pi) (trig a b M (2 * Real.pi))) =
      .ok (samples (2 * n) (2 * Real.pi) (conjTrig a b M), []) := by
  obtain ⟨ho, -⟩ := init_parts hs
  obtain ⟨hK, -⟩ := build_shape h.ready ho
  have hd : wtdFromTrace K (samples (2 * n) (2 * Real.pi) (trig a b M (2 * Real.pi))) =
      .ok (samples (2 * n) (2 * Real.pi) fun t => deriv (trig a b M (2 * Real.pi)) t) := by
    obtain ⟨c, e, h1, h2, -, h3⟩ := h.circle
    have hu : Fits K [samples (2 * n) (2 * Real.pi) (trig a b M (2 * Real.pi))] := by
      simp [Fits, h1, ContourG.cols, h2, h3, samples]
    obtain ⟨vs, hv, hw⟩ := (C49_cell h.ready h.edges_ne hu).1
    rw [List.flatten_singleton] at hw
    rw [hw]
    simp only [h1, List.zip_cons_cons, List.zip_nil_right] at hv
    cases hv with
    | cons hv1 hv2 =>
      cases hv2
      simp only [h2, List.length_singleton, Nat.cast_one, mul_one] at hv1
      rw [C49_exact _ (by omega) _ (by have := Real.pi_pos; positivity) a b M hM] at hv1
      cases hv1
      simp
  simp only [conjugate, hK, hd, py_ok_bind, h.numHoles, if_true, solveNeumann]
  rw [disc_rhs h hr h4 hn ho a b hM rfl, py_ok_bind]
  obtain ⟨x, hx'⟩ := hf _ _ (precond K.numPts s.diag) _ (disc_solution h hc hr h4 hn ho a b hM)
  have := disc_injective h hc hr h4 hn ho (hx _ _ _ _ hx') (disc_solution h hc hr h4 hn ho a b hM)
  rw [hx', py_ok_bind, this]

/-! ### harmonic polynomials -/

open Polynomial in
theorem poly_grad (Q : ℂ[X]) (x0 y0 x y : ℝ) :
    HasDerivAt (fun s : ℝ => Q.eval (⟨s - x0, y - y0⟩ : ℂ)) ((derivative Q).eval ⟨x - x0, y - y0⟩) x ∧
    HasDerivAt (fun s : ℝ => Q.eval (⟨x - x0, s - y0⟩ : ℂ)) ((derivative Q).eval ⟨x - x0, y - y0⟩ * Complex.I) y := by
  constructor
  · have e : (fun s : ℝ => (⟨s - x0, y - y0⟩ : ℂ)) = fun s : ℝ => (s : ℂ) + ⟨-x0, y - y0⟩ := by
      funext s; apply Complex.ext <;> simp [sub_eq_add_neg]
    have h1 : HasDerivAt (fun s : ℝ => (⟨s - x0, y - y0⟩ : ℂ)) 1 x := by
      rw [e]; exact (Complex.ofRealCLM.hasDerivAt (x := x)).add_const _
    exact ((Q.hasDerivAt (⟨x - x0, y - y0⟩ : ℂ)).comp x h1).congr_deriv (mul_one _)
  · have e : (fun s : ℝ => (⟨x - x0, s - y0⟩ : ℂ)) = fun s : ℝ => (s : ℂ) * Complex.I + ⟨x - x0, -y0⟩ := by
      funext s; apply Complex.ext <;> simp [sub_eq_add_neg]
    have h1 : HasDerivAt (fun s : ℝ => (⟨x - x0, s - y0⟩ : ℂ)) Complex.I y := by
      rw [e]; simpa using ((Complex.ofRealCLM.hasDerivAt (x := y)).mul_const Complex.I).add_const (⟨x - x0, -y0⟩ : ℂ)
    exact (Q.hasDerivAt (⟨x - x0, y - y0⟩ : ℂ)).comp y h1

theorem re_deriv {f : ℝ → ℂ} {f' : ℂ} {x : ℝ} (h : HasDerivAt f f' x) : HasDerivAt (fun s => (f s).re) f'.re x :=
  Complex.reCLM.hasFDerivAt.comp_hasDerivAt x h

theorem im_deriv {f : ℝ → ℂ} {f' : ℂ} {x : ℝ} (h : HasDerivAt f f' x) : HasDerivAt (fun s => (f s).im) f'.im x :=
  Complex.imCLM.hasFDerivAt.comp_hasDerivAt x h

open Polynomial in
theorem rePoly_grad (S : Set (ℝ × ℝ)) (Q : ℂ[X]) (x0 y0 : ℝ) : HasGradOn S (rePoly Q x0 y0) (rePoly (derivative Q) x0 y0)
    (fun x y => -imPoly (derivative Q) x0 y0 x y) := by
  intro x y _
  obtain ⟨h1, h2⟩ := poly_grad Q x0 y0 x y
  refine ⟨re_deriv h1, (re_deriv h2).congr_deriv ?_⟩
  simp [imPoly]

open Polynomial in
theorem imPoly_grad (S : Set (ℝ × ℝ)) (Q : ℂ[X]) (x0 y0 : ℝ) : HasGradOn S (imPoly Q x0 y0) (imPoly (derivative Q) x0 y0)
    (rePoly (derivative Q) x0 y0) := by
  intro x y _
  obtain ⟨h1, h2⟩ := poly_grad Q x0 y0 x y
  refine ⟨im_deriv h1, (im_deriv h2).congr_deriv ?_⟩
  simp [rePoly]

open Polynomial in
/-- values on the circle -/
theorem circle_eval (Q : ℂ[X]) {M : ℕ} (hM : Q.natDegree < M) (r θ : ℝ) :
    (Q.eval (⟨r * Real.cos θ, r * Real.sin θ⟩ : ℂ)).re =
      trig (fun k => r ^ k * (Q.coeff k).re) (fun k => -(r ^ k * (Q.coeff k).im)) M (2 * Real.pi) θ ∧
    (Q.eval (⟨r * Real.cos θ, r * Real.sin θ⟩ : ℂ)).im =
      trig (fun k => r ^ k * (Q.coeff k).im) (fun k => r ^ k * (Q.coeff k).re) M (2 * Real.pi) θ := by
  have hz : ∀ k : ℕ, (⟨r * Real.cos θ, r * Real.sin θ⟩ : ℂ) ^ k = ⟨r ^ k * Real.cos (k * θ), r ^ k * Real.sin (k * θ)⟩ := by
    intro k
    have e1 : (⟨r * Real.cos θ, r * Real.sin θ⟩ : ℂ) = r * Complex.exp (θ * Complex.I) := by
      rw [Complex.exp_mul_I]
      apply Complex.ext <;> simp [Complex.cos_ofReal_re, Complex.sin_ofReal_re, Complex.cos_ofReal_im, Complex.sin_ofReal_im]
    have e2 : (⟨r ^ k * Real.cos (k * θ), r ^ k * Real.sin (k * θ)⟩ : ℂ) = (r ^ k : ℝ) * Complex.exp ((k * θ : ℝ) * Complex.I) := by
      rw [Complex.exp_mul_I]
      apply Complex.ext <;> simp [Complex.cos_ofReal_re, Complex.sin_ofReal_re, Complex.cos_ofReal_im, Complex.sin_ofReal_im,
        -Complex.ofReal_mul, -Complex.ofReal_pow]
    rw [e1, e2, mul_pow, ← Complex.exp_nat_mul]
    push_cast
    ring_nf
  rw [trig_eq, trig_eq, eval_eq_sum_range' hM, Complex.re_sum, Complex.im_sum]
  refine ⟨Finset.sum_congr rfl fun k _ => ?_, Finset.sum_congr rfl fun k _ => ?_⟩ <;> rw [hz] <;> simp <;> ring

open Polynomial in
theorem circle_deriv (Q : ℂ[X]) (r θ : ℝ) :
    HasDerivAt (fun t : ℝ => Q.eval (⟨r * Real.cos t, r * Real.sin t⟩ : ℂ))
      ((derivative Q).eval ⟨r * Real.cos θ, r * Real.sin θ⟩ * ⟨-(r * Real.sin θ), r * Real.cos θ⟩) θ := by
  have h1 : HasDerivAt (fun t : ℝ => (⟨r * Real.cos t, r * Real.sin t⟩ : ℂ)) ⟨-(r * Real.sin θ), r * Real.cos θ⟩ θ := by
    have e : (fun t : ℝ => (⟨r * Real.cos t, r * Real.sin t⟩ : ℂ)) =
        fun t : ℝ => ((r * Real.cos t : ℝ) : ℂ) + ((r * Real.sin t : ℝ) : ℂ) * Complex.I := by
      funext t; apply Complex.ext <;> simp [-Complex.ofReal_mul]
    have hc : HasDerivAt (fun t : ℝ => r * Real.cos t) (r * -Real.sin θ) θ := (Real.hasDerivAt_cos θ).const_mul r
    have hs : HasDerivAt (fun t : ℝ => r * Real.sin t) (r * Real.cos θ) θ := (Real.hasDerivAt_sin θ).const_mul r
    have := (hc.ofReal_comp).fun_add ((hs.ofReal_comp).mul_const Complex.I)
    rw [e]
    refine this.congr_deriv ?_
    apply Complex.ext <;> simp [-Complex.ofReal_mul]
  exact (Q.hasDerivAt (⟨r * Real.cos θ, r * Real.sin θ⟩ : ℂ)).comp θ h1

open Polynomial in
/-- a disc resolves polynomials of low degree -/
theorem disc_trig {K : CellG} {x0 y0 r : ℝ} {N : ℕ} (h : K.IsDisc x0 y0 r N) {c : ContourG} (hc : K.components = [c]) (Q : ℂ[X])
    (hd : 2 * Q.natDegree < N) :
    TrigAlong c (rePoly Q x0 y0) (rePoly (derivative Q) x0 y0) (fun x y => -imPoly (derivative Q) x0 y0 x y) ∧
    TrigAlong c (imPoly Q x0 y0) (imPoly (derivative Q) x0 y0) (rePoly (derivative Q) x0 y0) := by
  have hcols : c.cols = (List.range N).map (circleSample x0 y0 r N) := by
    have := h.cols
    simpa [CellG.cols, hc] using this
  have hlen : c.cols.length = N := by simp [hcols]
  have hed : (c.edges.length : ℝ) = 1 := by
    obtain ⟨c', e, h1, h2, -⟩ := h.circle
    rw [hc] at h1
    cases h1
    simp [h2]
  have hθ : ∀ j : ℕ, (j : ℝ) * (2 * Real.pi) / N = 2 * Real.pi * j / N := fun j => by ring
  have e1 := fun θ => circle_eval Q (Nat.lt_succ_self _) r θ
  constructor
  · refine ⟨fun k => r ^ k * (Q.coeff k).re, fun k => -(r ^ k * (Q.coeff k).im), Q.natDegree + 1, by rw [hlen]; omega, ?_, ?_⟩
    rotate_left
    · rw [hlen, hed, mul_one, hcols, samples, List.map_map]
      refine List.map_congr_left fun j _ => ?_
      rw [show trig _ _ _ (2 * Real.pi) = _ from funext fun θ => ((e1 θ).1).symm, (re_deriv (circle_deriv Q r _)).deriv, hθ]
      simp [rePoly, imPoly, circleSample]
      ring
    · rw [hlen, hed, mul_one, hcols, samples, List.map_map]
      refine List.map_congr_left fun j _ => ?_
      rw [← (e1 _).1, hθ]
      simp [rePoly, circleSample]
  · refine ⟨fun k => r ^ k * (Q.coeff k).im, fun k => r ^ k * (Q.coeff k).re, Q.natDegree + 1, by rw [hlen]; omega, ?_, ?_⟩
    rotate_left
    · rw [hlen, hed, mul_one, hcols, samples, List.map_map]
      refine List.map_congr_left fun j _ => ?_
      rw [show trig _ _ _ (2 * Real.pi) = _ from funext fun θ => ((e1 θ).2).symm, (im_deriv (circle_deriv Q r _)).deriv, hθ]
      simp [rePoly, imPoly, circleSample]
      ring
    · rw [hlen, hed, mul_one, hcols, samples, List.map_map]
      refine List.map_congr_left fun j _ => ?_
      rw [← (e1 _).2, hθ]
      simp [imPoly, circleSample]

open Polynomial in
/-- every polynomial has an antiderivative -/
theorem poly_integral (Q : ℂ[X]) : ∃ R : ℂ[X], derivative R = Q ∧ R.natDegree ≤ Q.natDegree + 1 := by
  refine ⟨∑ k ∈ Finset.range (Q.natDegree + 1), monomial (k + 1) (Q.coeff k / (k + 1)), ?_, ?_⟩
  · rw [derivative_sum]
    conv_rhs => rw [Q.as_sum_range]
    refine Finset.sum_congr rfl fun k _ => ?_
    rw [derivative_monomial]
    have : ((k : ℂ) + 1) ≠ 0 := by exact_mod_cast Nat.succ_ne_zero k
    simp only [Nat.cast_add, Nat.cast_one, add_tsub_cancel_right]
    rw [div_mul_cancel₀ _ this]
  · refine natDegree_sum_le_of_forall_le _ _ fun k hk => (natDegree_monomial_le _).trans ?_
    have := Finset.mem_range.1 hk
    omega

open Polynomial in
/-- values at the samples of a disc -/
theorem disc_samples {K : CellG} {x0 y0 r : ℝ} {N : ℕ} (h : K.IsDisc x0 y0 r N) (Q : ℂ[X]) {M : ℕ} (hM : Q.natDegree < M) :
    K.samplesOf (rePoly Q x0 y0) = samples N (2 * Real.pi)
      (trig (fun k => r ^ k * (Q.coeff k).re) (fun k => -(r ^ k * (Q.coeff k).im)) M (2 * Real.pi)) ∧
    K.samplesOf (imPoly Q x0 y0) = samples N (2 * Real.pi)
      (trig (fun k => r ^ k * (Q.coeff k).im) (fun k => r ^ k * (Q.coeff k).re) M (2 * Real.pi)) := by
  have hθ : ∀ j : ℕ, (j : ℝ) * (2 * Real.pi) / N = 2 * Real.pi * j / N := fun j => by ring
  rw [CellG.samplesOf, CellG.samplesOf, h.cols, samples, samples, List.map_map, List.map_map]
  refine ⟨List.map_congr_left fun j _ => ?_, List.map_congr_left fun j _ => ?_⟩
  · rw [← (circle_eval Q hM r _).1, hθ]
    simp [rePoly, circleSample]
  · rw [← (circle_eval Q hM r _).2, hθ]
    simp [imPoly, circleSample]

open Polynomial in
/-- the conjugate of the real part of `P(z - z0)` is its imaginary part, if that vanishes at `z0` -/
theorem disc_conj_poly {gmres : Gmres} (hx : Exact gmres) (hf : Finds gmres) {K : CellG} {x0 y0 r : ℝ} {n : ℕ} (h : K.IsDisc x0 y0 r (2 * n))
    (hc : Corners K) (hr : 1 / 10 ^ 14 ≤ r) (h4 : 4 ≤ n) (hn : n ≤ 2 * 10 ^ 7) {strategy pc : String} {s : Solver}
    (hs : init gmres K strategy pc = .ok s) (P : ℂ[X]) (hP : P.natDegree < n) (hP0 : (P.coeff 0).im = 0) :
    conjugate gmres s (K.samplesOf (rePoly P x0 y0)) = .ok (K.samplesOf (imPoly P x0 y0), []) := by
  obtain ⟨s1, s2⟩ := disc_samples h P (M := P.natDegree + 1) (Nat.lt_succ_self _)
  rw [s1, s2, C76_conjugate hx hf h hc hr h4 hn hs _ _ (M := P.natDegree + 1) (by omega)]
  congr 3
  unfold conjTrig
  congr 1
  funext k
  split_ifs with hk
  · rw [hk, hP0, mul_zero]
  · simp

open Polynomial in
/-- C76, harmonic functions on a disc: the object made from the boundary values of a harmonic polynomial `Re Q(z - z0)`, of degree less than
half the number of samples minus one, holds exactly the data of this polynomial: boundary values and derivatives, conjugate, and an
anti-Laplacian. -/
theorem C76_harmonic {gmres : Gmres} (hx : Exact gmres) (hf : Finds gmres) {K : CellG} {x0 y0 r : ℝ} {n : ℕ} (h : K.IsDisc x0 y0 r (2 * n))
    (hc : Corners K) (hr : 1 / 10 ^ 14 ≤ r) (h4 : 4 ≤ n) (hn : n ≤ 2 * 10 ^ 7) {strategy pc : String} {s : Solver}
    (hs : init gmres K strategy pc = .ok s) (Q : ℂ[X]) (hQ : Q.natDegree + 1 < n) {t : Trace} (hto : t.On K.getEdges)
    (hv : t.values = some (K.samplesOf (rePoly Q x0 y0))) :
    ∃ u, LocHarm.init gmres t (some s) = .ok u ∧ u.Full K.getEdges K.numHoles ∧ u.Holds K Set.univ (rePoly Q x0 y0) := by
  set P := Q - C (Complex.I * (Q.coeff 0).im) with hP
  have hre : rePoly Q x0 y0 = rePoly P x0 y0 := by
    funext x y
    simp [rePoly, hP]
  have hPd : P.natDegree ≤ Q.natDegree := by
    rw [hP]
    refine (natDegree_sub_le _ _).trans ?_
    rw [natDegree_C]
    simp
  have hP0 : (P.coeff 0).im = 0 := by simp [hP]
  obtain ⟨c, e, hcs, -⟩ := h.circle
  obtain ⟨R, hR, hRd⟩ := poly_integral P
  rw [hre] at hv ⊢
  obtain ⟨t1, t2⟩ := disc_trig h hcs P (by omega)
  obtain ⟨t3, t4⟩ := disc_trig h hcs R (by omega)
  have g3 := rePoly_grad Set.univ R x0 y0
  have g4 := imPoly_grad Set.univ R x0 y0
  rw [hR] at t3 t4 g3 g4
  have hK := (build_shape h.ready (init_parts hs).1).1
  exact C74_simply_connected h.ready h.uniform h.normals hcs hK (fun _ _ => Set.mem_univ _) (rePoly_grad _ P x0 y0)
    (q := fun x y => -imPoly (derivative P) x0 y0 x y) (by simpa using imPoly_grad _ P x0 y0) g3 g4 t1 (by simpa using t2) t3 t4 hto hv
    (disc_conj_poly hx hf h hc hr h4 hn hs P (by omega) hP0)

end PFEM
