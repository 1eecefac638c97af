import Verif.Spec.Annulus
import Verif.Lemmas.AnnulusStab
import Verif.Props.Ellipse

/-!
Matrices and linear systems of the Nyström solver on rings.
-/

namespace PFEM
open Nystrom Antilap

namespace CellG.IsAnnulus

variable {K : CellG} {x0 y0 a b : ℝ} {N : ℕ}

theorem cols (h : K.IsAnnulus x0 y0 a b N) :
    K.cols = (List.range N).map (circleSample x0 y0 b N) ++ (List.range N).map (holeSample x0 y0 a N) := by
  obtain ⟨c, d, e, f, h1, h2, h3, -, -, h4, h5, -⟩ := h.circles
  simp [CellG.cols, h1, ContourG.cols, h2, h3, h4, h5]

theorem numPts (h : K.IsAnnulus x0 y0 a b N) : K.numPts = 2 * N := by
  rw [h.ready.numPts, h.cols]; simp; omega

theorem numHoles (h : K.IsAnnulus x0 y0 a b N) : K.numHoles = 1 := by
  obtain ⟨c, d, e, f, h1, -⟩ := h.circles
  simp [CellG.numHoles, h1]

theorem corners (h : K.IsAnnulus x0 y0 a b N) (hN : 0 < N) : Corners K := by
  refine ⟨by rw [h.vertices.1, h.numPts], fun i hi => ?_⟩
  rw [h.numPts]
  rcases h.vertices.2 i hi with rfl | rfl <;> omega

theorem even (h : K.IsAnnulus x0 y0 a b N) {n : ℕ} (hN : N = 2 * n) (h4 : 4 ≤ n) (hn : n ≤ 2 * 10 ^ 7) : K.Even := by
  obtain ⟨c, d, e, f, h1, h2, h3, -, -, h6, h5, -⟩ := h.circles
  intro c' hc' e' he'
  rw [h1] at hc'
  simp only [List.mem_cons, List.not_mem_nil, or_false] at hc'
  rcases hc' with rfl | rfl
  · rw [h2, List.mem_singleton] at he'
    subst he'
    exact ⟨n, h4, hn, by simp [h6, hN]⟩
  · rw [h3, List.mem_singleton] at he'
    subst he'
    exact ⟨n, h4, hn, by simp [h5, hN]⟩

theorem edges_ne (h : K.IsAnnulus x0 y0 a b N) : ∀ c ∈ K.components, c.edges ≠ [] := by
  obtain ⟨c, d, e, f, h1, h2, h3, -⟩ := h.circles
  intro c' hc'
  rw [h1] at hc'
  simp only [List.mem_cons, List.not_mem_nil, or_false] at hc'
  rcases hc' with rfl | rfl
  · simp [h2]
  · simp [h3]

theorem uniform (h : K.IsAnnulus x0 y0 a b N) : Uniform K := by
  obtain ⟨c, d, e, f, h1, h2, h3, -, -, h6, h5, -⟩ := h.circles
  intro c' hc'
  refine ⟨h.edges_ne c' hc', N, ?_⟩
  rw [h1] at hc'
  simp only [List.mem_cons, List.not_mem_nil, or_false] at hc'
  intro e' he'
  rcases hc' with rfl | rfl
  · rw [h2, List.mem_singleton] at he'
    subst he'
    simp [h6]
  · rw [h3, List.mem_singleton] at he'
    subst he'
    simp [h5]

theorem normals (h : K.IsAnnulus x0 y0 a b N) : K.Normals := by
  intro s hs
  rw [h.cols, List.mem_append] at hs
  rcases hs with hs | hs
  · obtain ⟨j, -, rfl⟩ := List.mem_map.1 hs
    simp [circleSample]
  · obtain ⟨j, -, rfl⟩ := List.mem_map.1 hs
    simp [holeSample]

/-- the pole of the logarithmic term -/
theorem pole (h : K.IsAnnulus x0 y0 a b N) : ∃ p : Vert, poles K = [p] ∧ p.x = x0 ∧ p.y = y0 := by
  obtain ⟨c, d, e, f, h1, -, -, -, -, -, -, p, hp, hx, hy⟩ := h.circles
  exact ⟨p, by simp [poles, h1, hp], hx, hy⟩

theorem holes (h : K.IsAnnulus x0 y0 a b N) (ha : 0 < a) (hb : 0 < b) : K.Holes := by
  obtain ⟨c, d, e, f, h1, -, -, -, -, -, -, p, hp, hx, hy⟩ := h.circles
  intro c' hc'
  simp only [h1, List.tail_cons, List.mem_singleton] at hc'
  subst hc'
  refine ⟨p, hp, fun s hs => ?_⟩
  have key : ∀ (r θ : ℝ), 0 < r → r * Real.cos θ ≠ 0 ∨ r * Real.sin θ ≠ 0 := by
    intro r θ hr
    by_contra hc
    push Not at hc
    have h1 : Real.cos θ = 0 := by simpa [hr.ne'] using hc.1
    have h2 : Real.sin θ = 0 := by simpa [hr.ne'] using hc.2
    have := Real.sin_sq_add_cos_sq θ
    rw [h1, h2] at this
    norm_num at this
  rw [h.cols, List.mem_append] at hs
  rcases hs with hs | hs
  · obtain ⟨j, -, rfl⟩ := List.mem_map.1 hs
    have := key b (2 * Real.pi * j / N) hb
    simp only [away, circleSample, Set.mem_ofPred_eq, hx, hy]
    simpa using this
  · obtain ⟨j, -, rfl⟩ := List.mem_map.1 hs
    have := key a (2 * Real.pi * j / N) ha
    simp only [away, holeSample, Set.mem_ofPred_eq, hx, hy]
    simpa using this

/-- the samples of the outer circle as nodes -/
theorem outer_node (h : K.IsAnnulus x0 y0 a b N) {j : ℕ} (hj : j < N) : ∃ P : Node K, P.i = 0 ∧ P.k = 0 ∧ P.a = j ∧ P.pos = j ∧
    P.s = circleSample x0 y0 b N j ∧ P.e.cols.length = N ∧ ¬ P.Skipped := by
  obtain ⟨c, d, e, f, h1, h2, h3, hk, -, h6, h5, -⟩ := h.circles
  refine ⟨⟨0, 0, j, c, e, circleSample x0 y0 b N j, by simp [h1], by simp [h2], by simp [h6, hj]⟩, rfl, rfl, rfl, ?_, rfl, by simp [h6],
    fun hs => hk hs.1⟩
  simp [Node.pos, blockStart]

/-- the samples of the inner circle as nodes -/
theorem inner_node (h : K.IsAnnulus x0 y0 a b N) {j : ℕ} (hj : j < N) : ∃ P : Node K, P.i = 1 ∧ P.k = 0 ∧ P.a = j ∧ P.pos = N + j ∧
    P.s = holeSample x0 y0 a N j ∧ P.e.cols.length = N ∧ ¬ P.Skipped := by
  obtain ⟨c, d, e, f, h1, h2, h3, -, hk, h6, h5, -⟩ := h.circles
  refine ⟨⟨1, 0, j, d, f, holeSample x0 y0 a N j, by simp [h1], by simp [h3], by simp [h5, hj]⟩, rfl, rfl, rfl, ?_, rfl, by simp [h5],
    fun hs => hk hs.1⟩
  have : c.numPts = N := by rw [(h.ready.ready c (by simp [h1])).numPts, ContourG.cols, h2]; simp [h6]
  simp [Node.pos, blockStart, h1, this]

theorem node_only (h : K.IsAnnulus x0 y0 a b N) (P : Node K) : P.k = 0 ∧ P.a < N ∧
    ((P.i = 0 ∧ P.s = circleSample x0 y0 b N P.a) ∨ (P.i = 1 ∧ P.s = holeSample x0 y0 a N P.a)) := by
  obtain ⟨c, d, e, f, h1, h2, h3, -, -, h6, h5, -⟩ := h.circles
  have hi : P.i < [c, d].length := by rw [← h1]; exact (List.getElem?_eq_some_iff.1 P.hc).1
  have hi : P.i = 0 ∨ P.i = 1 := by simp at hi; omega
  have hc := P.hc
  have key : ∀ (e : EdgeG) (g : ℕ → Sample), P.c.edges = [e] → e.cols = (List.range N).map g → P.k = 0 ∧ P.a < N ∧ P.s = g P.a := by
    intro e g h2 h3
    have hk2 : P.k < [e].length := by rw [← h2]; exact (List.getElem?_eq_some_iff.1 P.he).1
    have hk2 : P.k = 0 := by simpa using hk2
    have he := P.he
    rw [hk2, h2] at he
    have he : e = P.e := by simpa using he
    have hs := P.hs
    rw [← he, h3] at hs
    have ha : P.a < N := by simpa using (List.getElem?_eq_some_iff.1 hs).1
    exact ⟨hk2, ha, by simpa [ha] using hs.symm⟩
  rcases hi with hi | hi
  · rw [hi, h1] at hc
    have hc : c = P.c := by simpa using hc
    obtain ⟨k1, k2, k3⟩ := key e _ (hc ▸ h2) h6
    exact ⟨k1, k2, .inl ⟨hi, k3⟩⟩
  · rw [hi, h1] at hc
    have hc : d = P.c := by simpa using hc
    obtain ⟨k1, k2, k3⟩ := key f _ (hc ▸ h3) h5
    exact ⟨k1, k2, .inr ⟨hi, k3⟩⟩

end CellG.IsAnnulus

/-- squared distance of two samples of the inner circle -/
theorem hole_dist (x0 y0 r : ℝ) (N i j : ℕ) : sqDist (holeSample x0 y0 r N i) (holeSample x0 y0 r N j) =
    r ^ 2 * (2 * Real.sin (Real.pi * (i - j) / N)) ^ 2 := by
  rw [← circle_dist x0 y0 r N i j]
  simp only [sqDist, holeSample, circleSample]
  ring

/-- squared distance of samples of the two circles -/
theorem cross_dist (x0 y0 a : ℝ) {b : ℝ} (hb : 0 < b) (N i j : ℕ) : sqDist (circleSample x0 y0 b N i) (holeSample x0 y0 a N j) =
    b ^ 2 * poissonDen (a / b) (gridPt N i + gridPt N j) := by
  simp only [sqDist, holeSample, circleSample, poissonDen]
  rw [show 2 * Real.pi * (i : ℝ) / N = gridPt N i from rfl, show 2 * Real.pi * (j : ℝ) / N = gridPt N j from rfl, Real.cos_add]
  have p1 := Real.sin_sq_add_cos_sq (gridPt N i)
  have p2 := Real.sin_sq_add_cos_sq (gridPt N j)
  field_simp
  linear_combination b ^ 2 * p1 + a ^ 2 * p2

theorem cross_dist' (x0 y0 a : ℝ) {b : ℝ} (hb : 0 < b) (N i j : ℕ) : sqDist (holeSample x0 y0 a N i) (circleSample x0 y0 b N j) =
    b ^ 2 * poissonDen (a / b) (gridPt N i + gridPt N j) := by
  rw [add_comm, ← cross_dist x0 y0 a hb N j i]
  simp only [sqDist]
  ring

theorem ring_ratio {a b : ℝ} (ha : 0 < a) (hab : a < b) : 0 < a / b ∧ a / b < 1 ∧ |a / b| < 1 := by
  have hb : 0 < b := ha.trans hab
  have h1 : 0 < a / b := by positivity
  have h2 : a / b < 1 := by rwa [div_lt_one hb]
  exact ⟨h1, h2, by rwa [abs_of_pos h1]⟩

theorem CellG.IsAnnulus.apart {K : CellG} {x0 y0 a b : ℝ} {N : ℕ} (h : K.IsAnnulus x0 y0 a b N) (ha : 0 < a) (hab : a < b) : K.Apart := by
  have hb : 0 < b := ha.trans hab
  intro P Q _ hPQ
  obtain ⟨p1, p2, p3⟩ := h.node_only P
  obtain ⟨q1, q2, q3⟩ := h.node_only Q
  have := poissonDen_pos (ring_ratio ha hab).2.2 (gridPt N P.a + gridPt N Q.a)
  rcases p3 with ⟨p3, p4⟩ | ⟨p3, p4⟩ <;> rcases q3 with ⟨q3, q4⟩ | ⟨q3, q4⟩
  · exact absurd ⟨p3.trans q3.symm, p1.trans q1.symm⟩ hPQ
  · rw [p4, q4, cross_dist _ _ _ hb]; positivity
  · rw [p4, q4, cross_dist' _ _ _ hb]; positivity
  · exact absurd ⟨p3.trans q3.symm, p1.trans q1.symm⟩ hPQ

theorem CellG.IsAnnulus.simple {K : CellG} {x0 y0 a b : ℝ} {N : ℕ} (h : K.IsAnnulus x0 y0 a b N) (ha : 0 < a) (hab : a < b) : K.Simple := by
  have hb : 0 < b := ha.trans hab
  intro P Q hQ hPQ
  by_cases hs : P.SameEdge Q
  · obtain ⟨p1, p2, p3⟩ := h.node_only P
    obtain ⟨q1, q2, q3⟩ := h.node_only Q
    have hne : P.a ≠ Q.a := fun e => hPQ ⟨hs, e⟩
    have := sin_ne p2 q2 hne
    rcases p3 with ⟨p3, p4⟩ | ⟨p3, p4⟩ <;> rcases q3 with ⟨q3, q4⟩ | ⟨q3, q4⟩
    · rw [p4, q4, circle_dist]; positivity
    · exact absurd (p3.symm.trans (hs.1.trans q3)) (by norm_num)
    · exact absurd (p3.symm.trans (hs.1.trans q3)) (by norm_num)
    · rw [p4, q4, hole_dist]; positivity
  · exact h.apart ha hab P Q hQ hs

/-- normal derivatives of the kernel between points of a circle and of a hole -/
theorem circle_kernel (x0 y0 : ℝ) {r : ℝ} (hr : 0 < r) (N i j : ℕ) :
    ((circleSample x0 y0 r N i).x - (circleSample x0 y0 r N j).x) * (circleSample x0 y0 r N j).nx +
      ((circleSample x0 y0 r N i).y - (circleSample x0 y0 r N j).y) * (circleSample x0 y0 r N j).ny =
      -(1 / (2 * r)) * sqDist (circleSample x0 y0 r N i) (circleSample x0 y0 r N j) := by
  simp only [sqDist, circleSample]
  set α := 2 * Real.pi * (i : ℝ) / N
  set β := 2 * Real.pi * (j : ℝ) / N
  have p1 := Real.sin_sq_add_cos_sq α
  have p2 := Real.sin_sq_add_cos_sq β
  have q1 : Real.sin α ^ 2 = 1 - Real.cos α ^ 2 := by linarith
  have q2 : Real.sin β ^ 2 = 1 - Real.cos β ^ 2 := by linarith
  field_simp
  ring_nf
  rw [q1, q2]
  ring

theorem hole_kernel (x0 y0 : ℝ) {r : ℝ} (hr : 0 < r) (N i j : ℕ) :
    ((holeSample x0 y0 r N i).x - (holeSample x0 y0 r N j).x) * (holeSample x0 y0 r N j).nx +
      ((holeSample x0 y0 r N i).y - (holeSample x0 y0 r N j).y) * (holeSample x0 y0 r N j).ny =
      1 / (2 * r) * sqDist (holeSample x0 y0 r N i) (holeSample x0 y0 r N j) := by
  have h1 := circle_kernel x0 y0 hr N i j
  have h2 : sqDist (holeSample x0 y0 r N i) (holeSample x0 y0 r N j) = sqDist (circleSample x0 y0 r N i) (circleSample x0 y0 r N j) := by
    rw [hole_dist, circle_dist]
  rw [h2]
  have h3 : 1 / (2 * r) * sqDist (circleSample x0 y0 r N i) (circleSample x0 y0 r N j) = -(-(1 / (2 * r)) *
    sqDist (circleSample x0 y0 r N i) (circleSample x0 y0 r N j)) := by ring
  rw [h3, ← h1]
  simp only [holeSample, circleSample]
  ring

/-- the Poisson kernel between the two circles -/
noncomputable def ringKer (a b : ℝ) (N i j : ℕ) : ℝ := poissonKer (a / b) (gridPt N i + gridPt N j)

/-- the logarithmic kernel between the two circles -/
noncomputable def ringLog (a b : ℝ) (N i j : ℕ) : ℝ := Real.log (poissonDen (a / b) (gridPt N i + gridPt N j))

theorem cross_kernel (x0 y0 : ℝ) {a b : ℝ} (ha : 0 < a) (hab : a < b) (N i j : ℕ) :
    (((circleSample x0 y0 b N i).x - (holeSample x0 y0 a N j).x) * (holeSample x0 y0 a N j).nx +
      ((circleSample x0 y0 b N i).y - (holeSample x0 y0 a N j).y) * (holeSample x0 y0 a N j).ny) /
      sqDist (circleSample x0 y0 b N i) (holeSample x0 y0 a N j) * a = -(1 / 2) * (ringKer a b N i j - 1) := by
  have hb : 0 < b := ha.trans hab
  have hden := poissonDen_pos (ring_ratio ha hab).2.2 (gridPt N i + gridPt N j)
  rw [cross_dist _ _ _ hb, ringKer, poissonKer, ← sub_eq_zero]
  have e : ((circleSample x0 y0 b N i).x - (holeSample x0 y0 a N j).x) * (holeSample x0 y0 a N j).nx +
      ((circleSample x0 y0 b N i).y - (holeSample x0 y0 a N j).y) * (holeSample x0 y0 a N j).ny = a - b * Real.cos (gridPt N i + gridPt N j) := by
    simp only [holeSample, circleSample]
    rw [show 2 * Real.pi * (i : ℝ) / N = gridPt N i from rfl, show 2 * Real.pi * (j : ℝ) / N = gridPt N j from rfl, Real.cos_add]
    have p2 := Real.sin_sq_add_cos_sq (gridPt N j)
    linear_combination a * p2
  have hd : poissonDen (a / b) (gridPt N i + gridPt N j) * b ^ 2 = b ^ 2 + a ^ 2 - 2 * a * b * Real.cos (gridPt N i + gridPt N j) := by
    unfold poissonDen
    field_simp
  rw [e]
  generalize poissonDen (a / b) (gridPt N i + gridPt N j) = D at *
  field_simp
  linear_combination -hd

theorem cross_kernel' (x0 y0 : ℝ) {a b : ℝ} (ha : 0 < a) (hab : a < b) (N i j : ℕ) :
    (((holeSample x0 y0 a N i).x - (circleSample x0 y0 b N j).x) * (circleSample x0 y0 b N j).nx +
      ((holeSample x0 y0 a N i).y - (circleSample x0 y0 b N j).y) * (circleSample x0 y0 b N j).ny) /
      sqDist (holeSample x0 y0 a N i) (circleSample x0 y0 b N j) * b = -(1 / 2) * (ringKer a b N i j + 1) := by
  have hb : 0 < b := ha.trans hab
  have hden := poissonDen_pos (ring_ratio ha hab).2.2 (gridPt N i + gridPt N j)
  rw [cross_dist' _ _ _ hb, ringKer, poissonKer, ← sub_eq_zero]
  have e : ((holeSample x0 y0 a N i).x - (circleSample x0 y0 b N j).x) * (circleSample x0 y0 b N j).nx +
      ((holeSample x0 y0 a N i).y - (circleSample x0 y0 b N j).y) * (circleSample x0 y0 b N j).ny = a * Real.cos (gridPt N i + gridPt N j) - b := by
    simp only [holeSample, circleSample]
    rw [show 2 * Real.pi * (i : ℝ) / N = gridPt N i from rfl, show 2 * Real.pi * (j : ℝ) / N = gridPt N j from rfl, Real.cos_add]
    have p2 := Real.sin_sq_add_cos_sq (gridPt N j)
    linear_combination -b * p2
  have hd : poissonDen (a / b) (gridPt N i + gridPt N j) * b ^ 2 = b ^ 2 + a ^ 2 - 2 * a * b * Real.cos (gridPt N i + gridPt N j) := by
    unfold poissonDen
    field_simp
  rw [e]
  generalize poissonDen (a / b) (gridPt N i + gridPt N j) = D at *
  field_simp
  linear_combination hd

/-- the matrices on a ring -/
theorem ring_matrices {K : CellG} {x0 y0 a b : ℝ} {n : ℕ} (h : K.IsAnnulus x0 y0 a b (2 * n)) (ha : 1 / 10 ^ 14 ≤ a) (hab : a < b) (h4 : 4 ≤ n)
    (hn : n ≤ 2 * 10 ^ 7) {o : Ops} (ho : build K = .ok o) {i j : ℕ} (hi : i < 2 * n) (hj : j < 2 * n) :
    (o.S.at' i j = -(1 / (2 * n : ℕ)) * Real.log b + martensenWeight (2 * n) (max i j - min i j) ∧
      o.S.at' i (2 * n + j) = -(1 / (2 * n : ℕ)) * Real.log b - 1 / (2 * (2 * n : ℕ)) * ringLog a b (2 * n) i j ∧
      o.S.at' (2 * n + i) j = -(1 / (2 * n : ℕ)) * Real.log b - 1 / (2 * (2 * n : ℕ)) * ringLog a b (2 * n) i j ∧
      o.S.at' (2 * n + i) (2 * n + j) = -(1 / (2 * n : ℕ)) * Real.log a + martensenWeight (2 * n) (max i j - min i j)) ∧
    o.D.at' i j = -(1 / (2 * (2 * n : ℕ))) ∧
      o.D.at' i (2 * n + j) = -(1 / (2 * (2 * n : ℕ))) * (ringKer a b (2 * n) i j - 1) ∧
      o.D.at' (2 * n + i) j = -(1 / (2 * (2 * n : ℕ))) * (ringKer a b (2 * n) i j + 1) ∧
      o.D.at' (2 * n + i) (2 * n + j) = 1 / (2 * (2 * n : ℕ)) := by
  have ha0 : 0 < a := lt_of_lt_of_le (by positivity) ha
  have hb0 : 0 < b := ha0.trans hab
  have hN : ((2 * n : ℕ) : ℝ) ≠ 0 := by exact_mod_cast (by omega)
  have hden := poissonDen_pos (ring_ratio ha0 hab).2.2 (gridPt (2 * n) i + gridPt (2 * n) j)
  obtain ⟨S, hS, -, -, hSe⟩ := C51_single h.ready (h.even rfl h4 hn) (h.simple ha0 hab)
  obtain ⟨D, hD, -, -, hDe⟩ := C51_double h.ready (h.apart ha0 hab)
  have hbd : build K = .ok ⟨K, S, D, D.rowSums⟩ := by simp only [build, hS, hD, bind, Except.bind]
  rw [hbd] at ho
  cases ho
  obtain ⟨P, p1, p2, p3, p4, p5, -, -⟩ := h.outer_node hi
  obtain ⟨P', p1', p2', p3', p4', p5', -, -⟩ := h.inner_node hi
  obtain ⟨Q, q1, q2, q3, q4, q5, q6, q7⟩ := h.outer_node hj
  obtain ⟨Q', q1', q2', q3', q4', q5', q6', q7'⟩ := h.inner_node hj
  have s1 : P.SameEdge Q := ⟨p1.trans q1.symm, p2.trans q2.symm⟩
  have s2 : P'.SameEdge Q' := ⟨p1'.trans q1'.symm, p2'.trans q2'.symm⟩
  have s3 : ¬ P.SameEdge Q' := fun hs => absurd (p1.symm.trans (hs.1.trans q1')) (by norm_num)
  have s4 : ¬ P'.SameEdge Q := fun hs => absurd (p1'.symm.trans (hs.1.trans q1)) (by norm_num)
  have hlog : Real.log (b ^ 2 * poissonDen (a / b) (gridPt (2 * n) i + gridPt (2 * n) j)) = 2 * Real.log b + ringLog a b (2 * n) i j := by
    rw [Real.log_mul (by positivity) hden.ne', Real.log_pow, ringLog]
    push_cast
    ring
  refine ⟨⟨?_, ?_, ?_, ?_⟩, ?_, ?_, ?_, ?_⟩
  · have h1 := hSe P Q
    rw [p4, q4] at h1
    show S.at' i j = _
    rw [h1]
    simp only [singleEntry, if_neg q7, if_pos s1, q6, p3, q3, p5, q5]
    congr 1
    split_ifs with hij hd
    · exact absurd hd (by simp only [circleSample]; linarith)
    · rfl
    · rw [circle_dist, mul_div_assoc, div_self (by have := sin_ne hi hj hij; positivity), mul_one, Real.log_pow]
      push_cast
      field_simp
  · have h1 := hSe P Q'
    rw [p4, q4'] at h1
    show S.at' i (2 * n + j) = _
    rw [h1]
    simp only [singleEntry, if_neg q7', if_neg s3, q6', p5, q5']
    rw [cross_dist _ _ _ hb0, hlog]
    field_simp
    ring
  · have h1 := hSe P' Q
    rw [p4', q4] at h1
    show S.at' (2 * n + i) j = _
    rw [h1]
    simp only [singleEntry, if_neg q7, if_neg s4, q6, p5', q5]
    rw [cross_dist' _ _ _ hb0, hlog]
    field_simp
    ring
  · have h1 := hSe P' Q'
    rw [p4', q4'] at h1
    show S.at' (2 * n + i) (2 * n + j) = _
    rw [h1]
    simp only [singleEntry, if_neg q7', if_pos s2, q6', p3', q3', p5', q5']
    congr 1
    split_ifs with hij hd
    · exact absurd hd (by simp only [holeSample]; linarith)
    · rfl
    · rw [hole_dist, mul_div_assoc, div_self (by have := sin_ne hi hj hij; positivity), mul_one, Real.log_pow]
      push_cast
      field_simp
  · have h1 := hDe P Q
    rw [p4, q4] at h1
    show D.at' i j = _
    rw [h1]
    simp only [doubleEntry, if_neg q7, q6, p5, q5]
    split_ifs with hd
    · simp only [circleSample]
      field_simp
    · have hdist : sqDist (circleSample x0 y0 b (2 * n) i) (circleSample x0 y0 b (2 * n) j) ≠ 0 := by
        intro h0
        exact hd ⟨s1, by rw [h0]; positivity⟩
      rw [circle_kernel _ _ hb0, mul_div_assoc (-(1 / (2 * b))), div_self hdist]
      simp only [circleSample]
      field_simp
  · have h1 := hDe P Q'
    rw [p4, q4'] at h1
    show D.at' i (2 * n + j) = _
    rw [h1]
    simp only [doubleEntry, if_neg q7', q6', p5, q5', s3, false_and, if_false]
    have e : (holeSample x0 y0 a (2 * n) j).dxNorm = a := rfl
    rw [e, cross_kernel _ _ ha0 hab]
    field_simp
  · have h1 := hDe P' Q
    rw [p4', q4] at h1
    show D.at' (2 * n + i) j = _
    rw [h1]
    simp only [doubleEntry, if_neg q7, q6, p5', q5, s4, false_and, if_false]
    have e : (circleSample x0 y0 b (2 * n) j).dxNorm = b := rfl
    rw [e, cross_kernel' _ _ ha0 hab]
    field_simp
  · have h1 := hDe P' Q'
    rw [p4', q4'] at h1
    show D.at' (2 * n + i) (2 * n + j) = _
    rw [h1]
    simp only [doubleEntry, if_neg q7', q6', p5', q5']
    split_ifs with hd
    · simp only [holeSample]
      field_simp
    · have hdist : sqDist (holeSample x0 y0 a (2 * n) i) (holeSample x0 y0 a (2 * n) j) ≠ 0 := by
        intro h0
        exact hd ⟨s2, by rw [h0]; positivity⟩
      rw [hole_kernel _ _ ha0, mul_div_assoc (1 / (2 * a)), div_self hdist]
      simp only [holeSample]
      field_simp

end PFEM
