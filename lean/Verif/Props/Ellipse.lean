import Verif.Spec.Ellipse
import Verif.Lemmas.EllipseSum
import Verif.Props.Disc

/-!
Matrices and linear systems of the Nyström solver on ellipses.
-/

namespace PFEM
open Nystrom Antilap

namespace CellG.IsEllipse

variable {K : CellG} {x0 y0 a b : ℝ} {N : ℕ}

theorem cols (h : K.IsEllipse x0 y0 a b N) : K.cols = (List.range N).map (ellipseSample x0 y0 a b N) := by
  obtain ⟨c, e, h1, h2, -, h3⟩ := h.ellipse
  simp [CellG.cols, h1, ContourG.cols, h2, h3]

theorem numPts (h : K.IsEllipse x0 y0 a b N) : K.numPts = N := by
  rw [h.ready.numPts, h.cols]; simp

theorem numHoles (h : K.IsEllipse x0 y0 a b N) : K.numHoles = 0 := by
  obtain ⟨c, e, h1, -⟩ := h.ellipse
  simp [CellG.numHoles, h1]

theorem corners (h : K.IsEllipse x0 y0 a b N) (hN : 0 < N) : Corners K := by
  refine ⟨by rw [h.vertex, h.numPts]; simp, fun i hi => ?_⟩
  rw [h.vertex, List.mem_replicate] at hi
  rw [hi.2, h.numPts]
  exact hN

theorem even (h : K.IsEllipse x0 y0 a b N) {n : ℕ} (hN : N = 2 * n) (h4 : 4 ≤ n) (hn : n ≤ 2 * 10 ^ 7) : K.Even := by
  obtain ⟨c, e, h1, h2, -, h3⟩ := h.ellipse
  intro c' hc' e' he'
  rw [h1, List.mem_singleton] at hc'
  subst hc'
  rw [h2, List.mem_singleton] at he'
  subst he'
  exact ⟨n, h4, hn, by simp [h3, hN]⟩

theorem edges_ne (h : K.IsEllipse x0 y0 a b N) : ∀ c ∈ K.components, c.edges ≠ [] := by
  obtain ⟨c, e, h1, h2, -⟩ := h.ellipse
  intro c' hc'
  rw [h1, List.mem_singleton] at hc'
  subst hc'
  simp [h2]

theorem holes (h : K.IsEllipse x0 y0 a b N) : K.Holes := by
  obtain ⟨c, e, h1, -⟩ := h.ellipse
  intro c' hc'
  simp [h1] at hc'

theorem uniform (h : K.IsEllipse x0 y0 a b N) : Uniform K := by
  obtain ⟨c, e, h1, h2, -, h3⟩ := h.ellipse
  intro c' hc'
  refine ⟨h.edges_ne c' hc', N, ?_⟩
  rw [h1, List.mem_singleton] at hc'
  subst hc'
  intro e' he'
  rw [h2, List.mem_singleton] at he'
  subst he'
  simp [h3]

theorem normals (h : K.IsEllipse x0 y0 a b N) : K.Normals := by
  intro s hs
  rw [h.cols] at hs
  obtain ⟨j, -, rfl⟩ := List.mem_map.1 hs
  simp [ellipseSample]
  ring

/-- the sample with number `j` as a node -/
theorem node (h : K.IsEllipse x0 y0 a b N) {j : ℕ} (hj : j < N) : ∃ P : Node K, P.i = 0 ∧ P.k = 0 ∧ P.a = j ∧ P.pos = j ∧
    P.s = ellipseSample x0 y0 a b N j ∧ P.e.cols.length = N ∧ ¬ P.Skipped := by
  obtain ⟨c, e, h1, h2, hk, h3⟩ := h.ellipse
  refine ⟨⟨0, 0, j, c, e, ellipseSample x0 y0 a b N j, by simp [h1], by simp [h2], by simp [h3, hj]⟩, rfl, rfl, rfl, ?_, rfl, by simp [h3],
    fun hs => hk hs.1⟩
  simp [Node.pos, blockStart]

theorem node_only (h : K.IsEllipse x0 y0 a b N) (P : Node K) : P.i = 0 ∧ P.k = 0 ∧ P.a < N ∧ P.s = ellipseSample x0 y0 a b N P.a ∧
    P.e.cols.length = N := by
  obtain ⟨c, e, h1, h2, hk, h3⟩ := h.ellipse
  have hi : P.i < [c].length := by rw [← h1]; exact (List.getElem?_eq_some_iff.1 P.hc).1
  have hi : P.i = 0 := by simpa using hi
  have hc := P.hc
  rw [hi, h1] at hc
  have hc : c = P.c := by simpa using hc
  have hk2 : P.k < [e].length := by rw [← h2, hc]; exact (List.getElem?_eq_some_iff.1 P.he).1
  have hk2 : P.k = 0 := by simpa using hk2
  have he := P.he
  rw [hk2, ← hc, h2] at he
  have he : e = P.e := by simpa using he
  have hs := P.hs
  rw [← he, h3] at hs
  have ha : P.a < N := by simpa using (List.getElem?_eq_some_iff.1 hs).1
  refine ⟨hi, hk2, ha, ?_, by rw [← he, h3]; simp⟩
  simpa [ha] using hs.symm

end CellG.IsEllipse

/-- the signed version of `flatness` -/
noncomputable def ellRho (a b : ℝ) : ℝ := (a - b) / (a + b)

theorem ellRho_abs {a b : ℝ} (ha : 0 < a) (hb : 0 < b) : |ellRho a b| = flatness a b := by
  rw [ellRho, flatness, abs_div, abs_of_pos (add_pos ha hb)]

theorem flatness_lt {a b : ℝ} (ha : 0 < a) (hb : 0 < b) : flatness a b < 1 := by
  rw [flatness, div_lt_one (add_pos ha hb), abs_lt]
  constructor <;> linarith

theorem flatness_nonneg {a b : ℝ} (ha : 0 < a) (hb : 0 < b) : 0 ≤ flatness a b := by
  unfold flatness
  positivity

theorem ellRho_lt {a b : ℝ} (ha : 0 < a) (hb : 0 < b) : |ellRho a b| < 1 := by
  rw [ellRho_abs ha hb]; exact flatness_lt ha hb

theorem ell_den {a b : ℝ} (ha : 0 < a) (hb : 0 < b) (s : ℝ) : a ^ 2 * Real.sin s ^ 2 + b ^ 2 * Real.cos s ^ 2 =
    ((a + b) / 2) ^ 2 * poissonDen (ellRho a b) (2 * s) := by
  have hab : a + b ≠ 0 := (add_pos ha hb).ne'
  rw [poissonDen, ellRho, Real.cos_two_mul]
  have := Real.sin_sq_add_cos_sq s
  have e : Real.sin s ^ 2 = 1 - Real.cos s ^ 2 := by linarith
  rw [e]
  field_simp
  ring

theorem ell_prod {a b : ℝ} (ha : 0 < a) (hb : 0 < b) : a * b = ((a + b) / 2) ^ 2 * (1 - ellRho a b ^ 2) := by
  have hab : a + b ≠ 0 := (add_pos ha hb).ne'
  rw [ellRho]
  field_simp
  ring

/-- squared distance of two samples of an ellipse -/
theorem ellipse_dist (x0 y0 : ℝ) {a b : ℝ} (ha : 0 < a) (hb : 0 < b) (N i j : ℕ) :
    sqDist (ellipseSample x0 y0 a b N i) (ellipseSample x0 y0 a b N j) =
      (2 * Real.sin (Real.pi * (i - j) / N)) ^ 2 * (((a + b) / 2) ^ 2 * poissonDen (ellRho a b) (gridPt N i + gridPt N j)) := by
  have e : Real.pi * ((i : ℝ) - j) / N = (gridPt N i - gridPt N j) / 2 := by unfold gridPt; ring
  have e2 : gridPt N i + gridPt N j = 2 * ((gridPt N i + gridPt N j) / 2) := by ring
  rw [e2, ← ell_den ha hb, e]
  simp only [sqDist, ellipseSample]
  rw [show 2 * Real.pi * (i : ℝ) / N = gridPt N i from rfl, show 2 * Real.pi * (j : ℝ) / N = gridPt N j from rfl]
  rw [show x0 + a * Real.cos (gridPt N i) - (x0 + a * Real.cos (gridPt N j)) = a * (Real.cos (gridPt N i) - Real.cos (gridPt N j)) by ring,
    show y0 + b * Real.sin (gridPt N i) - (y0 + b * Real.sin (gridPt N j)) = b * (Real.sin (gridPt N i) - Real.sin (gridPt N j)) by ring,
    Real.cos_sub_cos, Real.sin_sub_sin]
  ring

theorem ellipse_speed (x0 y0 : ℝ) {a b : ℝ} (ha : 0 < a) (hb : 0 < b) (N j : ℕ) :
    (ellipseSample x0 y0 a b N j).dxNorm = Real.sqrt (((a + b) / 2) ^ 2 * poissonDen (ellRho a b) (gridPt N j + gridPt N j)) := by
  rw [show gridPt N j + gridPt N j = 2 * gridPt N j by ring, ← ell_den ha hb]
  rfl

theorem ell_low {a b : ℝ} (ha : 0 < a) (hb : 0 < b) (φ : ℝ) : min a b ^ 2 ≤ ((a + b) / 2) ^ 2 * poissonDen (ellRho a b) φ := by
  have e : φ = 2 * (φ / 2) := by ring
  rw [e, ← ell_den ha hb]
  have h := Real.sin_sq_add_cos_sq (φ / 2)
  have hm : 0 < min a b := lt_min ha hb
  have h1 : min a b ^ 2 ≤ a ^ 2 := by gcongr; exact min_le_left _ _
  have h2 : min a b ^ 2 ≤ b ^ 2 := by gcongr; exact min_le_right _ _
  have := sq_nonneg (Real.sin (φ / 2))
  have := sq_nonneg (Real.cos (φ / 2))
  nlinarith

/-- neighbouring parameters are apart -/
theorem sin_grid {N i j : ℕ} (hi : i < N) (hj : j < N) (hij : i ≠ j) : (2 / (N : ℝ)) ^ 2 ≤ Real.sin (Real.pi * ((i : ℝ) - j) / N) ^ 2 := by
  wlog h : j < i generalizing i j
  · have := this hj hi hij.symm (by omega)
    rw [show Real.pi * ((i : ℝ) - j) / N = -(Real.pi * ((j : ℝ) - i) / N) by ring, Real.sin_neg, neg_sq]
    exact this
  have hN : (0 : ℝ) < N := by exact_mod_cast (by omega : 0 < N)
  have hpi := Real.pi_pos
  obtain ⟨m, rfl⟩ : ∃ m, i = j + m := ⟨i - j, by omega⟩
  have hm1 : 1 ≤ m := by omega
  have hmN : m + 1 ≤ N := by omega
  have h1 : (1 : ℝ) ≤ m := by exact_mod_cast hm1
  have h2 : (m : ℝ) + 1 ≤ N := by exact_mod_cast hmN
  rw [show Real.pi * (((j + m : ℕ) : ℝ) - j) / N = Real.pi * m / N by push_cast; ring]
  have key : ∀ x : ℝ, 1 ≤ x → x ≤ N / 2 → 2 / (N : ℝ) ≤ Real.sin (Real.pi * x / N) := by
    intro x hx1 hx2
    have h3 : Real.pi * x / N ≤ Real.pi / 2 := by
      rw [div_le_div_iff₀ hN (by norm_num)]
      nlinarith
    refine le_trans ?_ (Real.mul_le_sin (by positivity) h3)
    rw [show 2 / Real.pi * (Real.pi * x / N) = 2 * x / N by field_simp]
    gcongr
    linarith
  have : 2 / (N : ℝ) ≤ Real.sin (Real.pi * m / N) := by
    rcases le_total (m : ℝ) (N / 2) with h3 | h3
    · exact key _ h1 h3
    · have := key (N - m) (by linarith) (by linarith)
      rwa [show Real.pi * ((N : ℝ) - m) / N = Real.pi - Real.pi * m / N by field_simp, Real.sin_pi_sub] at this
  gcongr

theorem CellG.IsEllipse.simple {K : CellG} {x0 y0 a b : ℝ} {N : ℕ} (h : K.IsEllipse x0 y0 a b N) (ha : 0 < a) (hb : 0 < b) : K.Simple := by
  intro P Q _ hPQ
  obtain ⟨p1, p2, p3, p4, -⟩ := h.node_only P
  obtain ⟨q1, q2, q3, q4, -⟩ := h.node_only Q
  have hne : P.a ≠ Q.a := fun e => hPQ ⟨⟨p1.trans q1.symm, p2.trans q2.symm⟩, e⟩
  rw [p4, q4, ellipse_dist _ _ ha hb]
  have := sin_ne p3 q3 hne
  have := poissonDen_pos (ellRho_lt ha hb) (gridPt N P.a + gridPt N Q.a)
  positivity

theorem CellG.IsEllipse.apart {K : CellG} {x0 y0 a b : ℝ} {N : ℕ} (h : K.IsEllipse x0 y0 a b N) : K.Apart := by
  intro P Q _ hPQ
  obtain ⟨p1, p2, -⟩ := h.node_only P
  obtain ⟨q1, q2, -⟩ := h.node_only Q
  exact absurd ⟨p1.trans q1.symm, p2.trans q2.symm⟩ hPQ

/-- the matrices on an ellipse -/
theorem ellipse_matrices {K : CellG} {x0 y0 a b : ℝ} {n : ℕ} (h : K.IsEllipse x0 y0 a b (2 * n)) (ha : 0 < a) (hb : 0 < b)
    (hab : (2 * n : ℕ) / (4 * 10 ^ 6) ≤ min a b) (h4 : 4 ≤ n)
    (hn : n ≤ 2 * 10 ^ 7) {o : Ops} (ho : build K = .ok o) {i j : ℕ} (hi : i < 2 * n) (hj : j < 2 * n) :
    o.S.at' i j = -(1 / (2 * (2 * n : ℕ))) * (Real.log (((a + b) / 2) ^ 2) + Real.log (poissonDen (ellRho a b) (gridPt (2 * n) i + gridPt (2 * n) j)))
      + martensenWeight (2 * n) (max i j - min i j) ∧
    o.D.at' i j = -(1 / (2 * (2 * n : ℕ))) * poissonKer (ellRho a b) (gridPt (2 * n) i + gridPt (2 * n) j) := by
  have hN : (0 : ℝ) < ((2 * n : ℕ) : ℝ) := by exact_mod_cast (by omega)
  have hN8 : (8 : ℝ) ≤ ((2 * n : ℕ) : ℝ) := by exact_mod_cast (by omega)
  have hm : 0 < min a b := lt_min ha hb
  have hpp : 0 < ((a + b) / 2) ^ 2 := by have := add_pos ha hb; positivity
  have hden := poissonDen_pos (ellRho_lt ha hb) (gridPt (2 * n) i + gridPt (2 * n) j)
  obtain ⟨S, hS, -, -, hSe⟩ := C51_single h.ready (h.even rfl h4 hn) (h.simple ha hb)
  obtain ⟨D, hD, -, -, hDe⟩ := C51_double h.ready h.apart
  have hbd : build K = .ok ⟨K, S, D, D.rowSums⟩ := by simp only [build, hS, hD, bind, Except.bind]
  rw [hbd] at ho
  cases ho
  obtain ⟨P, p1, p2, p3, p4, p5, -, -⟩ := h.node hi
  obtain ⟨Q, q1, q2, q3, q4, q5, q6, q7⟩ := h.node hj
  have hse : P.SameEdge Q := ⟨p1.trans q1.symm, p2.trans q2.symm⟩
  have h1 := hSe P Q
  have h2 := hDe P Q
  rw [p4, q4] at h1 h2
  rw [← Real.log_mul hpp.ne' hden.ne']
  have hgpos : ∀ j, 0 < ((a + b) / 2) ^ 2 * poissonDen (ellRho a b) (gridPt (2 * n) j + gridPt (2 * n) j) := fun j =>
    mul_pos hpp (poissonDen_pos (ellRho_lt ha hb) _)
  constructor
  · show S.at' i j = _
    rw [h1]
    simp only [singleEntry, if_neg q7, if_pos hse, q6, p3, q3, p5, q5]
    congr 1
    split_ifs with hij hd
    · exfalso
      rw [ellipse_speed _ _ ha hb] at hd
      have h5 := Real.sqrt_le_sqrt (ell_low ha hb (gridPt (2 * n) j + gridPt (2 * n) j))
      rw [Real.sqrt_sq hm.le] at h5
      have : (8 : ℝ) / (4 * 10 ^ 6) ≤ ((2 * n : ℕ) : ℝ) / (4 * 10 ^ 6) := by gcongr
      have h6 : (1 : ℝ) / 10 ^ 14 < 8 / (4 * 10 ^ 6) := by norm_num
      linarith
    · rw [hij, ellipse_speed _ _ ha hb, Real.log_sqrt (hgpos j).le]
      field_simp
    · rw [ellipse_dist _ _ ha hb, mul_div_cancel_left₀ _ (by have := sin_ne hi hj hij; positivity)]
  · show D.at' i j = _
    rw [h2]
    simp only [doubleEntry, if_neg q7, q6, p5, q5]
    by_cases hij : i = j
    · subst hij
      have : sqDist (ellipseSample x0 y0 a b (2 * n) i) (ellipseSample x0 y0 a b (2 * n) i) < 1 / 10 ^ 12 := by
        simp [sqDist]
      rw [if_pos ⟨hse, this⟩]
      have hs := ellipse_speed x0 y0 ha hb (2 * n) i
      have hg := hgpos i
      have e : (ellipseSample x0 y0 a b (2 * n) i).curv = -(a * b) / (ellipseSample x0 y0 a b (2 * n) i).dxNorm ^ 3 := rfl
      have hs2 : (ellipseSample x0 y0 a b (2 * n) i).dxNorm ^ 2 =
          ((a + b) / 2) ^ 2 * poissonDen (ellRho a b) (gridPt (2 * n) i + gridPt (2 * n) i) := by
        rw [hs, Real.sq_sqrt hg.le]
      have hs0 : (ellipseSample x0 y0 a b (2 * n) i).dxNorm ≠ 0 := by
        intro h0
        rw [h0] at hs2
        linarith
      rw [e, poissonKer]
      have e3 : -(a * b) / (ellipseSample x0 y0 a b (2 * n) i).dxNorm ^ 3 / 2 * (ellipseSample x0 y0 a b (2 * n) i).dxNorm =
          -(a * b) / (ellipseSample x0 y0 a b (2 * n) i).dxNorm ^ 2 / 2 := by
        field_simp
      rw [e3, hs2, ell_prod ha hb]
      field_simp
    · have hd : ¬ (P.SameEdge Q ∧ sqDist (ellipseSample x0 y0 a b (2 * n) i) (ellipseSample x0 y0 a b (2 * n) j) < 1 / 10 ^ 12) := by
        rintro ⟨-, hd⟩
        rw [ellipse_dist _ _ ha hb, mul_pow] at hd
        have h5 := sin_grid hi hj hij
        have h6 := ell_low ha hb (gridPt (2 * n) i + gridPt (2 * n) j)
        have h7 : (((2 * n : ℕ) : ℝ) / (4 * 10 ^ 6)) ^ 2 ≤ min a b ^ 2 := by gcongr
        have h8 : (2 / ((2 * n : ℕ) : ℝ)) ^ 2 * (((2 * n : ℕ) : ℝ) / (4 * 10 ^ 6)) ^ 2 ≤
            Real.sin (Real.pi * ((i : ℝ) - j) / (2 * n : ℕ)) ^ 2 *
              (((a + b) / 2) ^ 2 * poissonDen (ellRho a b) (gridPt (2 * n) i + gridPt (2 * n) j)) := by
          gcongr
          exact h7.trans h6
        have h9 : (2 / ((2 * n : ℕ) : ℝ)) ^ 2 * (((2 * n : ℕ) : ℝ) / (4 * 10 ^ 6)) ^ 2 = 1 / (4 * 10 ^ 12) := by
          field_simp
          norm_num
        rw [h9] at h8
        have h10 : (1 : ℝ) / 10 ^ 12 = 2 ^ 2 * (1 / (4 * 10 ^ 12)) := by norm_num
        rw [h10, mul_assoc] at hd
        linarith
      rw [if_neg hd, ellipse_dist _ _ ha hb]
      have hs := ellipse_speed x0 y0 ha hb (2 * n) j
      have hg := hgpos j
      have hs0 : (ellipseSample x0 y0 a b (2 * n) j).dxNorm ≠ 0 := by
        rw [hs]
        exact (Real.sqrt_pos.2 hg).ne'
      have e : (((ellipseSample x0 y0 a b (2 * n) i).x - (ellipseSample x0 y0 a b (2 * n) j).x) * (ellipseSample x0 y0 a b (2 * n) j).nx +
          ((ellipseSample x0 y0 a b (2 * n) i).y - (ellipseSample x0 y0 a b (2 * n) j).y) * (ellipseSample x0 y0 a b (2 * n) j).ny) =
          -(2 * (a * b)) * Real.sin (Real.pi * ((i : ℝ) - j) / (2 * n : ℕ)) ^ 2 / (ellipseSample x0 y0 a b (2 * n) j).dxNorm := by
        rw [eq_div_iff hs0]
        have n1 : (ellipseSample x0 y0 a b (2 * n) j).nx = b * Real.cos (gridPt (2 * n) j) / (ellipseSample x0 y0 a b (2 * n) j).dxNorm := rfl
        have n2 : (ellipseSample x0 y0 a b (2 * n) j).ny = a * Real.sin (gridPt (2 * n) j) / (ellipseSample x0 y0 a b (2 * n) j).dxNorm := rfl
        rw [n1, n2]
        have m1 : ∀ k, (ellipseSample x0 y0 a b (2 * n) k).x = x0 + a * Real.cos (gridPt (2 * n) k) := fun _ => rfl
        have m2 : ∀ k, (ellipseSample x0 y0 a b (2 * n) k).y = y0 + b * Real.sin (gridPt (2 * n) k) := fun _ => rfl
        rw [m1, m1, m2, m2]
        have e : Real.pi * ((i : ℝ) - j) / (2 * n : ℕ) = (gridPt (2 * n) i - gridPt (2 * n) j) / 2 := by unfold gridPt; ring
        have e2 : Real.sin ((gridPt (2 * n) i - gridPt (2 * n) j) / 2) ^ 2 = (1 - Real.cos (gridPt (2 * n) i - gridPt (2 * n) j)) / 2 := by
          rw [Real.sin_sq_eq_half_sub, show 2 * ((gridPt (2 * n) i - gridPt (2 * n) j) / 2) = gridPt (2 * n) i - gridPt (2 * n) j by ring]
          ring
        rw [e, e2, Real.cos_sub]
        have p2 := Real.sin_sq_add_cos_sq (gridPt (2 * n) j)
        field_simp
        linear_combination (-(a * b)) * p2
      rw [e, poissonKer]
      have hsn := sin_ne hi hj hij
      have e5 : -(2 * (a * b)) * Real.sin (Real.pi * ((i : ℝ) - j) / (2 * n : ℕ)) ^ 2 =
          -(2 * (((a + b) / 2) ^ 2 * (1 - ellRho a b ^ 2))) * Real.sin (Real.pi * ((i : ℝ) - j) / (2 * n : ℕ)) ^ 2 := by rw [ell_prod ha hb]
      rw [e5]
      field_simp

/-- the weight of a sample in integrals over the boundary -/
noncomputable def ellWeight (a b : ℝ) (N j : ℕ) : ℝ := 2 * Real.pi / N * (ellipseSample 0 0 a b N j).dxNorm

theorem ellWeight_pos {a b : ℝ} (ha : 0 < a) (hb : 0 < b) {N : ℕ} (hN : 0 < N) (j : ℕ) : 0 < ellWeight a b N j := by
  have hN' : (0 : ℝ) < N := by exact_mod_cast hN
  have hpi := Real.pi_pos
  have hab := add_pos ha hb
  rw [ellWeight, ellipse_speed _ _ ha hb]
  have := poissonDen_pos (ellRho_lt ha hb) (gridPt N j + gridPt N j)
  positivity

/-- what the operator of the Neumann problem does on an ellipse -/
theorem ellipse_neumann {K : CellG} {x0 y0 a b : ℝ} {n : ℕ} (h : K.IsEllipse x0 y0 a b (2 * n)) (ha : 0 < a) (hb : 0 < b)
    (hab : (2 * n : ℕ) / (4 * 10 ^ 6) ≤ min a b) (h4 : 4 ≤ n) (hn : n ≤ 2 * 10 ^ 7) {o : Ops} (ho : build K = .ok o) {u : List ℝ}
    (hu : u.length = 2 * n) :
    o.neumann u = .ok ((List.range (2 * n)).map fun i => (vec u i - vec u 0) / 2 -
      (∑ j ∈ Finset.range (2 * n), poissonKer (ellRho a b) (gridPt (2 * n) i + gridPt (2 * n) j) * (vec u j - vec u 0)) / (2 * (2 * n : ℕ)) +
      ∑ j ∈ Finset.range (2 * n), vec u j * ellWeight a b (2 * n) j) := by
  have hu' : u.length = K.numPts := by rw [hu, h.numPts]
  have hc := h.corners (by omega)
  obtain ⟨y, hy, hyl, hyv⟩ := C50_formula h.ready hc ho hu'
  obtain ⟨y', I, e1, e2, e3⟩ := C50_neumann h.ready h.edges_ne hc ho hu'
  rw [hy] at e1
  cases e1
  have hI : I = ∑ j ∈ Finset.range (2 * n), vec u j * ellWeight a b (2 * n) j := by
    rw [cell_integrate h.ready h.edges_ne (hu'.trans h.ready.numPts)] at e2
    have hw : cellWeights K = (List.range (2 * n)).map fun j => ellWeight a b (2 * n) j := by
      obtain ⟨c, e, h1, h2, -, h3⟩ := h.ellipse
      simp only [cellWeights, h1, ContourG.cols, h2, h3, List.flatMap_cons, List.flatMap_nil, List.append_nil, List.map_map,
        List.length_map, List.length_range, List.length_singleton, Nat.cast_one, mul_one]
      rfl
    rw [hw, dot_vec hu (by simp)] at e2
    cases e2
    exact Finset.sum_congr rfl fun i hi => by rw [vec_range _ (Finset.mem_range.1 hi)]
  rw [e3, hI]
  congr 1
  refine vec_ext (by simp [hyl, h.numPts]) fun i hi => ?_
  have hi' : i < 2 * n := by simpa [hyl, h.numPts] using hi
  rw [vec_map _ (by simpa using hi), vec_range _ hi', hyv i 0 (by rw [h.numPts]; exact hi') (by rw [h.vertex, List.getElem?_replicate, if_pos hi']), h.numPts]
  congr 1
  rw [sub_eq_add_neg]
  congr 1
  rw [Finset.sum_div, ← Finset.sum_neg_distrib]
  refine Finset.sum_congr rfl fun j hj => ?_
  rw [(ellipse_matrices h ha hb hab h4 hn ho hi' (Finset.mem_range.1 hj)).2]
  ring

/-! ### the linear system -/

/-- cosines separate the points of the grid -/
theorem grid_inversion {N : ℕ} (hN : 0 < N) {w : ℕ → ℝ} (hc : ∀ k, 1 ≤ k → k < N → ∑ j ∈ Finset.range N, w j * Real.cos (k * gridPt N j) = 0)
    (hs : ∀ k, 1 ≤ k → k < N → ∑ j ∈ Finset.range N, w j * Real.sin (k * gridPt N j) = 0) {i : ℕ} (hi : i < N) :
    N * w i = ∑ j ∈ Finset.range N, w j := by
  have h1 : ∑ k ∈ Finset.range N, ∑ j ∈ Finset.range N, w j * Real.cos (k * (gridPt N i - gridPt N j)) = ∑ j ∈ Finset.range N, w j := by
    obtain ⟨M, rfl⟩ : ∃ M, N = M + 1 := ⟨N - 1, by omega⟩
    rw [Finset.sum_range_succ']
    simp only [Nat.cast_zero, zero_mul, Real.cos_zero, mul_one]
    rw [add_eq_right]
    refine Finset.sum_eq_zero fun k hk => ?_
    have hk := Finset.mem_range.1 hk
    have e : ∀ j ∈ Finset.range (M + 1), w j * Real.cos ((k + 1 : ℕ) * (gridPt (M + 1) i - gridPt (M + 1) j)) =
        Real.cos ((k + 1 : ℕ) * gridPt (M + 1) i) * (w j * Real.cos ((k + 1 : ℕ) * gridPt (M + 1) j)) +
        Real.sin ((k + 1 : ℕ) * gridPt (M + 1) i) * (w j * Real.sin ((k + 1 : ℕ) * gridPt (M + 1) j)) := by
      intro j _
      rw [mul_sub, Real.cos_sub]
      ring
    rw [Finset.sum_congr rfl e, Finset.sum_add_distrib, ← Finset.mul_sum, ← Finset.mul_sum, hc (k + 1) (by omega) (by omega),
      hs (k + 1) (by omega) (by omega)]
    ring
  rw [← h1, Finset.sum_comm]
  have h2 : ∀ j ∈ Finset.range N, ∑ k ∈ Finset.range N, w j * Real.cos (k * (gridPt N i - gridPt N j)) = if j = i then N * w i else 0 := by
    intro j hj
    have hj := Finset.mem_range.1 hj
    rw [← Finset.mul_sum]
    have e : ∀ k ∈ Finset.range N, Real.cos (k * (gridPt N i - gridPt N j)) = Real.cos (((i - j : ℤ) : ℝ) * gridPt N k) := by
      intro k _
      congr 1
      unfold gridPt
      push_cast
      ring
    rw [Finset.sum_congr rfl e, grid_cos hN]
    have d : ((N : ℤ) ∣ (i - j : ℤ)) ↔ j = i := by
      constructor
      · rintro ⟨x, hx⟩
        have h0 : -1 < x := by nlinarith
        have h2 : x < 1 := by nlinarith
        have : x = 0 := by omega
        rw [this] at hx
        omega
      · intro h
        exact ⟨0, by omega⟩
    simp only [d]
    split_ifs with hji
    · rw [hji]; ring
    · ring
  rw [Finset.sum_congr rfl h2, Finset.sum_ite_eq' (Finset.range N) i, if_pos (Finset.mem_range.2 hi)]

/-- the coefficients of the Poisson kernel stay away from one if there are enough points -/
theorem coef_bound {ρ : ℝ} {N k : ℕ} (hN : 4 * |ρ| ^ (N - 1) ≤ 1 - |ρ|) (hρ : |ρ| < 1) (h1 : 1 ≤ k) (hk : k < N) :
    |gridCoef (poissonKer ρ) N k| ≤ 1 - (1 - |ρ|) / 2 := by
  have hN0 : 0 < N := by omega
  set r := |ρ| with hr
  have hr0 : 0 ≤ r := abs_nonneg _
  have hpos := one_sub_pow_pos hρ hN0
  have hp1 : 0 < 1 - r ^ N := one_sub_pow_pos (by rwa [abs_of_nonneg hr0]) hN0
  have hle : 1 - r ^ N ≤ 1 - ρ ^ N := by
    have := le_abs_self (ρ ^ N)
    rw [abs_pow] at this
    linarith
  have h2 : r ^ k + r ^ (N - k) ≤ r + r ^ (N - 1) := by
    obtain ⟨k', rfl⟩ : ∃ k', k = k' + 1 := ⟨k - 1, by omega⟩
    obtain ⟨m, rfl⟩ : ∃ m, N = k' + 1 + m + 1 := ⟨N - k' - 2, by omega⟩
    rw [show k' + 1 + m + 1 - (k' + 1) = m + 1 by omega, show k' + 1 + m + 1 - 1 = k' + (m + 1) by omega]
    have q1 : r ^ k' ≤ 1 := pow_le_one₀ hr0 hρ.le
    have q2 : r ^ m ≤ 1 := pow_le_one₀ hr0 hρ.le
    have : 0 ≤ r * ((1 - r ^ k') * (1 - r ^ m)) := by
      have := sub_nonneg.2 q1
      have := sub_nonneg.2 q2
      positivity
    rw [show r ^ (k' + (m + 1)) = r ^ k' * r ^ m * r by ring, show r ^ (k' + 1) = r ^ k' * r by ring, show r ^ (m + 1) = r ^ m * r by ring]
    linarith
  have h3 : r ^ N ≤ r ^ (N - 1) := pow_le_pow_of_le_one hr0 hρ.le (by omega)
  have h4 : r ^ N ≥ 0 := by positivity
  rw [poisson_coef hρ h1 hk, abs_div, abs_of_pos hpos, div_le_iff₀ hpos]
  calc |ρ ^ k + ρ ^ (N - k)| ≤ r ^ k + r ^ (N - k) := by
        refine (abs_add_le _ _).trans ?_
        rw [abs_pow, abs_pow]
    _ ≤ r + r ^ (N - 1) := h2
    _ ≤ (1 - (1 - r) / 2) * (1 - r ^ N) := by nlinarith
    _ ≤ _ := by
        have : 0 ≤ 1 - (1 - r) / 2 := by linarith
        gcongr

theorem ker_even {a b : ℝ} {f : ℝ → ℝ} : (∀ x, (fun φ => f (poissonDen (ellRho a b) φ)) (x + 2 * Real.pi) = f (poissonDen (ellRho a b) x)) ∧
    ∀ x, (fun φ => f (poissonDen (ellRho a b) φ)) (-x) = f (poissonDen (ellRho a b) x) :=
  ⟨fun x => by simp only [poissonDen_period], fun x => by simp only [poissonDen_neg]⟩

/-- kernels of the sum of the angles on trigonometric polynomials -/
theorem ker_trig (a b : ℝ) (f : ℝ → ℝ) {N : ℕ} (hN : 0 < N) (α β : ℕ → ℝ) (M i : ℕ) :
    ∑ j ∈ Finset.range N, f (poissonDen (ellRho a b) (gridPt N i + gridPt N j)) * trig α β M (2 * Real.pi) (gridPt N j) =
      N * trig (fun k => gridCoef (fun φ => f (poissonDen (ellRho a b) φ)) N k * α k)
        (fun k => -(gridCoef (fun φ => f (poissonDen (ellRho a b) φ)) N k * β k)) M (2 * Real.pi) (gridPt N i) := by
  simp only [trig_eq, Finset.mul_sum]
  rw [Finset.sum_comm]
  refine Finset.sum_congr rfl fun k _ => ?_
  obtain ⟨h1, h2⟩ := even_conv (f := fun φ => f (poissonDen (ellRho a b) φ)) ker_even.1 ker_even.2 hN k i
  have e : ∀ j ∈ Finset.range N, f (poissonDen (ellRho a b) (gridPt N i + gridPt N j)) *
      (α k * Real.cos (k * gridPt N j) + β k * Real.sin (k * gridPt N j)) =
      α k * (f (poissonDen (ellRho a b) (gridPt N i + gridPt N j)) * Real.cos (k * gridPt N j)) +
      β k * (f (poissonDen (ellRho a b) (gridPt N i + gridPt N j)) * Real.sin (k * gridPt N j)) := fun j _ => by ring
  rw [Finset.sum_congr rfl e, Finset.sum_add_distrib, ← Finset.mul_sum, ← Finset.mul_sum, h1, h2]
  ring

/-- the operator of the Neumann problem on an ellipse is one to one if there are enough points -/
theorem ellipse_injective {K : CellG} {x0 y0 a b : ℝ} {n : ℕ} (h : K.IsEllipse x0 y0 a b (2 * n)) (ha : 0 < a) (hb : 0 < b)
    (hab : (2 * n : ℕ) / (4 * 10 ^ 6) ≤ min a b) (h4 : 4 ≤ n) (hn : n ≤ 2 * 10 ^ 7)
    (hN : 4 * flatness a b ^ (2 * n - 1) ≤ 1 - flatness a b) {o : Ops} (ho : build K = .ok o) {u v y : List ℝ}
    (hu : o.neumann u = .ok y) (hv : o.neumann v = .ok y) : u = v := by
  have hc := h.corners (by omega)
  have hNp : 0 < 2 * n := by omega
  have hN' : (0 : ℝ) < ((2 * n : ℕ) : ℝ) := by exact_mod_cast hNp
  have hρ := ellRho_lt ha hb
  rw [← ellRho_abs ha hb] at hN
  have hlen : ∀ {w}, o.neumann w = .ok y → w.length = 2 * n := by
    intro w hw
    by_contra hl
    rw [(C50_neumann_linear h.ready h.edges_ne hc ho).2 w (by rwa [h.numPts])] at hw
    cases hw
  have hul := hlen hu
  have hvl := hlen hv
  rw [ellipse_neumann h ha hb hab h4 hn ho hul] at hu
  rw [ellipse_neumann h ha hb hab h4 hn ho hvl, ← hu] at hv
  simp only [Except.ok.injEq] at hv
  set d : ℕ → ℝ := fun j => vec u j - vec v j with hd
  set w : ℕ → ℝ := fun j => d j - d 0 with hw
  set I : ℝ := ∑ j ∈ Finset.range (2 * n), d j * ellWeight a b (2 * n) j with hI
  have hi : ∀ i < 2 * n, w i / 2 - (∑ j ∈ Finset.range (2 * n), poissonKer (ellRho a b) (gridPt (2 * n) i + gridPt (2 * n) j) * w j) /
      (2 * (2 * n : ℕ)) = -I := by
    intro i hi
    have := congrArg (fun l => vec l i) hv
    simp only [vec_range _ hi] at this
    have e1 : ∑ j ∈ Finset.range (2 * n), poissonKer (ellRho a b) (gridPt (2 * n) i + gridPt (2 * n) j) * w j =
        ∑ j ∈ Finset.range (2 * n), poissonKer (ellRho a b) (gridPt (2 * n) i + gridPt (2 * n) j) * (vec u j - vec u 0) -
        ∑ j ∈ Finset.range (2 * n), poissonKer (ellRho a b) (gridPt (2 * n) i + gridPt (2 * n) j) * (vec v j - vec v 0) := by
      rw [← Finset.sum_sub_distrib]
      exact Finset.sum_congr rfl fun j _ => by simp only [hw, hd]; ring
    have e2 : I = ∑ j ∈ Finset.range (2 * n), vec u j * ellWeight a b (2 * n) j - ∑ j ∈ Finset.range (2 * n), vec v j * ellWeight a b (2 * n) j := by
      rw [← Finset.sum_sub_distrib]
      exact Finset.sum_congr rfl fun j _ => by simp only [hd]; ring
    rw [e1, e2]
    change (vec u i - vec v i - (vec u 0 - vec v 0)) / 2 - _ = _
    linear_combination -this
  have hconv : ∀ k : ℕ, (∀ j : ℕ, ∑ i ∈ Finset.range (2 * n), poissonKer (ellRho a b) (gridPt (2 * n) i + gridPt (2 * n) j) * Real.cos (k * gridPt (2 * n) i) =
      (2 * n : ℕ) * gridCoef (poissonKer (ellRho a b)) (2 * n) k * Real.cos (k * gridPt (2 * n) j)) ∧
      ∀ j : ℕ, ∑ i ∈ Finset.range (2 * n), poissonKer (ellRho a b) (gridPt (2 * n) i + gridPt (2 * n) j) * Real.sin (k * gridPt (2 * n) i) =
      -((2 * n : ℕ) * gridCoef (poissonKer (ellRho a b)) (2 * n) k * Real.sin (k * gridPt (2 * n) j)) := by
    intro k
    have := fun j => even_conv (f := poissonKer (ellRho a b)) (fun x => by simp only [poissonKer, poissonDen_period])
      (fun x => by simp only [poissonKer, poissonDen_neg]) hNp k j
    refine ⟨fun j => ?_, fun j => ?_⟩
    · rw [← (this j).1]; exact Finset.sum_congr rfl fun i _ => by rw [add_comm]
    · rw [← (this j).2]; exact Finset.sum_congr rfl fun i _ => by rw [add_comm]
  have swap : ∀ g : ℕ → ℝ, ∑ i ∈ Finset.range (2 * n), (w i / 2 -
      (∑ j ∈ Finset.range (2 * n), poissonKer (ellRho a b) (gridPt (2 * n) i + gridPt (2 * n) j) * w j) / (2 * (2 * n : ℕ))) * g i =
      (∑ i ∈ Finset.range (2 * n), w i * g i) / 2 - (∑ j ∈ Finset.range (2 * n), w j *
        ∑ i ∈ Finset.range (2 * n), poissonKer (ellRho a b) (gridPt (2 * n) i + gridPt (2 * n) j) * g i) / (2 * (2 * n : ℕ)) := by
    intro g
    simp only [sub_mul, Finset.sum_sub_distrib]
    congr 1
    · rw [Finset.sum_div]
      exact Finset.sum_congr rfl fun i _ => by ring
    · simp only [Finset.mul_sum, Finset.sum_mul, Finset.sum_div]
      rw [Finset.sum_comm]
      exact Finset.sum_congr rfl fun i _ => Finset.sum_congr rfl fun j _ => by ring
  have lhs : ∀ g : ℕ → ℝ, ∑ i ∈ Finset.range (2 * n), (w i / 2 -
      (∑ j ∈ Finset.range (2 * n), poissonKer (ellRho a b) (gridPt (2 * n) i + gridPt (2 * n) j) * w j) / (2 * (2 * n : ℕ))) * g i =
      -I * ∑ i ∈ Finset.range (2 * n), g i := by
    intro g
    rw [Finset.mul_sum]
    exact Finset.sum_congr rfl fun i h' => by rw [hi i (Finset.mem_range.1 h')]
  have hk0 : ∀ k : ℕ, 1 ≤ k → k < 2 * n → ¬ ((2 * n : ℕ) : ℤ) ∣ (k : ℤ) := by
    intro k h1 h2 h3
    have := Int.le_of_dvd (by omega) h3
    omega
  have hcos : ∀ k, 1 ≤ k → k < 2 * n → ∑ j ∈ Finset.range (2 * n), w j * Real.cos (k * gridPt (2 * n) j) = 0 := by
    intro k h1 h2
    have e := (swap fun i => Real.cos (k * gridPt (2 * n) i)).symm.trans (lhs _)
    have e3 : ∑ i ∈ Finset.range (2 * n), Real.cos (k * gridPt (2 * n) i) = 0 := by
      have := grid_cos hNp k
      rwa [if_neg (hk0 k h1 h2)] at this
    have e4 : ∀ j ∈ Finset.range (2 * n), w j * ∑ i ∈ Finset.range (2 * n), poissonKer (ellRho a b) (gridPt (2 * n) i + gridPt (2 * n) j) * Real.cos (k * gridPt (2 * n) i) =
        (2 * n : ℕ) * gridCoef (poissonKer (ellRho a b)) (2 * n) k * (w j * Real.cos (k * gridPt (2 * n) j)) := by
      intro j _
      rw [(hconv k).1]
      ring
    rw [e3, mul_zero, Finset.sum_congr rfl e4, ← Finset.mul_sum] at e
    have hb := abs_le.1 (coef_bound hN hρ h1 h2)
    set X := ∑ j ∈ Finset.range (2 * n), w j * Real.cos (k * gridPt (2 * n) j)
    set F := gridCoef (poissonKer (ellRho a b)) (2 * n) k
    have e5 : (1 - F) * X = 0 := by
      field_simp at e
      linarith
    rcases mul_eq_zero.1 e5 with e6 | e6
    · linarith
    · exact e6
  have hsin : ∀ k, 1 ≤ k → k < 2 * n → ∑ j ∈ Finset.range (2 * n), w j * Real.sin (k * gridPt (2 * n) j) = 0 := by
    intro k h1 h2
    have e := (swap fun i => Real.sin (k * gridPt (2 * n) i)).symm.trans (lhs _)
    have e3 : ∑ i ∈ Finset.range (2 * n), Real.sin (k * gridPt (2 * n) i) = 0 := by
      simpa [gridPt] using sum_sin_shift hNp (hk0 k h1 h2) 0
    have e4 : ∀ j ∈ Finset.range (2 * n), w j * ∑ i ∈ Finset.range (2 * n), poissonKer (ellRho a b) (gridPt (2 * n) i + gridPt (2 * n) j) * Real.sin (k * gridPt (2 * n) i) =
        -((2 * n : ℕ) * gridCoef (poissonKer (ellRho a b)) (2 * n) k) * (w j * Real.sin (k * gridPt (2 * n) j)) := by
      intro j _
      rw [(hconv k).2]
      ring
    rw [e3, mul_zero, Finset.sum_congr rfl e4, ← Finset.mul_sum] at e
    have hb := abs_le.1 (coef_bound hN hρ h1 h2)
    set X := ∑ j ∈ Finset.range (2 * n), w j * Real.sin (k * gridPt (2 * n) j)
    set F := gridCoef (poissonKer (ellRho a b)) (2 * n) k
    have e5 : (1 + F) * X = 0 := by
      field_simp at e
      linarith
    rcases mul_eq_zero.1 e5 with e6 | e6
    · linarith
    · exact e6
  have hw0 : ∀ i < 2 * n, w i = 0 := by
    have h0 := grid_inversion hNp hcos hsin hNp
    have : w 0 = 0 := sub_self _
    rw [this, mul_zero] at h0
    intro i h'
    have := grid_inversion hNp hcos hsin h'
    rw [← h0] at this
    rcases mul_eq_zero.1 this with h5 | h5
    · exact absurd h5 hN'.ne'
    · exact h5
  have hI0 : I = 0 := by
    have := hi 0 hNp
    rw [hw0 0 hNp, Finset.sum_eq_zero fun j hj => by rw [hw0 j (Finset.mem_range.1 hj), mul_zero]] at this
    simp at this
    exact this
  have hd0 : d 0 = 0 := by
    have e : I = d 0 * ∑ j ∈ Finset.range (2 * n), ellWeight a b (2 * n) j := by
      rw [hI, Finset.mul_sum]
      refine Finset.sum_congr rfl fun j hj => ?_
      have := hw0 j (Finset.mem_range.1 hj)
      rw [show d j = d 0 by simp only [hw] at this; linarith]
    rw [hI0] at e
    have hp : 0 < ∑ j ∈ Finset.range (2 * n), ellWeight a b (2 * n) j :=
      Finset.sum_pos (fun j _ => ellWeight_pos ha hb hNp j) ⟨0, by simp; omega⟩
    rcases mul_eq_zero.1 e.symm with h5 | h5
    · exact h5
    · exact absurd h5 hp.ne'
  refine vec_ext (hul.trans hvl.symm) fun i hi' => ?_
  have := hw0 i (by rwa [hul] at hi')
  simp only [hw, hd] at this
  simp only [hd] at hd0
  linarith

end PFEM
