import Verif.Lemmas.Barycentric

/-!
Property theorem C15: barycentric coordinates of a triangle.

The full statement (both orientations) fails: for a clockwise triangle each returned polynomial takes the value 2 at
the two other vertices (`C15_clockwise_wrong`).  For counterclockwise triangles the polynomials are the barycentric
coordinates, exactly on grids (`C15_grid_partial`) and in general up to the effect of the 1e-12 cut-off of the
polynomial class (`C15_error_partial`).  `barycentric_coordinates_edge` always builds a counterclockwise triangle
(`C15_edge`).
-/

set_option linter.unusedSimpArgs false

namespace PFEM
open Poly

/-- C15: repeated vertices are rejected. -/
theorem C15_rejects_repeated (z : Fin 3 → ℝ × ℝ) (i j : Fin 3) (hij : i ≠ j) (h : z i = z j) :
    barycentric z = .error .degenerateTriangle := by
  have key : ∀ k : Fin 3, z k = z (k - 1) → baryDist z k < tol ℝ := by
    intro k hk
    unfold baryDist
    rw [← hk]; simp [tol_pos]
  have hk : ∃ k : Fin 3, z k = z (k - 1) := by
    fin_cases i <;> fin_cases j <;> first | exact absurd rfl hij | skip
    · exact ⟨1, h.symm⟩
    · exact ⟨0, h⟩
    · exact ⟨1, h⟩
    · exact ⟨2, h.symm⟩
    · exact ⟨0, h.symm⟩
    · exact ⟨2, h⟩
  obtain ⟨k, hk⟩ := hk
  have := key k hk
  unfold barycentric
  fin_cases k
  · have t : baryDist z 0 < tol ℝ := this
    rw [if_pos t]
  · have t : baryDist z 1 < tol ℝ := this
    split
    · rfl
    · rfl
  · have t : baryDist z 2 < tol ℝ := this
    split
    · rfl
    · split
      · rfl
      · rfl

/-- C15: nothing but vertices closer than 1e-12 triggers that exception. -/
theorem C15_rejects_only_close (z : Fin 3 → ℝ × ℝ) (h : barycentric z = .error .degenerateTriangle) :
    ∃ i j, i ≠ j ∧ Real.sqrt (((z i).1 - (z j).1) ^ 2 + ((z i).2 - (z j).2) ^ 2) < 1 / 10 ^ 12 := by
  by_contra hc
  push Not at hc
  have hd : ∀ j, tol ℝ ≤ baryDist z j := fun j => hc j (j - 1) (by fin_cases j <;> decide)
  unfold barycentric at h
  rw [if_neg (not_lt.2 (hd 0)), if_neg (not_lt.2 (hd 1)), if_neg (not_lt.2 (hd 2))] at h
  split at h
  · simp at h
  · rw [baryEll_ok, baryEll_ok, baryEll_ok] at h
    simp [bind, Except.bind] at h

theorem baryCoord_eq (z : Fin 3 → ℝ × ℝ) (ho : 0 < orient (z 0) (z 1) (z 2)) (j : Fin 3) (x y : ℝ) :
    1 - ((x - (z j).1) * ((z (j + 2)).2 - (z (j + 1)).2) - (y - (z j).2) * ((z (j + 2)).1 - (z (j + 1)).1)) /
      baryH z = baryCoord z j (x, y) := by
  rw [baryH_eq, abs_of_pos ho, baryCoord, eq_div_iff ho.ne', sub_mul, div_mul_cancel₀ _ ho.ne']
  fin_cases j <;> simp only [orient] <;> simp <;> ring

theorem baryCoord_vertex (z : Fin 3 → ℝ × ℝ) (ho : orient (z 0) (z 1) (z 2) ≠ 0) (i j : Fin 3) :
    baryCoord z j (z i) = if i = j then 1 else 0 := by
  unfold baryCoord
  fin_cases i <;> fin_cases j <;> simp <;> first
    | exact ho
    | (rw [div_eq_one_iff_eq ho]; unfold orient; ring)
    | (left; unfold orient; ring)

theorem baryCoord_sum (z : Fin 3 → ℝ × ℝ) (ho : orient (z 0) (z 1) (z 2) ≠ 0) (p : ℝ × ℝ) :
    baryCoord z 0 p + baryCoord z 1 p + baryCoord z 2 p = 1 := by
  unfold baryCoord
  rw [← add_div, ← add_div, div_eq_one_iff_eq ho]
  simp only [orient]
  simp
  ring

/-- C15, counterclockwise triangles with vertices on a grid of width `δ` in `[1e-6, 1]` and twice the area at most
`δ² 1e12`: the polynomials are exactly 1 at their own vertex, 0 at the two others, and sum to 1.  Missing from the
full statement: clockwise triangles, for which it is false. -/
theorem C15_grid_partial (z : Fin 3 → ℝ × ℝ) (δ : ℝ) (h0 : 1 / 10 ^ 6 ≤ δ) (h1 : δ ≤ 1) (hz : ∀ j, OnGrid δ (z j))
    (ho : 0 < orient (z 0) (z 1) (z 2)) (hl : orient (z 0) (z 1) (z 2) ≤ δ ^ 2 * 10 ^ 12) :
    ∃ l0 l1 l2, barycentric z = .ok (l0, l1, l2) ∧
      (∀ i j : Fin 3, eval (![l0, l1, l2] j) (z i).1 (z i).2 = if i = j then 1 else 0) ∧
      ∀ x y, eval l0 x y + eval l1 x y + eval l2 x y = 1 := by
  have hd : ∀ j, tol ℝ ≤ baryDist z j := by
    intro j
    refine grid_dist h0 (hz j) (hz (j - 1)) ?_
    intro h
    apply ho.ne'
    unfold orient
    fin_cases j
    · have h : z 0 = z 2 := h
      rw [h]; ring
    · have h : z 1 = z 0 := h
      rw [h]; ring
    · have h : z 2 = z 1 := h
      rw [h]; ring
  have hH : baryH z = orient (z 0) (z 1) (z 2) := by rw [baryH_eq, abs_of_pos ho]
  have hN : ∃ k : ℤ, baryH z = k * δ ^ 2 := by rw [baryH_eq]; exact orient_grid (hz 0) (hz 1) (hz 2)
  have ev : ∀ (j : Fin 3) x y, eval (ellP (z j) (z (j + 2)) (z (j + 1)) (baryH z)) x y = baryCoord z j (x, y) := by
    intro j x y
    rw [ellP_exact _ _ _ _ δ h0 h1 (hz j) (hz _) (hz _) (hH ▸ ho) (hH ▸ hl) hN, baryCoord_eq z ho]
  refine ⟨_, _, _, barycentric_ok hd ho.ne', fun i j => ?_, fun x y => ?_⟩
  · rw [← baryCoord_vertex z ho.ne']
    have := ev j (z i).1 (z i).2
    rw [Prod.mk.eta] at this
    rw [← this]
    fin_cases j <;> rfl
  · have e0 := ev 0 x y
    have e1 := ev 1 x y
    have e2 := ev 2 x y
    rw [← baryCoord_sum z ho.ne' (x, y), ← e0, ← e1, ← e2]
    rfl

/-- C15 without the grid assumption: the deviation from the barycentric coordinate is at most
`1e-12 B ((8 + 4 D) / (2 area) + 9)`, where `B ≥ 1, |x|, |y|` and `D` bounds the coordinate differences.  Missing from
the full statement: clockwise triangles, for which it is false. -/
theorem C15_error_partial (z : Fin 3 → ℝ × ℝ) (ho : 0 < orient (z 0) (z 1) (z 2))
    (hd : ∀ i j, i ≠ j → 1 / 10 ^ 12 ≤ Real.sqrt (((z i).1 - (z j).1) ^ 2 + ((z i).2 - (z j).2) ^ 2)) :
    ∃ l0 l1 l2, barycentric z = .ok (l0, l1, l2) ∧
      ∀ x y B D, 1 ≤ B → |x| ≤ B → |y| ≤ B →
        (∀ i j, |(z i).1 - (z j).1| ≤ D ∧ |(z i).2 - (z j).2| ≤ D) → ∀ j : Fin 3,
        |eval (![l0, l1, l2] j) x y - baryCoord z j (x, y)| ≤
          1 / 10 ^ 12 * B * ((8 + 4 * D) / orient (z 0) (z 1) (z 2) + 9) := by
  have hH : baryH z = orient (z 0) (z 1) (z 2) := by rw [baryH_eq, abs_of_pos ho]
  refine ⟨_, _, _, barycentric_ok (fun j => hd j (j - 1) (by fin_cases j <;> decide)) ho.ne',
    fun x y B D h1 hx hy hD j => ?_⟩
  have := ellP_error (z j) (z (j + 2)) (z (j + 1)) (baryH z) (hH ▸ ho) x y B D h1 hx hy (hD _ _).1 (hD _ _).2
  rw [baryCoord_eq z ho, hH] at this
  refine le_trans (le_of_eq ?_) this
  rw [hH]
  fin_cases j <;> rfl

/-- C15: `barycentric_coordinates_edge` completes the end points of an edge to an equilateral counterclockwise
triangle, for every edge whose end points are at least 1e-12 apart, and never raises. -/
theorem C15_edge (a b : ℝ × ℝ) (h : 1 / 10 ^ 12 ≤ Real.sqrt ((b.1 - a.1) ^ 2 + (b.2 - a.2) ^ 2)) :
    0 < orient (edgeTriangle a b 0) (edgeTriangle a b 1) (edgeTriangle a b 2) ∧
    (∀ i j, i ≠ j → Real.sqrt (((edgeTriangle a b i).1 - (edgeTriangle a b j).1) ^ 2 +
      ((edgeTriangle a b i).2 - (edgeTriangle a b j).2) ^ 2) = Real.sqrt ((b.1 - a.1) ^ 2 + (b.2 - a.2) ^ 2)) ∧
    ∃ l0 l1 l2, barycentricEdge a b = .ok (l0, l1, l2) := by
  have hpos : 0 < (b.1 - a.1) ^ 2 + (b.2 - a.2) ^ 2 := by
    by_contra hc
    rw [Real.sqrt_eq_zero_of_nonpos (not_lt.1 hc)] at h
    norm_num at h
  have hr : root3over2 ^ 2 = 3 / 4 := by
    unfold root3over2
    rw [div_pow, Real.sq_sqrt (by norm_num)]; norm_num
  have hr0 : 0 < root3over2 := by
    unfold root3over2
    have := Real.sqrt_pos.2 (by norm_num : (0 : ℝ) < 3)
    positivity
  have ho : orient (edgeTriangle a b 0) (edgeTriangle a b 1) (edgeTriangle a b 2) =
      root3over2 * ((b.1 - a.1) ^ 2 + (b.2 - a.2) ^ 2) := by
    simp only [orient, edgeTriangle, Matrix.cons_val_zero, Matrix.cons_val_one, Matrix.cons_val]
    ring
  have hd : ∀ i j, i ≠ j → Real.sqrt (((edgeTriangle a b i).1 - (edgeTriangle a b j).1) ^ 2 +
      ((edgeTriangle a b i).2 - (edgeTriangle a b j).2) ^ 2) =
      Real.sqrt ((b.1 - a.1) ^ 2 + (b.2 - a.2) ^ 2) := by
    intro i j hij
    congr 1
    have e01 : ((edgeTriangle a b 0).1 - (edgeTriangle a b 1).1) ^ 2 +
        ((edgeTriangle a b 0).2 - (edgeTriangle a b 1).2) ^ 2 = (b.1 - a.1) ^ 2 + (b.2 - a.2) ^ 2 := by
      simp only [edgeTriangle, Matrix.cons_val_zero, Matrix.cons_val_one, Matrix.cons_val]
      ring
    have e02 : ((edgeTriangle a b 0).1 - (edgeTriangle a b 2).1) ^ 2 +
        ((edgeTriangle a b 0).2 - (edgeTriangle a b 2).2) ^ 2 = (b.1 - a.1) ^ 2 + (b.2 - a.2) ^ 2 := by
      simp only [edgeTriangle, Matrix.cons_val_zero, Matrix.cons_val_one, Matrix.cons_val]
      linear_combination ((b.1 - a.1) ^ 2 + (b.2 - a.2) ^ 2) * hr
    have e12 : ((edgeTriangle a b 1).1 - (edgeTriangle a b 2).1) ^ 2 +
        ((edgeTriangle a b 1).2 - (edgeTriangle a b 2).2) ^ 2 = (b.1 - a.1) ^ 2 + (b.2 - a.2) ^ 2 := by
      simp only [edgeTriangle, Matrix.cons_val_zero, Matrix.cons_val_one, Matrix.cons_val]
      linear_combination ((b.1 - a.1) ^ 2 + (b.2 - a.2) ^ 2) * hr
    have symm : ∀ u v u' v' : ℝ, (u - v) ^ 2 + (u' - v') ^ 2 = (v - u) ^ 2 + (v' - u') ^ 2 := by
      intros; ring
    fin_cases i <;> fin_cases j <;> first
      | exact absurd rfl hij
      | exact e01
      | exact e02
      | exact e12
      | (rw [symm]; exact e01)
      | (rw [symm]; exact e02)
      | (rw [symm]; exact e12)
  have hop : 0 < orient (edgeTriangle a b 0) (edgeTriangle a b 1) (edgeTriangle a b 2) := by
    rw [ho]; exact mul_pos hr0 hpos
  refine ⟨hop, hd, _, _, _, barycentric_ok (fun j => ?_) hop.ne'⟩
  unfold baryDist
  rw [hd j (j - 1) (by fin_cases j <;> decide)]
  exact h

/-- C15 fails for clockwise triangles: on every clockwise grid triangle each polynomial takes the value 2, not 0, at
the two other vertices. -/
theorem C15_clockwise_wrong (z : Fin 3 → ℝ × ℝ) (δ : ℝ) (h0 : 1 / 10 ^ 6 ≤ δ) (h1 : δ ≤ 1)
    (hz : ∀ j, OnGrid δ (z j)) (ho : orient (z 0) (z 1) (z 2) < 0) (hl : - orient (z 0) (z 1) (z 2) ≤ δ ^ 2 * 10 ^ 12) :
    ∃ l0 l1 l2, barycentric z = .ok (l0, l1, l2) ∧
      ∀ i j : Fin 3, i ≠ j → eval (![l0, l1, l2] j) (z i).1 (z i).2 = 2 := by
  have hd : ∀ j, tol ℝ ≤ baryDist z j := by
    intro j
    refine grid_dist h0 (hz j) (hz (j - 1)) ?_
    intro h
    apply ho.ne
    unfold orient
    fin_cases j
    · have h : z 0 = z 2 := h
      rw [h]; ring
    · have h : z 1 = z 0 := h
      rw [h]; ring
    · have h : z 2 = z 1 := h
      rw [h]; ring
  have hH : baryH z = - orient (z 0) (z 1) (z 2) := by rw [baryH_eq, abs_of_neg ho]
  have hN : ∃ k : ℤ, baryH z = k * δ ^ 2 := by rw [baryH_eq]; exact orient_grid (hz 0) (hz 1) (hz 2)
  refine ⟨_, _, _, barycentric_ok hd ho.ne, fun i j hij => ?_⟩
  have ev := ellP_exact (z j) (z (j + 2)) (z (j + 1)) (baryH z) δ h0 h1 (hz j) (hz _) (hz _)
    (by rw [hH]; linarith) (hH ▸ hl) hN (z i).1 (z i).2
  have e2 : ((![ellP (z 0) (z 2) (z 1) (baryH z), ellP (z 1) (z 0) (z 2) (baryH z),
      ellP (z 2) (z 1) (z 0) (baryH z)] : Fin 3 → Poly ℝ) j) = ellP (z j) (z (j + 2)) (z (j + 1)) (baryH z) := by
    fin_cases j <;> rfl
  rw [e2, ev, hH]
  have hne := ho.ne
  rw [sub_eq_iff_eq_add, ← sub_eq_iff_eq_add', eq_div_iff (neg_ne_zero.2 hne)]
  fin_cases i <;> fin_cases j <;> first
    | exact absurd rfl hij
    | (simp only [orient]; simp; ring)

/-- a counterclockwise triangle for `C15_grid_partial`, `C15_error_partial` -/
example : (∀ j, OnGrid 1 ((![(0, 0), (3, 1), (1, 2)] : Fin 3 → ℝ × ℝ) j)) ∧
    0 < orient ((![(0, 0), (3, 1), (1, 2)] : Fin 3 → ℝ × ℝ) 0) (![(0, 0), (3, 1), (1, 2)] 1)
      (![(0, 0), (3, 1), (1, 2)] 2) := by
  constructor
  · intro j
    fin_cases j
    · exact ⟨⟨0, by simp⟩, 0, by simp⟩
    · exact ⟨⟨3, by simp⟩, 1, by simp⟩
    · exact ⟨⟨1, by simp⟩, 2, by simp⟩
  · simp [orient]; norm_num

/-- a clockwise triangle: the witness that the full statement fails -/
example : ∃ l0 l1 l2, barycentric ![(0, 0), (0, 1), (1, 0)] = .ok (l0, l1, l2) ∧ eval l0 0 1 = 2 := by
  obtain ⟨l0, l1, l2, h, hv⟩ := C15_clockwise_wrong ![(0, 0), (0, 1), (1, 0)] 1 (by norm_num) le_rfl
    (by
      intro j
      fin_cases j
      · exact ⟨⟨0, by simp⟩, 0, by simp⟩
      · exact ⟨⟨0, by simp⟩, 1, by simp⟩
      · exact ⟨⟨1, by simp⟩, 0, by simp⟩)
    (by simp [orient]) (by simp [orient]; norm_num)
  exact ⟨l0, l1, l2, h, by simpa using hv 1 0 (by decide)⟩

end PFEM
