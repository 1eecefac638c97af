import Verif.Lemmas.PolyEval
import Verif.Lemmas.Py
import Verif.Props.Split
import Mathlib.Tactic.IntervalCases

/-!
Property theorems C107 and C108: tables of values of polynomials on edges.
-/

namespace PFEM
open Poly

/-! ### `barycentric_products` -/

/-- the coordinates reproduce points -/
theorem baryCoord_point (z : Fin 3 → ℝ × ℝ) (ho : orient (z 0) (z 1) (z 2) ≠ 0) (x y : ℝ) :
    x = baryCoord z 0 (x, y) * (z 0).1 + baryCoord z 1 (x, y) * (z 1).1 + baryCoord z 2 (x, y) * (z 2).1 ∧
    y = baryCoord z 0 (x, y) * (z 0).2 + baryCoord z 1 (x, y) * (z 1).2 + baryCoord z 2 (x, y) * (z 2).2 := by
  unfold baryCoord
  rw [div_mul_eq_mul_div, div_mul_eq_mul_div, div_mul_eq_mul_div, div_mul_eq_mul_div, div_mul_eq_mul_div,
    div_mul_eq_mul_div, ← add_div, ← add_div, ← add_div, ← add_div, eq_div_iff ho, eq_div_iff ho]
  simp only [orient]
  simp
  constructor <;> ring

theorem coord_affine (z : Fin 3 → ℝ × ℝ) (j : Fin 3) : ∃ a b c : ℝ, ∀ x y, baryCoord z j (x, y) = a + b * x + c * y := by
  refine ⟨((z (j + 1)).1 * (z (j + 2)).2 - (z (j + 1)).2 * (z (j + 2)).1) / orient (z 0) (z 1) (z 2),
    ((z (j + 1)).2 - (z (j + 2)).2) / orient (z 0) (z 1) (z 2),
    ((z (j + 2)).1 - (z (j + 1)).1) / orient (z 0) (z 1) (z 2), fun x y => ?_⟩
  unfold baryCoord
  rw [div_mul_eq_mul_div, div_mul_eq_mul_div, ← add_div, ← add_div]
  congr 1
  unfold orient
  ring

theorem isPolyFn_one {a b c : ℝ} : IsPolyFn 1 fun x y => a + b * x + c * y := by
  refine ⟨fun i j => if i = 0 ∧ j = 0 then a else if i = 1 then b else c, fun x y => ?_⟩
  simp [Finset.sum_range_succ]
  ring

theorem IsPolyFn.two {f : ℝ → ℝ → ℝ} (h : IsPolyFn 1 f) : IsPolyFn 2 f := by
  obtain ⟨c, hc⟩ := h
  refine ⟨fun i j => if i + j ≤ 1 then c i j else 0, fun x y => ?_⟩
  rw [hc]
  simp [Finset.sum_range_succ]

theorem IsPolyFn.mul_one {f g : ℝ → ℝ → ℝ} (h : IsPolyFn 1 f) (h' : IsPolyFn 1 g) (k : ℝ) :
    IsPolyFn 2 fun x y => k * f x y * g x y := by
  obtain ⟨c, hc⟩ := h
  obtain ⟨d, hd⟩ := h'
  refine ⟨fun i j => k * (if i = 0 then (if j = 0 then c 0 0 * d 0 0 else if j = 1 then c 0 0 * d 0 1 + c 0 1 * d 0 0 else c 0 1 * d 0 1)
    else if i = 1 then (if j = 0 then c 0 0 * d 1 0 + c 1 0 * d 0 0 else c 1 0 * d 0 1 + c 0 1 * d 1 0)
    else c 1 0 * d 1 0), fun x y => ?_⟩
  simp only [hc, hd]
  simp [Finset.sum_range_succ]
  ring

/-- the quadratic interpolation formula -/
theorem quad_interp {f : ℝ → ℝ → ℝ} (h : IsPolyFn 2 f) {u v w a b c a' b' c' x y : ℝ} (hs : u + v + w = 1)
    (hx : x = u * a + v * b + w * c) (hy : y = u * a' + v * b' + w * c') :
    f x y = f a a' * u + f b b' * v + f c c' * w + (f ((a + b) / 2) ((a' + b') / 2) - (f a a' + f b b') / 2) * (4 * u * v) +
      (f ((a + c) / 2) ((a' + c') / 2) - (f a a' + f c c') / 2) * (4 * u * w) +
      (f ((b + c) / 2) ((b' + c') / 2) - (f b b' + f c c') / 2) * (4 * v * w) := by
  obtain ⟨k, hk⟩ := h
  have hu : u = 1 - v - w := by linarith
  simp only [hk, hx, hy, hu]
  simp [Finset.sum_range_succ]
  ring

theorem lin_interp {f : ℝ → ℝ → ℝ} (h : IsPolyFn 1 f) {u v w a b c a' b' c' x y : ℝ} (hs : u + v + w = 1)
    (hx : x = u * a + v * b + w * c) (hy : y = u * a' + v * b' + w * c') :
    f x y = f a a' * u + f b b' * v + f c c' * w := by
  obtain ⟨k, hk⟩ := h
  have hu : u = 1 - v - w := by linarith
  simp only [hk, hx, hy, hu]
  simp [Finset.sum_range_succ]
  ring

theorem orient_of_exact {a b : ℝ × ℝ} (h : ExactCoords a b) :
    orient (edgeTriangle a b 0) (edgeTriangle a b 1) (edgeTriangle a b 2) ≠ 0 := by
  obtain ⟨l0, l1, l2, hl, -⟩ := h
  have hne : a ≠ b := by
    intro e
    have := C15_rejects_repeated (edgeTriangle a b) 0 1 (by decide) (by rw [e]; rfl)
    unfold barycentricEdge at hl
    rw [this] at hl
    cases hl
  have ho : orient (edgeTriangle a b 0) (edgeTriangle a b 1) (edgeTriangle a b 2) =
      root3over2 * ((b.1 - a.1) ^ 2 + (b.2 - a.2) ^ 2) := by
    simp only [orient, edgeTriangle, Matrix.cons_val_zero, Matrix.cons_val_one, Matrix.cons_val]
    ring
  rw [ho]
  have hr := r32_bounds.1
  refine mul_ne_zero (by linarith) fun h0 => hne ?_
  have h1 : (b.1 - a.1) ^ 2 = 0 := by nlinarith [sq_nonneg (b.1 - a.1), sq_nonneg (b.2 - a.2)]
  have h2 : (b.2 - a.2) ^ 2 = 0 := by nlinarith [sq_nonneg (b.1 - a.1), sq_nonneg (b.2 - a.2)]
  have h1 := pow_eq_zero_iff (two_ne_zero) |>.1 h1
  have h2 := pow_eq_zero_iff (two_ne_zero) |>.1 h2
  exact Prod.ext (by linarith) (by linarith)

/-- the traces of the coordinates -/
theorem products_ok {e : EdgeG} {L : List Sample} {a b : Sample} (hL : e.pts = some L) (ha : L.head? = some a)
    (hb : L.getLast? = some b) (hx : ExactCoords (a.x, a.y) (b.x, b.y)) (deg : ℤ) (hd : deg ≤ 3) :
    barycentricProducts e deg = .ok (
      let t := fun j => L.map fun s => baryCoord (edgeTriangle (a.x, a.y) (b.x, b.y)) j (s.x, s.y)
      [t 0, t 1, t 2] ++ (if deg > 1 then [rowMul 4 (t 0) (t 1), rowMul 4 (t 0) (t 2), rowMul 4 (t 1) (t 2)] else []) ++
        (if deg > 2 then [rowMul 1 (rowMul 27 (t 0) (t 1)) (t 2),
          rowMul 1 (rowMul root3over2 (t 0) (t 1)) (rowMul 1 (t 0) (t 1)),
          rowMul 1 (rowMul root3over2 (t 0) (t 2)) (rowMul 1 (t 0) (t 2)),
          rowMul 1 (rowMul root3over2 (t 1) (t 2)) (rowMul 1 (t 1) (t 2))] else [])) := by
  obtain ⟨l0, l1, l2, hl, he⟩ := hx
  have hs : e.sampled = .ok L := by unfold EdgeG.sampled; rw [hL]
  have hp : EdgeSpaceG.endPoints e = .ok ((a.x, a.y), (b.x, b.y)) := by
    unfold EdgeSpaceG.endPoints
    rw [hs]; simp only [py_ok_bind, ha, hb]
  have e0 : ∀ x y, eval l0 x y = _ := he 0
  have e1 : ∀ x y, eval l1 x y = _ := he 1
  have e2 : ∀ x y, eval l2 x y = _ := he 2
  unfold barycentricProducts
  rw [if_neg (not_lt.2 hd), hp]
  simp only [py_ok_bind, hl, hs, e0, e1, e2]

theorem rowMul_map (c : ℝ) (L : List Sample) (f g : Sample → ℝ) :
    rowMul c (L.map f) (L.map g) = L.map fun s => c * f s * g s := by
  unfold rowMul
  rw [List.zipWith_map, List.zipWith_self]

/-- C107, degrees 1 and 2: on an edge whose coordinates are exact, every row of `barycentric_products` is the trace of a polynomial of degree at
most `d`, and the trace of every such polynomial is a linear combination of the rows.  Missing: degree 3, where the code returns other functions
(`C107_violated`). -/
theorem C107_span_partial (e : EdgeG) (L : List Sample) (a b : Sample) (hL : e.pts = some L) (ha : L.head? = some a)
    (hb : L.getLast? = some b) (hx : ExactCoords (a.x, a.y) (b.x, b.y)) (d : ℕ) (hd : d = 1 ∨ d = 2) :
    ∃ rows, barycentricProducts e d = .ok rows ∧ rows.length = (d + 1) * (d + 2) / 2 ∧
      (∀ r ∈ rows, ∃ f, IsPolyFn d f ∧ r = L.map fun s => f s.x s.y) ∧
      ∀ f, IsPolyFn d f → InRowSpan L rows f := by
  have ho := orient_of_exact hx
  refine ⟨_, products_ok hL ha hb hx d (by rcases hd with rfl | rfl <;> norm_num), ?_⟩
  generalize edgeTriangle (a.x, a.y) (b.x, b.y) = z at ho
  have hc : ∀ j, IsPolyFn 1 fun x y => baryCoord z j (x, y) := by
    intro j
    obtain ⟨p, q, r, h⟩ := coord_affine z j
    simp only [h]
    exact isPolyFn_one
  rcases hd with rfl | rfl
  · refine ⟨by simp, ?_, ?_⟩
    · intro r hr
      simp at hr
      rcases hr with rfl | rfl | rfl
      · exact ⟨_, hc 0, rfl⟩
      · exact ⟨_, hc 1, rfl⟩
      · exact ⟨_, hc 2, rfl⟩
    · intro f hf
      refine ⟨[f (z 0).1 (z 0).2, f (z 1).1 (z 1).2, f (z 2).1 (z 2).2], by simp, fun k s hk => ?_⟩
      obtain ⟨hx', hy'⟩ := baryCoord_point z ho s.x s.y
      have := lin_interp hf (baryCoord_sum z ho (s.x, s.y)) hx' hy'
      simp [hk]
      linarith
  · refine ⟨by simp, ?_, ?_⟩
    · intro r hr
      simp [rowMul_map] at hr
      rcases hr with rfl | rfl | rfl | rfl | rfl | rfl
      · exact ⟨_, (hc 0).two, rfl⟩
      · exact ⟨_, (hc 1).two, rfl⟩
      · exact ⟨_, (hc 2).two, rfl⟩
      · exact ⟨_, (hc 0).mul_one (hc 1) 4, rfl⟩
      · exact ⟨_, (hc 0).mul_one (hc 2) 4, rfl⟩
      · exact ⟨_, (hc 1).mul_one (hc 2) 4, rfl⟩
    · intro f hf
      refine ⟨[f (z 0).1 (z 0).2, f (z 1).1 (z 1).2, f (z 2).1 (z 2).2,
        f (((z 0).1 + (z 1).1) / 2) (((z 0).2 + (z 1).2) / 2) - (f (z 0).1 (z 0).2 + f (z 1).1 (z 1).2) / 2,
        f (((z 0).1 + (z 2).1) / 2) (((z 0).2 + (z 2).2) / 2) - (f (z 0).1 (z 0).2 + f (z 2).1 (z 2).2) / 2,
        f (((z 1).1 + (z 2).1) / 2) (((z 1).2 + (z 2).2) / 2) - (f (z 1).1 (z 1).2 + f (z 2).1 (z 2).2) / 2],
        by simp, fun k s hk => ?_⟩
      obtain ⟨hx', hy'⟩ := baryCoord_point z ho s.x s.y
      have := quad_interp hf (baryCoord_sum z ho (s.x, s.y)) hx' hy'
      simp [rowMul_map, hk]
      linarith

/-- the coordinates of the triangle over a horizontal edge, at the points of the edge -/
theorem flat_coord {l : ℝ} (hl : 0 < l) (t : ℝ) : baryCoord (edgeTriangle (0, 0) (l, 0)) 0 (t * l, 0) = 1 - t ∧
    baryCoord (edgeTriangle (0, 0) (l, 0)) 1 (t * l, 0) = t ∧ baryCoord (edgeTriangle (0, 0) (l, 0)) 2 (t * l, 0) = 0 := by
  have hr : root3over2 ≠ 0 := by have := r32_bounds.1; linarith
  have hz2 : edgeTriangle (0, 0) (l, 0) 2 = (l / 2, root3over2 * l) := by
    simp [edgeTriangle]; norm_num; ring
  have hz1 : edgeTriangle (0, 0) (l, 0) 1 = (l, 0) := rfl
  have hz0 : edgeTriangle (0, 0) (l, 0) 0 = (0, 0) := rfl
  refine ⟨?_, ?_, ?_⟩
  · change orient _ (edgeTriangle (0, 0) (l, 0) 1) (edgeTriangle (0, 0) (l, 0) 2) / _ = _
    rw [hz0, hz1, hz2]; unfold orient; field_simp; ring
  · change orient _ (edgeTriangle (0, 0) (l, 0) 2) (edgeTriangle (0, 0) (l, 0) 0) / _ = _
    rw [hz0, hz1, hz2]; unfold orient; field_simp; ring
  · change orient _ (edgeTriangle (0, 0) (l, 0) 0) (edgeTriangle (0, 0) (l, 0) 1) / _ = _
    rw [hz0, hz1, hz2]; unfold orient; field_simp; ring

/-- C107 fails for degree 3: on every horizontal edge from the origin that is sampled at least at its quarter points, the ten rows do not span
the trace of `x³`, and one of them is not the trace of any polynomial of degree at most 3 (barycentric.py L154 multiplies `ell_i ell_j` by
itself). -/
theorem C107_violated (l : ℝ) (h0 : 1 / 10 ^ 5 ≤ l) (h1 : l ≤ 10 ^ 5) (e : EdgeG) (L : List Sample) (a b : Sample)
    (hL : e.pts = some L) (ha : L.head? = some a) (hb : L.getLast? = some b) (hax : (a.x, a.y) = (0, 0))
    (hbx : (b.x, b.y) = (l, 0)) (hq : ∀ i : ℕ, i ≤ 4 → ∃ s ∈ L, s.x = (i / 4 : ℝ) * l ∧ s.y = 0) :
    ∃ rows, barycentricProducts e 3 = .ok rows ∧ rows.length = 10 ∧ ¬ InRowSpan L rows (fun x _ => x ^ 3) ∧
      ∃ r ∈ rows, ¬ ∃ f, IsPolyFn 3 f ∧ r = L.map fun s => f s.x s.y := by
  have hl : 0 < l := lt_of_lt_of_le (by norm_num) h0
  have hx : ExactCoords (a.x, a.y) (b.x, b.y) := by rw [hax, hbx]; exact horizontal_exact h0 h1
  have key : ∀ i : ℕ, i ≤ 4 → ∃ (k : ℕ) (s : Sample), L[k]? = some s ∧ s.x = (i / 4 : ℝ) * l ∧ s.y = 0 := by
    intro i hi
    obtain ⟨s, hs, h⟩ := hq i hi
    obtain ⟨k, hk⟩ := List.getElem?_of_mem hs
    exact ⟨k, s, hk, h⟩
  obtain ⟨k0, s0, g0, x0, y0⟩ := key 0 (by omega)
  obtain ⟨k1, s1, g1, x1, y1⟩ := key 1 (by omega)
  obtain ⟨k2, s2, g2, x2, y2⟩ := key 2 (by omega)
  obtain ⟨k3, s3, g3, x3, y3⟩ := key 3 (by omega)
  obtain ⟨k4, s4, g4, x4, y4⟩ := key 4 (by omega)
  refine ⟨_, products_ok hL ha hb hx 3 le_rfl, by simp, ?_, ?_⟩
  · rintro ⟨c, hc, h⟩
    rw [hax, hbx] at hc h
    simp at hc
    obtain ⟨c0, c1, c2, c3, c4, c5, c6, c7, c8, c9, rfl⟩ : ∃ c0 c1 c2 c3 c4 c5 c6 c7 c8 c9 : ℝ,
        c = [c0, c1, c2, c3, c4, c5, c6, c7, c8, c9] := by
      match c, hc with
      | [c0, c1, c2, c3, c4, c5, c6, c7, c8, c9], _ => exact ⟨c0, c1, c2, c3, c4, c5, c6, c7, c8, c9, rfl⟩
    have f0 := h k0 s0 g0
    have f1 := h k1 s1 g1
    have f3 := h k3 s3 g3
    have f4 := h k4 s4 g4
    simp only [gt_iff_lt, Int.reduceLT, if_true, rowMul_map, List.cons_append, List.nil_append, List.zipWith_cons_cons, List.zipWith_nil_left,
      List.sum_cons, List.sum_nil, List.getElem?_map, g0, g1, g3, g4, Option.map_some, Option.getD_some, x0, x1, x3, x4, y0, y1, y3, y4,
      flat_coord hl] at f0 f1 f3 f4
    have : l ^ 3 * (1 - 2 * (27 / 64 - 1 / 64)) = 0 := by
      push_cast at f0 f1 f3 f4
      linear_combination f4 - f0 - 2 * (f3 - f1)
    have h3 : l ^ 3 ≠ 0 := by positivity
    rcases mul_eq_zero.1 this with h | h
    · exact h3 h
    · norm_num at h
  · rw [hax, hbx]
    refine ⟨_, List.mem_append_right _ (by rw [if_pos (by norm_num)]; exact List.mem_cons_of_mem _ (List.mem_cons_self)), ?_⟩
    rintro ⟨f, ⟨c, hc⟩, h⟩
    rw [rowMul_map, rowMul_map, rowMul_map] at h
    have at_ : ∀ (k : ℕ) (s : Sample), L[k]? = some s →
        1 * (root3over2 * baryCoord (edgeTriangle (0, 0) (l, 0)) 0 (s.x, s.y) * baryCoord (edgeTriangle (0, 0) (l, 0)) 1 (s.x, s.y)) *
          (1 * baryCoord (edgeTriangle (0, 0) (l, 0)) 0 (s.x, s.y) * baryCoord (edgeTriangle (0, 0) (l, 0)) 1 (s.x, s.y)) = f s.x s.y := by
      intro k s hk
      have := congrArg (fun r => r[k]?) h
      simpa only [List.getElem?_map, hk, Option.map_some, Option.some.injEq] using this
    have f0 := at_ k0 s0 g0
    have f1 := at_ k1 s1 g1
    have f2 := at_ k2 s2 g2
    have f3 := at_ k3 s3 g3
    have f4 := at_ k4 s4 g4
    rw [hc] at f0 f1 f2 f3 f4
    rw [x0, y0, (flat_coord hl _).1, (flat_coord hl _).2.1] at f0
    rw [x1, y1, (flat_coord hl _).1, (flat_coord hl _).2.1] at f1
    rw [x2, y2, (flat_coord hl _).1, (flat_coord hl _).2.1] at f2
    rw [x3, y3, (flat_coord hl _).1, (flat_coord hl _).2.1] at f3
    rw [x4, y4, (flat_coord hl _).1, (flat_coord hl _).2.1] at f4
    simp [Finset.sum_range_succ] at f0 f1 f2 f3 f4
    have hr := r32_bounds.1
    have : root3over2 * (24 / 256) = 0 := by
      linear_combination f0 - 4 * f1 + 6 * f2 - 4 * f3 + f4
    linarith

/-- C107, the errors: degrees above 3 are rejected, whatever the edge; an edge that is not parameterized is rejected; coinciding end points are
rejected. -/
theorem C107_errors (e : EdgeG) (deg : ℤ) :
    (3 < deg → barycentricProducts e deg = .error .notImplemented) ∧
    (deg ≤ 3 → e.pts = none → barycentricProducts e deg = .error .notParameterized) ∧
    (deg ≤ 3 → ∀ L a b, e.pts = some L → L.head? = some a → L.getLast? = some b → (a.x, a.y) = (b.x, b.y) →
      barycentricProducts e deg = .error .degenerateTriangle) := by
  refine ⟨fun h => ?_, fun h hn => ?_, fun h L a b hL ha hb hab => ?_⟩
  · unfold barycentricProducts
    rw [if_pos h]
  · unfold barycentricProducts EdgeSpaceG.endPoints EdgeG.sampled
    rw [if_neg (not_lt.2 h), hn]
    rfl
  · have hs : e.sampled = .ok L := by unfold EdgeG.sampled; rw [hL]
    have hp : EdgeSpaceG.endPoints e = .ok ((a.x, a.y), (b.x, b.y)) := by
      unfold EdgeSpaceG.endPoints
      rw [hs]; simp only [py_ok_bind, ha, hb]
    have := C15_rejects_repeated (edgeTriangle (a.x, a.y) (b.x, b.y)) 0 1 (by decide) (by rw [← hab]; rfl)
    unfold barycentricProducts
    rw [if_neg (not_lt.2 h), hp]
    simp only [py_ok_bind]
    unfold barycentricEdge
    rw [this]
    rfl

/-! ### `get_poly_vals` and `get_poly_traces_edge` -/

theorem eval_vec (p : Poly ℝ) (a b : ℝ) : eval p a b = MvPolynomial.eval ![a, b] (toMv p) := by
  rw [eval_toMv]
  congr 2
  funext i
  fin_cases i <;> rfl

/-- C108: `get_poly_vals` accepts exactly the pairs of coordinate lists of equal length; the table has a row for each polynomial, in order, and
entry `k` of row `j` is the value of polynomial `j` at point `k`. -/
theorem C108_vals (x y : List ℝ) (polys : List (Poly ℝ)) :
    (x.length ≠ y.length → getPolyVals x y polys = .error .sizeMismatch) ∧
    (x.length = y.length → ∃ T, getPolyVals x y polys = .ok T ∧ T.length = polys.length ∧
      ∀ (j : ℕ) (p : Poly ℝ), polys[j]? = some p → ∃ r, T[j]? = some r ∧ r.length = x.length ∧
        ∀ (k : ℕ) (a b : ℝ), x[k]? = some a → y[k]? = some b →
          r[k]? = some (MvPolynomial.eval ![a, b] (toMv p))) := by
  refine ⟨fun h => by unfold getPolyVals; rw [if_pos h.symm], fun h => ?_⟩
  refine ⟨_, by unfold getPolyVals; rw [if_neg (by simp [h])], by simp, fun j p hp => ⟨List.zipWith (fun a b => Poly.eval p a b) x y, by simp [hp], by simp [h], ?_⟩⟩
  intro k a b ha hb
  simp [List.getElem?_zipWith, ha, hb, eval_vec]

/-- C108: the traces of polynomials on an edge agree with the values at all sampled points, the last one included, in order; without a
parameterization there are none. -/
theorem C108_edge (e : EdgeG) (polys : List (Poly ℝ)) :
    (e.pts = none → getPolyTracesEdge e polys = .error .notParameterized) ∧
    ∀ L, e.pts = some L → ∃ T, getPolyTracesEdge e polys = .ok T ∧ T.length = polys.length ∧
      ∀ (j : ℕ) (p : Poly ℝ), polys[j]? = some p →
        T[j]? = some (L.map fun s => MvPolynomial.eval ![s.x, s.y] (toMv p)) := by
  constructor
  · intro h
    unfold getPolyTracesEdge EdgeG.sampled
    rw [h]; rfl
  · intro L hL
    have hs : e.sampled = .ok L := by unfold EdgeG.sampled; rw [hL]
    unfold getPolyTracesEdge getPolyVals
    rw [hs]
    simp only [py_ok_bind]
    rw [if_neg (by simp)]
    refine ⟨_, rfl, by simp, fun j p hp => ?_⟩
    simp [hp, List.zipWith_map, List.zipWith_self, eval_vec]

/-- the hypotheses hold on an edge of length 2 sampled at its quarter points: degree 2 is spanned, degree 3 is not, and degree 0 gives the three
coordinates -/
noncomputable def quarterEdge : EdgeG :=
  { unitCircle "trap" [] with
    isLoop := false
    pts := some ([0, 1 / 2, 1, 3 / 2, 2].map fun t => ⟨t, 0, 1, 0, 0, -1, 1, 0⟩) }

example : (∃ rows, barycentricProducts quarterEdge 2 = .ok rows ∧ rows.length = 6) ∧
    (∃ rows, barycentricProducts quarterEdge 3 = .ok rows ∧ rows.length = 10) ∧
    ∃ rows, barycentricProducts quarterEdge 0 = .ok rows ∧ rows.length = 3 := by
  have hx : ExactCoords (0, 0) (2, 0) := horizontal_exact (by norm_num) (by norm_num)
  refine ⟨?_, ?_, ?_⟩
  · obtain ⟨rows, h, h', -⟩ := C107_span_partial quarterEdge _ ⟨0, 0, 1, 0, 0, -1, 1, 0⟩ ⟨2, 0, 1, 0, 0, -1, 1, 0⟩ rfl rfl rfl hx 2 (Or.inr rfl)
    exact ⟨rows, h, h'⟩
  · obtain ⟨rows, h, h', -⟩ := C107_violated 2 (by norm_num) (by norm_num) quarterEdge _ ⟨0, 0, 1, 0, 0, -1, 1, 0⟩ ⟨2, 0, 1, 0, 0, -1, 1, 0⟩
      rfl rfl rfl rfl rfl (by
        intro i hi
        interval_cases i
        · exact ⟨⟨0, 0, 1, 0, 0, -1, 1, 0⟩, by simp, by norm_num, rfl⟩
        · exact ⟨⟨1 / 2, 0, 1, 0, 0, -1, 1, 0⟩, by simp, by norm_num, rfl⟩
        · exact ⟨⟨1, 0, 1, 0, 0, -1, 1, 0⟩, by simp, by norm_num, rfl⟩
        · exact ⟨⟨3 / 2, 0, 1, 0, 0, -1, 1, 0⟩, by simp, by norm_num, rfl⟩
        · exact ⟨⟨2, 0, 1, 0, 0, -1, 1, 0⟩, by simp, by norm_num, rfl⟩)
    exact ⟨rows, h, h'⟩
  · exact ⟨_, products_ok (a := ⟨0, 0, 1, 0, 0, -1, 1, 0⟩) (b := ⟨2, 0, 1, 0, 0, -1, 1, 0⟩) rfl rfl rfl hx 0 (by norm_num), by simp⟩

/-- the two coordinate functions at two points -/
example : getPolyVals [1, 2] [3, 4] [[⟨⟨1, 0⟩, 1⟩], [⟨⟨0, 1⟩, 1⟩]] = .ok [[1, 2], [3, 4]] ∧
    getPolyVals [1, 2] [3] [] = .error .sizeMismatch := by
  constructor
  · unfold getPolyVals
    simp [eval_cons, eval_nil, Mono.eval_eq]
  · exact (C108_vals _ _ _).1 (by simp)

end PFEM
