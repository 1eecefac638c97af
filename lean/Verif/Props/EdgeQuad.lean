import Mathlib.Tactic.Linarith
import Mathlib.Tactic.FieldSimp
import Verif.Lemmas.Py
import Verif.Model.EdgeQuad
import Verif.Spec.Quadrature

/-!
Property theorems C27 (integration over one edge) and C56 (bounding boxes).
-/

namespace PFEM
open EdgeG

theorem trapezoid_eq (h : ℝ) : ∀ (a : ℝ) (r : List ℝ), r ≠ [] →
    trapezoid h (a :: r) = 0.5 * h * (a + (a :: r).getLast (by simp)) + (r.dropLast.map (h * ·)).sum
  | a, [], hr => absurd rfl hr
  | a, [b], _ => by simp [trapezoid]; ring
  | a, b :: c :: r, _ => by
    rw [trapezoid, trapezoid_eq h b (c :: r) (by simp)]
    simp only [List.getLast_cons_cons, List.dropLast_cons_of_ne_nil, ne_eq, reduceCtorEq, not_false_eq_true, List.map_cons,
      List.sum_cons]
    ring

theorem integrate_eq {e : EdgeG} {L : List Sample} (h : e.pts = some L) (hL : 2 ≤ L.length) {vals : List ℝ}
    (hv : vals.length = L.length) :
    e.integrate vals false = .ok (trapezoid (2 * Real.pi / ((L.length : ℝ) - 1)) (entrywise vals (L.map Sample.dxNorm))) := by
  have hb : Np.bin (fun x1 x2 : ℝ => x1 * x2) vals (L.map Sample.dxNorm) = .ok (entrywise vals (L.map Sample.dxNorm)) := by
    unfold Np.bin; rw [if_pos (by simp [hv])]; rfl
  have hw : (entrywise vals (L.map Sample.dxNorm)).length = L.length := by simp [entrywise, hv]
  simp only [integrate, multiplyByDxNorm, integratePreweighted, sampled, h, bind, Except.bind, Bool.false_eq_true, if_false, hv,
    ne_eq, not_true_eq_false, hb, hw]
  rw [if_neg (by omega)]
  generalize entrywise vals (L.map Sample.dxNorm) = w at hw ⊢
  match w, hw with
  | [], hw => simp at hw; omega
  | [a], hw => simp at hw; omega
  | a :: b :: r, hw => rw [trapezoid_eq _ a (b :: r) (by simp)]

theorem trapezoid_lincomb (h a b : ℝ) : ∀ (s u v : List ℝ), u.length = s.length → v.length = s.length →
    trapezoid h (entrywise (lincomb a b u v) s) = a * trapezoid h (entrywise u s) + b * trapezoid h (entrywise v s) := by
  intro s
  induction s with
  | nil => intro u v _ _; simp [trapezoid, entrywise]
  | cons s0 s ih =>
    intro u v h1 h2
    match u, v, h1, h2 with
    | u0 :: u, v0 :: v, h1, h2 =>
      have h1 : u.length = s.length := by simpa using h1
      have h2 : v.length = s.length := by simpa using h2
      have ih := ih u v h1 h2
      match s, u, v, h1, h2 with
      | [], [], [], _, _ => simp [trapezoid, entrywise, lincomb]
      | s1 :: s, u1 :: u, v1 :: v, _, _ =>
        simp only [entrywise, lincomb, List.zipWith_cons_cons, trapezoid] at ih ⊢
        rw [ih]
        ring

/-- C27: the integral over an edge is the trapezoid sum of the values times the weighted speed, with step
`2 pi / (num_pts - 1)`; it fails exactly if the edge is not sampled or the length is wrong. -/
theorem C27_trapezoid {e : EdgeG} {L : List Sample} (h : e.pts = some L) (hL : 2 ≤ L.length) (vals : List ℝ) :
    (vals.length = L.length → e.integrate vals false =
      .ok (trapezoid (2 * Real.pi / ((L.length : ℝ) - 1)) (entrywise vals (L.map Sample.dxNorm)))) ∧
    (vals.length ≠ L.length → e.integrate vals false = .error .sizeMismatch) :=
  ⟨integrate_eq h hL, fun hv => by simp [integrate, multiplyByDxNorm, sampled, h, bind, Except.bind, hv]⟩

/-- C27: it is linear. -/
theorem C27_linear {e : EdgeG} {L : List Sample} (h : e.pts = some L) (hL : 2 ≤ L.length) (a b : ℝ) {u v : List ℝ}
    (hu : u.length = L.length) (hv : v.length = L.length) :
    ∃ I J, e.integrate u false = .ok I ∧ e.integrate v false = .ok J ∧
      e.integrate (lincomb a b u v) false = .ok (a * I + b * J) := by
  refine ⟨_, _, integrate_eq h hL hu, integrate_eq h hL hv, ?_⟩
  rw [integrate_eq h hL (by simp [lincomb, hu, hv]), trapezoid_lincomb _ _ _ _ _ _ (by simpa using hu) (by simpa using hv)]

theorem C27_unsampled {e : EdgeG} (h : e.pts = none) (vals : List ℝ) (b : Bool) :
    e.integrate vals b = .error .notParameterized := by
  simp [integrate, multiplyByDxNorm, sampled, h, bind, Except.bind]

/-- What `ignore_endpoint=True` returns (the full statement C27 wants the value of the trapezoid sum): the sum without the
last *two* samples.  If the end samples agree, the result is too small by the contribution of the last sample that was
passed. -/
theorem C27_ignore_endpoint_partial {e : EdgeG} {L : List Sample} (h : e.pts = some L) {vals : List ℝ} {f0 fm f1 s0 sm s1 : ℝ}
    {f s : List ℝ} (hv : vals = f0 :: f ++ [fm, f1]) (hs : L.map Sample.dxNorm = s0 :: s ++ [sm, s1]) (hf : f.length = s.length)
    (hc : f0 * s0 = f1 * s1) :
    ∃ I, e.integrate vals false = .ok I ∧
      e.integrate vals.dropLast true = .ok (I - 2 * Real.pi / ((L.length : ℝ) - 1) * (fm * sm)) := by
  have hn : L.length = s.length + 3 := by
    have := congrArg List.length hs; simpa using this
  have hvl : vals.length = L.length := by rw [hv, hn]; simp [hf]
  refine ⟨_, integrate_eq h (by omega) hvl, ?_⟩
  have hd : (L.map Sample.dxNorm).dropLast = s0 :: s ++ [sm] := by
    rw [hs, show s0 :: s ++ [sm, s1] = (s0 :: s ++ [sm]) ++ [s1] by simp, List.dropLast_concat]
  have hd' : vals.dropLast = f0 :: f ++ [fm] := by
    rw [hv, show f0 :: f ++ [fm, f1] = (f0 :: f ++ [fm]) ++ [f1] by simp, List.dropLast_concat]
  have hb : Np.bin (fun x1 x2 : ℝ => x1 * x2) (f0 :: f ++ [fm]) (s0 :: s ++ [sm]) =
      .ok ((f0 * s0) :: entrywise f s ++ [fm * sm]) := by
    unfold Np.bin
    rw [if_pos (by simp [hf]), List.zipWith_append (by simp [hf])]
    rfl
  have hl : ((f0 :: f ++ [fm]).length : ℤ) = (L.length : ℤ) - 1 := by rw [hn]; simp [hf]; ring
  have hl2 : (((f0 * s0) :: entrywise f s ++ [fm * sm]).length : ℤ) = (L.length : ℤ) - 1 := by
    rw [hn]; simp [hf, entrywise]; ring
  simp only [integrate, multiplyByDxNorm, integratePreweighted, sampled, h, bind, Except.bind, if_true, hd, hd', hl, ne_eq,
    not_true_eq_false, if_false, hb, hl2]
  rw [if_neg (by omega), List.dropLast_concat, hv, hs]
  congr 1
  have he : entrywise (f0 :: f ++ [fm, f1]) (s0 :: s ++ [sm, s1]) =
      (f0 * s0) :: (entrywise f s ++ [fm * sm] ++ [f1 * s1]) := by
    simp only [entrywise, List.cons_append, List.zipWith_cons_cons]
    rw [List.zipWith_append hf]
    simp
  rw [he, trapezoid_eq _ _ _ (by simp), List.dropLast_concat]
  simp only [List.map_cons, List.sum_cons, List.map_append, List.sum_append, List.map_nil, List.sum_nil]
  rw [List.getLast_cons (by simp), List.getLast_append_of_ne_nil (by simp) (by simp), List.getLast_singleton, ← hc]
  rw [show (0.5 : ℝ) = 1 / 2 by norm_num]
  ring

/-- C27 fails with `ignore_endpoint=True`: a sampled edge with speed 1 everywhere has length `2 pi`, but integrating 1
without the end point gives less. -/
theorem C27_ignore_endpoint_wrong {e : EdgeG} {L : List Sample} (h : e.pts = some L) (hL : 3 ≤ L.length)
    (h1 : ∀ s ∈ L, s.dxNorm = 1) :
    ∃ I J, e.integrate (List.replicate L.length 1) false = .ok I ∧
      e.integrate (List.replicate (L.length - 1) 1) true = .ok J ∧ J < I := by
  obtain ⟨k, hk⟩ : ∃ k, L.length = k + 3 := ⟨L.length - 3, by omega⟩
  have hs : L.map Sample.dxNorm = List.replicate L.length 1 := by
    rw [List.eq_replicate_iff]
    exact ⟨by simp, by simpa using h1⟩
  have hr : List.replicate L.length (1 : ℝ) = 1 :: List.replicate k 1 ++ [1, 1] := by
    rw [hk, show k + 3 = (k + 1) + 2 by ring, List.replicate_add]; rfl
  obtain ⟨I, r1, r2⟩ := C27_ignore_endpoint_partial h hr (hs.trans hr) rfl rfl
  refine ⟨I, _, r1, by simpa using r2, ?_⟩
  have : 0 < 2 * Real.pi / ((L.length : ℝ) - 1) := by
    have : (3 : ℝ) ≤ L.length := by exact_mod_cast hL
    have := Real.pi_pos
    apply div_pos <;> linarith
  linarith

/-- the hypotheses can be met: three samples with speed 1 -/
example : ∃ e : EdgeG, ∃ L : List Sample, e.pts = some L ∧ 3 ≤ L.length ∧ ∀ s ∈ L, s.dxNorm = 1 :=
  ⟨⟨Vert.mk' 0 0, Vert.mk' 1 0, .line, {}, "trap", (0, 1), false, [], some (List.replicate 3 ⟨0, 0, 1, 0, 0, -1, 1, 0⟩), -1,
    -1⟩, _, rfl, by simp, by simp⟩

/-! ### bounding boxes -/

theorem foldl_min_le : ∀ (l : List ℝ) (x : ℝ), l.foldl min x ≤ x ∧ (∀ y ∈ l, l.foldl min x ≤ y) ∧
    (l.foldl min x = x ∨ l.foldl min x ∈ l)
  | [], x => by simp
  | a :: l, x => by
    obtain ⟨h1, h2, h3⟩ := foldl_min_le l (min x a)
    simp only [List.foldl_cons]
    refine ⟨h1.trans (min_le_left _ _), fun y hy => ?_, ?_⟩
    · rcases List.mem_cons.1 hy with rfl | hy
      · exact h1.trans (min_le_right _ _)
      · exact h2 y hy
    · rcases h3 with h3 | h3
      · rw [h3]
        rcases min_choice x a with h | h <;> rw [h] <;> simp
      · exact .inr (by simp [h3])

theorem foldl_max_le : ∀ (l : List ℝ) (x : ℝ), x ≤ l.foldl max x ∧ (∀ y ∈ l, y ≤ l.foldl max x) ∧
    (l.foldl max x = x ∨ l.foldl max x ∈ l)
  | [], x => by simp
  | a :: l, x => by
    obtain ⟨h1, h2, h3⟩ := foldl_max_le l (max x a)
    simp only [List.foldl_cons]
    refine ⟨(le_max_left _ _).trans h1, fun y hy => ?_, ?_⟩
    · rcases List.mem_cons.1 hy with rfl | hy
      · exact (le_max_right _ _).trans h1
      · exact h2 y hy
    · rcases h3 with h3 | h3
      · rw [h3]
        rcases max_choice x a with h | h <;> rw [h] <;> simp
      · exact .inr (by simp [h3])

/-- `m` is the least element of the list -/
def IsMin (l : List ℝ) (m : ℝ) : Prop := m ∈ l ∧ ∀ y ∈ l, m ≤ y
/-- `m` is the greatest element of the list -/
def IsMax (l : List ℝ) (m : ℝ) : Prop := m ∈ l ∧ ∀ y ∈ l, y ≤ m

theorem np_min {l : List ℝ} (h : l ≠ []) : ∃ m, Np.min l = .ok m ∧ IsMin l m := by
  match l, h with
  | x :: l, _ =>
    obtain ⟨h1, h2, h3⟩ := foldl_min_le l x
    refine ⟨_, rfl, ?_, fun y hy => ?_⟩
    · rcases h3 with h3 | h3
      · rw [h3]; simp
      · exact List.mem_cons_of_mem _ h3
    · rcases List.mem_cons.1 hy with rfl | hy
      · exact h1
      · exact h2 y hy

theorem np_max {l : List ℝ} (h : l ≠ []) : ∃ m, Np.max l = .ok m ∧ IsMax l m := by
  match l, h with
  | x :: l, _ =>
    obtain ⟨h1, h2, h3⟩ := foldl_max_le l x
    refine ⟨_, rfl, ?_, fun y hy => ?_⟩
    · rcases h3 with h3 | h3
      · rw [h3]; simp
      · exact List.mem_cons_of_mem _ h3
    · rcases List.mem_cons.1 hy with rfl | hy
      · exact h1
      · exact h2 y hy

theorem box_eq {x y : List ℝ} {a b c d : ℝ} (ha : Np.min x = .ok a) (hb : Np.max x = .ok b) (hc : Np.min y = .ok c)
    (hd : Np.max y = .ok d) (tol : ℝ) :
    getBoundingBox x y tol = .ok (
      if max (b - a) (d - c) < tol then
        (a - max (b - a) (d - c) / 2, b + max (b - a) (d - c) / 2, c - max (b - a) (d - c) / 2, d + max (b - a) (d - c) / 2)
      else
        ((if b - a < tol then (a - max (b - a) (d - c) / 2) else a),
         (if b - a < tol then (a + max (b - a) (d - c) / 2) else b),
         (if d - c < tol then (c - max (b - a) (d - c) / 2) else c),
         (if d - c < tol then (c + max (b - a) (d - c) / 2) else d))) := by
  simp only [getBoundingBox, ha, hb, hc, hd, bind, Except.bind]
  by_cases h : max (b - a) (d - c) < tol
  · rw [if_pos h, if_pos h]
  · rw [if_neg h, if_neg h]
    by_cases h1 : b - a < tol <;> by_cases h2 : d - c < tol <;> simp only [h1, h2, if_true, if_false]

/-- C56 (the full statement has no condition on the extents): the box contains every point, unless one extent is below
the tolerance and the other one between once and twice the tolerance. -/
theorem C56_contains_partial {x y : List ℝ} {tol xmin xmax ymin ymax : ℝ} (h1 : IsMin x xmin) (h2 : IsMax x xmax)
    (h3 : IsMin y ymin) (h4 : IsMax y ymax)
    (ht : (tol ≤ xmax - xmin ∧ tol ≤ ymax - ymin) ∨ (xmax - xmin < tol ∧ ymax - ymin < tol) ∨
      2 * tol ≤ xmax - xmin ∨ 2 * tol ≤ ymax - ymin) :
    ∃ x0 x1 y0 y1, getBoundingBox x y tol = .ok (x0, x1, y0, y1) ∧ (∀ a ∈ x, x0 ≤ a ∧ a ≤ x1) ∧
      ∀ b ∈ y, y0 ≤ b ∧ b ≤ y1 := by
  obtain ⟨a, ha, ha'⟩ := np_min (List.ne_nil_of_mem h1.1)
  obtain ⟨b, hb, hb'⟩ := np_max (List.ne_nil_of_mem h1.1)
  obtain ⟨c, hc, hc'⟩ := np_min (List.ne_nil_of_mem h3.1)
  obtain ⟨d, hd, hd'⟩ := np_max (List.ne_nil_of_mem h3.1)
  obtain rfl : a = xmin := le_antisymm (ha'.2 _ h1.1) (h1.2 _ ha'.1)
  obtain rfl : b = xmax := le_antisymm (h2.2 _ hb'.1) (hb'.2 _ h2.1)
  obtain rfl : c = ymin := le_antisymm (hc'.2 _ h3.1) (h3.2 _ hc'.1)
  obtain rfl : d = ymax := le_antisymm (h4.2 _ hd'.1) (hd'.2 _ h4.1)
  have hab := h1.2 _ h2.1
  have hcd := h3.2 _ h4.1
  have m1 := le_max_left (b - a) (d - c)
  have m2 := le_max_right (b - a) (d - c)
  rw [box_eq ha hb hc hd]
  generalize hm : max (b - a) (d - c) = m at *
  have hm' : m = b - a ∨ m = d - c := by rw [← hm]; exact max_choice _ _
  by_cases k : m < tol
  · simp only [k, if_true]
    refine ⟨_, _, _, _, rfl, fun z hz => ?_, fun z hz => ?_⟩
    · have := h1.2 z hz; have := h2.2 z hz; constructor <;> linarith
    · have := h3.2 z hz; have := h4.2 z hz; constructor <;> linarith
  · simp only [k, if_false]
    have k := not_lt.1 k
    refine ⟨_, _, _, _, rfl, fun z hz => ?_, fun z hz => ?_⟩
    · have z1 := h1.2 z hz
      have z2 := h2.2 z hz
      split_ifs with q
      · constructor
        · linarith
        · rcases ht with ht | ht | ht | ht
          · linarith
          · rcases hm' with e | e <;> linarith
          · linarith
          · linarith
      · exact ⟨z1, z2⟩
    · have z1 := h3.2 z hz
      have z2 := h4.2 z hz
      split_ifs with q
      · constructor
        · linarith
        · rcases ht with ht | ht | ht | ht
          · linarith
          · rcases hm' with e | e <;> linarith
          · linarith
          · linarith
      · exact ⟨z1, z2⟩

/-- C56: the box has positive width and height unless all points are equal. -/
theorem C56_positive {x y : List ℝ} {tol xmin xmax ymin ymax : ℝ} (htol : 0 < tol) (h1 : IsMin x xmin) (h2 : IsMax x xmax)
    (h3 : IsMin y ymin) (h4 : IsMax y ymax) (hne : xmin < xmax ∨ ymin < ymax) :
    ∃ x0 x1 y0 y1, getBoundingBox x y tol = .ok (x0, x1, y0, y1) ∧ x0 < x1 ∧ y0 < y1 := by
  obtain ⟨a, ha, ha'⟩ := np_min (List.ne_nil_of_mem h1.1)
  obtain ⟨b, hb, hb'⟩ := np_max (List.ne_nil_of_mem h1.1)
  obtain ⟨c, hc, hc'⟩ := np_min (List.ne_nil_of_mem h3.1)
  obtain ⟨d, hd, hd'⟩ := np_max (List.ne_nil_of_mem h3.1)
  obtain rfl : a = xmin := le_antisymm (ha'.2 _ h1.1) (h1.2 _ ha'.1)
  obtain rfl : b = xmax := le_antisymm (h2.2 _ hb'.1) (hb'.2 _ h2.1)
  obtain rfl : c = ymin := le_antisymm (hc'.2 _ h3.1) (h3.2 _ hc'.1)
  obtain rfl : d = ymax := le_antisymm (h4.2 _ hd'.1) (hd'.2 _ h4.1)
  have hab := h1.2 _ h2.1
  have hcd := h3.2 _ h4.1
  have m1 := le_max_left (b - a) (d - c)
  have m2 := le_max_right (b - a) (d - c)
  rw [box_eq ha hb hc hd]
  generalize hm : max (b - a) (d - c) = m at *
  have hm0 : 0 < m := by rcases hne with h | h <;> linarith
  by_cases k : m < tol
  · simp only [k, if_true]
    exact ⟨_, _, _, _, rfl, by linarith, by linarith⟩
  · simp only [k, if_false]
    refine ⟨_, _, _, _, rfl, ?_, ?_⟩
    · split_ifs with q <;> linarith
    · split_ifs with q <;> linarith

/-- C56: the box is tight when both extents reach the tolerance. -/
theorem C56_tight {x y : List ℝ} {tol xmin xmax ymin ymax : ℝ} (h1 : IsMin x xmin) (h2 : IsMax x xmax)
    (h3 : IsMin y ymin) (h4 : IsMax y ymax) (hx : tol ≤ xmax - xmin) (hy : tol ≤ ymax - ymin) :
    getBoundingBox x y tol = .ok (xmin, xmax, ymin, ymax) := by
  obtain ⟨a, ha, ha'⟩ := np_min (List.ne_nil_of_mem h1.1)
  obtain ⟨b, hb, hb'⟩ := np_max (List.ne_nil_of_mem h1.1)
  obtain ⟨c, hc, hc'⟩ := np_min (List.ne_nil_of_mem h3.1)
  obtain ⟨d, hd, hd'⟩ := np_max (List.ne_nil_of_mem h3.1)
  obtain rfl : a = xmin := le_antisymm (ha'.2 _ h1.1) (h1.2 _ ha'.1)
  obtain rfl : b = xmax := le_antisymm (h2.2 _ hb'.1) (hb'.2 _ h2.1)
  obtain rfl : c = ymin := le_antisymm (hc'.2 _ h3.1) (h3.2 _ hc'.1)
  obtain rfl : d = ymax := le_antisymm (h4.2 _ hd'.1) (hd'.2 _ h4.1)
  rw [box_eq ha hb hc hd, if_neg (not_lt.2 (hx.trans (le_max_left _ _))), if_neg (not_lt.2 hx), if_neg (not_lt.2 hx),
    if_neg (not_lt.2 hy), if_neg (not_lt.2 hy)]

/-- C56: without points it raises `ValueError`. -/
theorem C56_empty (y : List ℝ) (tol : ℝ) : getBoundingBox [] y tol = .error .valueError := rfl

/-- C56 fails for very small sets: the point `(9, 12)` (in units of a tenth of the tolerance) is not in the box of
`(0, 0)` and `(9, 12)`. -/
theorem C56_point_outside {tol : ℝ} (ht : 0 < tol) :
    ∃ x0 x1 y0 y1, getBoundingBox [0, 0.9 * tol] [0, 1.2 * tol] tol = .ok (x0, x1, y0, y1) ∧ x1 < 0.9 * tol := by
  have e1 : Np.min [0, 0.9 * tol] = .ok 0 := by
    simp only [Np.min, Np.fold1, List.foldl]; rw [min_eq_left (by positivity)]
  have e2 : Np.max [0, 0.9 * tol] = .ok (0.9 * tol) := by
    simp only [Np.max, Np.fold1, List.foldl]; rw [max_eq_right (by positivity)]
  have e3 : Np.min [0, 1.2 * tol] = .ok 0 := by
    simp only [Np.min, Np.fold1, List.foldl]; rw [min_eq_left (by positivity)]
  have e4 : Np.max [0, 1.2 * tol] = .ok (1.2 * tol) := by
    simp only [Np.max, Np.fold1, List.foldl]; rw [max_eq_right (by positivity)]
  have hm : max (0.9 * tol - 0) (1.2 * tol - 0) = 1.2 * tol := by
    rw [max_eq_right]
    · ring
    · norm_num; nlinarith
  rw [box_eq e1 e2 e3 e4, hm, if_neg (by norm_num; nlinarith)]
  refine ⟨_, _, _, _, rfl, ?_⟩
  rw [if_pos (by norm_num; nlinarith)]
  norm_num
  nlinarith

/-- the hypotheses can be met: the corners of the unit square -/
example : IsMin [0, 1] 0 ∧ IsMax [0, 1] 1 ∧ (1 / 10 ^ 12 : ℝ) ≤ 1 - 0 := by
  refine ⟨⟨by simp, by simp⟩, ⟨by simp, by simp⟩, by norm_num⟩

end PFEM
