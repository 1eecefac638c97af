import Verif.Props.PlotLocal

/-!
Property theorem C95: the colour range of a plot of a global function.
-/

namespace PFEM
open Plot

theorem foldl_min (l : List ℝ) : ∀ x, IsLeast {y | y ∈ x :: l} (l.foldl min x) := by
  induction l with
  | nil => intro x; simp [IsLeast, lowerBounds]
  | cons a l ih =>
    intro x
    obtain ⟨h1, h2⟩ := ih (min x a)
    refine ⟨?_, fun y hy => ?_⟩
    · simp only [List.foldl_cons, Set.mem_ofPred_eq, List.mem_cons] at h1 ⊢
      rcases h1 with h | h
      · rcases min_choice x a with h' | h' <;> rw [h, h'] <;> simp
      · exact Or.inr (Or.inr h)
    · have hm : l.foldl min (min x a) ≤ min x a := h2 (by simp)
      simp only [Set.mem_ofPred_eq, List.mem_cons] at hy
      rcases hy with rfl | rfl | hy
      · exact hm.trans (min_le_left _ _)
      · exact hm.trans (min_le_right _ _)
      · exact h2 (by simp [hy])

theorem foldl_max (l : List ℝ) : ∀ x, IsGreatest {y | y ∈ x :: l} (l.foldl max x) := by
  induction l with
  | nil => intro x; simp [IsGreatest, upperBounds]
  | cons a l ih =>
    intro x
    obtain ⟨h1, h2⟩ := ih (max x a)
    refine ⟨?_, fun y hy => ?_⟩
    · simp only [List.foldl_cons, Set.mem_ofPred_eq, List.mem_cons] at h1 ⊢
      rcases h1 with h | h
      · rcases max_choice x a with h' | h' <;> rw [h, h'] <;> simp
      · exact Or.inr (Or.inr h)
    · have hm : max x a ≤ l.foldl max (max x a) := h2 (by simp)
      simp only [Set.mem_ofPred_eq, List.mem_cons] at hy
      rcases hy with rfl | rfl | hy
      · exact (le_max_left _ _).trans hm
      · exact (le_max_right _ _).trans hm
      · exact h2 (by simp [hy])

theorem least_entry {l : List ℝ} (h : l ≠ []) : ∃ m, Np.min l = .ok m ∧ IsLeast {y | y ∈ l} m := by
  cases l with
  | nil => exact absurd rfl h
  | cons x l => exact ⟨_, rfl, foldl_min l x⟩

theorem greatest_entry {l : List ℝ} (h : l ≠ []) : ∃ m, Np.max l = .ok m ∧ IsGreatest {y | y ∈ l} m := by
  cases l with
  | nil => exact absurd rfl h
  | cons x l => exact ⟨_, rfl, foldl_max l x⟩

/-- the range so far: of nothing, or of the set `S` -/
def RangeSoFar (S : Set ℝ) (r : EReal × EReal) : Prop := (S = ∅ ∧ r = (⊤, ⊥)) ∨ IsRange S r

theorem RangeSoFar.extend {S T : Set ℝ} {r : EReal × EReal} (h : RangeSoFar S r) {lo hi : ℝ} (h1 : IsLeast T lo) (h2 : IsGreatest T hi) :
    IsRange (S ∪ T) (min r.1 (lo : EReal), max r.2 (hi : EReal)) := by
  rcases h with ⟨rfl, rfl⟩ | ⟨a, b, rfl, ha, hb⟩
  · exact ⟨lo, hi, by simp, by simpa using h1, by simpa using h2⟩
  · refine ⟨min a lo, max b hi, ?_, ha.union h1, hb.union h2⟩
    simp only [Prod.mk.injEq]
    exact ⟨(EReal.coe_strictMono.monotone.map_min).symm, (EReal.coe_strictMono.monotone.map_max).symm⟩

theorem range_step {S : Set ℝ} {r : EReal × EReal} (h : RangeSoFar S r) {l : List ℝ} (hl : l ≠ []) :
    ∃ r', rangeOnCell (some l) r = .ok r' ∧ IsRange (S ∪ {y | y ∈ l}) r' := by
  obtain ⟨a, ha, h1⟩ := least_entry hl
  obtain ⟨b, hb, h2⟩ := greatest_entry hl
  exact ⟨_, by simp only [rangeOnCell, ha, hb, py_ok_bind], h.extend h1 h2⟩

theorem norm_mem (a b : List ℝ) (x : ℝ) : x ∈ List.zipWith (fun x y => Real.sqrt (x ^ 2 + y ^ 2)) a b ↔
    ∃ (k : ℕ) (p q : ℝ), a[k]? = some p ∧ b[k]? = some q ∧ x = Real.sqrt (p ^ 2 + q ^ 2) := by
  rw [List.mem_iff_getElem?]
  constructor
  · rintro ⟨k, hk⟩
    rw [List.getElem?_zipWith] at hk
    cases ha : a[k]? <;> cases hb : b[k]? <;> simp [ha, hb] at hk
    exact ⟨k, _, _, ha, hb, hk.symm⟩
  · rintro ⟨k, p, q, ha, hb, rfl⟩
    exact ⟨k, by rw [List.getElem?_zipWith, ha, hb]⟩

/-- the ranges so far -/
def RangesSoFar (fs : List LocPoisson) (r : Ranges) : Prop :=
  RangeSoFar (valuesOf fs) r.vals ∧ RangeSoFar (grad1Of fs) r.grad1 ∧ RangeSoFar (grad2Of fs) r.grad2 ∧ RangeSoFar (normOf fs) r.norm

theorem buildLoop_ok {combo : ℤ → Py LocPoisson} {cells : List ℤ} {gs : List LocPoisson}
    (h : List.Forall₂ (fun c f => combo c = .ok f ∧ f.Drawable) cells gs) : ∀ (fs : List LocPoisson) (r : Ranges),
    RangesSoFar fs r → ∃ R, (∀ rest, buildLoop combo fs r (cells ++ rest) = buildLoop combo (fs ++ gs) R rest) ∧
      RangesSoFar (fs ++ gs) R := by
  induction h with
  | nil => intro fs r hr; exact ⟨r, by simp, by simpa using hr⟩
  | @cons c f cells gs hc _ ih =>
    intro fs r ⟨r1, r2, r3, r4⟩
    obtain ⟨hc, v, a, b, hv, ha, hb, v0, a0, hab⟩ := hc
    have b0 : b ≠ [] := by rw [← List.length_pos_iff, ← hab, List.length_pos_iff]; exact a0
    have n0 : List.zipWith (fun x y => Real.sqrt (x ^ 2 + y ^ 2)) a b ≠ [] := by simp [a0, b0]
    obtain ⟨s1, e1, q1⟩ := range_step r1 v0
    obtain ⟨s2, e2, q2⟩ := range_step r2 a0
    obtain ⟨s3, e3, q3⟩ := range_step r3 b0
    obtain ⟨s4, e4, q4⟩ := range_step r4 n0
    have w1 : valuesOf fs ∪ {y | y ∈ v} = valuesOf (fs ++ [f]) := by
      ext x; simp [valuesOf, or_and_right, exists_or, hv]
    have w2 : grad1Of fs ∪ {y | y ∈ a} = grad1Of (fs ++ [f]) := by
      ext x; simp [grad1Of, or_and_right, exists_or, ha]
    have w3 : grad2Of fs ∪ {y | y ∈ b} = grad2Of (fs ++ [f]) := by
      ext x; simp [grad2Of, or_and_right, exists_or, hb]
    have w4 : normOf fs ∪ {y | y ∈ List.zipWith (fun x y => Real.sqrt (x ^ 2 + y ^ 2)) a b} = normOf (fs ++ [f]) := by
      ext x
      simp only [Set.mem_union, Set.mem_ofPred_eq, norm_mem, normOf, List.mem_append, List.mem_singleton, or_and_right, exists_or]
      simp [ha, hb]
    rw [w1] at q1; rw [w2] at q2; rw [w3] at q3; rw [w4] at q4
    obtain ⟨R, hR, h1⟩ := ih (fs ++ [f]) ⟨s1, s2, s3, s4⟩ ⟨Or.inr q1, Or.inr q2, Or.inr q3, Or.inr q4⟩
    refine ⟨R, fun rest => ?_, by simpa using h1⟩
    rw [List.cons_append, buildLoop, hc]
    simp only [py_ok_bind, hv, ha, hb, e1, e2, e3, bin_eq _ hab, e4]
    rw [hR rest]; simp

theorem RangeSoFar.range {S : Set ℝ} {r : EReal × EReal} (h : RangeSoFar S r) (hS : S.Nonempty) : IsRange S r :=
  h.resolve_left fun h0 => hS.ne_empty h0.1

/-- C95 (in part): the functions of a `GlobalFunctionPlot` are the linear combinations on the cells, in their order, and
the range of each kind of plot consists of the smallest and the largest of all interior values.  Missing: the boundary
values (`C95_violated`). -/
theorem C95_range_partial {combo : ℤ → Py LocPoisson} {cells : List ℤ} {fs : List LocPoisson} (hne : cells ≠ [])
    (h : List.Forall₂ (fun c f => combo c = .ok f ∧ f.Drawable) cells fs) :
    ∃ R, buildGlobal combo cells = .ok (fs, R) ∧ IsRange (valuesOf fs) R.vals ∧ IsRange (grad1Of fs) R.grad1 ∧
      IsRange (grad2Of fs) R.grad2 ∧ IsRange (normOf fs) R.norm := by
  obtain ⟨R, hR, r1, r2, r3, r4⟩ := buildLoop_ok h [] {} ⟨Or.inl ⟨by simp [valuesOf], rfl⟩, Or.inl ⟨by simp [grad1Of], rfl⟩,
    Or.inl ⟨by simp [grad2Of], rfl⟩, Or.inl ⟨by simp [normOf], rfl⟩⟩
  refine ⟨R, by simpa [buildGlobal, buildLoop] using hR [], ?_⟩
  cases h with
  | nil => exact absurd rfl hne
  | @cons c f cells fs hc _ =>
    obtain ⟨-, v, a, b, hv, ha, hb, v0, a0, hab⟩ := hc
    obtain ⟨x, v, rfl⟩ := List.exists_cons_of_ne_nil v0
    obtain ⟨y, a, rfl⟩ := List.exists_cons_of_ne_nil a0
    cases b with
    | nil => simp at hab
    | cons z b =>
      exact ⟨r1.range ⟨x, f, by simp, _, hv, by simp⟩, r2.range ⟨y, f, by simp, _, ha, by simp⟩,
        r3.range ⟨z, f, by simp, _, hb, by simp⟩, r4.range ⟨_, f, by simp, _, _, ha, hb, 0, y, z, rfl, rfl, rfl⟩⟩

/-- C95: the first cell on which the combination fails, or on which it has no interior values or gradients or there are no
interior points, ends the construction with an error. -/
theorem C95_errors {combo : ℤ → Py LocPoisson} {cells : List ℤ} {fs : List LocPoisson}
    (h : List.Forall₂ (fun c f => combo c = .ok f ∧ f.Drawable) cells fs) (c : ℤ) (rest : List ℤ) :
    (∀ e, combo c = .error e → buildGlobal combo (cells ++ c :: rest) = .error e) ∧
    ∀ f, combo c = .ok f → (f.intVals = none ∨ f.intVals = some [] ∨ f.intGrad1 = none ∨ f.intGrad2 = none) →
      buildGlobal combo (cells ++ c :: rest) = .error .valueError := by
  obtain ⟨R, hR, -⟩ := buildLoop_ok h [] {} ⟨Or.inl ⟨by simp [valuesOf], rfl⟩, Or.inl ⟨by simp [grad1Of], rfl⟩,
    Or.inl ⟨by simp [grad2Of], rfl⟩, Or.inl ⟨by simp [normOf], rfl⟩⟩
  refine ⟨fun e he => ?_, fun f hf hb => ?_⟩
  · rw [buildGlobal, hR, buildLoop, he]; rfl
  · rw [buildGlobal, hR, buildLoop, hf, py_ok_bind]
    have hr : ∀ (o : Option (List ℝ)) r, (∃ s, rangeOnCell o r = .ok s) ∨ rangeOnCell o r = .error .valueError := by
      intro o r
      cases o with
      | none => exact Or.inr rfl
      | some l =>
        cases l with
        | nil => exact Or.inr rfl
        | cons x l => exact Or.inl ⟨_, rfl⟩
    rcases hr f.intVals R.vals with ⟨s1, h1⟩ | h1
    · rcases hr f.intGrad1 R.grad1 with ⟨s2, h2⟩ | h2
      · rcases hr f.intGrad2 R.grad2 with ⟨s3, h3⟩ | h3
        · exfalso
          rcases hb with hb | hb | hb | hb
          · rw [hb] at h1; cases h1
          · rw [hb] at h1; cases h1
          · rw [hb] at h2; cases h2
          · rw [hb] at h3; cases h3
        · simp only [h1, h2, h3, py_ok_bind, py_error_bind]
      · simp only [h1, h2, py_ok_bind, py_error_bind]
    · simp only [h1, py_error_bind]

/-- C95 is violated: on the disc with its centre as interior point, the plot of `x + 1` shows the value `2` at the sample
`(1, 0)` of the boundary, but the colour range is from `1` to `1`. -/
theorem C95_violated (test : PathTest) : ∃ (f : LocPoisson) (T : Triangulated) (R : Ranges),
    f.Holds centredDisc Set.univ (fun x _ => x + 1) ∧
    centredDisc.buildTriangulation test (fun _ _ => .ok [(0, 1, 2)]) = .ok T ∧
    buildGlobal (fun _ => .ok f) [0] = .ok ([f], R) ∧ R.vals = (((1 : ℝ) : EReal), ((1 : ℝ) : EReal)) ∧
    ∃ vals mask, drawLocal f T true "values" false = (f, .ok (vals, mask)) ∧ vals[1]? = some (some 2) := by
  have hlen : centredDisc.cloud.length = 5 := by simp [centredDisc, CellG.cloud, discCell, CellG.cols, cross_cols, crossPt]
  obtain ⟨T, hT, hO, -⟩ := built_of centred_ready rfl test (delaunay := fun _ _ => .ok [(0, 1, 2)]) (ts := [(0, 1, 2)])
    ⟨rfl, by simp [hlen]⟩
  obtain ⟨f, -, hh, hi, h1, h2⟩ := centred_poisson 1
  obtain ⟨R, hR, ⟨lo, hi', hv, hl, hg⟩, -⟩ := C95_range_partial (combo := fun _ => .ok f) (cells := [0]) (fs := [f]) (by simp)
    (by simp only [List.forall₂_cons, List.Forall₂.nil, and_true, true_and]; exact ⟨[1], [1], [0], hi, h1, h2, by simp, by simp, rfl⟩)
  have hset : valuesOf [f] = {1} := by ext x; simp [valuesOf, hi]
  rw [hset] at hl hg
  have e1 : lo = 1 := hl.1
  have e2 : hi' = 1 := hg.1
  subst e1; subst e2
  refine ⟨f, T, R, hh, hT, hR, hv, _, _, (C91_values_partial hO hh (by rw [hi]; simp [CellG.interiorOf, centredDisc])).1, ?_⟩
  simp [centredDisc, CellG.cloud, discCell, CellG.cols, cross_cols, crossPt]
  norm_num

end PFEM
