import Verif.Spec.Masks
import Verif.Lemmas.Boundary
import Verif.Props.Interior

/-!
The masks of the triangulation in terms of the polygons of a cell.
-/

namespace PFEM
namespace Masks

theorem exists_cons {α : Type} {a : α} {l : List α} {p : α → Prop} : (∃ x ∈ a :: l, p x) ↔ p a ∨ ∃ x ∈ l, p x := by simp

theorem pointOnPath_iff (x y : ℝ) (P : List (ℝ × ℝ)) : pointOnPath x y (P.map Prod.fst) (P.map Prod.snd) = true ↔
    (∃ q ∈ P, q.1 = x) ∧ (∃ q ∈ P, q.2 = y) := by
  simp [pointOnPath]

theorem pointOnHoles_iff (x y : ℝ) : ∀ Ps : List (List (ℝ × ℝ)),
    pointOnHoles x y (Ps.map fun P => (P.map Prod.fst, P.map Prod.snd)) = true ↔
      ∃ P ∈ Ps, (∃ q ∈ P, q.1 = x) ∧ (∃ q ∈ P, q.2 = y)
  | [] => by simp [pointOnHoles]
  | P :: Ps => by
    have ih := pointOnHoles_iff x y Ps
    simp only [List.map_cons, pointOnHoles, exists_cons]
    rw [← pointOnPath_iff, ← ih]
    by_cases h : pointOnPath x y (P.map Prod.fst) (P.map Prod.snd) = true <;> simp [h]

theorem pointOnBoundary_iff (x y : ℝ) (P : List (ℝ × ℝ)) (Ps : List (List (ℝ × ℝ))) :
    pointOnBoundary x y (P.map Prod.fst) (P.map Prod.snd) (Ps.map (List.map Prod.fst)) (Ps.map (List.map Prod.snd)) = true ↔
      ∃ Q ∈ P :: Ps, (∃ q ∈ Q, q.1 = x) ∧ (∃ q ∈ Q, q.2 = y) := by
  simp only [pointOnBoundary, List.zip_map', exists_cons]
  rw [← pointOnPath_iff, ← pointOnHoles_iff]
  by_cases h : pointOnPath x y (P.map Prod.fst) (P.map Prod.snd) = true <;> simp [h]

theorem np_get {α : Type} {l : List α} {i : ℕ} {a : α} (h : l[i]? = some a) : Np.get l i = .ok a := by
  simp [Np.get, h]

theorem get_fst {l : List (ℝ × ℝ)} {i : ℕ} {p : ℝ × ℝ} (h : l[i]? = some p) : Np.get (l.map Prod.fst) i = .ok p.1 :=
  np_get (by simp [h])

theorem get_snd {l : List (ℝ × ℝ)} {i : ℕ} {p : ℝ × ℝ} (h : l[i]? = some p) : Np.get (l.map Prod.snd) i = .ok p.2 :=
  np_get (by simp [h])

theorem cornerLoop_ok (cl : List (ℝ × ℝ)) (ts) (ox oy hx hy) : ∀ (l : List ℕ) (m : Bool), (∀ a ∈ l, a < cl.length) →
    ∃ b, cornerLoop ⟨cl.map Prod.fst, cl.map Prod.snd, ts⟩ ox oy hx hy m l = .ok b ∧
      (b = true ↔ m = true ∨ ∃ a ∈ l, ∃ p, cl[a]? = some p ∧ pointOnBoundary p.1 p.2 ox oy hx hy = true)
  | [], m, _ => ⟨m, rfl, by simp⟩
  | a :: l, m, h => by
    have hl : ∀ a ∈ l, a < cl.length := fun a ha => h a (by simp [ha])
    have ha := h a (by simp)
    have hp : cl[a]? = some cl[a] := List.getElem?_eq_getElem ha
    unfold cornerLoop
    by_cases hm : m = true
    · obtain ⟨b, hb, hi⟩ := cornerLoop_ok cl ts ox oy hx hy l m hl
      refine ⟨b, by rw [if_pos hm, hb], ?_⟩
      rw [hi]; simp [hm]
    · obtain ⟨b, hb, hi⟩ := cornerLoop_ok cl ts ox oy hx hy l (pointOnBoundary cl[a].1 cl[a].2 ox oy hx hy) hl
      refine ⟨b, by rw [if_neg hm]; simp only [get_fst hp, get_snd hp, py_ok_bind]; exact hb, ?_⟩
      rw [hi, exists_cons]
      simp only [hm, Bool.false_eq_true, false_or, hp, Option.some.injEq, exists_eq_left']

theorem norm2_lt {a b r : ℝ} (hr : 0 < r) : norm2 a b < r ↔ a ^ 2 + b ^ 2 < r ^ 2 := by
  rw [norm2, Real.sqrt_lt' hr]

theorem onSegment_iff {ex ey : ℝ × ℝ} {a b : ℝ × ℝ} {r : ℝ} (hr : 0 < r) :
    onSegment ex ey a.1 a.2 b.1 b.2 r = true ↔
      SameVector r a b (ex.1, ey.1) (ex.2, ey.2) ∨ SameVector r a b (ex.2, ey.2) (ex.1, ey.1) := by
  have e1 : b.1 - a.1 + (ex.2 - ex.1) = b.1 - a.1 - (ex.1 - ex.2) := by ring
  have e2 : b.2 - a.2 + (ey.2 - ey.1) = b.2 - a.2 - (ey.1 - ey.2) := by ring
  simp only [onSegment, norm2_lt hr, SameVector, e1, e2]
  split_ifs with h1 h2
  · simp [h1]
  · simp [h2]
  · simp only [false_iff, not_or]; exact ⟨h1, h2⟩

theorem onPathLoop_ok (ex ey : ℝ × ℝ) (P : List (ℝ × ℝ)) {r : ℝ} (hr : 0 < r) : ∀ l : List ℕ, (∀ i ∈ l, i < P.length) →
    ∃ b, onPathLoop ex ey (P.map Prod.fst) (P.map Prod.snd) r l = .ok b ∧
      (b = true ↔ ∃ i ∈ l, ∃ p q, P[i]? = some p ∧ P[(i + 1) % P.length]? = some q ∧
        (SameVector r p q (ex.1, ey.1) (ex.2, ey.2) ∨ SameVector r p q (ex.2, ey.2) (ex.1, ey.1)))
  | [], _ => ⟨false, rfl, by simp⟩
  | i :: l, h => by
    have hi := h i (by simp)
    obtain ⟨b, hb, hiff⟩ := onPathLoop_ok ex ey P hr l fun a ha => h a (by simp [ha])
    have hj : (i + 1) % P.length < P.length := Nat.mod_lt _ (by omega)
    have hp : P[i]? = some P[i] := List.getElem?_eq_getElem hi
    have hq : P[(i + 1) % P.length]? = some P[(i + 1) % P.length] := List.getElem?_eq_getElem hj
    have e : ∀ b', (if onSegment ex ey P[i].1 P[i].2 P[(i + 1) % P.length].1 P[(i + 1) % P.length].2 r = true then
        (.ok true : Py Bool) else onPathLoop ex ey (P.map Prod.fst) (P.map Prod.snd) r l) = .ok b' →
        onPathLoop ex ey (P.map Prod.fst) (P.map Prod.snd) r (i :: l) = .ok b' := by
      intro b' hb'
      rw [onPathLoop, List.length_map]
      simp only [get_fst hp, get_snd hp, get_fst hq, get_snd hq, py_ok_bind]
      exact hb'
    by_cases hs : onSegment ex ey P[i].1 P[i].2 P[(i + 1) % P.length].1 P[(i + 1) % P.length].2 r = true
    · refine ⟨true, e _ (if_pos hs), ?_⟩
      simp only [true_iff]
      exact ⟨i, by simp, _, _, hp, hq, (onSegment_iff hr).1 hs⟩
    · refine ⟨b, e _ (by rw [if_neg hs, hb]), ?_⟩
      rw [hiff, exists_cons]
      constructor
      · exact Or.inr
      · rintro (⟨p, q, hp', hq', h'⟩ | h')
        · rw [hp] at hp'; rw [hq] at hq'; cases hp'; cases hq'
          exact absurd ((onSegment_iff hr).2 h') hs
        · exact h'

/-- some side of the polygon has the same vector, in one of the two directions -/
def Para (r : ℝ) (p q : ℝ × ℝ) (P : List (ℝ × ℝ)) : Prop :=
  ∃ a b, Segment P a b ∧ (SameVector r a b p q ∨ SameVector r a b q p)

theorem edgeOnPath_ok (p q : ℝ × ℝ) (P : List (ℝ × ℝ)) {r : ℝ} (hr : 0 < r) :
    ∃ b, edgeOnPath (p.1, q.1) (p.2, q.2) (P.map Prod.fst) (P.map Prod.snd) r = .ok b ∧ (b = true ↔ Para r p q P) := by
  obtain ⟨b, hb, h⟩ := onPathLoop_ok (p.1, q.1) (p.2, q.2) P hr (List.range P.length) (by simp)
  refine ⟨b, by rw [edgeOnPath, List.length_map, hb], h.trans ?_⟩
  constructor
  · rintro ⟨i, -, a, c, ha, hc, h⟩; exact ⟨a, c, ⟨i, ha, hc⟩, h⟩
  · rintro ⟨a, c, ⟨i, ha, hc⟩, h⟩
    exact ⟨i, List.mem_range.2 (List.getElem?_eq_some_iff.1 ha).1, a, c, ha, hc, h⟩

theorem edgeOnHoles_ok (p q : ℝ × ℝ) {r : ℝ} (hr : 0 < r) : ∀ Ps : List (List (ℝ × ℝ)),
    ∃ b, edgeOnHoles (p.1, q.1) (p.2, q.2) r (Ps.map fun P => (P.map Prod.fst, P.map Prod.snd)) = .ok b ∧
      (b = true ↔ ∃ P ∈ Ps, Para r p q P)
  | [] => ⟨false, rfl, by simp⟩
  | P :: Ps => by
    obtain ⟨b, hb, h⟩ := edgeOnPath_ok p q P hr
    obtain ⟨b', hb', h'⟩ := edgeOnHoles_ok p q hr Ps
    refine ⟨b || b', ?_, ?_⟩
    · simp only [List.map_cons, edgeOnHoles, hb, py_ok_bind, hb']
      cases b <;> simp
    · rw [exists_cons, ← h, ← h', Bool.or_eq_true]

theorem edgeOnBoundary_ok (p q : ℝ × ℝ) {r : ℝ} (hr : 0 < r) (P : List (ℝ × ℝ)) (Ps : List (List (ℝ × ℝ))) :
    ∃ b, edgeOnBoundary (p.1, q.1) (p.2, q.2) (P.map Prod.fst) (P.map Prod.snd) (Ps.map (List.map Prod.fst))
        (Ps.map (List.map Prod.snd)) r = .ok b ∧ (b = true ↔ ∃ Q ∈ P :: Ps, Para r p q Q) := by
  obtain ⟨b, hb, h⟩ := edgeOnPath_ok p q P hr
  obtain ⟨b', hb', h'⟩ := edgeOnHoles_ok p q hr Ps
  refine ⟨b || b', ?_, ?_⟩
  · simp only [edgeOnBoundary, hb, py_ok_bind, List.zip_map', hb']
    cases b <;> simp
  · rw [exists_cons, ← h, ← h', Bool.or_eq_true]

theorem zip_fst_snd (P : List (ℝ × ℝ)) : (P.map Prod.fst).zip (P.map Prod.snd) = P := by
  rw [List.zip_map']; simp

theorem pointInPath_ok (test : PathTest) (p : ℝ × ℝ) (P : List (ℝ × ℝ)) (r : ℝ) :
    pointInPath test p (P.map Prod.fst) (P.map Prod.snd) r = .ok (test P p r) := by
  simp [pointInPath, zip_fst_snd]

theorem pointOutsideHoles_ok (test : PathTest) (p : ℝ × ℝ) (r : ℝ) : ∀ Ps : List (List (ℝ × ℝ)),
    pointOutsideHoles test p r (Ps.map fun P => (P.map Prod.fst, P.map Prod.snd)) = .ok (Ps.all fun P => !test P p r)
  | [] => rfl
  | P :: Ps => by
    simp only [List.map_cons, pointOutsideHoles, pointInPath_ok, py_ok_bind, pointOutsideHoles_ok test p r Ps, List.all_cons]
    cases test P p r <;> simp

theorem pointInside_ok (test : PathTest) (p : ℝ × ℝ) (r : ℝ) (P : List (ℝ × ℝ)) (Ps : List (List (ℝ × ℝ))) :
    pointInside test p (P.map Prod.fst) (P.map Prod.snd) (Ps.map (List.map Prod.fst)) (Ps.map (List.map Prod.snd)) r =
      .ok (test P p r && Ps.all fun P => !test P p r) := by
  simp only [pointInside, pointInPath_ok, py_ok_bind, List.zip_map', pointOutsideHoles_ok]
  cases test P p r <;> simp

/-- the side from `p` to `q` passes: parallel to a boundary side, or its midpoint is inside -/
def Good (test : PathTest) (r : ℝ) (P : List (ℝ × ℝ)) (Ps : List (List (ℝ × ℝ))) (p q : ℝ × ℝ) : Prop :=
  (∃ Q ∈ P :: Ps, Para r p q Q) ∨ (test P (midPoint p q) r && Ps.all fun P => !test P (midPoint p q) r) = true

theorem sideLoop_ok (test : PathTest) (cl : List (ℝ × ℝ)) (ts) (P : List (ℝ × ℝ)) (Ps : List (List (ℝ × ℝ))) {r : ℝ}
    (hr : 0 < r) : ∀ (l : List (ℕ × ℕ)) (m : Bool), (∀ s ∈ l, s.1 < cl.length ∧ s.2 < cl.length) →
    ∃ b, sideLoop test ⟨cl.map Prod.fst, cl.map Prod.snd, ts⟩ (P.map Prod.fst) (P.map Prod.snd) (Ps.map (List.map Prod.fst))
        (Ps.map (List.map Prod.snd)) r m l = .ok b ∧
      (b = false ↔ m = false ∧ ∀ s ∈ l, ∀ p q, cl[s.1]? = some p → cl[s.2]? = some q → Good test r P Ps p q)
  | [], m, _ => ⟨m, rfl, by simp⟩
  | (i, j) :: l, m, h => by
    have hl : ∀ s ∈ l, s.1 < cl.length ∧ s.2 < cl.length := fun s hs => h s (by simp [hs])
    obtain ⟨h1, h2⟩ := h (i, j) (by simp)
    have hp : cl[i]? = some cl[i] := List.getElem?_eq_getElem h1
    have hq : cl[j]? = some cl[j] := List.getElem?_eq_getElem h2
    unfold sideLoop
    by_cases hm : m = true
    · obtain ⟨b, hb, hi⟩ := sideLoop_ok test cl ts P Ps hr l m hl
      refine ⟨b, by rw [if_pos hm, hb], ?_⟩
      rw [hi]; simp [hm]
    · have hm' : m = false := by simpa using hm
      obtain ⟨b1, hb1, h1'⟩ := edgeOnBoundary_ok cl[i] cl[j] hr P Ps
      have hmid : ((0.5 : ℝ) * (cl[i].1 + cl[j].1), (0.5 : ℝ) * (cl[i].2 + cl[j].2)) = midPoint cl[i] cl[j] := by
        simp only [midPoint, Prod.mk.injEq]; constructor <;> ring
      set g := (test P (midPoint cl[i] cl[j]) r && Ps.all fun P => !test P (midPoint cl[i] cl[j]) r) with hg
      obtain ⟨b, hb, hi⟩ := sideLoop_ok test cl ts P Ps hr l (!(b1 || g)) hl
      refine ⟨b, ?_, ?_⟩
      · rw [if_neg hm]
        simp only [get_fst hp, get_snd hp, get_fst hq, get_snd hq, py_ok_bind, hb1, hmid, pointInside_ok]
        cases b1
        · simpa [← hg] using hb
        · simpa [hm'] using hb
      · rw [hi]
        have hG : (!(b1 || g)) = false ↔ Good test r P Ps cl[i] cl[j] := by
          rw [Good, ← h1', ← hg]; cases b1 <;> cases g <;> simp
        rw [hG]
        constructor
        · rintro ⟨ha, hb⟩
          refine ⟨hm', fun s hs p q hp' hq' => ?_⟩
          rcases List.mem_cons.1 hs with rfl | hs
          · rw [hp] at hp'; rw [hq] at hq'; cases hp'; cases hq'; exact ha
          · exact hb s hs p q hp' hq'
        · rintro ⟨-, ha⟩
          exact ⟨ha (i, j) (by simp) _ _ hp hq, fun s hs => ha s (by simp [hs])⟩

end Masks
end PFEM
