import Mathlib.Algebra.Order.Ring.Cast
import Mathlib.Algebra.Order.Field.Basic
import Mathlib.Tactic.Ring
import Mathlib.Tactic.Linarith
import Verif.Spec.Pegboard

/-!
Closed form of the lists made by the loops of `pegboard`.
-/

namespace PFEM
namespace Pegboard
open Peg

variable {K : Type} [Field K] [LinearOrder K]

theorem grid_length {α : Type} (m n : ℕ) (f : ℕ → ℕ → α) :
    ((List.range m).flatMap fun i => (List.range n).map (f i)).length = m * n := by
  induction m with
  | zero => simp
  | succ m ih => rw [List.range_succ, List.flatMap_append, List.length_append, ih]; simp [Nat.succ_mul]

theorem grid_get {α : Type} (m n : ℕ) (f : ℕ → ℕ → α) {i j : ℕ} (hi : i < m) (hj : j < n) :
    ((List.range m).flatMap fun i => (List.range n).map (f i))[i * n + j]? = some (f i j) := by
  induction m with
  | zero => omega
  | succ m ih =>
    rw [List.range_succ, List.flatMap_append]
    by_cases him : i < m
    · have : i * n + j < m * n := by
        calc i * n + j < i * n + n := by omega
          _ = (i + 1) * n := by ring
          _ ≤ m * n := Nat.mul_le_mul_right _ him
      rw [List.getElem?_append_left (by rw [grid_length]; exact this), ih him]
    · have : i = m := by omega
      subst this
      rw [List.getElem?_append_right (by rw [grid_length]; omega), grid_length]
      simp [hj]

theorem number_get (l : List (K × K)) (k n : ℕ) :
    (number k l)[n]? = l[n]?.map fun p => ⟨p.1, p.2, ((k + n : ℕ) : ℤ)⟩ := by
  induction l generalizing k n with
  | nil => simp [number]
  | cons p l ih =>
    cases n with
    | zero => simp [number]
    | succ n =>
      simp only [number, List.getElem?_cons_succ, ih]
      have : k + 1 + n = k + (n + 1) := by omega
      rw [this]

/-- the vertices that `pegboard` makes -/
def pegVerts (a b : ℕ) (h radius : K) : List (PVert K) :=
  number 0 (((List.range (a + 1)).flatMap fun (i : ℕ) => (List.range (b + 1)).map fun (j : ℕ) => (h * (j : K), h * (i : K))) ++
    if radius ≤ 0 then [] else (List.range a).flatMap fun (i : ℕ) => (List.range b).map fun (j : ℕ) =>
      (h * ((j : K) + 1 / 2), h * ((i : K) + 1 / 2)))

theorem get_corner {a b : ℕ} {h radius : K} {i j : ℕ} (hi : i ≤ a) (hj : j ≤ b) :
    Np.get (pegVerts a b h radius) (i * (b + 1) + j) = .ok (corner h b i j) := by
  have hg := grid_get (a + 1) (b + 1) (fun (i j : ℕ) => (h * (j : K), h * (i : K))) (i := i) (j := j) (by omega) (by omega)
  have hlt : i * (b + 1) + j < (a + 1) * (b + 1) := by
    calc i * (b + 1) + j < i * (b + 1) + (b + 1) := by omega
      _ = (i + 1) * (b + 1) := by ring
      _ ≤ _ := Nat.mul_le_mul_right _ (by omega)
  rw [Np.get, pegVerts, number_get, List.getElem?_append_left (by rw [grid_length]; exact hlt), hg]
  simp [corner]

theorem get_centre {a b : ℕ} {h radius : K} (hr : ¬ radius ≤ 0) {i j : ℕ} (hi : i < a) (hj : j < b) :
    Np.get (pegVerts a b h radius) ((a + 1) * (b + 1) + i * b + j) = .ok (centre h a b i j) := by
  have hg := grid_get a b (fun (i j : ℕ) => (h * ((j : K) + 1 / 2), h * ((i : K) + 1 / 2))) hi hj
  rw [Np.get, pegVerts, number_get, List.getElem?_append_right (by rw [grid_length]; omega), grid_length, if_neg hr,
    show (a + 1) * (b + 1) + i * b + j - (a + 1) * (b + 1) = i * b + j by omega, hg]
  simp [centre, add_assoc]

/-- the edges made in row `i` -/
def rowList (h : K) (a b i : ℕ) : List (PegEdge K) :=
  ((List.range b).flatMap fun j => [⟨hor h a b i j, none⟩, ⟨ver h b i j, none⟩]) ++ [⟨ver h b i b, none⟩]

/-- the edges made at the top -/
def topList (h : K) (a b : ℕ) : List (PegEdge K) := (List.range b).map fun j => ⟨hor h a b a j, none⟩

/-- the circles -/
def circleList (h r : K) (a b : ℕ) : List (PegEdge K) :=
  (List.range a).flatMap fun i => (List.range b).map fun j => ⟨circ h a b i j, some (r * h)⟩

theorem cellLoop_eq {a b : ℕ} {h radius : K} {i : ℕ} (hi : i < a) : ∀ (js : List ℕ) (cell : Option ℤ), (∀ j ∈ js, j < b) →
    cellLoop (pegVerts a b h radius) b i cell js =
      .ok (js.flatMap fun j => [⟨hor h a b i j, none⟩, ⟨ver h b i j, none⟩],
        match js.getLast? with | some j => some (square b i j) | none => cell)
  | [], cell, _ => rfl
  | j :: js, cell, hj => by
    have hjb := hj j (by simp)
    have ih := cellLoop_eq (h := h) (radius := radius) hi js (some (square b i j)) fun j hj' => hj j (by simp [hj'])
    have e1 := get_corner (h := h) (radius := radius) (i := i) (j := j) hi.le hjb.le
    have e2 := get_corner (h := h) (radius := radius) (i := i) (j := j + 1) hi.le hjb
    have e3 := get_corner (h := h) (radius := radius) (i := i + 1) (j := j) hi hjb.le
    rw [← add_assoc] at e2
    simp only [square] at ih
    simp only [cellLoop, e1, e2, e3, ih, bind, Except.bind, List.flatMap_cons, List.cons_append, List.nil_append]
    have h1 : line (corner h b i j) (corner h b i (j + 1)) ((i : ℤ) * b + j) (if i = 0 then -1 else (i : ℤ) * b + j - b) =
        ⟨hor h a b i j, none⟩ := by
      simp only [line, hor, hi, if_true, square]
      congr 2
      by_cases h0 : i = 0
      · simp [h0]
      · rw [if_neg h0, if_pos (by omega), Nat.cast_sub (by omega)]
        push_cast
        ring
    have h2 : line (corner h b i j) (corner h b (i + 1) j) (if j = 0 then -1 else (i : ℤ) * b + j - 1) ((i : ℤ) * b + j) =
        ⟨ver h b i j, none⟩ := by
      simp only [line, ver, hjb, if_true, square]
      congr 2
      by_cases h0 : j = 0
      · simp [h0]
      · rw [if_neg h0, if_pos (by omega), Nat.cast_sub (by omega)]
        push_cast
        ring
    rw [h1, h2]
    congr 2
    cases js with
    | nil => simp [square]
    | cons k js =>
      rw [List.getLast?_cons_cons]
      obtain ⟨l, hl⟩ : ∃ l, (k :: js).getLast? = some l := ⟨_, List.getLast?_eq_some_getLast (by simp)⟩
      simp [hl, square]

theorem rowLoop_eq {a b : ℕ} (hb : 0 < b) {h radius : K} : ∀ (is : List ℕ) (cell : Option ℤ), (∀ i ∈ is, i < a) →
    rowLoop (pegVerts a b h radius) b cell is = .ok (is.flatMap (rowList h a b))
  | [], cell, _ => rfl
  | i :: is, cell, hi => by
    have hia := hi i (by simp)
    have hl : (List.range b).getLast? = some (b - 1) := by
      obtain ⟨b, rfl⟩ : ∃ c, b = c + 1 := ⟨b - 1, by omega⟩
      simp [List.range_succ]
    simp only [rowLoop, bind, Except.bind]
    rw [cellLoop_eq hia _ _ (by simp), get_corner hia.le le_rfl, get_corner (show i + 1 ≤ a from hia) le_rfl, hl]
    simp only
    rw [rowLoop_eq hb is _ fun i hi' => hi i (by simp [hi'])]
    simp only [List.flatMap_cons, rowList, List.append_assoc, List.cons_append, List.nil_append]
    congr 3
    simp [line, ver, hb]

theorem topLoop_eq {a b : ℕ} (ha : 0 < a) {h radius : K} : ∀ (js : List ℕ), (∀ j ∈ js, j < b) →
    topLoop (pegVerts a b h radius) a b js = .ok (js.map fun j => ⟨hor h a b a j, none⟩)
  | [], _ => rfl
  | j :: js, hj => by
    have hjb := hj j (by simp)
    have e2 := get_corner (a := a) (h := h) (radius := radius) (i := a) (j := j + 1) le_rfl hjb
    rw [← add_assoc] at e2
    simp only [topLoop, get_corner le_rfl hjb.le, e2, bind, Except.bind,
      topLoop_eq ha js fun j hj' => hj j (by simp [hj']), List.map_cons]
    congr 2
    simp [line, hor, ha, square, Nat.cast_sub (show 1 ≤ a from ha)]

theorem circleLoop_eq {a b : ℕ} {h radius : K} (hr : ¬ radius ≤ 0) (ρ : K) : ∀ (l : List (ℕ × ℕ)), (∀ q ∈ l, q.1 < a ∧ q.2 < b) →
    circleLoop (pegVerts a b h radius) a b ρ l = .ok (l.map fun q => ⟨circ h a b q.1 q.2, some ρ⟩)
  | [], _ => rfl
  | (i, j) :: l, hq => by
    obtain ⟨hi, hj⟩ := hq (i, j) (by simp)
    simp only [circleLoop, bind, Except.bind, get_centre hr hi hj,
      circleLoop_eq hr ρ l fun q hq' => hq q (by simp [hq']), List.map_cons]
    rfl

/-- all edges, in the order in which they are made -/
def edgeList (h radius : K) (a b : ℕ) : List (PegEdge K) :=
  ((List.range a).flatMap (rowList h a b)) ++ topList h a b ++ if radius ≤ 0 then [] else circleList h radius a b

theorem getEdges_eq {a b : ℕ} (ha : 0 < a) (hb : 0 < b) {radius : K} :
    getEdges (pegVerts a b (1 / ((max a b : ℕ) : K)) radius) a b radius =
      .ok (edgeList (1 / ((max a b : ℕ) : K)) radius a b) := by
  have hs : (side a b : Py K) = .ok (1 / ((max a b : ℕ) : K)) := by
    rw [side, if_neg (by have := le_max_left a b; omega)]
  simp only [getEdges, hs, bind, Except.bind, rowLoop_eq (a := a) hb (List.range a) none (by simp),
    topLoop_eq (b := b) ha (List.range b) (by simp)]
  split
  · next hr => simp [edgeList, topList, hr]
  · next hr =>
    rw [circleLoop_eq hr _ _ (by
      rintro ⟨i, j⟩ hq
      simp only [List.mem_flatMap, List.mem_range, List.mem_map, Prod.mk.injEq] at hq
      obtain ⟨i', hi, j', hj, rfl, rfl⟩ := hq
      exact ⟨hi, hj⟩)]
    simp [edgeList, topList, circleList, hr, List.map_flatMap, Function.comp_def]

theorem getPoints_eq {a b : ℕ} (ha : 0 < a) {radius : K} :
    ∃ pts, getPoints a b radius = .ok pts ∧ number 0 pts = pegVerts a b (1 / ((max a b : ℕ) : K)) radius := by
  have hs : (side a b : Py K) = .ok (1 / ((max a b : ℕ) : K)) := by
    rw [side, if_neg (by have := le_max_left a b; omega)]
  simp only [getPoints, hs, bind, Except.bind]
  split
  · next hr => exact ⟨_, rfl, by simp [pegVerts, hr]⟩
  · next hr => exact ⟨_, rfl, by simp [pegVerts, hr]⟩

end Pegboard
end PFEM
