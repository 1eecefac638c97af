import Verif.Lemmas.Pegboard
import Verif.Props.PlanarMesh
import Verif.Props.CellTopo

/-!
Property theorems C36 (pegboard meshes).
-/

namespace PFEM
namespace Pegboard
open Peg

variable {K : Type} [Field K] [LinearOrder K]

/-! ### which edges border a cell -/

theorem square_inj {b i j i' j' : ℕ} (hj : j < b) (hj' : j' < b) : square b i j = square b i' j' ↔ i = i' ∧ j = j' := by
  constructor
  · intro h
    have h : i * b + j = i' * b + j' := by unfold square at h; exact_mod_cast h
    have hi : i = i' := by
      have e1 : (i * b + j) / b = i := by rw [mul_comm, Nat.mul_add_div (by omega), Nat.div_eq_of_lt hj, add_zero]
      have e2 : (i' * b + j') / b = i' := by rw [mul_comm, Nat.mul_add_div (by omega), Nat.div_eq_of_lt hj', add_zero]
      rw [← e1, ← e2, h]
    subst hi
    exact ⟨rfl, by omega⟩
  · rintro ⟨rfl, rfl⟩; rfl

theorem square_nonneg (b i j : ℕ) : 0 ≤ square b i j := by unfold square; positivity

theorem square_lt {a b i j : ℕ} (hi : i < a) (hj : j < b) : square b i j < a * b := by
  unfold square
  have : i * b + j < a * b := by
    calc i * b + j < i * b + b := by omega
      _ = (i + 1) * b := by ring
      _ ≤ a * b := Nat.mul_le_mul_right _ hi
  exact_mod_cast this

theorem disk_eq (a b i j : ℕ) : disk a b i j = a * b + square b i j := rfl

theorem borders_iff (e : EdgeRec K) (c : ℤ) : e.borders c = true ↔ c = e.pos ∨ c = e.neg := by simp [EdgeRec.borders]

theorem borders_false (e : EdgeRec K) (c : ℤ) : e.borders c = false ↔ ¬ (c = e.pos ∨ c = e.neg) := by simp [EdgeRec.borders]

theorem hor_square {h : K} {a b i j i' j' : ℕ} (hi : i < a) (hj : j < b) (hj' : j' < b) :
    (hor h a b i' j').borders (square b i j) = true ↔ (i' = i ∧ j' = j) ∨ (i' = i + 1 ∧ j' = j) := by
  have := square_nonneg b i j
  rw [borders_iff]
  simp only [hor]
  constructor
  · rintro (h1 | h1)
    · split at h1
      · obtain ⟨rfl, rfl⟩ := (square_inj hj hj').1 h1; simp
      · omega
    · split at h1
      · obtain ⟨rfl, rfl⟩ := (square_inj hj hj').1 h1; right; omega
      · omega
  · rintro (⟨rfl, rfl⟩ | ⟨rfl, rfl⟩)
    · left; rw [if_pos hi]
    · right; simp

theorem ver_square {h : K} {a b i j i' j' : ℕ} (hj : j < b) (hj' : j' ≤ b) :
    (ver h b i' j').borders (square b i j) = true ↔ i' = i ∧ (j' = j ∨ j' = j + 1) := by
  have := square_nonneg b i j
  rw [borders_iff]
  simp only [ver]
  constructor
  · rintro (h1 | h1)
    · split at h1
      · obtain ⟨rfl, rfl⟩ := (square_inj hj (by omega)).1 h1; omega
      · omega
    · split at h1
      · next hlt => obtain ⟨rfl, rfl⟩ := (square_inj hj hlt).1 h1; simp
      · omega
  · rintro ⟨rfl, rfl | rfl⟩
    · right; rw [if_pos hj]
    · left; simp

theorem circ_square {h : K} {a b i j i' j' : ℕ} (hi : i < a) (hj : j < b) (hj' : j' < b) :
    (circ h a b i' j').borders (square b i j) = true ↔ i' = i ∧ j' = j := by
  have := square_lt hi hj
  have h2 := square_nonneg b i' j'
  rw [borders_iff]
  simp only [circ, disk_eq]
  constructor
  · rintro (h1 | h1)
    · omega
    · obtain ⟨rfl, rfl⟩ := (square_inj hj hj').1 h1; simp
  · rintro ⟨rfl, rfl⟩; right; rfl

theorem hor_disk {h : K} {a b i j i' j' : ℕ} (hi' : i' ≤ a) (hj' : j' < b) :
    (hor h a b i' j').borders (disk a b i j) = false := by
  have h0 := square_nonneg b i j
  rw [borders_false]
  simp only [hor, disk_eq, not_or]
  constructor
  · split
    · next hlt => have := square_lt hlt hj'; omega
    · have : (0 : ℤ) ≤ a * b := by positivity
      omega
  · split
    · have := square_lt (show i' - 1 < a by omega) hj'; omega
    · have : (0 : ℤ) ≤ a * b := by positivity
      omega

theorem ver_disk {h : K} {a b i j i' j' : ℕ} (hi' : i' < a) (hj' : j' ≤ b) :
    (ver h b i' j').borders (disk a b i j) = false := by
  have h0 := square_nonneg b i j
  rw [borders_false]
  simp only [ver, disk_eq, not_or]
  constructor
  · split
    · have := square_lt hi' (show j' - 1 < b by omega); omega
    · have : (0 : ℤ) ≤ a * b := by positivity
      omega
  · split
    · next hlt => have := square_lt hi' hlt; omega
    · have : (0 : ℤ) ≤ a * b := by positivity
      omega

theorem circ_disk {h : K} {a b i j i' j' : ℕ} (hi' : i' < a) (hj : j < b) (hj' : j' < b) :
    (circ h a b i' j').borders (disk a b i j) = true ↔ i' = i ∧ j' = j := by
  have := square_lt hi' hj'
  have h2 := square_nonneg b i j
  rw [borders_iff]
  simp only [circ, disk_eq, add_right_inj]
  constructor
  · rintro (h1 | h1)
    · obtain ⟨rfl, rfl⟩ := (square_inj hj hj').1 h1; simp
    · omega
  · rintro ⟨rfl, rfl⟩; left; rfl

/-! ### the edges of a cell, in order -/

theorem pick2 {α : Type} (n i : ℕ) (A B : List α) :
    ((List.range n).flatMap fun k => if k = i then A else if k = i + 1 then B else []) =
      (if i < n then A else []) ++ (if i + 1 < n then B else []) := by
  induction n with
  | zero => simp
  | succ n ih =>
    rw [List.range_succ, List.flatMap_append, ih]
    simp only [List.flatMap_cons, List.flatMap_nil, List.append_nil]
    have e1 : (i < n + 1) = (i < n ∨ n = i) := by ext; omega
    have e2 : (i + 1 < n + 1) = (i + 1 < n ∨ n = i + 1) := by ext; omega
    simp only [e1, e2]
    by_cases h1 : n = i
    · have : ¬ i < n := by omega
      have : ¬ i + 1 < n := by omega
      have : ¬ n = i + 1 := by omega
      simp [*]
    · by_cases h2 : n = i + 1
      · have : i < n := by omega
        have : ¬ i + 1 < n := by omega
        simp [*]
      · simp [h1, h2]

theorem filter_flatMap_eq {α : Type} (n : ℕ) (f : ℕ → List α) (p : α → Bool) (g : ℕ → List α)
    (h : ∀ k < n, (f k).filter p = g k) : ((List.range n).flatMap f).filter p = (List.range n).flatMap g := by
  rw [List.filter_flatMap]
  exact List.flatMap_congr fun k hk => h k (List.mem_range.1 hk)

/-- the test for an edge of a cell -/
def bord (c : ℤ) (e : PegEdge K) : Bool := e.topo.borders c

theorem row_filter {h : K} {a b i j i' : ℕ} (hi : i < a) (hj : j < b) :
    (rowList h a b i').filter (bord (square b i j)) =
      if i' = i then [⟨hor h a b i j, none⟩, ⟨ver h b i j, none⟩, ⟨ver h b i (j + 1), none⟩]
      else if i' = i + 1 then [⟨hor h a b (i + 1) j, none⟩] else [] := by
  rw [rowList, List.filter_append]
  split
  · next h1 =>
    subst h1
    rw [filter_flatMap_eq b _ _ fun k => if k = j then [⟨hor h a b i' j, none⟩, ⟨ver h b i' j, none⟩] else
      if k = j + 1 then [⟨ver h b i' (j + 1), none⟩] else []]
    · rw [pick2, if_pos hj]
      by_cases hb : j + 1 < b
      · have : bord (square b i' j) (⟨ver h b i' b, none⟩ : PegEdge K) = false := by
          rw [Bool.eq_false_iff, bord, Ne, ver_square (a := a) hj le_rfl]; omega
        simp [hb, this]
      · have hb : b = j + 1 := by omega
        have : bord (square b i' j) (⟨ver h b i' b, none⟩ : PegEdge K) = true := by
          rw [bord, ver_square (a := a) hj le_rfl]; omega
        simp only [List.filter_cons, this, if_true, List.filter_nil]
        rw [if_neg (by omega)]
        simp [hb]
    · intro k hk
      have e1 : bord (square b i' j) (⟨hor h a b i' k, none⟩ : PegEdge K) = decide (k = j) := by
        rw [Bool.eq_iff_iff, bord, hor_square hi hj hk]; simp
      have e2 : bord (square b i' j) (⟨ver h b i' k, none⟩ : PegEdge K) = decide (k = j ∨ k = j + 1) := by
        rw [Bool.eq_iff_iff, bord, ver_square (a := a) hj hk.le]; simp
      simp only [List.filter_cons, e1, e2, List.filter_nil, decide_eq_true_eq]
      rcases eq_or_ne k j with rfl | h1
      · simp
      · rcases eq_or_ne k (j + 1) with rfl | h2
        · simp
        · simp [h1, h2]
  · next h1 =>
    have ev : ∀ k ≤ b, bord (square b i j) (⟨ver h b i' k, none⟩ : PegEdge K) = false := by
      intro k hk
      rw [Bool.eq_false_iff, bord, Ne, ver_square (a := a) hj hk]; omega
    simp only [List.filter_cons, ev b le_rfl, List.filter_nil]
    rw [filter_flatMap_eq b _ _ fun k => if k = j then (if i' = i + 1 then [⟨hor h a b (i + 1) j, none⟩] else []) else
      if k = j + 1 then [] else []]
    · rw [pick2, if_pos hj]
      simp
    · intro k hk
      have e1 : bord (square b i j) (⟨hor h a b i' k, none⟩ : PegEdge K) = decide (i' = i + 1 ∧ k = j) := by
        rw [Bool.eq_iff_iff, bord, hor_square hi hj hk]; simp [h1]
      simp only [List.filter_cons, e1, ev k hk.le, List.filter_nil, decide_eq_true_eq]
      rcases eq_or_ne k j with rfl | h2
      · rcases eq_or_ne i' (i + 1) with rfl | h3
        · simp
        · simp [h3]
      · simp [h2]

theorem circle_filter {h r : K} {a b i j : ℕ} {c : ℤ} (hi : i < a) (hj : j < b)
    (hc : ∀ i' < a, ∀ j' < b, (circ h a b i' j').borders c = true ↔ i' = i ∧ j' = j) :
    (circleList h r a b).filter (bord c) = [⟨circ h a b i j, some (r * h)⟩] := by
  rw [circleList, filter_flatMap_eq a _ _ fun k => if k = i then [⟨circ h a b i j, some (r * h)⟩] else if k = i + 1 then [] else []]
  · rw [pick2, if_pos hi]; simp
  · intro k hk
    have : ((List.range b).map fun j => (⟨circ h a b k j, some (r * h)⟩ : PegEdge K)) =
        (List.range b).flatMap fun j => [⟨circ h a b k j, some (r * h)⟩] := by
      rw [← List.flatMap_singleton' (l := List.map _ _), List.flatMap_map]
    rw [this, filter_flatMap_eq b _ _ fun l => if l = j then (if k = i then [⟨circ h a b i j, some (r * h)⟩] else []) else
      if l = j + 1 then [] else []]
    · rw [pick2, if_pos hj]; simp
    · intro l hl
      have e1 : bord c (⟨circ h a b k l, some (r * h)⟩ : PegEdge K) = decide (k = i ∧ l = j) := by
        rw [Bool.eq_iff_iff, bord, hc k hk l hl]; simp
      simp only [List.filter_cons, e1, List.filter_nil, decide_eq_true_eq]
      rcases eq_or_ne l j with rfl | h2
      · rcases eq_or_ne k i with rfl | h3
        · simp
        · simp [h3]
      · simp [h2]

theorem top_filter {h : K} {a b i j : ℕ} (hi : i < a) (hj : j < b) :
    (topList h a b).filter (bord (square b i j)) = if a = i + 1 then [⟨hor h a b (i + 1) j, none⟩] else [] := by
  have : topList h a b = (List.range b).flatMap fun j => [⟨hor h a b a j, none⟩] := by
    rw [topList, ← List.flatMap_singleton' (l := List.map _ _), List.flatMap_map]
  rw [this, filter_flatMap_eq b _ _ fun k => if k = j then (if a = i + 1 then [⟨hor h a b (i + 1) j, none⟩] else []) else
    if k = j + 1 then [] else []]
  · rw [pick2, if_pos hj]; simp
  · intro k hk
    have e1 : bord (square b i j) (⟨hor h a b a k, none⟩ : PegEdge K) = decide (a = i + 1 ∧ k = j) := by
      rw [Bool.eq_iff_iff, bord, hor_square hi hj hk]; simp; omega
    simp only [List.filter_cons, e1, List.filter_nil, decide_eq_true_eq]
    rcases eq_or_ne k j with rfl | h2
    · by_cases h3 : a = i + 1
      · rw [if_pos ⟨h3, rfl⟩, if_pos rfl, if_pos h3, ← h3]
      · rw [if_neg (fun h => h3 h.1), if_pos rfl, if_neg h3]
    · simp [h2]

theorem square_filter {h r : K} {a b i j : ℕ} (hi : i < a) (hj : j < b) :
    (edgeList h r a b).filter (bord (square b i j)) =
      [⟨hor h a b i j, none⟩, ⟨ver h b i j, none⟩, ⟨ver h b i (j + 1), none⟩, ⟨hor h a b (i + 1) j, none⟩] ++
        (if r ≤ 0 then [] else [⟨circ h a b i j, some (r * h)⟩]) := by
  rw [edgeList, List.filter_append, List.filter_append, top_filter hi hj,
    filter_flatMap_eq a _ _ _ (fun k _ => row_filter (i' := k) hi hj), pick2, if_pos hi]
  have hc : (if r ≤ 0 then [] else circleList h r a b).filter (bord (square b i j)) =
      if r ≤ 0 then [] else [⟨circ h a b i j, some (r * h)⟩] := by
    split
    · rfl
    · exact circle_filter hi hj fun i' hi' j' hj' => circ_square hi hj hj'
  rw [hc]
  by_cases h1 : i + 1 < a
  · rw [if_pos h1, if_neg (by omega)]; simp
  · rw [if_neg h1, if_pos (by omega)]; simp

theorem disk_filter {h r : K} (hr : ¬ r ≤ 0) {a b i j : ℕ} (hi : i < a) (hj : j < b) :
    (edgeList h r a b).filter (bord (disk a b i j)) = [⟨circ h a b i j, some (r * h)⟩] := by
  rw [edgeList, List.filter_append, List.filter_append, if_neg hr,
    circle_filter hi hj fun i' hi' j' hj' => circ_disk hi' hj hj']
  have h1 : ((List.range a).flatMap (rowList h a b)).filter (bord (disk a b i j)) = [] := by
    rw [List.filter_eq_nil_iff]
    intro e he
    simp only [List.mem_flatMap, List.mem_range, rowList, List.mem_append, List.mem_cons, List.not_mem_nil, or_false] at he
    obtain ⟨i', hi', ⟨j', hj', rfl | rfl⟩ | rfl⟩ := he
    · rw [bord, hor_disk hi'.le hj']; simp
    · rw [bord, ver_disk hi' hj'.le]; simp
    · rw [bord, ver_disk hi' le_rfl]; simp
  have h2 : (topList h a b).filter (bord (disk a b i j)) = [] := by
    rw [List.filter_eq_nil_iff]
    intro e he
    simp only [topList, List.mem_map, List.mem_range] at he
    obtain ⟨j', hj', rfl⟩ := he
    rw [bord, hor_disk le_rfl hj']; simp
  rw [h1, h2]; rfl

/-! ### the mesh -/

theorem range_pick {α : Type} (l : List α) (p : α → Bool) (q : ℕ → Bool) (h : ∀ (k : ℕ) x, l[k]? = some x → q k = p x) :
    ((List.range l.length).filter q).map (fun k => l[k]?) = (l.filter p).map some := by
  have e1 : (List.range l.length).map (fun k => l[k]?) = l.map some := by
    refine List.ext_getElem (by simp) fun k h1 h2 => ?_
    simp at h1
    simp
  have e2 : (List.range l.length).filter q = (List.range l.length).filter fun k => (l[k]?).elim false p := by
    refine List.filter_congr fun k hk => ?_
    obtain ⟨x, hx⟩ : ∃ x, l[k]? = some x := ⟨_, List.getElem?_eq_getElem (List.mem_range.1 hk)⟩
    rw [h k x hx, hx]; rfl
  rw [e2, show (fun k => (l[k]?).elim false p) = (fun o : Option α => o.elim false p) ∘ fun k : ℕ => l[k]? from rfl,
    ← List.filter_map, e1, List.filter_map]
  rfl

theorem edgeList_mem (h r : K) (a b : ℕ) (e : PegEdge K) : e ∈ edgeList h r a b ↔
    (∃ i j, i ≤ a ∧ j < b ∧ e = ⟨hor h a b i j, none⟩) ∨ (∃ i j, i < a ∧ j ≤ b ∧ e = ⟨ver h b i j, none⟩) ∨
      (0 < r ∧ ∃ i j, i < a ∧ j < b ∧ e = ⟨circ h a b i j, some (r * h)⟩) := by
  have hc : e ∈ (if r ≤ 0 then [] else circleList h r a b) ↔
      0 < r ∧ ∃ i j, i < a ∧ j < b ∧ e = ⟨circ h a b i j, some (r * h)⟩ := by
    split
    · next hr => simp [not_lt.2 hr]
    · next hr =>
      simp only [circleList, List.mem_flatMap, List.mem_range, List.mem_map]
      constructor
      · rintro ⟨i, hi, j, hj, rfl⟩; exact ⟨not_le.1 hr, i, j, hi, hj, rfl⟩
      · rintro ⟨-, i, j, hi, hj, rfl⟩; exact ⟨i, hi, j, hj, rfl⟩
  rw [edgeList, List.mem_append, List.mem_append, hc]
  simp only [List.mem_flatMap, List.mem_range, rowList, topList, List.mem_append, List.mem_map, List.mem_cons,
    List.not_mem_nil, or_false]
  constructor
  · rintro ((⟨i, hi, ⟨j, hj, rfl | rfl⟩ | rfl⟩ | ⟨j, hj, rfl⟩) | h3)
    · exact Or.inl ⟨i, j, hi.le, hj, rfl⟩
    · exact Or.inr (Or.inl ⟨i, j, hi, hj.le, rfl⟩)
    · exact Or.inr (Or.inl ⟨i, b, hi, le_rfl, rfl⟩)
    · exact Or.inl ⟨a, j, le_rfl, hj, rfl⟩
    · exact Or.inr (Or.inr h3)
  · rintro (⟨i, j, hi, hj, rfl⟩ | ⟨i, j, hi, hj, rfl⟩ | h3)
    · rcases hi.lt_or_eq with hi | rfl
      · exact Or.inl (Or.inl ⟨i, hi, Or.inl ⟨j, hj, Or.inl rfl⟩⟩)
      · exact Or.inl (Or.inr ⟨j, hj, rfl⟩)
    · rcases hj.lt_or_eq with hj | rfl
      · exact Or.inl (Or.inl ⟨i, hi, Or.inl ⟨j, hj, Or.inr rfl⟩⟩)
      · exact Or.inl (Or.inl ⟨i, hi, Or.inr rfl⟩)
    · exact Or.inr h3

theorem edgeList_length (h r : K) (a b : ℕ) :
    (edgeList h r a b).length = a * (2 * b + 1) + b + if r ≤ 0 then 0 else a * b := by
  have h1 : ∀ i, (rowList h a b i).length = 2 * b + 1 := by
    intro i
    simp [rowList, List.length_flatMap, Nat.mul_comm]
  have h2 : (circleList h r a b).length = a * b := grid_length a b _
  rw [edgeList, List.length_append, List.length_append, List.length_flatMap]
  simp only [h1, topList, List.length_map, List.length_range, List.map_const']
  have h3 : (List.replicate a (2 * b + 1)).sum = a * (2 * b + 1) := by simp
  rw [h3]
  split
  · simp
  · rw [h2]

/-- `pegboard` succeeds; object `k` is edge `k` of the list -/
theorem pegboard_ok {a b : ℕ} (ha : 0 < a) (hb : 0 < b) (r : K) : ∃ m,
    pegboard a b r = .ok (edgeList (1 / ((max a b : ℕ) : K)) r a b, m) ∧
    PlanarMesh.init (toStore (edgeList (1 / ((max a b : ℕ) : K)) r a b))
      (List.range (edgeList (1 / ((max a b : ℕ) : K)) r a b).length) = .ok m ∧
    m.edges = List.range (edgeList (1 / ((max a b : ℕ) : K)) r a b).length ∧
    ∀ (k : ℕ) e, (edgeList (1 / ((max a b : ℕ) : K)) r a b)[k]? = some e → m.store k = { e.topo with idx := some k } := by
  set E := edgeList (1 / ((max a b : ℕ) : K)) r a b with hE
  have hstore : ∀ (k : ℕ) e, E[k]? = some e → toStore E k = e.topo := by
    intro k e hk; simp [toStore, hk]
  obtain ⟨m, hm⟩ := (C34_accepts_iff (toStore E) (List.range E.length)).2 (by
    intro k hk
    obtain ⟨e, he⟩ : ∃ e, E[k]? = some e := ⟨_, List.getElem?_eq_getElem (List.mem_range.1 hk)⟩
    rw [hstore k e he]
    rcases (edgeList_mem _ r a b e).1 (List.mem_of_getElem? he) with ⟨i, j, hi, hj, rfl⟩ | ⟨i, j, hi, hj, rfl⟩ | ⟨-, i, j, hi, hj, rfl⟩
    · simp only [hor]
      rcases hi.lt_or_eq with hi | rfl
      · left; rw [if_pos hi]; exact square_nonneg _ _ _
      · right; rw [if_pos ha]; exact square_nonneg _ _ _
    · simp only [ver]
      rcases hj.lt_or_eq with hj | rfl
      · right; rw [if_pos hj]; exact square_nonneg _ _ _
      · left; rw [if_pos hb]; exact square_nonneg _ _ _
    · right; exact square_nonneg _ _ _)
  obtain ⟨pts, hp, hv⟩ := getPoints_eq (a := a) (b := b) ha (radius := r)
  obtain ⟨h1, h2, h3, -, h5, -⟩ := C34_edges _ _ m hm
  have hedges : m.edges = List.range E.length :=
    h2.eq_of_length ((List.perm_ext_iff_of_nodup h1 List.nodup_range).2 h3).length_eq
  refine ⟨m, ?_, hm, hedges, fun k e hk => ?_⟩
  · simp only [pegboard, hp, bind, Except.bind, hv, getEdges_eq ha hb, ← hE, hm]
  · rw [h5 k k, hstore k e hk]
    rw [hedges]
    obtain ⟨hlt, -⟩ := List.getElem?_eq_some_iff.1 hk
    simp [hlt]

theorem getCell_filter {E : List (PegEdge K)} {m : PlanarMesh K} (hm : PlanarMesh.init (toStore E) (List.range E.length) = .ok m)
    (hE : m.edges = List.range E.length) (hs : ∀ (k : ℕ) e, E[k]? = some e → m.store k = { e.topo with idx := some k })
    {c : ℤ} (hc : 0 ≤ c) (hne : E.filter (bord c) ≠ []) :
    ∃ l, m.getCellEdges c = .ok l ∧ l.map (fun k => E[k]?) = (E.filter (bord c)).map some ∧ l.Sublist (List.range E.length) := by
  obtain ⟨-, -, -, -, -, hcl⟩ := C34_index_lists _ _ m hm
  have hin : c ∈ m.cellIdxList := by
    rw [hcl]
    obtain ⟨e, he⟩ := List.exists_mem_of_ne_nil _ hne
    rw [List.mem_filter] at he
    obtain ⟨k, hk⟩ := List.getElem?_of_mem he.1
    obtain ⟨hlt, -⟩ := List.getElem?_eq_some_iff.1 hk
    refine ⟨hc, k, List.mem_range.2 hlt, ?_⟩
    simp only [toStore, hk]
    exact (borders_iff _ _).1 he.2
  refine ⟨m.edges.filter fun e => (m.store e).borders c, by rw [PlanarMesh.getCellEdges, if_pos hin], ?_, ?_⟩
  · rw [hE]
    refine range_pick E (bord c) _ fun k x hk => ?_
    rw [hs k x hk]; rfl
  · rw [hE]; exact List.filter_sublist

/-! ### C36 -/

/-- C36: for all sizes `a, b ≥ 1` a mesh is made.  Its edges are the straight edges between neighbouring corners of the
regular grid and, for a positive radius, one circle for each square; `Peg.hor`, `Peg.ver` and `Peg.circ` say which cells
are on the two sides.  There are as many edges as there are places in the grid, so none occurs twice. -/
theorem C36_edges {a b : ℕ} (ha : 0 < a) (hb : 0 < b) (r : K) :
    ∃ es m, pegboard a b r = .ok (es, m) ∧ m.edges = List.range es.length ∧
      (∀ (k : ℕ) e, es[k]? = some e → m.store k = { e.topo with idx := some k }) ∧
      (∀ e, e ∈ es ↔
        (∃ i j, i ≤ a ∧ j < b ∧ e = ⟨hor (1 / (max a b : ℕ)) a b i j, none⟩) ∨
        (∃ i j, i < a ∧ j ≤ b ∧ e = ⟨ver (1 / (max a b : ℕ)) b i j, none⟩) ∨
        (0 < r ∧ ∃ i j, i < a ∧ j < b ∧ e = ⟨circ (1 / (max a b : ℕ)) a b i j, some (r * (1 / (max a b : ℕ)))⟩)) ∧
      es.length = (a + 1) * b + a * (b + 1) + if r ≤ 0 then 0 else a * b := by
  obtain ⟨m, h1, -, h3, h4⟩ := pegboard_ok ha hb r
  refine ⟨_, m, h1, h3, h4, edgeList_mem _ r a b, ?_⟩
  rw [edgeList_length]
  ring

/-- C36: the cell in row `i` and column `j` has exactly its four sides and, for a positive radius, its circle as edges; the
disk has exactly the circle. -/
theorem C36_cells {a b : ℕ} (ha : 0 < a) (hb : 0 < b) (r : K) :
    ∃ es m, pegboard a b r = .ok (es, m) ∧ ∀ i j, i < a → j < b →
      (∃ l, m.getCellEdges (square b i j) = .ok l ∧ l.map (fun k => es[k]?) =
        [some ⟨hor (1 / (max a b : ℕ)) a b i j, none⟩, some ⟨ver (1 / (max a b : ℕ)) b i j, none⟩,
          some ⟨ver (1 / (max a b : ℕ)) b i (j + 1), none⟩, some ⟨hor (1 / (max a b : ℕ)) a b (i + 1) j, none⟩] ++
        if r ≤ 0 then [] else [some ⟨circ (1 / (max a b : ℕ)) a b i j, some (r * (1 / (max a b : ℕ)))⟩]) ∧
      (0 < r → ∃ k, m.getCellEdges (disk a b i j) = .ok [k] ∧
        es[k]? = some ⟨circ (1 / (max a b : ℕ)) a b i j, some (r * (1 / (max a b : ℕ)))⟩) := by
  obtain ⟨m, h1, h2, h3, h4⟩ := pegboard_ok ha hb r
  refine ⟨_, m, h1, fun i j hi hj => ⟨?_, fun hr => ?_⟩⟩
  · obtain ⟨l, e1, e2, -⟩ := getCell_filter h2 h3 h4 (square_nonneg b i j) (by rw [square_filter hi hj]; simp)
    refine ⟨l, e1, ?_⟩
    rw [e2, square_filter hi hj]
    split <;> simp
  · obtain ⟨l, e1, e2, -⟩ := getCell_filter h2 h3 h4 (c := disk a b i j) (by rw [disk_eq]; have := square_nonneg b i j; positivity)
      (by rw [disk_filter (not_le.2 hr) hi hj]; simp)
    rw [disk_filter (not_le.2 hr) hi hj] at e2
    obtain ⟨k, rfl⟩ : ∃ k, l = [k] := by
      rw [← List.length_eq_one_iff]
      simpa using congrArg List.length e2
    exact ⟨k, e1, by simpa using e2⟩

theorem eq_range_of_mem {l : List ℤ} (hl : l.Pairwise (· < ·)) (n : ℕ) (h : ∀ v, v ∈ l ↔ 0 ≤ v ∧ v < n) :
    l = (List.range n).map fun k : ℕ => (k : ℤ) := by
  have hr : ((List.range n).map fun k : ℕ => (k : ℤ)).Pairwise (· < ·) := by
    rw [List.pairwise_map]
    exact List.pairwise_lt_range.imp fun h => by exact_mod_cast h
  refine List.Perm.eq_of_pairwise (le := (· < ·)) (fun x y _ _ h1 h2 => absurd h1 (not_lt.2 h2.le)) hl hr ?_
  rw [List.perm_ext_iff_of_nodup (hl.imp fun h => ne_of_lt h) (hr.imp fun h => ne_of_lt h)]
  intro v
  rw [h]
  simp only [List.mem_map, List.mem_range]
  constructor
  · rintro ⟨h0, hn⟩; exact ⟨v.toNat, by omega, by omega⟩
  · rintro ⟨k, hk, rfl⟩; omega

/-- C36: the cells are numbered `0, …, ab - 1` (squares), followed by the disks if there are any. -/
theorem C36_cell_numbers {a b : ℕ} (ha : 0 < a) (hb : 0 < b) (r : K) :
    ∃ es m, pegboard a b r = .ok (es, m) ∧
      m.cellIdxList = (List.range (if r ≤ 0 then a * b else 2 * (a * b))).map fun k : ℕ => (k : ℤ) := by
  obtain ⟨m, h1, h2, h3, h4⟩ := pegboard_ok ha hb r
  refine ⟨_, m, h1, ?_⟩
  obtain ⟨-, hp, -, -, -, hc⟩ := C34_index_lists _ _ m h2
  set E := edgeList (1 / ((max a b : ℕ) : K)) r a b with hE
  have key : ∀ c : ℤ, (∃ k ∈ List.range E.length, c = (toStore E k).pos ∨ c = (toStore E k).neg) ↔
      ∃ e ∈ E, c = e.topo.pos ∨ c = e.topo.neg := by
    intro c
    constructor
    · rintro ⟨k, hk, h⟩
      obtain ⟨e, he⟩ : ∃ e, E[k]? = some e := ⟨_, List.getElem?_eq_getElem (List.mem_range.1 hk)⟩
      simp only [toStore, he] at h
      exact ⟨e, List.mem_of_getElem? he, h⟩
    · rintro ⟨e, he, h⟩
      obtain ⟨k, hk⟩ := List.getElem?_of_mem he
      obtain ⟨hlt, -⟩ := List.getElem?_eq_some_iff.1 hk
      exact ⟨k, List.mem_range.2 hlt, by simpa only [toStore, hk] using h⟩
  refine eq_range_of_mem hp _ fun c => ?_
  rw [hc, key]
  refine and_congr_right fun h0 => ?_
  constructor
  · have hN : a * b ≤ if r ≤ 0 then a * b else 2 * (a * b) := by split <;> omega
    have hN' : ((a : ℤ) * b) ≤ ((if r ≤ 0 then a * b else 2 * (a * b) : ℕ) : ℤ) := by exact_mod_cast hN
    rintro ⟨e, he, h⟩
    rcases (edgeList_mem _ r a b e).1 he with ⟨i, j, hi, hj, rfl⟩ | ⟨i, j, hi, hj, rfl⟩ | ⟨hr, i, j, hi, hj, rfl⟩
    · simp only [hor] at h
      rcases h with h | h <;> split at h
      · next hlt => have := square_lt hlt hj; omega
      · omega
      · have := square_lt (show i - 1 < a by omega) hj; omega
      · omega
    · simp only [ver] at h
      rcases h with h | h <;> split at h
      · have := square_lt hi (show j - 1 < b by omega); omega
      · omega
      · next hlt => have := square_lt hi hlt; omega
      · omega
    · simp only [circ, disk_eq] at h
      have := square_lt hi hj
      rw [if_neg (not_le.2 hr)]
      push_cast
      rcases h with h | h
      · omega
      · have := square_nonneg b i j; omega
  · intro hlt
    have hdiv : ∀ n : ℕ, n < a * b → ∃ i j, i < a ∧ j < b ∧ square b i j = n := by
      intro n hn
      refine ⟨n / b, n % b, Nat.div_lt_of_lt_mul (by rw [mul_comm]; exact hn), Nat.mod_lt _ hb, ?_⟩
      unfold square
      have := Nat.div_add_mod' n b
      exact_mod_cast this
    by_cases hlt2 : c < a * b
    · obtain ⟨i, j, hi, hj, h⟩ := hdiv c.toNat (by zify; rw [Int.toNat_of_nonneg h0]; exact hlt2)
      rw [Int.toNat_of_nonneg h0] at h
      refine ⟨⟨hor _ a b i j, none⟩, (edgeList_mem _ r a b _).2 (Or.inl ⟨i, j, hi.le, hj, rfl⟩), Or.inl ?_⟩
      simp [hor, hi, h]
    · split at hlt
      · exact absurd (by exact_mod_cast hlt) hlt2
      · next hr =>
        push_cast at hlt
        obtain ⟨i, j, hi, hj, h⟩ := hdiv (c - a * b).toNat (by zify; rw [Int.toNat_of_nonneg (by omega)]; omega)
        rw [Int.toNat_of_nonneg (by omega)] at h
        refine ⟨⟨circ _ a b i j, some _⟩, (edgeList_mem _ r a b _).2 (Or.inr (Or.inr ⟨not_le.1 hr, i, j, hi, hj, rfl⟩)), Or.inl ?_⟩
        simp only [circ, disk_eq, h]; omega

/-! ### the cells as `MeshCell` objects -/

section order
variable [IsStrictOrderedRing K]

theorem corner_dist2 (h : K) (b i j i' j' : ℕ) :
    (corner h b i j).dist2 (corner h b i' j') = h ^ 2 * (((j : K) - j') ^ 2 + ((i : K) - i') ^ 2) := by
  simp only [PVert.dist2, corner]; ring

theorem cast_gap {i i' : ℕ} (h : i ≠ i') : 1 ≤ ((i : K) - i') ^ 2 := by
  have hz : (1 : ℤ) ≤ ((i : ℤ) - i') ^ 2 := by
    have : (i : ℤ) - i' ≠ 0 := by omega
    have := sq_pos_of_ne_zero this
    omega
  have : ((1 : ℤ) : K) ≤ (((i : ℤ) - i') ^ 2 : ℤ) := by exact_mod_cast hz
  simpa using this

theorem corner_far {h : K} (hh : (1 / 10 ^ 6) ^ 2 ≤ h ^ 2) {b i j i' j' : ℕ} (hne : ¬ (i = i' ∧ j = j')) :
    ¬ (corner h b i j).dist2 (corner h b i' j') < CellTopo.incTol K ^ 2 := by
  rw [corner_dist2, not_lt, CellTopo.incTol]
  have : 1 ≤ ((j : K) - j') ^ 2 + ((i : K) - i') ^ 2 := by
    by_cases h1 : i = i'
    · have h2 : j ≠ j' := fun h2 => hne ⟨h1, h2⟩
      have := cast_gap (K := K) h2
      have := sq_nonneg ((i : K) - i')
      linarith
    · have := cast_gap (K := K) h1
      have := sq_nonneg ((j : K) - j')
      linarith
  exact hh.trans (le_mul_of_one_le_right (sq_nonneg _) this)

theorem same_near (p : PVert K) : p.dist2 p < CellTopo.incTol K ^ 2 := by
  have : (0 : K) < CellTopo.incTol K ^ 2 := by unfold CellTopo.incTol; positivity
  simpa [PVert.dist2] using this

theorem half_gap (i i' : ℕ) : 1 / 4 ≤ ((i : K) - (i' + 1 / 2)) ^ 2 := by
  have hz : (0 : ℤ) ≤ ((i : ℤ) - i') * ((i : ℤ) - i' - 1) := by
    rcases le_or_gt ((i : ℤ) - i') 0 with h | h
    · nlinarith
    · exact mul_nonneg (by omega) (by omega)
  have hz : (0 : K) ≤ ((i : K) - i') * ((i : K) - i' - 1) := by exact_mod_cast hz
  nlinarith

theorem dist2_comm (p q : PVert K) : p.dist2 q = q.dist2 p := by unfold PVert.dist2; ring

theorem centre_far {h : K} (hh : 2 * (1 / 10 ^ 6) ^ 2 ≤ h ^ 2) (a b i j i' j' : ℕ) :
    ¬ (corner h b i j).dist2 (centre h a b i' j') < CellTopo.incTol K ^ 2 := by
  have : (corner h b i j).dist2 (centre h a b i' j') = h ^ 2 * (((j : K) - (j' + 1 / 2)) ^ 2 + ((i : K) - (i' + 1 / 2)) ^ 2) := by
    simp only [PVert.dist2, corner, centre]; ring
  rw [this, not_lt, CellTopo.incTol]
  have h1 := half_gap (K := K) j j'
  have h2 := half_gap (K := K) i i'
  have h3 : h ^ 2 * (1 / 2) ≤ h ^ 2 * (((j : K) - (j' + 1 / 2)) ^ 2 + ((i : K) - (i' + 1 / 2)) ^ 2) :=
    mul_le_mul_of_nonneg_left (by linarith) (sq_nonneg _)
  linarith

theorem centre_far' {h : K} (hh : 2 * (1 / 10 ^ 6) ^ 2 ≤ h ^ 2) (a b i j i' j' : ℕ) :
    ¬ (centre h a b i' j').dist2 (corner h b i j) < CellTopo.incTol K ^ 2 := by
  rw [dist2_comm]; exact centre_far hh a b i j i' j'

/-- the five edges of a square with a hole make a `MeshCell` of two contours -/
theorem make_holed {st : EdgeStore K} {h : K} (hh : 2 * (1 / 10 ^ 6) ^ 2 ≤ h ^ 2) {a b i j k1 k2 k3 k4 k5 : ℕ} (hi : i < a) (hj : j < b)
    (hk : k1 < k2 ∧ k2 < k3 ∧ k3 < k4 ∧ k4 < k5)
    (h1 : st k1 = { hor h a b i j with idx := some k1 }) (h2 : st k2 = { ver h b i j with idx := some k2 })
    (h3 : st k3 = { ver h b i (j + 1) with idx := some k3 }) (h4 : st k4 = { hor h a b (i + 1) j with idx := some k4 })
    (h5 : st k5 = { circ h a b i j with idx := some k5 }) :
    CellTopo.make st (square b i j) [k1, k2, k3, k4, k5] =
      .ok ⟨square b i j, [1, -1, 1, -1, -1], [⟨[k1, k3, k4, k2], [1, 1, -1, -1], 4⟩, ⟨[k5], [-1], 1⟩], 1, 5⟩ := by
  have hh' : (1 / 10 ^ 6) ^ 2 ≤ h ^ 2 := le_trans (by linarith [sq_nonneg ((1 : K) / 10 ^ 6)]) hh
  have hc := square_nonneg b i j
  have e1 : (st k1).pos = square b i j := by simp [h1, hor, hi]
  have e2 : (st k2).pos ≠ square b i j ∧ (st k2).neg = square b i j := by
    simp only [h2, ver, hj, if_true, and_true]
    split
    · intro hs; have := (square_inj (by omega) hj).1 hs; omega
    · omega
  have e3 : (st k3).pos = square b i j := by simp [h3, ver]
  have e4 : (st k4).pos ≠ square b i j ∧ (st k4).neg = square b i j := by
    simp only [h4, hor, Nat.add_sub_cancel, Nat.succ_pos, if_true, and_true]
    split
    · intro hs; have := (square_inj hj hj).1 hs; omega
    · omega
  have e5 : (st k5).pos ≠ square b i j ∧ (st k5).neg = square b i j := by
    simp only [h5, circ, disk_eq, and_true]
    have := square_lt hi hj
    omega
  have ho : CellTopo.orients st (square b i j) [k1, k2, k3, k4, k5] = .ok [1, -1, 1, -1, -1] := by
    simp [CellTopo.orients, CellTopo.orient, e1, e2.1.symm, e2.2, e3, e4.1.symm, e4.2, e5.1.symm, e5.2, bind, Except.bind]
  have n1 : (st k1).anchor = corner h b i j ∧ (st k1).endpnt = corner h b i (j + 1) := by simp [h1, hor]
  have n2 : (st k2).anchor = corner h b i j ∧ (st k2).endpnt = corner h b (i + 1) j := by simp [h2, ver]
  have n3 : (st k3).anchor = corner h b i (j + 1) ∧ (st k3).endpnt = corner h b (i + 1) (j + 1) := by simp [h3, ver]
  have n4 : (st k4).anchor = corner h b (i + 1) j ∧ (st k4).endpnt = corner h b (i + 1) (j + 1) := by simp [h4, hor]
  have n5 : (st k5).anchor = centre h a b i j ∧ (st k5).endpnt = centre h a b i j := by simp [h5, circ]
  have hm : CellTopo.incMat st [(k1, 1), (k2, -1), (k3, 1), (k4, -1), (k5, -1)] [(k1, 1), (k2, -1), (k3, 1), (k4, -1), (k5, -1)] =
      .ok [[0, 1, 0, 0, 0], [0, 0, 0, 1, 0], [1, 0, 0, 0, 0], [0, 0, 1, 0, 0], [0, 0, 0, 0, 1]] := by
    simp [CellTopo.incMat, CellTopo.incRow, CellTopo.startPt, CellTopo.endPt, bind, Except.bind, n1, n2, n3, n4, n5,
      corner_far hh', same_near, centre_far hh, centre_far' hh]
  have hinc : CellTopo.incidence st [(k1, 1), (k2, -1), (k3, 1), (k4, -1), (k5, -1)] = .ok [2, 0, 3, 1, 4] := by
    simp only [CellTopo.incidence, hm, bind, Except.bind]
    rfl
  have hl : CellTopo.contourLoop [2, 0, 3, 1, 4] 5 6 0 [false, false, false, false, false] [] = some (.ok [[0, 2, 3, 1], [4]]) := by
    decide
  have hk' : k1 ≠ k3 ∧ k4 ≠ k1 ∧ k4 ≠ k3 ∧ k2 ≠ k1 ∧ k2 ≠ k3 ∧ k2 ≠ k4 ∧ k3 ≠ k1 := by omega
  have hcs : CellTopo.contours (square b i j) [k1, k2, k3, k4, k5] [1, -1, 1, -1, -1] [[0, 2, 3, 1], [4]] =
      .ok [⟨[k1, k3, k4, k2], [1, 1, -1, -1], 4⟩, ⟨[k5], [-1], 1⟩] := by
    simp [CellTopo.contours, Contour.init, Contour.addLoop, Contour.addEdge, bind, Except.bind, not_lt.2 hc, hk']
  simp only [CellTopo.make, CellTopo.init, if_neg (not_lt.2 hc), ho, List.zip, List.zipWith, hinc, List.length_cons, List.length_nil,
    List.replicate, hl, hcs]
  rfl

/-- the four edges of a square without a hole -/
theorem make_plain {st : EdgeStore K} {h : K} (hh : (1 / 10 ^ 6) ^ 2 ≤ h ^ 2) {a b i j k1 k2 k3 k4 : ℕ} (hi : i < a) (hj : j < b)
    (hk : k1 < k2 ∧ k2 < k3 ∧ k3 < k4)
    (h1 : st k1 = { hor h a b i j with idx := some k1 }) (h2 : st k2 = { ver h b i j with idx := some k2 })
    (h3 : st k3 = { ver h b i (j + 1) with idx := some k3 }) (h4 : st k4 = { hor h a b (i + 1) j with idx := some k4 }) :
    CellTopo.make st (square b i j) [k1, k2, k3, k4] =
      .ok ⟨square b i j, [1, -1, 1, -1], [⟨[k1, k3, k4, k2], [1, 1, -1, -1], 4⟩], 0, 4⟩ := by
  have hc := square_nonneg b i j
  have e1 : (st k1).pos = square b i j := by simp [h1, hor, hi]
  have e2 : (st k2).pos ≠ square b i j ∧ (st k2).neg = square b i j := by
    simp only [h2, ver, hj, if_true, and_true]
    split
    · intro hs; have := (square_inj (by omega) hj).1 hs; omega
    · omega
  have e3 : (st k3).pos = square b i j := by simp [h3, ver]
  have e4 : (st k4).pos ≠ square b i j ∧ (st k4).neg = square b i j := by
    simp only [h4, hor, Nat.add_sub_cancel, Nat.succ_pos, if_true, and_true]
    split
    · intro hs; have := (square_inj hj hj).1 hs; omega
    · omega
  have ho : CellTopo.orients st (square b i j) [k1, k2, k3, k4] = .ok [1, -1, 1, -1] := by
    simp [CellTopo.orients, CellTopo.orient, e1, e2.1.symm, e2.2, e3, e4.1.symm, e4.2, bind, Except.bind]
  have n1 : (st k1).anchor = corner h b i j ∧ (st k1).endpnt = corner h b i (j + 1) := by simp [h1, hor]
  have n2 : (st k2).anchor = corner h b i j ∧ (st k2).endpnt = corner h b (i + 1) j := by simp [h2, ver]
  have n3 : (st k3).anchor = corner h b i (j + 1) ∧ (st k3).endpnt = corner h b (i + 1) (j + 1) := by simp [h3, ver]
  have n4 : (st k4).anchor = corner h b (i + 1) j ∧ (st k4).endpnt = corner h b (i + 1) (j + 1) := by simp [h4, hor]
  have hm : CellTopo.incMat st [(k1, 1), (k2, -1), (k3, 1), (k4, -1)] [(k1, 1), (k2, -1), (k3, 1), (k4, -1)] =
      .ok [[0, 1, 0, 0], [0, 0, 0, 1], [1, 0, 0, 0], [0, 0, 1, 0]] := by
    simp [CellTopo.incMat, CellTopo.incRow, CellTopo.startPt, CellTopo.endPt, bind, Except.bind, n1, n2, n3, n4,
      corner_far hh, same_near]
  have hinc : CellTopo.incidence st [(k1, 1), (k2, -1), (k3, 1), (k4, -1)] = .ok [2, 0, 3, 1] := by
    simp only [CellTopo.incidence, hm, bind, Except.bind]
    rfl
  have hl : CellTopo.contourLoop [2, 0, 3, 1] 4 5 0 [false, false, false, false] [] = some (.ok [[0, 2, 3, 1]]) := by
    decide
  have hk' : k1 ≠ k3 ∧ k4 ≠ k1 ∧ k4 ≠ k3 ∧ k2 ≠ k1 ∧ k2 ≠ k3 ∧ k2 ≠ k4 ∧ k3 ≠ k1 := by omega
  have hcs : CellTopo.contours (square b i j) [k1, k2, k3, k4] [1, -1, 1, -1] [[0, 2, 3, 1]] =
      .ok [⟨[k1, k3, k4, k2], [1, 1, -1, -1], 4⟩] := by
    simp [CellTopo.contours, Contour.init, Contour.addLoop, Contour.addEdge, bind, Except.bind, not_lt.2 hc, hk']
  simp only [CellTopo.make, CellTopo.init, if_neg (not_lt.2 hc), ho, List.zip, List.zipWith, hinc, List.length_cons, List.length_nil,
    List.replicate, hl, hcs]
  rfl

/-- the circle alone makes the disk -/
theorem make_disk {st : EdgeStore K} {h : K} {a b i j k : ℕ} (h5 : st k = { circ h a b i j with idx := some k }) :
    CellTopo.make st (disk a b i j) [k] = .ok ⟨disk a b i j, [1], [⟨[k], [1], 1⟩], 0, 1⟩ := by
  have hc : 0 ≤ disk a b i j := by rw [disk_eq]; have := square_nonneg b i j; positivity
  have e5 : (st k).pos = disk a b i j := by simp [h5, circ]
  have ho : CellTopo.orients st (disk a b i j) [k] = .ok [1] := by
    simp [CellTopo.orients, CellTopo.orient, e5, bind, Except.bind]
  have n5 : (st k).anchor = centre h a b i j ∧ (st k).endpnt = centre h a b i j := by simp [h5, circ]
  have hm : CellTopo.incMat st [(k, 1)] [(k, 1)] = .ok [[1]] := by
    simp [CellTopo.incMat, CellTopo.incRow, CellTopo.startPt, CellTopo.endPt, bind, Except.bind, n5, same_near]
  have hinc : CellTopo.incidence st [(k, 1)] = .ok [0] := by
    simp only [CellTopo.incidence, hm, bind, Except.bind]
    rfl
  have hl : CellTopo.contourLoop [0] 1 2 0 [false] [] = some (.ok [[0]]) := by decide
  have hcs : CellTopo.contours (disk a b i j) [k] [1] [[0]] = .ok [⟨[k], [1], 1⟩] := by
    simp [CellTopo.contours, Contour.init, Contour.addLoop, Contour.addEdge, bind, Except.bind, not_lt.2 hc]
  simp only [CellTopo.make, CellTopo.init, if_neg (not_lt.2 hc), ho, List.zip, List.zipWith, hinc, List.length_cons, List.length_nil,
    List.replicate, hl, hcs]
  rfl

theorem side_bound {n : ℕ} (h0 : 0 < n) (h : n ≤ 700000) : 2 * (1 / 10 ^ 6) ^ 2 ≤ ((1 : K) / n) ^ 2 := by
  have hn : (0 : K) < n := by exact_mod_cast h0
  have hle : (n : K) ≤ 700000 := by exact_mod_cast h
  rw [div_pow 1 (n : K), one_pow, le_div_iff₀ (by positivity)]
  have : (n : K) ^ 2 ≤ 700000 ^ 2 := pow_le_pow_left₀ hn.le hle 2
  calc 2 * (1 / 10 ^ 6 : K) ^ 2 * n ^ 2 ≤ 2 * (1 / 10 ^ 6) ^ 2 * 700000 ^ 2 :=
        mul_le_mul_of_nonneg_left this (by positivity)
    _ ≤ 1 := by norm_num

/-- C36: `get_cell` accepts every cell (of meshes with at most 700000 squares in a row; beyond that the squares are smaller
than the tolerance of the incidence test).  The boundary of a square is one closed loop, bottom, right, top, left, that is
counterclockwise, with the top and the left edge traversed backwards, and, with a positive radius, the circle traversed
backwards as a second contour; the boundary of a disk is its circle. -/
theorem C36_loops {a b : ℕ} (ha : 0 < a) (hb : 0 < b) (hmax : max a b ≤ 700000) (r : K) :
    ∃ es m, pegboard a b r = .ok (es, m) ∧ ∀ i j, i < a → j < b → ∃ k1 k2 k3 k4,
      es[k1]? = some ⟨hor (1 / (max a b : ℕ)) a b i j, none⟩ ∧ es[k2]? = some ⟨ver (1 / (max a b : ℕ)) b i j, none⟩ ∧
      es[k3]? = some ⟨ver (1 / (max a b : ℕ)) b i (j + 1), none⟩ ∧ es[k4]? = some ⟨hor (1 / (max a b : ℕ)) a b (i + 1) j, none⟩ ∧
      (r ≤ 0 → m.getCell (square b i j) =
        .ok ⟨square b i j, [1, -1, 1, -1], [⟨[k1, k3, k4, k2], [1, 1, -1, -1], 4⟩], 0, 4⟩) ∧
      (0 < r → ∃ k5, es[k5]? = some ⟨circ (1 / (max a b : ℕ)) a b i j, some (r * (1 / (max a b : ℕ)))⟩ ∧
        m.getCell (square b i j) =
          .ok ⟨square b i j, [1, -1, 1, -1, -1], [⟨[k1, k3, k4, k2], [1, 1, -1, -1], 4⟩, ⟨[k5], [-1], 1⟩], 1, 5⟩ ∧
        m.getCell (disk a b i j) = .ok ⟨disk a b i j, [1], [⟨[k5], [1], 1⟩], 0, 1⟩) := by
  obtain ⟨m, h1, h2, h3, h4⟩ := pegboard_ok ha hb r
  have hh := side_bound (K := K) (n := max a b) (by have := le_max_left a b; omega) hmax
  have hh' : (1 / 10 ^ 6 : K) ^ 2 ≤ (1 / ((max a b : ℕ) : K)) ^ 2 := le_trans (by linarith [sq_nonneg ((1 : K) / 10 ^ 6)]) hh
  refine ⟨_, m, h1, fun i j hi hj => ?_⟩
  obtain ⟨l, e1, e2, e3⟩ := getCell_filter h2 h3 h4 (square_nonneg b i j) (by rw [square_filter hi hj]; simp)
  have hp := List.pairwise_lt_range.sublist e3
  rw [square_filter hi hj] at e2
  by_cases hr : r ≤ 0
  · rw [if_pos hr] at e2
    have hlen : l.length = 4 := by simpa using congrArg List.length e2
    match l, hlen, e2 with
    | [k1, k2, k3, k4], _, e2 =>
      simp only [List.map_cons, List.map_nil, List.append_nil, List.cons.injEq, and_true] at e2
      obtain ⟨g1, g2, g3, g4⟩ := e2
      simp only [List.pairwise_cons, List.mem_cons, List.not_mem_nil, or_false, forall_eq_or_imp, forall_eq] at hp
      refine ⟨k1, k2, k3, k4, g1, g2, g3, g4, fun _ => ?_, fun hr' => absurd hr' (not_lt.2 hr)⟩
      simp only [PlanarMesh.getCell, e1, bind, Except.bind]
      exact make_plain hh' hi hj ⟨hp.1.1, hp.2.1.1, hp.2.2.1⟩ (h4 _ _ g1) (h4 _ _ g2) (h4 _ _ g3) (h4 _ _ g4)
  · rw [if_neg hr] at e2
    have hlen : l.length = 5 := by simpa using congrArg List.length e2
    match l, hlen, e2 with
    | [k1, k2, k3, k4, k5], _, e2 =>
      simp only [List.map_cons, List.map_nil, List.cons_append, List.nil_append, List.cons.injEq, and_true] at e2
      obtain ⟨g1, g2, g3, g4, g5⟩ := e2
      simp only [List.pairwise_cons, List.mem_cons, List.not_mem_nil, or_false, forall_eq_or_imp, forall_eq] at hp
      refine ⟨k1, k2, k3, k4, g1, g2, g3, g4, fun hr' => absurd hr' hr, fun _ => ⟨k5, g5, ?_, ?_⟩⟩
      · simp only [PlanarMesh.getCell, e1, bind, Except.bind]
        exact make_holed hh hi hj ⟨hp.1.1, hp.2.1.1, hp.2.2.1.1, hp.2.2.2.1⟩ (h4 _ _ g1) (h4 _ _ g2) (h4 _ _ g3) (h4 _ _ g4) (h4 _ _ g5)
      · obtain ⟨l', d1, d2, d3⟩ := getCell_filter h2 h3 h4 (c := disk a b i j)
          (by rw [disk_eq]; have := square_nonneg b i j; positivity) (by rw [disk_filter hr hi hj]; simp)
        have hk5 : k5 ∈ l' := by
          have hb5 : (m.store k5).borders (disk a b i j) = true := by
            rw [h4 _ _ g5]; exact (circ_disk (h := (1 : K) / ((max a b : ℕ) : K)) hi hj hj).2 ⟨rfl, rfl⟩
          have hl' : l' = m.edges.filter fun e => (m.store e).borders (disk a b i j) := by
            unfold PlanarMesh.getCellEdges at d1
            split at d1
            · cases d1; rfl
            · cases d1
          rw [hl', List.mem_filter, h3]
          obtain ⟨hlt, -⟩ := List.getElem?_eq_some_iff.1 g5
          exact ⟨List.mem_range.2 hlt, hb5⟩
        rw [disk_filter hr hi hj] at d2
        obtain ⟨k, rfl⟩ : ∃ k, l' = [k] := by
          rw [← List.length_eq_one_iff]
          simpa using congrArg List.length d2
        rw [List.mem_singleton] at hk5
        subst hk5
        simp only [PlanarMesh.getCell, d1, bind, Except.bind]
        exact make_disk (h4 _ _ g5)

/-- C36: the vertices are the corners of the grid, numbered `0, …, (a+1)(b+1) - 1`; the centres of the circles are not
vertices of the mesh. -/
theorem C36_vertices {a b : ℕ} (ha : 0 < a) (hb : 0 < b) (hmax : max a b ≤ 700000) (r : K) :
    ∃ es m, pegboard a b r = .ok (es, m) ∧
      m.vertIdxList = (List.range ((a + 1) * (b + 1))).map fun k : ℕ => (k : ℤ) := by
  obtain ⟨m, h1, h2, h3, h4⟩ := pegboard_ok ha hb r
  refine ⟨_, m, h1, ?_⟩
  obtain ⟨hp, -, -, -, hc, -⟩ := C34_index_lists _ _ m h2
  have hh := side_bound (K := K) (n := max a b) (by have := le_max_left a b; omega) hmax
  have hh' : (1 / 10 ^ 6 : K) ^ 2 ≤ (1 / ((max a b : ℕ) : K)) ^ 2 := le_trans (by linarith [sq_nonneg ((1 : K) / 10 ^ 6)]) hh
  set h : K := 1 / ((max a b : ℕ) : K) with hdef
  set E := edgeList h r a b with hE
  have htol : tol K ^ 2 ≤ CellTopo.incTol K ^ 2 := by
    unfold tol CellTopo.incTol
    norm_num
  have far : ∀ {i j i' j' : ℕ}, ¬ (i = i' ∧ j = j') → ¬ (corner h b i j).dist2 (corner h b i' j') < tol K ^ 2 :=
    fun hne hlt => corner_far hh' hne (hlt.trans_le htol)
  have near : ∀ p : PVert K, p.dist2 p < tol K ^ 2 := by
    intro p
    have : (0 : K) < tol K ^ 2 := by unfold tol; positivity
    simpa [PVert.dist2] using this
  have key : ∀ v : ℤ, (∃ k ∈ List.range E.length, ¬ (toStore E k).anchor.dist2 (toStore E k).endpnt < tol K ^ 2 ∧
      (v = (toStore E k).anchor.idx ∨ v = (toStore E k).endpnt.idx)) ↔
      ∃ e ∈ E, ¬ e.topo.anchor.dist2 e.topo.endpnt < tol K ^ 2 ∧ (v = e.topo.anchor.idx ∨ v = e.topo.endpnt.idx) := by
    intro v
    constructor
    · rintro ⟨k, hk, h⟩
      obtain ⟨e, he⟩ : ∃ e, E[k]? = some e := ⟨_, List.getElem?_eq_getElem (List.mem_range.1 hk)⟩
      simp only [toStore, he] at h
      exact ⟨e, List.mem_of_getElem? he, h⟩
    · rintro ⟨e, he, h⟩
      obtain ⟨k, hk⟩ := List.getElem?_of_mem he
      obtain ⟨hlt, -⟩ := List.getElem?_eq_some_iff.1 hk
      exact ⟨k, List.mem_range.2 hlt, by simpa only [toStore, hk] using h⟩
  have hidx : ∀ {i j : ℕ}, i ≤ a → j ≤ b → (corner h b i j).idx < (((a + 1) * (b + 1) : ℕ) : ℤ) := by
    intro i j hi hj
    have : i * (b + 1) + j < (a + 1) * (b + 1) := by
      calc i * (b + 1) + j < i * (b + 1) + (b + 1) := by omega
        _ = (i + 1) * (b + 1) := by ring
        _ ≤ _ := Nat.mul_le_mul_right _ (by omega)
    simp only [corner]
    exact_mod_cast this
  refine eq_range_of_mem hp _ fun v => ?_
  rw [hc, key]
  refine and_congr_right fun h0 => ?_
  constructor
  · rintro ⟨e, he, hd, hv⟩
    rcases (edgeList_mem _ r a b e).1 he with ⟨i, j, hi, hj, rfl⟩ | ⟨i, j, hi, hj, rfl⟩ | ⟨hr, i, j, hi, hj, rfl⟩
    · rcases hv with rfl | rfl
      · exact hidx hi hj.le
      · exact hidx hi hj
    · rcases hv with rfl | rfl
      · exact hidx hi.le hj
      · exact hidx hi hj
    · exact absurd (near _) hd
  · intro hlt
    obtain ⟨n, rfl⟩ : ∃ n : ℕ, v = n := ⟨v.toNat, by omega⟩
    have hlt : n < (a + 1) * (b + 1) := by exact_mod_cast hlt
    have hi : n / (b + 1) < a + 1 := Nat.div_lt_of_lt_mul (by rw [mul_comm]; exact hlt)
    have hj : n % (b + 1) < b + 1 := Nat.mod_lt _ (by omega)
    have hn : ((n / (b + 1) * (b + 1) + n % (b + 1) : ℕ) : ℤ) = n := by rw [Nat.div_add_mod']
    by_cases hjb : n % (b + 1) < b
    · refine ⟨⟨hor h a b (n / (b + 1)) (n % (b + 1)), none⟩, (edgeList_mem _ r a b _).2 (Or.inl ⟨_, _, by omega, hjb, rfl⟩),
        far (by omega), Or.inl ?_⟩
      simp only [hor, corner]
      rw [← hn]
      push_cast
      rfl
    · refine ⟨⟨hor h a b (n / (b + 1)) (n % (b + 1) - 1), none⟩,
        (edgeList_mem _ r a b _).2 (Or.inl ⟨_, _, by omega, by omega, rfl⟩), far (by omega), Or.inr ?_⟩
      simp only [hor, corner]
      rw [Nat.sub_add_cancel (by omega), ← hn]
      push_cast
      rfl

/-- C36 needs the bound: a row of more than a million squares is made into a mesh, but `get_cell` rejects its squares, because their
side is below the tolerance of the incidence test. -/
theorem C36_too_fine {n : ℕ} (hn : 10 ^ 6 < n) (r : K) :
    ∃ es m, pegboard 1 n r = .ok (es, m) ∧ m.getCell (square n 0 0) = .error .embedding := by
  obtain ⟨m, h1, h2, h3, h4⟩ := pegboard_ok (a := 1) (b := n) one_pos (by omega) r
  refine ⟨_, m, h1, ?_⟩
  obtain ⟨l, e1, e2, e3⟩ := getCell_filter h2 h3 h4 (square_nonneg n 0 0) (by rw [square_filter (by omega) (by omega)]; simp)
  rw [square_filter (by omega) (by omega)] at e2
  simp only [PlanarMesh.getCell, e1, bind, Except.bind]
  have hb : ∀ k ∈ l, square n 0 0 = (m.store k).pos ∨ square n 0 0 = (m.store k).neg := by
    have hl : l = m.edges.filter fun e => (m.store e).borders (square n 0 0) := by
      unfold PlanarMesh.getCellEdges at e1
      split at e1
      · cases e1; rfl
      · cases e1
    intro k hk
    rw [hl, List.mem_filter] at hk
    exact (borders_iff _ _).1 hk.2
  have hmake : ∀ x, CellTopo.make m.store (square n 0 0) l = .error x → x = .embedding := by
    intro x hx
    unfold CellTopo.make at hx
    split at hx
    · next r hr =>
      subst hx
      rcases C29_rejects _ _ _ _ _ hr (by omega) with ⟨h, -⟩ | ⟨-, h⟩
      · exact absurd h (not_lt.2 (square_nonneg n 0 0))
      · exact h
    · next hr => exact absurd hr (C29_terminates _ _ _ _ (by omega))
  cases hx : CellTopo.make m.store (square n 0 0) l with
  | error x => rw [hmake x hx]
  | ok k =>
    exfalso
    have hok : ∃ k, CellTopo.init m.store (l.length + 1) (square n 0 0) l = some (.ok k) := by
      unfold CellTopo.make at hx
      split at hx
      · next r hr => exact ⟨k, by rw [hr, hx]⟩
      · cases hx
    obtain ⟨-, -, hrow, -⟩ := (C29_accepts_iff _ _ _ _ (by omega)).1 hok
    have hlen : 4 ≤ l.length := by
      have := congrArg List.length e2
      rw [List.length_map] at this
      rw [this]; split <;> simp
    match l, hlen with
    | k1 :: k2 :: l', _ =>
      simp only [List.map_cons, List.cons_append, List.cons.injEq] at e2
      obtain ⟨g1, g2, -⟩ := e2
      have s1 := h4 _ _ g1
      have s2 := h4 _ _ g2
      have hmax : max 1 n = n := by omega
      rw [hmax] at s1 s2
      have hsmall : ((1 : K) / n) ^ 2 < (1 / 10 ^ 6) ^ 2 := by
        refine pow_lt_pow_left₀ ?_ (by positivity) (by norm_num)
        exact one_div_lt_one_div_of_lt (by positivity) (by exact_mod_cast hn)
      obtain ⟨j, hj, -, huniq⟩ := hrow 0 (by simp)
      have h0 := huniq 0 (by simp) (by
        simp only [List.getD_cons_zero, s1, entryPt, exitPt, hor, Meets, corner]
        rw [if_pos (by simp), if_pos (by simp)]
        simpa using hsmall)
      have h1 := huniq 1 (by simp) (by
        simp only [List.getD_cons_zero, List.getD_cons_succ, s1, s2, entryPt, exitPt, hor, ver, Meets, corner]
        rw [if_pos (by simp), if_neg (by simp [square])]
        simp)
      omega

end order

/-! ### sizes with a zero, and the direction of the sizes -/

/-- C36: a size with a zero entry is rejected, each time with a different exception. -/
theorem C36_degenerate (r : K) :
    pegboard 0 0 r = .error .zeroDivision ∧ (∀ a, 0 < a → pegboard a 0 r = .error .unboundLocal) ∧
      (∀ b, 0 < b → pegboard 0 b r = .error .valueError) := by
  refine ⟨by simp [pegboard, getPoints, side, bind, Except.bind], fun a ha => ?_, fun b hb => ?_⟩
  · obtain ⟨pts, hp, hv⟩ := getPoints_eq (a := a) (b := 0) ha (radius := r)
    have hs : (side a 0 : Py K) = .ok (1 / ((max a 0 : ℕ) : K)) := by rw [side, if_neg (by omega)]
    obtain ⟨a, rfl⟩ : ∃ c, a = c + 1 := ⟨a - 1, by omega⟩
    have e1 := get_corner (a := a + 1) (b := 0) (h := 1 / ((max (a + 1) 0 : ℕ) : K)) (radius := r) (i := 0) (j := 0) (by omega) le_rfl
    have e2 := get_corner (a := a + 1) (b := 0) (h := 1 / ((max (a + 1) 0 : ℕ) : K)) (radius := r) (i := 0 + 1) (j := 0) (by omega) le_rfl
    simp only [pegboard, hp, bind, Except.bind, hv, getEdges, hs, List.range_succ_eq_map, rowLoop, List.range_zero, cellLoop, e1, e2]
  · have hs : (side 0 b : Py K) = .ok (1 / ((max 0 b : ℕ) : K)) := by rw [side, if_neg (by omega)]
    have hp : ∃ pts, getPoints 0 b r = .ok pts ∧ number 0 pts = pegVerts 0 b (1 / ((max 0 b : ℕ) : K)) r := by
      simp only [getPoints, hs, bind, Except.bind]
      split
      · next hr => exact ⟨_, rfl, by simp [pegVerts, hr]⟩
      · next hr => exact ⟨_, rfl, by simp [pegVerts, hr]⟩
    obtain ⟨pts, hp, hv⟩ := hp
    have htop : ∀ js : List ℕ, (∀ j ∈ js, j < b) → topLoop (pegVerts 0 b (1 / ((max 0 b : ℕ) : K)) r) 0 b js =
        .ok (js.map fun j => line (corner (1 / ((max 0 b : ℕ) : K)) b 0 j) (corner (1 / ((max 0 b : ℕ) : K)) b 0 (j + 1)) (-1)
          (((0 : ℕ) - 1 : ℤ) * b + j)) := by
      intro js hjs
      induction js with
      | nil => rfl
      | cons j js ih =>
        have hjb := hjs j (by simp)
        have e2 := get_corner (a := 0) (h := 1 / ((max 0 b : ℕ) : K)) (radius := r) (i := 0) (j := j + 1) le_rfl hjb
        rw [← add_assoc] at e2
        simp only [topLoop, get_corner le_rfl hjb.le, e2, bind, Except.bind, ih fun j hj' => hjs j (by simp [hj']), List.map_cons]
    have hrej : ∀ (l : List (PegEdge K)) e, l[0]? = some e → e.topo.pos < 0 ∧ e.topo.neg < 0 →
        PlanarMesh.init (toStore l) (List.range l.length) = .error .valueError := by
      intro l e he hneg
      cases hm : PlanarMesh.init (toStore l) (List.range l.length) with
      | error x => rw [C34_rejects _ _ x hm]
      | ok m =>
        obtain ⟨hlt, -⟩ := List.getElem?_eq_some_iff.1 he
        have := (C34_accepts_iff _ _).1 ⟨m, hm⟩ 0 (List.mem_range.2 hlt)
        simp only [toStore, he] at this
        omega
    obtain ⟨b, rfl⟩ : ∃ c, b = c + 1 := ⟨b - 1, by omega⟩
    have hedges : getEdges (pegVerts 0 (b + 1) (1 / ((max 0 (b + 1) : ℕ) : K)) r) 0 (b + 1) r = .ok
        ((List.range (b + 1)).map fun j => line (corner (1 / ((max 0 (b + 1) : ℕ) : K)) (b + 1) 0 j)
          (corner (1 / ((max 0 (b + 1) : ℕ) : K)) (b + 1) 0 (j + 1)) (-1) (((0 : ℕ) - 1 : ℤ) * (b + 1 : ℕ) + j)) := by
      simp only [getEdges, hs, bind, Except.bind, List.range_zero, rowLoop, htop (List.range (b + 1)) (by simp)]
      split <;> simp [circleLoop]
    simp only [pegboard, hp, bind, Except.bind, hv, hedges]
    rw [hrej _ _ (by simp [List.range_succ_eq_map]; rfl)]
    simp only [line]
    constructor
    · norm_num
    · push_cast; omega

/-- the largest coordinate of an end point of an edge -/
def Extent (f : PVert K → K) (es : List (PegEdge K)) (w : K) : Prop :=
  IsGreatest {x | ∃ e ∈ es, x = f e.topo.anchor ∨ x = f e.topo.endpnt} w

/-- What is true of the size (C60): with `size = (a, b)` the domain is `b` squares wide and `a` squares high. -/
theorem C60_extent [IsStrictOrderedRing K] {a b : ℕ} (ha : 0 < a) (hb : 0 < b) (r : K) :
    ∃ es m, pegboard a b r = .ok (es, m) ∧ Extent PVert.x es (b * (1 / (max a b : ℕ))) ∧
      Extent PVert.y es (a * (1 / (max a b : ℕ))) := by
  obtain ⟨m, h1, -⟩ := pegboard_ok ha hb r
  have hh : (0 : K) ≤ 1 / ((max a b : ℕ) : K) := by positivity
  have hcast : ∀ {i n : ℕ}, i ≤ n → (1 / ((max a b : ℕ) : K)) * (i : K) ≤ n * (1 / ((max a b : ℕ) : K)) := by
    intro i n hin
    rw [mul_comm (n : K)]
    exact mul_le_mul_of_nonneg_left (by exact_mod_cast hin) hh
  have hhalf : ∀ {i n : ℕ}, i < n → (1 / ((max a b : ℕ) : K)) * ((i : K) + 1 / 2) ≤ n * (1 / ((max a b : ℕ) : K)) := by
    intro i n hin
    rw [mul_comm (n : K)]
    refine mul_le_mul_of_nonneg_left ?_ hh
    have : ((i + 1 : ℕ) : K) ≤ n := by exact_mod_cast hin
    push_cast at this
    linarith
  refine ⟨_, m, h1, ⟨?_, ?_⟩, ⟨?_, ?_⟩⟩
  · refine ⟨⟨hor _ a b 0 (b - 1), none⟩, (edgeList_mem _ r a b _).2 (Or.inl ⟨0, b - 1, by omega, by omega, rfl⟩), Or.inr ?_⟩
    simp only [hor, corner]
    rw [Nat.sub_add_cancel hb, mul_comm]
  · rintro x ⟨e, he, hx⟩
    rcases (edgeList_mem _ r a b e).1 he with ⟨i, j, hi, hj, rfl⟩ | ⟨i, j, hi, hj, rfl⟩ | ⟨hr, i, j, hi, hj, rfl⟩
    · rcases hx with rfl | rfl
      · exact hcast hj.le
      · exact hcast hj
    · rcases hx with rfl | rfl
      · exact hcast hj
      · exact hcast hj
    · rcases hx with rfl | rfl
      · exact hhalf hj
      · exact hhalf hj
  · refine ⟨⟨ver _ b (a - 1) 0, none⟩, (edgeList_mem _ r a b _).2 (Or.inr (Or.inl ⟨a - 1, 0, by omega, by omega, rfl⟩)), Or.inr ?_⟩
    simp only [ver, corner]
    rw [Nat.sub_add_cancel ha, mul_comm]
  · rintro x ⟨e, he, hx⟩
    rcases (edgeList_mem _ r a b e).1 he with ⟨i, j, hi, hj, rfl⟩ | ⟨i, j, hi, hj, rfl⟩ | ⟨hr, i, j, hi, hj, rfl⟩
    · rcases hx with rfl | rfl
      · exact hcast hi
      · exact hcast hi
    · rcases hx with rfl | rfl
      · exact hcast hi.le
      · exact hcast hi
    · rcases hx with rfl | rfl
      · exact hhalf hi
      · exact hhalf hi

/-- C60 where it holds (the full statement is for all sizes `(a, b)`, `a` in the direction of `x`): equal sizes. -/
theorem C60_square_partial [IsStrictOrderedRing K] {a : ℕ} (ha : 0 < a) (r : K) :
    ∃ es m, pegboard a a r = .ok (es, m) ∧ Extent PVert.x es 1 ∧ Extent PVert.y es 1 := by
  obtain ⟨es, m, h1, h2, h3⟩ := C60_extent ha ha r
  have : (a : K) * (1 / (max a a : ℕ)) = 1 := by
    rw [max_self]
    exact mul_one_div_cancel (by exact_mod_cast ha.ne')
  rw [this] at h2 h3
  exact ⟨es, m, h1, h2, h3⟩

/-- C60 is violated: one square in the direction of `x` and two in the direction of `y` are asked for, and the domain is
twice as wide as it is high. -/
theorem C60_violated : ∃ es m, pegboard 1 2 (1 / 4 : ℚ) = .ok (es, m) ∧ Extent PVert.x es 1 ∧ Extent PVert.y es (1 / 2) := by
  obtain ⟨es, m, h1, h2, h3⟩ := C60_extent (a := 1) (b := 2) one_pos two_pos (1 / 4 : ℚ)
  norm_num at h2 h3
  exact ⟨es, m, h1, h2, by norm_num; exact h3⟩

/-- the hypotheses of the theorems above are met by the 2 by 3 pegboard, whose cell in row 1 and column 2 has number 5 -/
example : ∃ es m, pegboard 2 3 (1 / 4 : ℚ) = .ok (es, m) ∧ ∃ k1 k2 k3 k4 k5, m.getCell 5 =
    .ok ⟨5, [1, -1, 1, -1, -1], [⟨[k1, k3, k4, k2], [1, 1, -1, -1], 4⟩, ⟨[k5], [-1], 1⟩], 1, 5⟩ := by
  obtain ⟨es, m, h, hl⟩ := C36_loops (a := 2) (b := 3) two_pos three_pos (by norm_num) (1 / 4 : ℚ)
  obtain ⟨k1, k2, k3, k4, -, -, -, -, -, h5⟩ := hl 1 2 (by norm_num) (by norm_num)
  obtain ⟨k5, -, h6, -⟩ := h5 (by norm_num)
  exact ⟨es, m, h, k1, k2, k3, k4, k5, h6⟩

end Pegboard
end PFEM
