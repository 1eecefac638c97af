import Verif.Lemmas.CellTopo

/-!
Helper lemmas about the incidence check of a cell: it accepts exactly when "starts where the other ends" is a
bijection of the edges, and then returns that bijection.
-/

set_option linter.unusedSectionVars false

namespace PFEM
namespace CellTopo

variable {K : Type} [Field K] [LinearOrder K]

/-- start of an oriented edge, total version -/
def sp (st : EdgeStore K) (p : ℕ × ℤ) : PVert K := if p.2 = 1 then (st p.1).anchor else (st p.1).endpnt
/-- end of an oriented edge, total version -/
def ep (st : EdgeStore K) (p : ℕ × ℤ) : PVert K := if p.2 = 1 then (st p.1).endpnt else (st p.1).anchor

/-- the incidence test -/
def near (st : EdgeStore K) (p q : ℕ × ℤ) : Bool := decide ((sp st p).dist2 (ep st q) < incTol K ^ 2)

def Oriented (l : List (ℕ × ℤ)) : Prop := ∀ p ∈ l, p.2 = 1 ∨ p.2 = -1

theorem incRow_eq (st : EdgeStore K) (p : ℕ × ℤ) (l : List (ℕ × ℤ)) (h : Oriented l) :
    incRow st (sp st p) l = .ok (l.map fun q => if near st p q then 1 else 0) := by
  induction l with
  | nil => rfl
  | cons q l ih =>
    obtain ⟨e, o⟩ := q
    have hq : endPt st e o = .ok (ep st (e, o)) := by
      rcases h (e, o) (by simp) with h | h <;> simp_all [endPt, ep]
    rw [incRow, hq, ih (fun p hp => h p (by simp [hp]))]
    simp [bind, Except.bind, near]

theorem incMat_eq (st : EdgeStore K) (all l : List (ℕ × ℤ)) (ha : Oriented all) (h : Oriented l) :
    incMat st all l = .ok (l.map fun p => all.map fun q => if near st p q then 1 else 0) := by
  induction l with
  | nil => rfl
  | cons q l ih =>
    obtain ⟨e, o⟩ := q
    have hq : startPt st e o = .ok (sp st (e, o)) := by
      rcases h (e, o) (by simp) with h | h <;> simp_all [startPt, sp]
    rw [incMat, hq]
    simp only [bind, Except.bind]
    rw [incRow_eq st (e, o) all ha, ih (fun p hp => h p (by simp [hp]))]
    rfl

theorem colSums_eq {α : Type} (all : List α) {β : Type} (l : List β) (g : β → α → ℕ) :
    colSums all.length (l.map fun p => all.map (g p)) = all.map fun q => (l.map fun p => g p q).sum := by
  induction l with
  | nil =>
    simp only [colSums, List.map_nil, List.foldr_nil, List.sum_nil]
    exact (List.eq_replicate_iff.2 ⟨List.length_map _, by simp⟩).symm
  | cons p l ih =>
    unfold colSums at ih ⊢
    rw [List.map_cons, List.foldr_cons, ih, List.zipWith_map_left, List.zipWith_map_right]
    simp [List.zipWith_self]

theorem sum_indicator {α : Type} (l : List α) (p : α → Bool) : (l.map fun a => if p a then 1 else 0).sum = l.countP p := by
  induction l with
  | nil => rfl
  | cons a l ih => simp only [List.map_cons, List.sum_cons, ih, List.countP_cons]; omega

theorem countP_eq_one_iff {α : Type} (l : List α) (p : α → Bool) :
    l.countP p = 1 ↔ ∃ i < l.length, ∀ j (hj : j < l.length), p l[j] = true ↔ j = i := by
  induction l with
  | nil => simp
  | cons a l ih =>
    rw [List.countP_cons]
    by_cases ha : p a
    · simp only [ha, if_true, Nat.add_eq_right, List.countP_eq_zero]
      constructor
      · intro h
        refine ⟨0, by simp, fun j hj => ?_⟩
        cases j with
        | zero => simp [ha]
        | succ j =>
          simp only [List.length_cons, Nat.add_lt_add_iff_right] at hj
          have := h _ (List.getElem_mem hj)
          simp only [List.getElem_cons_succ, Nat.add_eq_zero_iff, one_ne_zero, and_false, iff_false]
          exact this
      · rintro ⟨i, hi, h⟩ x hx
        have h0 := (h 0 (by simp)).1 (by simpa using ha)
        obtain ⟨j, hj, rfl⟩ := List.mem_iff_getElem.1 hx
        intro hp
        have := (h (j + 1) (by simpa using hj)).1 (by simpa using hp)
        omega
    · simp only [ha, Bool.false_eq_true, if_false, Nat.add_zero]
      rw [ih]
      constructor
      · rintro ⟨i, hi, h⟩
        refine ⟨i + 1, by simpa using hi, fun j hj => ?_⟩
        cases j with
        | zero => simp [ha]
        | succ j =>
          simp only [List.length_cons, Nat.add_lt_add_iff_right] at hj
          simp [h j hj]
      · rintro ⟨i, hi, h⟩
        have hi0 : i ≠ 0 := by
          rintro rfl
          have := (h 0 (by simp)).2 rfl
          simp at this
          exact ha this
        obtain ⟨i, rfl⟩ : ∃ i', i = i' + 1 := ⟨i - 1, by omega⟩
        refine ⟨i, by simpa using hi, fun j hj => ?_⟩
        have := h (j + 1) (by simpa using hj)
        simpa using this

/-- every edge end is the start of exactly one edge, and vice versa -/
def Matched (st : EdgeStore K) (all : List (ℕ × ℤ)) : Prop :=
  (∀ i (hi : i < all.length), ∃ j < all.length, ∀ k (hk : k < all.length), near st all[i] all[k] = true ↔ k = j) ∧
  (∀ j (hj : j < all.length), ∃ i < all.length, ∀ k (hk : k < all.length), near st all[k] all[j] = true ↔ k = i)

theorem incidenceLoop_spec (rs : List (List ℕ)) (i : ℕ) (inc : List ℕ) (t : ℕ → ℕ)
    (h1 : ∀ k (hk : k < rs.length), rs[k].findIdx (· ≠ 0) = t k ∧ t k < rs[k].length)
    (hinj : ∀ a < rs.length, ∀ b < rs.length, t a = t b → a = b) :
    ∃ inc', incidenceLoop rs i inc = .ok inc' ∧ inc'.length = inc.length ∧
      (∀ k < rs.length, t k < inc.length → inc'[t k]? = some (i + k)) ∧
      (∀ j, (∀ k < rs.length, t k ≠ j) → inc'[j]? = inc[j]?) := by
  induction rs generalizing i inc t with
  | nil => exact ⟨inc, rfl, rfl, by simp, by simp⟩
  | cons r rs ih =>
    obtain ⟨h0a, h0b⟩ := h1 0 (by simp)
    simp only [List.getElem_cons_zero] at h0a h0b
    obtain ⟨inc', e1, e2, e3, e4⟩ := ih (i + 1) (inc.set (t 0) i) (fun k => t (k + 1))
      (fun k hk => by
        have := h1 (k + 1) (by simpa using hk)
        simpa using this)
      (fun a ha b hb hab => by
        have := hinj (a + 1) (by simpa using ha) (b + 1) (by simpa using hb) hab
        omega)
    refine ⟨inc', ?_, by simpa using e2, ?_, ?_⟩
    · rw [incidenceLoop]
      simp only [h0a, h0b, if_true]
      exact e1
    · intro k hk hlt
      cases k with
      | zero =>
        rw [e4 (t 0)]
        · simp [hlt]
        · intro k hk' he
          have := hinj (k + 1) (by simpa using hk') 0 (by simp) he
          omega
      | succ k =>
        rw [e3 k (by simpa using hk) (by simpa using hlt)]
        congr 1; omega
    · intro j hj
      rw [e4 j (fun k hk => hj (k + 1) (by simpa using hk)), List.getElem?_set_ne (hj 0 (by simp))]

theorem all_eq_one_iff {α : Type} (l : List α) (g : α → ℕ) : (l.map g).all (· == 1) = true ↔ ∀ a ∈ l, g a = 1 := by
  simp [List.all_eq_true]

theorem incidence_error (st : EdgeStore K) (all : List (ℕ × ℤ)) (ho : Oriented all) (h : ¬ Matched st all) :
    incidence st all = .error .embedding := by
  unfold incidence
  rw [incMat_eq st all all ho ho]
  simp only [bind, Except.bind]
  rw [if_neg]
  intro hc
  rw [Bool.and_eq_true, colSums_eq, List.map_map, all_eq_one_iff, all_eq_one_iff] at hc
  apply h
  constructor
  · intro i hi
    have := hc.2 _ (List.getElem_mem hi)
    simp only [Function.comp_def] at this
    rw [sum_indicator, countP_eq_one_iff] at this
    exact this
  · intro j hj
    have := hc.1 _ (List.getElem_mem hj)
    rw [sum_indicator, countP_eq_one_iff] at this
    exact this

theorem incidence_ok (st : EdgeStore K) (all : List (ℕ × ℤ)) (ho : Oriented all) (h : Matched st all) :
    ∃ inc, incidence st all = .ok inc ∧ PermOn (fun y => inc.getD y 0) all.length ∧
      ∀ j (hj : j < all.length) (hi : inc.getD j 0 < all.length), near st all[inc.getD j 0] all[j] = true := by
  unfold incidence
  rw [incMat_eq st all all ho ho]
  simp only [bind, Except.bind]
  obtain ⟨hr, hc⟩ := h
  rw [if_pos]
  swap
  · rw [Bool.and_eq_true, colSums_eq, List.map_map, all_eq_one_iff, all_eq_one_iff]
    constructor
    · intro q hq
      obtain ⟨j, hj, rfl⟩ := List.mem_iff_getElem.1 hq
      rw [sum_indicator, countP_eq_one_iff]
      exact hc j hj
    · intro q hq
      obtain ⟨j, hj, rfl⟩ := List.mem_iff_getElem.1 hq
      simp only [Function.comp_def]
      rw [sum_indicator, countP_eq_one_iff]
      exact hr j hj
  -- columns of the rows
  have hch : ∀ i, ∃ j, ∀ (hi : i < all.length), j < all.length ∧
      ∀ k (hk : k < all.length), near st all[i] all[k] = true ↔ k = j := by
    intro i
    by_cases hi : i < all.length
    · obtain ⟨j, hj, h⟩ := hr i hi
      exact ⟨j, fun _ => ⟨hj, h⟩⟩
    · exact ⟨0, fun h => absurd h hi⟩
  choose t ht using hch
  have hinj : ∀ a < all.length, ∀ b < all.length, t a = t b → a = b := by
    intro a ha b hb hab
    obtain ⟨i, hi, hu⟩ := hc (t a) (ht a ha).1
    have h1 := (hu a ha).1 (((ht a ha).2 (t a) (ht a ha).1).2 rfl)
    have h2 := (hu b hb).1 (by
      have := ((ht b hb).2 (t b) (ht b hb).1).2 rfl
      simp only [hab]; exact this)
    omega
  obtain ⟨inc, e1, e2, e3, -⟩ := incidenceLoop_spec
    (all.map fun p => all.map fun q => if near st p q then 1 else 0) 0 (List.replicate all.length 0) t
    (by
      intro k hk
      simp only [List.length_map] at hk
      obtain ⟨htk, hu⟩ := ht k hk
      simp only [List.getElem_map, List.length_map]
      refine ⟨?_, htk⟩
      rw [List.findIdx_eq (by simpa using htk)]
      constructor
      · have := (hu (t k) htk).2 rfl
        simp [this]
      · intro j hj
        have : ¬ near st all[k] all[j] = true := by
          rw [hu j (by omega)]; omega
        simp [this])
    (by simpa using hinj)
  simp only [List.length_map, List.length_replicate, Nat.zero_add] at e2 e3
  have e3' : ∀ k < all.length, inc.getD (t k) 0 = k := by
    intro k hk
    rw [List.getD_eq_getElem?_getD, e3 k hk (ht k hk).1]
    rfl
  -- t is onto
  have hsurj : ∀ j (hj : j < all.length), ∃ k < all.length, t k = j := by
    intro j hj
    obtain ⟨i, hi, hu⟩ := hc j hj
    exact ⟨i, hi, (((ht i hi).2 j hj).1 ((hu i hi).2 rfl)).symm⟩
  refine ⟨inc, e1, ⟨?_, ?_⟩, ?_⟩
  · intro x hx
    obtain ⟨k, hk, rfl⟩ := hsurj x hx
    simp only [e3' k hk]
    exact hk
  · intro x hx y hy hxy
    obtain ⟨k, hk, rfl⟩ := hsurj x hx
    obtain ⟨l, hl, rfl⟩ := hsurj y hy
    simp only [e3' k hk, e3' l hl] at hxy
    rw [hxy]
  · intro j hj hi
    obtain ⟨k, hk, rfl⟩ := hsurj j hj
    have := ((ht k hk).2 (t k) hj).2 rfl
    simpa only [e3' k hk] using this

end CellTopo
end PFEM
