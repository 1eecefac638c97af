import Verif.Model.PlanarMesh

/-!
Helper lemmas about the construction of a planar mesh.
-/

set_option linter.unusedSectionVars false

namespace PFEM
namespace PlanarMesh

variable {K : Type} [Field K] [LinearOrder K]

theorem addEdges_ok_iff (st : EdgeStore K) (es : List ℕ) (s : List ℕ × ℕ) :
    (∃ r, addEdges st es s = .ok r) ↔ ∀ e ∈ es, ¬((st e).neg < 0 ∧ (st e).pos < 0) := by
  induction es generalizing s with
  | nil => simp [addEdges]
  | cons e es ih =>
    by_cases h : (st e).neg < 0 ∧ (st e).pos < 0
    · constructor
      · rintro ⟨r, hr⟩
        simp [addEdges, addEdge, h, bind, Except.bind] at hr
      · intro hh; exact absurd h (hh e (by simp))
    · have : ∃ s', addEdge st s e = .ok s' := by
        unfold addEdge; rw [if_neg h]; split <;> exact ⟨_, rfl⟩
      obtain ⟨s', hs⟩ := this
      simp only [addEdges, hs, bind, Except.bind, ih, List.mem_cons, forall_eq_or_imp]
      exact ⟨fun hh => ⟨h, hh⟩, fun hh => hh.2⟩

theorem addEdges_error (st : EdgeStore K) (es : List ℕ) (s : List ℕ × ℕ) (x : PyErr)
    (h : addEdges st es s = .error x) : x = .valueError := by
  induction es generalizing s with
  | nil => simp [addEdges] at h
  | cons e es ih =>
    unfold addEdges at h
    cases hs : addEdge st s e with
    | ok s' => rw [hs] at h; exact ih s' h
    | error y =>
      rw [hs] at h
      simp only [bind, Except.bind, Except.error.injEq] at h
      subst h
      unfold addEdge at hs
      split at hs
      · cases hs; rfl
      · split at hs <;> cases hs

theorem addEdges_spec (st : EdgeStore K) (es : List ℕ) (s r : List ℕ × ℕ)
    (h : addEdges st es s = .ok r) (hn : s.1.Nodup) (hl : s.2 = s.1.length) :
    r.1.Nodup ∧ r.2 = r.1.length ∧ (∀ e, e ∈ r.1 ↔ e ∈ s.1 ∨ e ∈ es) ∧
      ∃ new, r.1 = s.1 ++ new ∧ new.Sublist es := by
  induction es generalizing s with
  | nil =>
    simp only [addEdges, Except.ok.injEq] at h
    subst h
    exact ⟨hn, hl, by simp, [], by simp⟩
  | cons e es ih =>
    unfold addEdges at h
    cases hs : addEdge st s e with
    | error y => rw [hs] at h; simp [bind, Except.bind] at h
    | ok s' =>
      rw [hs] at h
      simp only [bind, Except.bind] at h
      unfold addEdge at hs
      split at hs
      · cases hs
      · split at hs
        · rename_i hmem
          cases hs
          obtain ⟨a, b, c, new, d1, d2⟩ := ih s h hn hl
          refine ⟨a, b, fun x => ?_, new, d1, d2.trans (List.sublist_cons_self _ _)⟩
          rw [c x, List.mem_cons]
          constructor
          · rintro (h | h)
            · exact Or.inl h
            · exact Or.inr (Or.inr h)
          · rintro (h | rfl | h)
            · exact Or.inl h
            · exact Or.inl hmem
            · exact Or.inr h
        · rename_i hmem
          cases hs
          obtain ⟨a, b, c, new, d1, d2⟩ := ih _ h
            (by rw [List.nodup_append]; exact ⟨hn, by simp, by
                  intro x hx y hy hxy; simp only [List.mem_singleton] at hy; subst hy; subst hxy; exact hmem hx⟩)
            (by simp [hl])
          refine ⟨a, b, fun x => ?_, e :: new, ?_, d2.cons_cons e⟩
          · rw [c x]; simp [or_assoc]
          · rw [d1]; simp

theorem setIdx_notMem (st : EdgeStore K) (k : ℕ) (es : List ℕ) (e : ℕ) (h : e ∉ es) :
    setIdx st k es e = st e := by
  induction es generalizing st k with
  | nil => rfl
  | cons a es ih =>
    simp only [List.mem_cons, not_or] at h
    unfold setIdx
    rw [ih _ _ h.2, Function.update_of_ne h.1]

theorem setIdx_getElem (st : EdgeStore K) (k : ℕ) (es : List ℕ) (hn : es.Nodup) (i : ℕ) (hi : i < es.length) :
    setIdx st k es es[i] = { st es[i] with idx := some (k + i) } := by
  induction es generalizing st k i with
  | nil => simp at hi
  | cons a es ih =>
    rw [List.nodup_cons] at hn
    unfold setIdx
    cases i with
    | zero => simp [setIdx_notMem _ _ _ _ hn.1]
    | succ i =>
      simp only [List.length_cons, Nat.add_lt_add_iff_right] at hi
      simp only [List.getElem_cons_succ]
      rw [ih _ _ hn.2 i hi, Function.update_of_ne]
      · rw [Nat.add_right_comm, Nat.add_assoc]
      · intro h; exact hn.1 (h ▸ List.getElem_mem hi)

/-- numbering the edges leaves everything but `idx` alone -/
theorem setIdx_fields (st : EdgeStore K) (k : ℕ) (es : List ℕ) (e : ℕ) :
    (setIdx st k es e).anchor = (st e).anchor ∧ (setIdx st k es e).endpnt = (st e).endpnt ∧
      (setIdx st k es e).pos = (st e).pos ∧ (setIdx st k es e).neg = (st e).neg := by
  induction es generalizing st k with
  | nil => simp [setIdx]
  | cons a es ih =>
    unfold setIdx
    obtain ⟨h1, h2, h3, h4⟩ := ih (Function.update st a { st a with idx := some k }) (k + 1)
    rw [h1, h2, h3, h4]
    by_cases h : e = a
    · subst h; simp
    · simp [Function.update_of_ne h]

section collect

/-- the inner loops of the two list builders -/
def collectNew (l : List ℤ) (vs : List ℤ) : List ℤ :=
  vs.foldl (fun l v => if 0 ≤ v ∧ v ∉ l then l ++ [v] else l) l

theorem collectNew_nodup (vs l : List ℤ) (h : l.Nodup) : (collectNew l vs).Nodup := by
  induction vs generalizing l with
  | nil => exact h
  | cons v vs ih =>
    unfold collectNew
    rw [List.foldl_cons]
    apply ih
    split
    · rename_i hv
      rw [List.nodup_append]
      refine ⟨h, by simp, ?_⟩
      intro a ha b hb hab
      simp only [List.mem_singleton] at hb
      subst hb; subst hab
      exact hv.2 ha
    · exact h

theorem mem_collectNew (vs l : List ℤ) (x : ℤ) : x ∈ collectNew l vs ↔ x ∈ l ∨ (0 ≤ x ∧ x ∈ vs) := by
  induction vs generalizing l with
  | nil => simp [collectNew]
  | cons v vs ih =>
    unfold collectNew
    rw [List.foldl_cons]
    have := ih (if 0 ≤ v ∧ v ∉ l then l ++ [v] else l)
    unfold collectNew at this
    rw [this]
    by_cases hv : 0 ≤ v ∧ v ∉ l
    · rw [if_pos hv]
      simp only [List.mem_append, List.mem_cons, List.not_mem_nil, or_false]
      constructor
      · rintro ((h | rfl) | h)
        · exact Or.inl h
        · exact Or.inr ⟨hv.1, Or.inl rfl⟩
        · exact Or.inr ⟨h.1, Or.inr h.2⟩
      · rintro (h | ⟨h, rfl | h'⟩)
        · exact Or.inl (Or.inl h)
        · exact Or.inl (Or.inr rfl)
        · exact Or.inr ⟨h, h'⟩
    · rw [if_neg hv]
      simp only [List.mem_cons]
      constructor
      · rintro (h | h)
        · exact Or.inl h
        · exact Or.inr ⟨h.1, Or.inr h.2⟩
      · rintro (h | ⟨h, rfl | h'⟩)
        · exact Or.inl h
        · left
          by_contra hx
          exact hv ⟨h, hx⟩
        · exact Or.inr ⟨h, h'⟩

end collect

theorem vertFold_spec (st : EdgeStore K) (es : List ℕ) (l : List ℤ) (h : l.Nodup) :
    (es.foldl (vertStep st) l).Nodup ∧ ∀ v, v ∈ es.foldl (vertStep st) l ↔ v ∈ l ∨
      (0 ≤ v ∧ ∃ e ∈ es, (st e).isLoop = false ∧ (v = (st e).anchor.idx ∨ v = (st e).endpnt.idx)) := by
  induction es generalizing l with
  | nil => simp [h]
  | cons e es ih =>
    rw [List.foldl_cons]
    have hstep : vertStep st l e = if (st e).isLoop then l else collectNew l [(st e).anchor.idx, (st e).endpnt.idx] := rfl
    have hn : (vertStep st l e).Nodup := by
      rw [hstep]; split
      · exact h
      · exact collectNew_nodup _ _ h
    obtain ⟨h1, h2⟩ := ih _ hn
    refine ⟨h1, fun v => ?_⟩
    rw [h2 v, hstep]
    by_cases hl : (st e).isLoop
    · simp [hl]
    · have hl' : (st e).isLoop = false := by simpa using hl
      simp only [hl', Bool.false_eq_true, if_false, mem_collectNew, List.mem_cons, List.not_mem_nil, or_false,
        exists_eq_or_imp, true_and]
      rw [or_assoc, ← and_or_left]

theorem cellFold_spec (st : EdgeStore K) (es : List ℕ) (l : List ℤ) (h : l.Nodup) :
    (es.foldl (cellStep st) l).Nodup ∧ ∀ v, v ∈ es.foldl (cellStep st) l ↔ v ∈ l ∨
      (0 ≤ v ∧ ∃ e ∈ es, (v = (st e).pos ∨ v = (st e).neg)) := by
  induction es generalizing l with
  | nil => simp [h]
  | cons e es ih =>
    rw [List.foldl_cons]
    have hstep : cellStep st l e = collectNew l [(st e).pos, (st e).neg] := rfl
    have hn : (cellStep st l e).Nodup := by
      rw [hstep]; exact collectNew_nodup _ _ h
    obtain ⟨h1, h2⟩ := ih _ hn
    refine ⟨h1, fun v => ?_⟩
    rw [h2 v, hstep]
    simp only [mem_collectNew, List.mem_cons, List.not_mem_nil, or_false, exists_eq_or_imp]
    rw [or_assoc, ← and_or_left]

theorem sort_spec (l : List ℤ) (h : l.Nodup) :
    (l.insertionSort (· ≤ ·)).Pairwise (· < ·) ∧ ∀ v, v ∈ l.insertionSort (· ≤ ·) ↔ v ∈ l := by
  have hp := List.perm_insertionSort (· ≤ ·) l
  have hs : (l.insertionSort (· ≤ ·)).Pairwise (· ≤ ·) := List.pairwise_insertionSort _ _
  have hn : (l.insertionSort (· ≤ ·)).Nodup := hp.nodup_iff.2 h
  refine ⟨?_, fun v => hp.mem_iff⟩
  exact (hs.and hn).imp (fun h => lt_of_le_of_ne h.1 h.2)

/-- What a successful construction yields. -/
theorem init_spec (st : EdgeStore K) (es : List ℕ) (m : PlanarMesh K) (h : init st es = .ok m) :
    ∃ r : List ℕ × ℕ, addEdges st es ([], 0) = .ok r ∧ m.store = setIdx st 0 r.1 ∧ m.edges = r.1 ∧ m.numEdges = r.2 ∧
      m.cellIdxList = buildCellList (setIdx st 0 r.1) r.1 ∧ m.vertIdxList = buildVertList (setIdx st 0 r.1) r.1 ∧
      m.numVerts = m.vertIdxList.length ∧ m.numCells = m.cellIdxList.length := by
  unfold init at h
  cases hr : addEdges st es ([], 0) with
  | error x => rw [hr] at h; simp [bind, Except.bind] at h
  | ok r =>
    rw [hr] at h
    simp only [bind, Except.bind, Except.ok.injEq] at h
    subst h
    exact ⟨r, rfl, rfl, rfl, rfl, rfl, rfl, rfl, rfl⟩

end PlanarMesh
end PFEM
