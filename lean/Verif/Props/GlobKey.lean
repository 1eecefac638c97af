import Verif.Model.GlobKey

/-!
C37: global keys are well formed.
-/

namespace PFEM

/-- The constructor accepts exactly the three type names and rejects everything else with `ValueError`. -/
theorem C37_types (s : String) (e v b k : ℤ) :
    ((∃ key, GlobalKey.init s e v b k = .ok key) ↔ s = "vert" ∨ s = "edge" ∨ s = "bubb") ∧
      (∀ x, GlobalKey.init s e v b k = .error x → x = .valueError) := by
  unfold GlobalKey.init GlobalKey.parseType
  by_cases h1 : s = "vert"
  · simp [h1, bind, Except.bind]
  · by_cases h2 : s = "edge"
    · simp [h2, bind, Except.bind]
    · by_cases h3 : s = "bubb"
      · simp [h3, bind, Except.bind]
      · simp [h1, h2, h3, bind, Except.bind, eq_comm]

/-- A vertex key keeps the vertex index only, an edge key the edge index and the position in the edge space, a bubble
key the bubble number; all other fields are `-1` whatever was passed, and no global number is set. -/
theorem C37_fields (e v b k : ℤ) :
    GlobalKey.init "vert" e v b k = .ok ⟨.vert, v, -1, -1, -1, none, none⟩ ∧
    GlobalKey.init "edge" e v b k = .ok ⟨.edge, -1, e, k, -1, none, none⟩ ∧
    GlobalKey.init "bubb" e v b k = .ok ⟨.bubb, -1, -1, -1, b, none, none⟩ :=
  ⟨rfl, rfl, rfl⟩

/-- Two keys are equal exactly if they have the same type and agree in the fields of that type: arguments belonging
to another type never matter, and nothing else distinguishes keys. -/
theorem C37_same_function (s s' : String) (e v b k e' v' b' k' : ℤ) (key key' : GlobalKey)
    (h : GlobalKey.init s e v b k = .ok key) (h' : GlobalKey.init s' e' v' b' k' = .ok key') :
    key = key' ↔ s = s' ∧ (s = "vert" → v = v') ∧ (s = "edge" → e = e' ∧ k = k') ∧ (s = "bubb" → b = b') := by
  have hs := (C37_types s e v b k).1.1 ⟨key, h⟩
  have hs' := (C37_types s' e' v' b' k').1.1 ⟨key', h'⟩
  obtain ⟨a1, a2, a3⟩ := C37_fields e v b k
  obtain ⟨b1, b2, b3⟩ := C37_fields e' v' b' k'
  rcases hs with rfl | rfl | rfl <;> rcases hs' with rfl | rfl | rfl
  all_goals
    simp only [a1, a2, a3, Except.ok.injEq] at h
    simp only [b1, b2, b3, Except.ok.injEq] at h'
    subst h; subst h'
    simp

/-- A negative global number is rejected; any other is stored and nothing else changes. -/
theorem C37_glob_idx (key : GlobalKey) (i : ℤ) :
    (i < 0 → key.setGlobIdx i = .error .valueError) ∧
    (∀ n : ℕ, i = n → key.setGlobIdx i = .ok { key with globIdx := some n }) := by
  constructor
  · intro h; simp [GlobalKey.setGlobIdx, h]
  · rintro n rfl; simp [GlobalKey.setGlobIdx]

example : GlobalKey.init "edge" 4 7 9 2 = .ok ⟨.edge, -1, 4, 2, -1, none, none⟩ := rfl
example : GlobalKey.init "face" 4 7 9 2 = .error .valueError := rfl

end PFEM
