import Verif.Props.InteriorPoints

/-!
C117: the settings of a cell for its interior points.
-/

namespace PFEM

/-- a call of one of the two setters -/
inductive SetCall
  | size (rows cols : ℕ)
  | tol (rtol atol : Option ℝ)

/-- the cell after the call -/
noncomputable def SetCall.run (K : CellG) : SetCall → CellG
  | .size r c => K.setMeshSize r c
  | .tol r a => (K.setTolerance r a).1

theorem tol_keeps (K : CellG) (r a : Option ℝ) :
    (K.setTolerance r a).1.components = K.components ∧ (K.setTolerance r a).1.interior = K.interior ∧
    (K.setTolerance r a).1.numPts = K.numPts ∧ (K.setTolerance r a).1.startIdx = K.startIdx ∧
    (K.setTolerance r a).1.closest = K.closest ∧ (K.setTolerance r a).1.meshSize = K.meshSize := by
  rcases a with _ | a
  · simp [CellG.setTolerance]
  · by_cases ha : a ≤ 0
    · simp [CellG.setTolerance, ha]
    · rcases r with _ | r
      · simp [CellG.setTolerance, ha]
      · by_cases hr : r ≤ 0 <;> simp [CellG.setTolerance, ha, hr]

theorem settings_pos {K : CellG} (h : 0 < K.rtol ∧ 0 < K.atol) (r a : Option ℝ) :
    0 < (K.setTolerance r a).1.rtol ∧ 0 < (K.setTolerance r a).1.atol := by
  rcases a with _ | a
  · simpa [CellG.setTolerance] using h
  · by_cases ha : a ≤ 0
    · simpa [CellG.setTolerance, ha] using h
    · rcases r with _ | r
      · simpa [CellG.setTolerance, ha] using ⟨h.1, not_le.1 ha⟩
      · by_cases hr : r ≤ 0
        · simpa [CellG.setTolerance, ha, hr] using ⟨h.1, not_le.1 ha⟩
        · simpa [CellG.setTolerance, ha, hr] using ⟨not_le.1 hr, not_le.1 ha⟩

/-- Whatever calls of the two setters are made on a cell that was constructed, its tolerances are positive, and the calls
do not touch its boundary or the interior points that it has. -/
theorem C117_positive {cs : List ContourG} {size : ℕ × ℕ} {r a : Option ℝ} {K : CellG}
    (h : CellG.withSettings cs size r a = .ok K) (calls : List SetCall) :
    0 < (calls.foldl SetCall.run K).rtol ∧ 0 < (calls.foldl SetCall.run K).atol ∧
    (calls.foldl SetCall.run K).components = cs ∧ (calls.foldl SetCall.run K).interior = [] := by
  have start : 0 < K.rtol ∧ 0 < K.atol ∧ K.components = cs ∧ K.interior = [] := by
    unfold CellG.withSettings at h
    simp only at h
    have hk := tol_keeps (({ components := cs } : CellG).setMeshSize size.1 size.2) r a
    have hp := settings_pos (K := ({ components := cs } : CellG).setMeshSize size.1 size.2)
      (by constructor <;> norm_num [CellG.setMeshSize]) r a
    split at h
    · cases h
    · cases h; exact ⟨hp.1, hp.2, hk.1, hk.2.1⟩
  clear h
  induction calls generalizing K with
  | nil => exact start
  | cons c calls ih =>
    refine ih (K := c.run K) ?_
    obtain ⟨h1, h2, h3, h4⟩ := start
    cases c with
    | size r c => exact ⟨h1, h2, h3, h4⟩
    | tol r a =>
      have hk := tol_keeps K r a
      have hp := settings_pos ⟨h1, h2⟩ r a
      exact ⟨hp.1, hp.2, hk.1.trans h3, hk.2.1.trans h4⟩

/-- the sizes given to a call of `set_interior_mesh_size` -/
def SetCall.sizes : SetCall → Option (ℕ × ℕ)
  | .size rows cols => some (rows, cols)
  | .tol _ _ => none

/-- The mesh has the numbers of rows and columns, in this order, of the last call of `set_interior_mesh_size`, and those
given to the constructor if there was none; no call of the other setter changes them, whether it is accepted or refused. -/
theorem C117_size {cs : List ContourG} {size : ℕ × ℕ} {r a : Option ℝ} {K : CellG}
    (h : CellG.withSettings cs size r a = .ok K) (calls : List SetCall) :
    (calls.foldl SetCall.run K).meshSize = ((calls.filterMap SetCall.sizes).getLast?).getD size := by
  have start : K.meshSize = size := by
    unfold CellG.withSettings at h
    simp only at h
    have hk := tol_keeps (({ components := cs } : CellG).setMeshSize size.1 size.2) r a
    split at h
    · cases h
    · cases h; exact hk.2.2.2.2.2
  clear h
  induction calls generalizing K size with
  | nil => exact start
  | cons c calls ih =>
    cases c with
    | size r c =>
      rw [List.foldl_cons, ih (K := SetCall.run K (.size r c)) (size := (r, c)) rfl]
      simp [SetCall.sizes, List.getLast?_cons]
    | tol r a =>
      rw [List.foldl_cons, ih (K := SetCall.run K (.tol r a)) (size := size) ((tol_keeps K r a).2.2.2.2.2.trans start),
        List.filterMap_cons_none rfl]

/-- A call with two positive numbers is accepted and sets both; any other call raises `TypeError`.

Missing for the full claim: a refused call may change the absolute tolerance (`C117_violated`); it changes nothing else,
and nothing at all if it is the absolute tolerance that is refused. -/
theorem C117_set_partial (K : CellG) (r a : Option ℝ) :
    (∀ r' a', r = some r' → a = some a' → 0 < r' → 0 < a' →
      K.setTolerance r a = ({ K with rtol := r', atol := a' }, .ok ())) ∧
    ((¬∃ r' a', r = some r' ∧ a = some a' ∧ 0 < r' ∧ 0 < a') → (K.setTolerance r a).2 = .error .typeError ∧
      ∃ b, (K.setTolerance r a).1 = { K with atol := b } ∧ ((∀ a', a = some a' → a' ≤ 0) → b = K.atol)) := by
  constructor
  · rintro r' a' rfl rfl hr ha
    simp [CellG.setTolerance, not_le.2 hr, not_le.2 ha]
  · intro h
    rcases a with _ | a
    · exact ⟨rfl, K.atol, rfl, fun _ => rfl⟩
    · by_cases ha : a ≤ 0
      · simp only [CellG.setTolerance, ha, if_true]
        exact ⟨trivial, K.atol, rfl, fun _ => rfl⟩
      · have hb : ¬∀ a', some a = some a' → a' ≤ 0 := fun H => ha (H a rfl)
        rcases r with _ | r
        · simp only [CellG.setTolerance, ha, if_false]
          exact ⟨trivial, a, rfl, fun H => absurd H hb⟩
        · have hr : r ≤ 0 := by
            by_contra hr
            exact h ⟨r, a, rfl, rfl, not_le.1 hr, not_le.1 ha⟩
          simp only [CellG.setTolerance, ha, hr, if_true, if_false]
          exact ⟨trivial, a, rfl, fun H => absurd H hb⟩

/-- The claim is violated: a refused call leaves its first change. -/
theorem C117_violated : ∃ K : CellG, (K.setTolerance (some (-1)) (some 1)).2 = .error .typeError ∧
    (K.setTolerance (some (-1)) (some 1)).1.atol ≠ K.atol := by
  refine ⟨{ components := [] }, ?_⟩
  have h1 : ¬(1 : ℝ) ≤ 0 := by norm_num
  have h2 : (-1 : ℝ) ≤ 0 := by norm_num
  simp only [CellG.setTolerance, h1, h2, if_true, if_false]
  exact ⟨trivial, by norm_num⟩

/-- The settings are the ones that `generate_interior_points` uses: after setting a square mesh and tolerances, the
interior points are the points of that mesh in the region that are far enough from every sampled point. -/
theorem C117_used {K : CellG} (h : K.Ready) (hK : K.components ≠ []) (hne : ∀ c ∈ K.components, c.edges ≠ [])
    (inside : InsideTest) (n : ℕ) {r a : ℝ} (hr : 0 < r) (ha : 0 < a) :
    ∃ x0 x1 y0 y1 K1 K2, IsBox K.cols x0 x1 y0 y1 ∧ (K.setMeshSize n n).setTolerance (some r) (some a) = (K1, .ok ()) ∧
      K1.generateInteriorPoints inside = .ok K2 ∧ ∀ p, p ∈ K2.interior ↔
        (∃ i < n, ∃ j < n, p = gridPoint x0 x1 y0 y1 n n i j) ∧ InRegion inside K p ∧
        ∀ s ∈ K.samples, a ≤ sampleDist p.1 p.2 s ∧ r * min (x1 - x0) (y1 - y0) ≤ sampleDist p.1 p.2 s := by
  have hset := (C117_set_partial (K.setMeshSize n n) (some r) (some a)).1 r a rfl rfl hr ha
  have hR : ({ K.setMeshSize n n with rtol := r, atol := a } : CellG).Ready := by
    obtain ⟨h1, h2, h3⟩ := h
    exact ⟨h1, h2, h3⟩
  obtain ⟨x0, x1, y0, y1, K2, hb, hg, -, hp⟩ := C31_points_partial (K := { K.setMeshSize n n with rtol := r, atol := a })
    hR hK hne inside (n := n) rfl
  exact ⟨x0, x1, y0, y1, _, K2, hb, hset, hg, hp⟩

/-- the hypotheses of `C117_positive`, `C117_size` and `C117_used` hold for a square; the default tolerances of the setter -/
example : (∃ K, CellG.withSettings [squareContour 1] (33, 33) (some 0.05) (some 0.05) = .ok K) ∧
    (oneSquare 2 3).Ready ∧ (0 : ℝ) < 0.02 := by
  refine ⟨⟨{ components := [squareContour 1] }, ?_⟩, oneSquare_ready 2 3, by norm_num⟩
  have h : ¬(0.05 : ℝ) ≤ 0 := by norm_num
  simp only [CellG.withSettings, CellG.setTolerance, h, if_false]
  rfl

end PFEM
