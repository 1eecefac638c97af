import Mathlib.Tactic.Ring
import Verif.Lemmas.Boundary
import Verif.Lemmas.EdgeSpeed

/-!
Lemmas about the layout of boundary data: block arithmetic, nearest vertices, and what `parameterize` leaves behind.
-/

namespace PFEM
open EdgeG

theorem blockStart_succ (ws : List ℕ) (i : ℕ) {w : ℕ} (h : ws[i]? = some w) : blockStart ws (i + 1) = blockStart ws i + w := by
  unfold blockStart
  rw [List.take_add_one, h]
  simp

theorem flatten_get {β : Type} : ∀ (vs : List (List β)) (i : ℕ) (v : List β), vs[i]? = some v → ∀ j < v.length,
    vs.flatten[blockStart (vs.map List.length) i + j]? = v[j]?
  | [], i, v, h, j, hj => by simp at h
  | u :: vs, 0, v, h, j, hj => by
    simp only [List.getElem?_cons_zero, Option.some.injEq] at h
    subst h
    simp [blockStart, List.getElem?_append, hj]
  | u :: vs, i + 1, v, h, j, hj => by
    simp only [List.getElem?_cons_succ] at h
    have ih := flatten_get vs i v h j hj
    simp only [List.flatten_cons, List.map_cons]
    rw [List.getElem?_append_right (by simp [blockStart]; omega), ← ih]
    congr 1
    simp [blockStart]
    omega

theorem block_cover : ∀ (ws : List ℕ) (m : ℕ), m < ws.sum →
    ∃ i w, ws[i]? = some w ∧ blockStart ws i ≤ m ∧ m < blockStart ws i + w
  | [], m, h => by simp at h
  | w :: ws, m, h => by
    by_cases hm : m < w
    · exact ⟨0, w, by simp, by simp [blockStart], by simpa [blockStart] using hm⟩
    · simp only [List.sum_cons] at h
      obtain ⟨i, w', h1, h2, h3⟩ := block_cover ws (m - w) (by omega)
      refine ⟨i + 1, w', by simpa using h1, ?_, ?_⟩ <;> simp [blockStart] at * <;> omega

theorem blockStart_mono (ws : List ℕ) {i j : ℕ} (h : i ≤ j) : blockStart ws i ≤ blockStart ws j := by
  unfold blockStart
  obtain ⟨k, rfl⟩ := Nat.exists_eq_add_of_le h
  rw [List.take_add, List.sum_append]
  omega

theorem block_unique (ws : List ℕ) (m : ℕ) {i w i' w' : ℕ} (h : ws[i]? = some w) (h' : ws[i']? = some w')
    (h1 : blockStart ws i ≤ m) (h2 : m < blockStart ws i + w) (h1' : blockStart ws i' ≤ m) (h2' : m < blockStart ws i' + w') :
    i = i' := by
  rw [← blockStart_succ ws i h] at h2
  rw [← blockStart_succ ws i' h'] at h2'
  rcases Nat.lt_trichotomy i i' with hl | hl | hl
  · have := blockStart_mono ws (show i + 1 ≤ i' from hl); omega
  · exact hl
  · have := blockStart_mono ws (show i' + 1 ≤ i from hl); omega

theorem blockStart_length (ws : List ℕ) : blockStart ws ws.length = ws.sum := by simp [blockStart]

/-! ### nearest vertices -/

/-- the entries written for each edge -/
def closestVals (numPts last : ℕ) : List EdgeG → List (List ℕ)
  | [] => []
  | e :: es =>
    (List.replicate (ContourG.npts e / 2) last ++
      List.replicate (ContourG.npts e - 1 - ContourG.npts e / 2) ((last + (ContourG.npts e - 1)) % numPts)) ::
    closestVals numPts (last + (ContourG.npts e - 1)) es

theorem setSlice_const {β : Type} (done rest : List β) (x : β) (m : ℕ) (hm : m ≤ rest.length) :
    Np.setSlice (done ++ rest) done.length (done.length + m) [x] = .ok ((done ++ List.replicate m x) ++ rest.drop m) := by
  have hs : (Np.slice (done ++ rest) done.length (done.length + m)).length = m := by
    simp [Np.slice]; omega
  simp only [Np.setSlice, hs]
  split
  · next h =>
    simp only [List.length_singleton] at h
    subst h
    simp [List.drop_append]
  · simp [List.drop_append]

theorem closestLoop_eq (numPts : ℕ) (hN : numPts ≠ 0) : ∀ (l : List EdgeG) (pre : List ℕ) (done rest : List ℕ),
    (∀ e ∈ l, 2 ≤ ContourG.npts e) → rest.length = (l.map fun e => ContourG.npts e - 1).sum →
    ContourG.closestLoop (pre ++ offsets (fun e => ContourG.npts e - 1) done.length l) numPts pre.length (done ++ rest) l =
      .ok (done ++ (closestVals numPts done.length l).flatten)
  | [], pre, done, rest, _, hr => by
    have : rest = [] := List.eq_nil_of_length_eq_zero (by simpa using hr)
    simp [ContourG.closestLoop, closestVals, this]
  | a :: l, pre, done, rest, h2, hr => by
    have ha := h2 a (by simp)
    simp only [List.map_cons, List.sum_cons] at hr
    set w := ContourG.npts a - 1 with hw
    obtain ⟨q, hq⟩ := offsets_head (fun e => ContourG.npts e - 1) (done.length + w) l
    have g1 : Np.get (pre ++ offsets (fun e => ContourG.npts e - 1) done.length (a :: l)) pre.length = .ok done.length :=
      get_append _ _ _
    have g2 : Np.get (pre ++ offsets (fun e => ContourG.npts e - 1) done.length (a :: l)) (pre.length + 1) =
        .ok (done.length + w) := by
      have := get_append (pre ++ [done.length]) q (done.length + w)
      rw [← this]
      simp only [offsets, ← hw, hq]
      simp
    set k := ContourG.npts a / 2 with hk
    set r1 := List.replicate k done.length with hr1
    set r2 := List.replicate (w - k) ((done.length + w) % numPts) with hr2
    have ih := closestLoop_eq numPts hN l (pre ++ [done.length]) (done ++ r1 ++ r2) (rest.drop w)
      (fun e he => h2 e (by simp [he])) (by simp; omega)
    have hlen : (done ++ r1 ++ r2).length = done.length + w := by simp [hr1, hr2]; omega
    have hlen1 : (done ++ r1).length = done.length + k := by simp [hr1]
    simp only [ContourG.closestLoop, g1, g2, bind, Except.bind, ← hk]
    rw [setSlice_const done rest _ k (by omega)]
    simp only [if_neg hN]
    have e3 := setSlice_const (done ++ r1) (rest.drop k) ((done.length + w) % numPts) (w - k) (by simp; omega)
    rw [hlen1, show done.length + k + (w - k) = done.length + w by omega] at e3
    rw [← hr1, e3, List.drop_drop, show k + (w - k) = w by omega]
    simp only
    rw [hlen] at ih
    simp only [closestVals, ← hk, ← hw, ← hr1, ← hr2, offsets]
    simp only [List.append_assoc, List.length_append, List.length_singleton, List.cons_append, List.nil_append,
      List.flatten_cons] at ih ⊢
    exact ih

theorem closestVals_length (numPts : ℕ) : ∀ (l : List EdgeG) (last : ℕ), (∀ e ∈ l, 2 ≤ ContourG.npts e) →
    (closestVals numPts last l).map List.length = l.map fun e => ContourG.npts e - 1
  | [], _, _ => rfl
  | a :: l, last, h => by
    have := h a (by simp)
    simp only [closestVals, List.map_cons, closestVals_length numPts l _ fun e he => h e (by simp [he])]
    congr 1
    simp
    omega

theorem closestVals_get (numPts : ℕ) : ∀ (l : List EdgeG) (last i : ℕ) (e : EdgeG), l[i]? = some e →
    (closestVals numPts last l)[i]? = some
      (List.replicate (ContourG.npts e / 2) (last + blockStart (l.map fun e => ContourG.npts e - 1) i) ++
        List.replicate (ContourG.npts e - 1 - ContourG.npts e / 2)
          ((last + blockStart (l.map fun e => ContourG.npts e - 1) (i + 1)) % numPts))
  | [], _, i, e, h => by simp at h
  | a :: l, last, 0, e, h => by
    simp only [List.getElem?_cons_zero, Option.some.injEq] at h
    subst h
    simp [closestVals, blockStart]
  | a :: l, last, i + 1, e, h => by
    simp only [List.getElem?_cons_succ] at h
    have ih := closestVals_get numPts l (last + (ContourG.npts a - 1)) i e h
    simp only [closestVals, List.getElem?_cons_succ, ih]
    simp [blockStart, add_assoc]

end PFEM
