import Mathlib.Analysis.Real.Sqrt
import Mathlib.Tactic.NormNum
import Verif.Lemmas.Meshlib

/-!
Property theorems C98 (library meshes) and C99 (topology does not depend on places), with examples.
-/

namespace PFEM
namespace Meshlib

variable {K : Type} [Field K] [LinearOrder K] [IsStrictOrderedRing K]

/-- C99: where the vertices lie does not matter for the topology, as long as they keep a distance of `1e-6`: two meshes built from the
same list of edges on two such lists of points are both refused, with the same exception, or both built, with the same edges, the same
lists of vertices and cells, the same boundary flags and the same decomposition of every cell, or the same exception when a cell is
asked for. -/
theorem C99_places {K' : Type} [Field K'] [LinearOrder K'] [IsStrictOrderedRing K'] {pts : List (K × K)} {pts' : List (K' × K')}
    (hlen : pts.length = pts'.length) (h : Spread pts) (h' : Spread pts') (args : List EdgeArgs) :
    (∃ es m es' m', meshBuilder pts args = .ok (es, m) ∧ meshBuilder pts' args = .ok (es', m') ∧ SameTopology m m') ∨
      ∃ x, meshBuilder pts args = .error x ∧ meshBuilder pts' args = .error x := by
  have hV := fits h h'
  have hl : (Pegboard.number 0 pts).length = (Pegboard.number 0 pts').length := by
    have key : ∀ {F : Type} [Field F] [LinearOrder F] (l : List (F × F)) (k : ℕ), (Pegboard.number k l).length = l.length := by
      intro F _ _ l
      induction l with
      | nil => intro k; rfl
      | cons p l ih => intro k; simp [Pegboard.number, ih]
    rw [key, key, hlen]
  unfold meshBuilder
  rcases edges_alike hl args with ⟨es, es', h1, h2, h3⟩ | ⟨h1, h2⟩
  · have ha : AlikeOn (Pegboard.number 0 pts) (Pegboard.number 0 pts') (List.range es.length) (toStore es) (toStore es') := by
      intro e he
      have he' := List.mem_range.1 he
      have h4 := h3.length_eq
      have h5 := List.forall₂_iff_get.1 h3
      have := (h5.2 e he' (h4 ▸ he')).1
      simpa only [toStore, List.get_eq_getElem, List.getElem?_eq_getElem he', List.getElem?_eq_getElem (h4 ▸ he' : e < es'.length)] using this
    simp only [h1, h2, bind, Except.bind]
    rw [← h3.length_eq]
    rcases init_alike hV ha with ⟨m, m', h4, h5, h6⟩ | ⟨x, h4, h5⟩
    · rw [h4, h5]
      exact Or.inl ⟨es, m, es', m', rfl, rfl, h6⟩
    · rw [h4, h5]
      exact Or.inr ⟨x, rfl, rfl⟩
  · rw [h1, h2]
    exact Or.inr ⟨_, rfl, rfl⟩

/-- a check on one list of rational points settles it for all -/
theorem transfer {pts : List (K × K)} {pts' : List (ℚ × ℚ)} (hlen : pts.length = pts'.length) (h : Spread pts) (h' : Spread pts')
    {args : List EdgeArgs} {cells : List CellTopo} {n : ℕ} {verts : List ℤ}
    (hq : ∃ es m, meshBuilder pts' args = .ok (es, m) ∧ HasCells m cells n verts) :
    ∃ es m, meshBuilder pts args = .ok (es, m) ∧ HasCells m cells n verts := by
  obtain ⟨es', m', h1, h2⟩ := hq
  rcases C99_places hlen h h' args with ⟨es, m, es'', m'', h3, h4, h5⟩ | ⟨x, h3, h4⟩
  · rw [h4] at h1
    cases h1
    obtain ⟨a1, a2, a3, a4, a5, a6, -, -, -, a7⟩ := h5
    obtain ⟨b1, b2, b3, b4, b5, b6, b7⟩ := h2
    exact ⟨es, m, h3, a1.trans b1, a2.trans b2, a5.trans b3, a6.trans b4, a3.trans b5, a4.trans b6,
      fun k hk => (a7 _).trans (b7 k hk)⟩
  · rw [h4] at h1
    cases h1

instance {K : Type} [Field K] [LinearOrder K] (m : PlanarMesh K) (cells : List CellTopo) (n : ℕ) (verts : List ℤ) :
    Decidable (HasCells m cells n verts) := by
  unfold HasCells
  infer_instance

/-- whether a call succeeds with a mesh that has these cells -/
def check {K : Type} [Field K] [LinearOrder K] (r : Py (List (LibEdge K) × PlanarMesh K)) (cells : List CellTopo) (n : ℕ) (verts : List ℤ) :
    Bool :=
  match r with
  | .ok (_, m) => decide (HasCells m cells n verts)
  | .error _ => false

theorem of_check {K : Type} [Field K] [LinearOrder K] {r : Py (List (LibEdge K) × PlanarMesh K)} {cells : List CellTopo} {n : ℕ}
    {verts : List ℤ} (h : check r cells n verts = true) : ∃ es m, r = .ok (es, m) ∧ HasCells m cells n verts := by
  unfold check at h
  split at h
  · exact ⟨_, _, rfl, of_decide_eq_true h⟩
  · cases h

/-- C98: the square with a circular hole has the two cells of the documentation, wherever its vertices may be rounded to. -/
theorem C98_square_hole {pts : List (K × K)} (hlen : pts.length = 5) (h : Spread pts) :
    ∃ es m, meshBuilder pts squareHoleEdges = .ok (es, m) ∧ HasCells m squareHoleCells 5 [0, 1, 2, 3] :=
  transfer (pts' := squareHoleVerts) (by simpa [squareHoleVerts] using hlen) h (by decide +kernel)
    (of_check (by decide +kernel))

/-- C98: the Pac-Man mesh has eleven cells with the boundaries of `pacmanCells`. -/
theorem C98_pacman {pts : List (K × K)} (hlen : pts.length = 21) (h : Spread pts) :
    ∃ es m, meshBuilder pts pacmanEdges = .ok (es, m) ∧
      HasCells m pacmanCells 23 [0, 1, 2, 3, 4, 5, 6, 7, 8, 9, 10, 15, 16, 17, 18] :=
  transfer (pts' := pacmanVerts (1 / 2)) (by simpa [pacmanVerts] using hlen) h (by decide +kernel) (of_check (by decide +kernel))

/-- C98: the Pac-Man mesh with subdivided edges has the same eleven cells, of which three have more edges. -/
theorem C98_pacman_subdiv {pts : List (K × K)} (hlen : pts.length = 23) (h : Spread pts) :
    ∃ es m, meshBuilder pts pacmanSubdivEdges = .ok (es, m) ∧
      HasCells m pacmanSubdivCells 25 [0, 1, 2, 3, 4, 5, 6, 7, 8, 9, 10, 15, 16, 17, 18, 21, 22] :=
  transfer (pts' := pacmanSubdivVerts (1 / 2)) (by simpa [pacmanSubdivVerts, pacmanVerts] using hlen) h (by decide +kernel)
    (of_check (by decide +kernel))

/-- C99, C98: the hypotheses are met by the lists of the library and by others, for example three points and the same points moved -/
example : Spread [((0 : ℚ), (0 : ℚ)), (1, 0), (0, 1)] ∧ Spread [((5 : ℚ), (7 : ℚ)), (-1 / 1000, 0), (2, 2)] ∧
    ¬ Spread [((0 : ℚ), (0 : ℚ)), (1 / 10 ^ 7, 0)] := by decide +kernel

/-! ### the places of the vertices in the library -/

theorem spread_square : Spread (squareHoleVerts : List (K × K)) := by
  simp only [Spread, squareHoleVerts, List.pairwise_cons, List.mem_cons, List.not_mem_nil, or_false, forall_eq_or_imp, forall_eq]
  norm_num

theorem spread_pacman_subdiv {w : K} (h0 : 0 ≤ w) (h1 : w ≤ 1) : Spread (pacmanSubdivVerts w) := by
  have hw := mul_nonneg h0 (sub_nonneg.2 h1)
  simp only [Spread, pacmanSubdivVerts, pacmanVerts, List.cons_append, List.nil_append, List.pairwise_cons, List.mem_cons, List.not_mem_nil,
    or_false, forall_eq_or_imp, forall_eq]
  norm_num
  repeat' apply And.intro
  all_goals nlinarith

end Meshlib
end PFEM
