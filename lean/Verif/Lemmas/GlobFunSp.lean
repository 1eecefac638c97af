import Mathlib.Algebra.BigOperators.Group.List.Basic
import Mathlib.Algebra.Order.BigOperators.Group.List
import Mathlib.Data.List.GetD
import Mathlib.Tactic.Ring
import Mathlib.Tactic.Linarith
import Verif.Model.GlobFunSp

/-!
Helper lemmas about the global numbering.
-/

set_option linter.unusedSectionVars false

namespace PFEM
namespace GlobFunSp

variable {K : Type} [Field K] [LinearOrder K]

/-- number of edge functions on the first `i` edges -/
def before (bs : List (EdgeSpace K)) (i : ℕ) : ℕ := ((bs.take i).map EdgeSpace.numEdgeFuns).sum

theorem cumsumLoop_getElem? (bs : List (EdgeSpace K)) (last i : ℕ) (h : i < bs.length) :
    (cumsumLoop last bs)[i]? = some (last + before bs (i + 1)) := by
  induction bs generalizing last i with
  | nil => simp at h
  | cons b bs ih =>
    rw [cumsumLoop]
    cases i with
    | zero => simp [before]
    | succ i =>
      rw [List.getElem?_cons_succ, ih _ _ (by simpa using h)]
      simp only [before, List.take_succ_cons, List.map_cons, List.sum_cons]
      congr 1; omega

theorem cumsumLoop_length (bs : List (EdgeSpace K)) (last : ℕ) : (cumsumLoop last bs).length = bs.length := by
  induction bs generalizing last with
  | nil => rfl
  | cons b bs ih => simp [cumsumLoop, ih]

theorem cumsum_getElem? (bs : List (EdgeSpace K)) (i : ℕ) (h : i ≤ bs.length) :
    (0 :: cumsumLoop 0 bs)[i]? = some (before bs i) := by
  cases i with
  | zero => simp [before]
  | succ i => rw [List.getElem?_cons_succ, cumsumLoop_getElem? _ _ _ (by omega)]; simp

theorem countEdgeFuns_eq (bs : List (EdgeSpace K)) : countEdgeFuns bs = (bs.map EdgeSpace.numEdgeFuns).sum := by
  have : ∀ (bs : List (EdgeSpace K)) (n : ℕ),
      bs.foldl (fun n b => n + b.numEdgeFuns) n = n + (bs.map EdgeSpace.numEdgeFuns).sum := by
    intro bs
    induction bs with
    | nil => simp
    | cons b bs ih => intro n; rw [List.foldl_cons, ih]; simp; omega
  unfold countEdgeFuns
  rw [this]; simp

theorem before_succ (bs : List (EdgeSpace K)) (i : ℕ) (h : i < bs.length) :
    before bs (i + 1) = before bs i + bs[i].numEdgeFuns := by
  unfold before
  rw [List.take_add_one, List.getElem?_eq_getElem h, List.map_append, List.sum_append]
  rfl

theorem before_mono (bs : List (EdgeSpace K)) {i j : ℕ} (h : i ≤ j) : before bs i ≤ before bs j := by
  unfold before
  obtain ⟨k, rfl⟩ : ∃ k, j = i + k := ⟨j - i, by omega⟩
  rw [List.take_add, List.map_append, List.sum_append]
  omega

theorem before_le (bs : List (EdgeSpace K)) (i : ℕ) : before bs i ≤ countEdgeFuns bs := by
  rw [countEdgeFuns_eq]
  unfold before
  conv_rhs => rw [← List.take_append_drop i bs, List.map_append, List.sum_append]
  omega

theorem before_surj (bs : List (EdgeSpace K)) (j : ℕ) (h : j < countEdgeFuns bs) :
    ∃ i k, ∃ hi : i < bs.length, k < bs[i].numEdgeFuns ∧ before bs i + k = j := by
  rw [countEdgeFuns_eq] at h
  induction bs generalizing j with
  | nil => simp at h
  | cons b bs ih =>
    by_cases hj : j < b.numEdgeFuns
    · exact ⟨0, j, by simp, by simpa using hj, by simp [before]⟩
    · rw [List.map_cons, List.sum_cons] at h
      obtain ⟨i, k, hi, hk, e⟩ := ih (j - b.numEdgeFuns) (by omega)
      refine ⟨i + 1, k, by simpa using hi, by simpa using hk, ?_⟩
      simp only [before, List.take_succ_cons, List.map_cons, List.sum_cons] at e ⊢
      omega

theorem before_inj (bs : List (EdgeSpace K)) {i i' k k' : ℕ} (hi : i < bs.length) (hi' : i' < bs.length)
    (hk : k < bs[i].numEdgeFuns) (hk' : k' < bs[i'].numEdgeFuns) (e : before bs i + k = before bs i' + k') :
    i = i' ∧ k = k' := by
  have h1 := before_succ bs i hi
  have h2 := before_succ bs i' hi'
  rcases Nat.lt_trichotomy i i' with h | h | h
  · have := before_mono bs (show i + 1 ≤ i' by omega); omega
  · subst h; omega
  · have := before_mono bs (show i' + 1 ≤ i by omega); omega

/-- What a successful construction yields. -/
theorem init_spec (m : PlanarMesh K) (deg : ℤ) (space : ℕ → EdgeSpace K) (s : GlobFunSp K)
    (h : init m deg space = .ok s) :
    1 ≤ deg ∧ s.mesh = m ∧ s.deg = deg.toNat ∧ s.edgeSpaces = m.edges.map space ∧ s.numVertFuns = m.numVerts ∧
      s.numEdgeFuns = countEdgeFuns (m.edges.map space) ∧
      s.numBubbFuns = m.numCells * ((s.deg * (s.deg - 1)) / 2) ∧
      s.numFuns = s.numVertFuns + s.numEdgeFuns + s.numBubbFuns ∧
      s.edgeFunCumsum = 0 :: cumsumLoop 0 (m.edges.map space) ∧ s.cellDofs = List.replicate m.numCells [] := by
  unfold init at h
  split at h
  · cases h
  · rename_i hd
    simp only [Except.ok.injEq] at h
    subst h
    exact ⟨by omega, rfl, rfl, rfl, rfl, rfl, rfl, rfl, rfl, rfl⟩

end GlobFunSp
end PFEM
