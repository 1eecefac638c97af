import Mathlib.Data.List.Sort
import Verif.Model.Np

/-!
Model of `_get_basis_index_set` (`/repo/puncturedfem/locfun/edge_space.py` L300-319).  An `m` by `m` array is a function
of two indices of which only those below `m` are used.
-/

namespace PFEM

variable {K : Type} [Field K] [LinearOrder K]

/-- `M -= np.outer(M[:, k], M[:, k]) / M[k, k]` (edge_space.py L317).  The right hand side is complete before the
array changes. -/
def pivotStep (M : ℕ → ℕ → K) (k : ℕ) : ℕ → ℕ → K := fun i j => M i j - M i k * M j k / M k k

/-- `np.diag(M)` -/
def diag (m : ℕ) (M : ℕ → ℕ → K) : List K := (List.range m).map fun i => M i i

/-- the loop (edge_space.py L314-318); `none` if it has not ended after `fuel` tests of its condition -/
def pivotLoop (m : ℕ) (tol : K) : (fuel : ℕ) → (M : ℕ → ℕ → K) → (idx : List ℕ) → Option (Py (List ℕ))
  | 0, _, _ => none
  | fuel + 1, M, idx =>
    match Np.argmax (diag m M) with
    | .error e => some (.error e)
    | .ok k => if M k k > tol then pivotLoop m tol fuel (pivotStep M k) (idx ++ [k]) else some (.ok idx)

/-- `_get_basis_index_set` (edge_space.py L300-319) -/
def basisIndexSet (m : ℕ) (M : ℕ → ℕ → K) (tol : K) (fuel : ℕ) : Option (Py (List ℕ)) :=
  if m = 0 then some (.ok [])
  else
    match pivotLoop m tol fuel M [] with
    | none => none
    | some (.error e) => some (.error e)
    | some (.ok idx) => some (.ok (idx.insertionSort (· ≤ ·)))

end PFEM
