import Mathlib.Data.Real.Basic
import Verif.Model.Err

/-!
The few numpy operations on one-dimensional arrays that the boundary code uses, as operations on lists.
-/

namespace PFEM
namespace Np

/-- an entrywise binary operation on two arrays: equal lengths, or one of them has one entry, else numpy raises
`ValueError` ("operands could not be broadcast together") -/
def bin {α β γ : Type} (f : α → β → γ) (a : List α) (b : List β) : Py (List γ) :=
  if a.length = b.length then .ok (List.zipWith f a b)
  else
    match a, b with
    | [x], b => .ok (b.map (f x))
    | a, [y] => .ok (a.map fun x => f x y)
    | _, _ => .error .valueError

/-- `a[i:j]` for nonnegative `i`, `j` -/
def slice {α : Type} (a : List α) (i j : ℕ) : List α := (a.take j).drop i

/-- `a[i:j] = v` for nonnegative `i ≤ j`: the lengths must agree or `v` has one entry -/
def setSlice {α : Type} (a : List α) (i j : ℕ) (v : List α) : Py (List α) :=
  let m := (slice a i j).length
  if v.length = m then .ok (a.take i ++ v ++ a.drop (i + m))
  else
    match v with
    | [x] => .ok (a.take i ++ List.replicate m x ++ a.drop (i + m))
    | _ => .error .valueError

/-- `a[i]`, `IndexError` if there is no such entry -/
def get {α : Type} (l : List α) (i : ℕ) : Py α :=
  match l[i]? with
  | some a => .ok a
  | none => .error .indexError

/-- The loop `for k in range(len(objs)): res[idx[k]:idx[k+1]] = f(objs[k], idx[k], idx[k+1])`, the pattern of the methods
that fill an array block by block; `i` is the loop variable and `acc` the array. -/
def blockLoop {α β : Type} (f : α → ℕ → ℕ → Py (List β)) (idx : List ℕ) (i : ℕ) (acc : List β) :
    List α → Py (List β)
  | [] => .ok acc
  | a :: l => do
    let j ← get idx i
    let j' ← get idx (i + 1)
    let v ← f a j j'
    let acc ← setSlice acc j j' v
    blockLoop f idx (i + 1) acc l

/-- `np.min` / `np.max` and Python's `min` / `max` of an array: `ValueError` if it is empty -/
noncomputable def fold1 (f : ℝ → ℝ → ℝ) : List ℝ → Py ℝ
  | [] => .error .valueError
  | x :: l => .ok (l.foldl f x)

/-- the smallest entry -/
noncomputable def min (l : List ℝ) : Py ℝ := fold1 Min.min l
/-- the largest entry -/
noncomputable def max (l : List ℝ) : Py ℝ := fold1 Max.max l

/-- entry `k` of `np.linspace(a, b, m)`, `k < m` -/
noncomputable def linspace (a b : ℝ) (m k : ℕ) : ℝ := a + (k : ℝ) * ((b - a) / ((m : ℝ) - 1))

/-- the index kept by `np.argmax`: the first one with the largest value; `v` is the largest so far, at index `best` -/
def argmaxLoop {α : Type} [LinearOrder α] (i best : ℕ) (v : α) : List α → ℕ
  | [] => best
  | x :: l => if v < x then argmaxLoop (i + 1) i x l else argmaxLoop (i + 1) best v l

/-- `np.argmax`; `ValueError` for an empty array -/
def argmax {α : Type} [LinearOrder α] : List α → Py ℕ
  | [] => .error .valueError
  | x :: l => .ok (argmaxLoop 1 0 x l)

end Np
end PFEM
