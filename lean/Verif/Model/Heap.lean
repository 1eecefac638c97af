import Mathlib.Logic.Function.Basic
import Verif.Model.Poly

/-!
Object-level model of `Monomial` and `Polynomial` (monomial.py, poly.py): monomials and polynomials are objects
addressed by references, a polynomial object holds a list of references to monomial objects, and several polynomials
may share a monomial object (`add_monomial` appends the very object it is given).

The value-level model of `Verif/Model/Poly.lean` ignores sharing; this file is what justifies it (property C12) and
what shows where it fails (`p += p`, property C11, and `Monomial.__neg__`, property C12).

Simplification: `MultiIndex` objects are values here (no method reached from the operators modifies one after
construction).
-/

namespace PFEM

/-- The heap: `Monomial` objects at addresses `< next`, `Polynomial` objects (attribute `monos`) at addresses
`< nextP`. -/
structure Heap (K : Type) where
  mono : ℕ → Mono K
  next : ℕ
  poly : ℕ → List ℕ
  nextP : ℕ

variable {K : Type} [Field K] [LinearOrder K]

namespace Heap

/-- `Monomial(alpha, coef)` (monomial.py L34-49): a new object. -/
def newMono (h : Heap K) (m : Mono K) : Heap K × ℕ :=
  ({ h with mono := Function.update h.mono h.next m, next := h.next + 1 }, h.next)

/-- a new `Polynomial` object with the given `monos` list -/
def newPoly (h : Heap K) (l : List ℕ) : Heap K × ℕ :=
  ({ h with poly := Function.update h.poly h.nextP l, nextP := h.nextP + 1 }, h.nextP)

/-- The value of polynomial object `i`. -/
def val (h : Heap K) (i : ℕ) : Poly K := (h.poly i).map h.mono

/-! ### Monomial operators -/

/-- `Monomial.__neg__` (monomial.py L351-353): multiplies the coefficient of `self` by -1, returns `None`. -/
def monoNeg (h : Heap K) (r : ℕ) : Heap K × Option ℕ :=
  ({ h with mono := Function.update h.mono r ⟨(h.mono r).alpha, (h.mono r).coef * -1⟩ }, none)

/-- `Monomial.__add__` (monomial.py L277-298) -/
def monoAdd (h : Heap K) (r q : ℕ) : Py (Heap K × ℕ) := do
  let m ← (h.mono r).add (h.mono q)
  .ok (h.newMono m)

/-- `Monomial.__mul__` with a monomial (monomial.py L314-318) -/
def monoMul (h : Heap K) (r q : ℕ) : Py (Heap K × ℕ) := do
  let m ← (h.mono r).mul (h.mono q)
  .ok (h.newMono m)

/-- `Monomial.__mul__`/`__rmul__` with a scalar (monomial.py L319-323, L330-349) -/
def monoSmul (h : Heap K) (r : ℕ) (c : K) : Heap K × ℕ := h.newMono ((h.mono r).smul c)

/-- `Monomial.copy` (monomial.py L53-62) -/
def monoCopy (h : Heap K) (r : ℕ) : Heap K × ℕ := h.newMono (h.mono r)

/-! ### Polynomial methods, acting on the list `monos` of references -/

/-- `add_monomial` (poly.py L89-99): appends the same object. -/
def addMonomial (h : Heap K) (l : List ℕ) (r : ℕ) : List ℕ := if (h.mono r).isZero then l else l ++ [r]

/-- inner loop of `consolidate` (poly.py L126-129).  `monos[i] += monos[j]` and `monos[j] *= 0` create new monomial
objects and rebind the list entries (`Monomial` has no in-place operators). -/
def absorb (h : Heap K) (r : ℕ) : List ℕ → Heap K × ℕ × List ℕ
  | [] => (h, r, [])
  | q :: rest =>
    if (h.mono r).alpha.eq (h.mono q).alpha then
      let a := h.newMono ⟨(h.mono r).alpha, (h.mono r).coef + (h.mono q).coef⟩
      let b := a.1.monoSmul q 0
      let c := absorb b.1 a.2 rest
      (c.1, c.2.1, b.2 :: c.2.2)
    else
      let c := absorb h r rest
      (c.1, c.2.1, q :: c.2.2)

/-- double loop of `consolidate` (poly.py L124-129) -/
def collectN : ℕ → Heap K → List ℕ → Heap K × List ℕ
  | n + 1, h, r :: rest =>
    let a := h.absorb r rest
    let b := collectN n a.1 a.2.2
    (b.1, a.2.1 :: b.2)
  | _, h, l => (h, l)

/-- `remove_zeros` (poly.py L116-120) -/
def removeZerosFrom (h : Heap K) : ℕ → List ℕ → List ℕ
  | 0, l => l
  | i + 1, l =>
    match l[i]? with
    | some r => if (h.mono r).isZero then removeZerosFrom h i (l.eraseIdx i) else removeZerosFrom h i l
    | none => removeZerosFrom h i l

/-- inner loop of `sort` (poly.py L142-148) -/
def insertBack (h : Heap K) (r : ℕ) : List ℕ → List ℕ
  | [] => [r]
  | q :: rest => if (h.mono q).gt (h.mono r) then q :: insertBack h r rest else r :: q :: rest

/-- `sort` (poly.py L133-148) -/
def sort (h : Heap K) (l : List ℕ) : List ℕ := (l.foldl (fun acc r => insertBack h r acc) []).reverse

/-- `consolidate` (poly.py L122-131) -/
def consolidate (h : Heap K) (l : List ℕ) : Heap K × List ℕ :=
  let a := collectN l.length h l
  (a.1, sort a.1 (removeZerosFrom a.1 a.2.length a.2))

/-- `for m in monos: new.add_monomial(m)` where `new` is not the list iterated over -/
def addAll (h : Heap K) (l : List ℕ) (rs : List ℕ) : List ℕ := rs.foldl (h.addMonomial) l

/-- `Polynomial.copy` (poly.py L76-87) -/
def polyCopy (h : Heap K) (i : ℕ) : Heap K × ℕ :=
  let a := h.consolidate (h.addAll [] (h.poly i))
  a.1.newPoly a.2

/-- `Polynomial.__add__` with a polynomial (poly.py L504-509, L522) -/
def polyAdd (h : Heap K) (i j : ℕ) : Heap K × ℕ :=
  let a := h.consolidate (h.addAll (h.addAll [] (h.poly i)) (h.poly j))
  a.1.newPoly a.2

/-- `Polynomial.__add__` with a scalar (poly.py L510-517, L522) -/
def polyAddScalar (h : Heap K) (i : ℕ) (c : K) : Py (Heap K × ℕ) := do
  let m ← Poly.constMono c
  let l := h.addAll [] (h.poly i)
  let a := h.newMono m
  let b := a.1.consolidate (a.1.addMonomial l a.2)
  .ok (b.1.newPoly b.2)

/-- the loop `for m in other.monos: self.add_monomial(m)` of `__iadd__` (poly.py L552-553).  Python's list iterator
holds the list object and a position `k`; it stops when `k` reaches the *current* length.  `fuel` bounds the number of
steps; `none` means that the loop has not ended after `fuel` steps. -/
def iaddLoop (i j : ℕ) : (fuel k : ℕ) → Heap K → Option (Heap K)
  | 0, _, _ => none
  | fuel + 1, k, h =>
    match (h.poly j)[k]? with
    | none => some h
    | some r => iaddLoop i j fuel (k + 1) { h with poly := Function.update h.poly i (h.addMonomial (h.poly i) r) }

/-- `Polynomial.__iadd__` with a polynomial (poly.py L551-554): modifies object `i`. -/
def polyIadd (fuel : ℕ) (h : Heap K) (i j : ℕ) : Option (Heap K) := do
  let h ← iaddLoop i j fuel 0 h
  let a := h.consolidate (h.poly i)
  some { a.1 with poly := Function.update a.1.poly i a.2 }

/-- inner loop of `__mul__` (poly.py L579-580) -/
def mulInner (r : ℕ) : Heap K → List ℕ → List ℕ → Py (Heap K × List ℕ)
  | h, new, [] => .ok (h, new)
  | h, new, q :: rest => do
    let a ← h.monoMul r q
    mulInner r a.1 (a.1.addMonomial new a.2) rest

/-- outer loop of `__mul__` (poly.py L578-580) -/
def mulLoop (qs : List ℕ) : Heap K → List ℕ → List ℕ → Py (Heap K × List ℕ)
  | h, new, [] => .ok (h, new)
  | h, new, r :: rest => do
    let a ← mulInner r h new qs
    mulLoop qs a.1 a.2 rest

/-- `Polynomial.__mul__` with a polynomial (poly.py L576-582) -/
def polyMul (h : Heap K) (i j : ℕ) : Py (Heap K × ℕ) := do
  let a ← mulLoop (h.poly j) h [] (h.poly i)
  let b := a.1.consolidate a.2
  .ok (b.1.newPoly b.2)

/-- loop of `__mul__` with a scalar (poly.py L585-586): `new.add_monomial(other * m.copy())` -/
def smulLoop (c : K) : Heap K → List ℕ → List ℕ → Heap K × List ℕ
  | h, new, [] => (h, new)
  | h, new, r :: rest =>
    let a := h.monoCopy r
    let b := a.1.monoSmul a.2 c
    smulLoop c b.1 (b.1.addMonomial new b.2) rest

/-- `Polynomial.__mul__` with a scalar (poly.py L583-587); `__neg__` (L625-627) is the case `c = -1` -/
def polySmul (h : Heap K) (i : ℕ) (c : K) : Heap K × ℕ :=
  let a := smulLoop c h [] (h.poly i)
  a.1.newPoly a.2

/-- `Polynomial.__sub__` with a polynomial (poly.py L629-641) -/
def polySub (h : Heap K) (i j : ℕ) : Heap K × ℕ :=
  let a := h.polySmul j (-1)
  a.1.polyAdd i a.2

/-- `Polynomial.__eq__` (poly.py L474-492): sorts both operands in place (only if the lengths agree). -/
def polyEq (h : Heap K) (i j : ℕ) : Heap K × Bool :=
  if (h.poly i).length ≠ (h.poly j).length then (h, false)
  else
    let h1 := { h with poly := Function.update h.poly i (h.sort (h.poly i)) }
    let h2 := { h1 with poly := Function.update h1.poly j (h1.sort (h1.poly j)) }
    (h2, Poly.eqLoop (h2.val i) (h2.val j))

/-- One operator application in a program. -/
inductive Cmd (K : Type)
  | monoNeg (r : ℕ)
  | monoAdd (r q : ℕ)
  | monoMul (r q : ℕ)
  | monoSmul (r : ℕ) (c : K)
  | monoCopy (r : ℕ)
  | copy (i : ℕ)
  | add (i j : ℕ)
  | addScalar (i : ℕ) (c : K)
  | mul (i j : ℕ)
  | smul (i : ℕ) (c : K)
  | sub (i j : ℕ)
  | iadd (i j : ℕ)
  | eq (i j : ℕ)

/-- Run one command; the result object (if any) is dropped, only the heap matters here.  A raised exception leaves
the program (`none`), as does a loop that does not end. -/
def run (fuel : ℕ) (h : Heap K) : Cmd K → Option (Heap K)
  | .monoNeg r => some (h.monoNeg r).1
  | .monoAdd r q => match h.monoAdd r q with
    | .ok a => some a.1
    | .error _ => none
  | .monoMul r q => match h.monoMul r q with
    | .ok a => some a.1
    | .error _ => none
  | .monoSmul r c => some (h.monoSmul r c).1
  | .monoCopy r => some (h.monoCopy r).1
  | .copy i => some (h.polyCopy i).1
  | .add i j => some (h.polyAdd i j).1
  | .addScalar i c => match h.polyAddScalar i c with
    | .ok a => some a.1
    | .error _ => none
  | .mul i j => match h.polyMul i j with
    | .ok a => some a.1
    | .error _ => none
  | .smul i c => some (h.polySmul i c).1
  | .sub i j => some (h.polySub i j).1
  | .iadd i j => h.polyIadd fuel i j
  | .eq i j => some (h.polyEq i j).1

/-- The command refers to existing objects only. -/
def Cmd.exists (h : Heap K) : Cmd K → Bool
  | .monoNeg r | .monoSmul r _ | .monoCopy r => r < h.next
  | .monoAdd r q | .monoMul r q => r < h.next && q < h.next
  | .copy i | .addScalar i _ | .smul i _ => i < h.nextP
  | .add i j | .mul i j | .sub i j | .iadd i j | .eq i j => i < h.nextP && j < h.nextP

/-- Run a whole program.  A command naming an object that does not exist stops the program. -/
def runAll (fuel : ℕ) : Heap K → List (Cmd K) → Option (Heap K)
  | h, [] => some h
  | h, c :: cs =>
    if c.exists h then do
      let h ← h.run fuel c
      runAll fuel h cs
    else none

end Heap
end PFEM
