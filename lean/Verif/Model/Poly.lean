import Mathlib.Algebra.Order.Field.Basic
import Mathlib.Algebra.Order.Ring.Abs
import Verif.Model.MultiIndex

/-!
Model of `/repo/puncturedfem/locfun/poly/monomial.py` (class `Monomial`) and
`/repo/puncturedfem/locfun/poly/poly.py` (class `Polynomial`).

Coefficients live in a linearly ordered field `K` (Python: float; rounding is not modelled).  The tolerance `1e-12`
is modelled exactly.
-/

namespace PFEM

/-- `Monomial` (monomial.py L20-51): attributes `alpha` and `coef`. -/
structure Mono (K : Type) where
  alpha : MultiIndex
  coef : K
  deriving DecidableEq, Repr

/-- `Polynomial` (poly.py L22-46): the attribute `monos`, a list of monomials. -/
abbrev Poly (K : Type) := List (Mono K)

/-- The argument `var` of `partial_deriv`. -/
inductive Var
  | x | y | other
  deriving DecidableEq, Repr

variable {K : Type} [Field K] [LinearOrder K]

/-- The default `tol = 1e-12` (monomial.py L64, L239). -/
def tol (K : Type) [Field K] : K := 1 / 10 ^ 12

/-! ### Monomial -/

namespace Mono

/-- `is_zero` (monomial.py L64-82): `abs(self.coef) < tol`. -/
def isZero (m : Mono K) : Bool := decide (|m.coef| < tol K)

/-- `eval` (monomial.py L127-156), for one point.  The array of ones is the scalar 1. -/
def eval (m : Mono K) (x y : K) : K :=
  let val := m.coef * 1
  let val := if m.alpha.x > 0 then val * x ^ m.alpha.x else val
  let val := if m.alpha.y > 0 then val * y ^ m.alpha.y else val
  val

/-- `partial_deriv` (monomial.py L158-195).  `MultiIndex([x-1, y])` goes through the validating constructor. -/
def partialDeriv (m : Mono K) (v : Var) : Py (Mono K) :=
  match v with
  | .x =>
    if m.alpha.x = 0 then do
      let beta ← MultiIndex.init none
      .ok ⟨beta, 0⟩
    else do
      let beta ← MultiIndex.set [(m.alpha.x : ℤ) - 1, m.alpha.y]
      .ok ⟨beta, m.coef * m.alpha.x⟩
  | .y =>
    if m.alpha.y = 0 then do
      let beta ← MultiIndex.init none
      .ok ⟨beta, 0⟩
    else do
      let beta ← MultiIndex.set [(m.alpha.x : ℤ), (m.alpha.y : ℤ) - 1]
      .ok ⟨beta, m.coef * m.alpha.y⟩
  | .other => .error .invalidVariable

/-- `__eq__` (monomial.py L239-257). -/
def beq (m n : Mono K) : Bool :=
  if m.alpha.idx ≠ n.alpha.idx then false else decide (|m.coef - n.coef| < tol K)

/-- `__gt__` (monomial.py L259-275). -/
def gt (m n : Mono K) : Bool := decide (m.alpha.idx > n.alpha.idx)

/-- `__add__` (monomial.py L277-298): `ValueError` if the multi-indices differ. -/
def add (m n : Mono K) : Py (Mono K) :=
  if !(m.alpha.eq n.alpha) then .error .valueError else .ok ⟨m.alpha, m.coef + n.coef⟩

/-- `__mul__` with a `Monomial` (monomial.py L314-318). -/
def mul (m n : Mono K) : Py (Mono K) := do
  let beta ← m.alpha.add n.alpha
  .ok ⟨beta, m.coef * n.coef⟩

/-- `__mul__` with a scalar (monomial.py L319-323), also `__rmul__` (L330-349).  `alpha.copy()` is the same pair. -/
def smul (m : Mono K) (c : K) : Mono K := ⟨m.alpha, m.coef * c⟩

end Mono

/-! ### Polynomial -/

namespace Poly

/-- `add_monomial` (poly.py L89-99). -/
def addMonomial (p : Poly K) (m : Mono K) : Poly K := if m.isZero then p else p ++ [m]

/-- `remove_zeros` (poly.py L116-120): indices `i` from `len` down to `1`; `del monos[i-1]` if it is near zero.
`removeZerosFrom i p` runs the remaining loop for the values `i, i-1, ..., 1`. -/
def removeZerosFrom : ℕ → Poly K → Poly K
  | 0, p => p
  | i + 1, p =>
    match p[i]? with
    | some m => if m.isZero then removeZerosFrom i (p.eraseIdx i) else removeZerosFrom i p
    | none => removeZerosFrom i p

/-- `remove_zeros` (poly.py L116-120). -/
def removeZeros (p : Poly K) : Poly K := removeZerosFrom p.length p

/-- The inner `j` loop of `consolidate` (poly.py L126-129) for a fixed `i`.  `m` is `monos[i]`, the list is
`monos[i+1:]`.  Each later monomial with equal multi-index is added to `m` and multiplied by 0. -/
def absorb (m : Mono K) : Poly K → Mono K × Poly K
  | [] => (m, [])
  | n :: rest =>
    if m.alpha.eq n.alpha then
      let r := absorb ⟨m.alpha, m.coef + n.coef⟩ rest
      (r.1, n.smul 0 :: r.2)
    else
      let r := absorb m rest
      (r.1, n :: r.2)

/-- The double loop of `consolidate` (poly.py L124-129): after the inner loop for position `i`, the outer loop
continues with the updated tail.  The first argument is the number of remaining values of `i`. -/
def collectN : ℕ → Poly K → Poly K
  | n + 1, m :: rest => (absorb m rest).1 :: collectN n (absorb m rest).2
  | _, l => l

/-- `for i in range(N): for j in range(i + 1, N): ...` with `N = len(self.monos)` (poly.py L124-129). -/
def collect (p : Poly K) : Poly K := collectN p.length p

/-- The `while` loop of `sort` (poly.py L142-148): the new element moves left past all larger ones.  The list
argument is the already processed prefix in reverse order. -/
def insertBack (m : Mono K) : Poly K → Poly K
  | [] => [m]
  | n :: rest => if n.gt m then n :: insertBack m rest else m :: n :: rest

/-- `sort` (poly.py L133-148), insertion sort.  The prefix `monos[:i]` is kept reversed. -/
def sort (p : Poly K) : Poly K := (p.foldl (fun acc m => insertBack m acc) []).reverse

/-- `consolidate` (poly.py L122-131). -/
def consolidate (p : Poly K) : Poly K := sort (removeZeros (collect p))

/-- The loop `for m in monos: self.add_monomial(m)` (poly.py L112-113, L506-509, L552-553). -/
def addAll (p : Poly K) (ms : List (Mono K)) : Poly K := ms.foldl addMonomial p

/-- `add_monomials` (poly.py L101-114). -/
def addMonomials (p : Poly K) (ms : List (Mono K)) : Poly K := consolidate (addAll p ms)

/-- `copy` (poly.py L76-87). -/
def copy (p : Poly K) : Poly K := addMonomials [] p

/-- the loop of `set` (poly.py L61-73). The `len(triple) != 3` test is outside the model (typed triples). -/
def setLoop : Poly K → List (K × ℤ × ℤ) → Py (Poly K)
  | p, [] => .ok p
  | p, (c, a, b) :: rest => do
    let alpha ← MultiIndex.set [a, b]
    setLoop (addMonomial p ⟨alpha, c⟩) rest

/-- `set` / `__init__` (poly.py L35-74). -/
def set (ts : List (K × ℤ × ℤ)) : Py (Poly K) := do
  let p ← setLoop [] ts
  .ok (consolidate p)

/-- `add_monomial_with_idx` (poly.py L150-169). -/
def addMonomialWithIdx (p : Poly K) (coef : K) (idx : ℤ) : Py (Poly K) := do
  let alpha ← MultiIndex.setFromIdx idx
  .ok (consolidate (addMonomial p ⟨alpha, coef⟩))

/-- the loop of `add_monomials_with_idxs` (poly.py L196-197) -/
def addIdxLoop : Poly K → List (K × ℤ) → Py (Poly K)
  | p, [] => .ok p
  | p, (c, i) :: rest => do
    let p' ← addMonomialWithIdx p c i
    addIdxLoop p' rest

/-- `add_monomials_with_idxs` (poly.py L171-199). -/
def addMonomialsWithIdxs (p : Poly K) (coefs : List K) (idxs : List ℤ) : Py (Poly K) :=
  if coefs.length ≠ idxs.length then .error .polynomialError
  else do
    let p' ← addIdxLoop p (coefs.zip idxs)
    .ok (consolidate p')

/-- `is_zero` (poly.py L201-211); the consolidation side effect is the second component. -/
def isZero (p : Poly K) : Bool × Poly K := ((consolidate p).length == 0, consolidate p)

/-- `__call__` (poly.py L452-472), for one point: `val = 0; for m in monos: val += m.eval(x, y)`. -/
def eval (p : Poly K) (x y : K) : K := p.foldl (fun val m => val + m.eval x y) 0

/-- `__add__` with a polynomial (poly.py L504-509, L522). -/
def add (p q : Poly K) : Poly K := consolidate (addAll (addAll [] p) q)

/-- the constant monomial built in `__add__`/`__iadd__` (poly.py L514-516, L556-558) -/
def constMono (c : K) : Py (Mono K) := do
  let alpha ← MultiIndex.setFromIdx 0
  .ok ⟨alpha, c⟩

/-- `__add__` with a scalar (poly.py L510-517, L522), also `__radd__` (L525-539). -/
def addScalar (p : Poly K) (c : K) : Py (Poly K) := do
  let m ← constMono c
  .ok (consolidate (addMonomial (addAll [] p) m))

/-- `__iadd__` with a polynomial that is a different object (poly.py L551-554). -/
def iadd (p q : Poly K) : Poly K := consolidate (addAll p q)

/-- `__iadd__` with a scalar (poly.py L555-560). -/
def iaddScalar (p : Poly K) (c : K) : Py (Poly K) := do
  let m ← constMono c
  .ok (consolidate (addMonomial p m))

/-- inner loop of `__mul__` (poly.py L579-580): `for n in other.monos: new.add_monomial(m * n)`. -/
def mulInner (m : Mono K) : Poly K → Poly K → Py (Poly K)
  | new, [] => .ok new
  | new, n :: rest => do
    let mn ← m.mul n
    mulInner m (addMonomial new mn) rest

/-- outer loop of `__mul__` (poly.py L578-580). -/
def mulLoop (q : Poly K) : Poly K → Poly K → Py (Poly K)
  | new, [] => .ok new
  | new, m :: rest => do
    let new' ← mulInner m new q
    mulLoop q new' rest

/-- `__mul__` with a polynomial (poly.py L576-582), also `__rmul__` (L593-610). -/
def mul (p q : Poly K) : Py (Poly K) := do
  let new ← mulLoop q [] p
  .ok (consolidate new)

/-- `__mul__` with a scalar (poly.py L583-587): no consolidation; also `__rmul__`. -/
def smul (p : Poly K) (c : K) : Poly K := addAll [] (p.map (fun m => m.smul c))

/-- `__truediv__` (poly.py L612-623): `self * (1 / other)`; Python's `1 / 0` raises `ZeroDivisionError`. -/
def div (p : Poly K) (c : K) : Py (Poly K) :=
  if c = 0 then .error .zeroDivision else .ok (smul p (1 / c))

/-- `__neg__` (poly.py L625-627). -/
def neg (p : Poly K) : Poly K := smul p (-1)

/-- `__sub__` with a polynomial (poly.py L629-641). -/
def sub (p q : Poly K) : Poly K := add p (smul q (-1))

/-- `__sub__` with a scalar (poly.py L629-641). -/
def subScalar (p : Poly K) (c : K) : Py (Poly K) := addScalar p (-1 * c)

/-- `__rsub__` with a scalar (poly.py L643-655): `other + (-1 * self)`, dispatched to `__radd__`. -/
def rsubScalar (p : Poly K) (c : K) : Py (Poly K) := addScalar (smul p (-1)) c

/-- the loop of `pow` (poly.py L262-263) -/
def powLoop (p : Poly K) : ℕ → Poly K → Py (Poly K)
  | 0, new => .ok new
  | n + 1, new => do
    let new' ← mul new p
    powLoop p n new'

/-- `pow` and `__pow__` (poly.py L245-264, L657-666). -/
def pow (p : Poly K) (exponent : ℤ) : Py (Poly K) :=
  if exponent < 0 then .error .valueError
  else do
    let one ← set [((1 : K), 0, 0)]
    powLoop p exponent.toNat one

/-- the loop of `compose` (poly.py L283-286) -/
def composeLoop (q1 q2 : Poly K) : Poly K → Poly K → Py (Poly K)
  | new, [] => .ok new
  | new, m :: rest => do
    let temp ← pow q1 m.alpha.x
    let t2 ← pow q2 m.alpha.y
    let temp ← mul temp t2
    composeLoop q1 q2 (iadd new (smul temp m.coef)) rest

/-- `compose` (poly.py L266-287). -/
def compose (p q1 q2 : Poly K) : Py (Poly K) := composeLoop q1 q2 [] p

/-- the loop of `partial_deriv` (poly.py L305-308) -/
def derivLoop (v : Var) : Poly K → Poly K → Py (Poly K)
  | new, [] => .ok new
  | new, m :: rest => do
    let dm ← m.partialDeriv v
    derivLoop v (addMonomial new dm) rest

/-- `partial_deriv` (poly.py L289-309).  For an invalid variable name and no monomials nothing is raised. -/
def partialDeriv (p : Poly K) (v : Var) : Py (Poly K) := derivLoop v [] p

/-- `grad` (poly.py L311-323). -/
def grad (p : Poly K) : Py (Poly K × Poly K) := do
  let gx ← partialDeriv p .x
  let gy ← partialDeriv p .y
  .ok (gx, gy)

/-- `laplacian` (poly.py L325-337). -/
def laplacian (p : Poly K) : Py (Poly K) := do
  let (gx, gy) ← grad p
  let gxx ← partialDeriv gx .x
  let gyy ← partialDeriv gy .y
  .ok (add gxx gyy)

/-- the `k` loop of `anti_laplacian` (poly.py L371-375).  `n` iterations remain, the loop variable is `k`. -/
def antiLapLoop (p1 : Poly K) (ord : ℕ) : (n k : ℕ) → (pk Lk : Poly K) → (scale : K) → (P : Poly K) → Py (Poly K)
  | 0, _, _, _, _, P => .ok P
  | n + 1, k, pk, Lk, scale, P => do
    let pk ← mul pk p1
    let Lk ← laplacian Lk
    let scale := scale * (-(1 / 4) / (((k : K) + 1) * ((ord : K) + 1 - k)))
    let t ← mul pk Lk
    antiLapLoop p1 ord n (k + 1) pk Lk scale (iadd P (smul t scale))

/-- the body of the loop over monomials in `anti_laplacian` (poly.py L355-375), returning `P_alpha` -/
def antiLapMono (p1 : Poly K) (m : Mono K) : Py (Poly K) := do
  let N := m.alpha.order / 2
  let pk := copy p1
  let Lk := addMonomial [] m
  let scale : K := (1 / 4) / (1 + (m.alpha.order : K))
  let t ← mul pk Lk
  antiLapLoop p1 m.alpha.order N 1 pk Lk scale (smul t scale)

/-- the outer loop of `anti_laplacian` (poly.py L354-378) -/
def antiLapOuter (p1 : Poly K) : Poly K → Poly K → Py (Poly K)
  | new, [] => .ok new
  | new, m :: rest => do
    let P ← antiLapMono p1 m
    antiLapOuter p1 (iadd new P) rest

/-- `anti_laplacian` (poly.py L339-380). -/
def antiLaplacian (p : Poly K) : Py (Poly K) := do
  let p1 ← addMonomialsWithIdxs ([] : Poly K) [1, 1] [3, 5]
  antiLapOuter p1 [] p

/-- the comparison loop of `__eq__` (poly.py L489-491), on lists of equal length -/
def eqLoop : Poly K → Poly K → Bool
  | m :: ms, n :: ns => if !(m.beq n) then false else eqLoop ms ns
  | _, _ => true

/-- `__eq__` (poly.py L474-492). The sorting side effects are not visible to later operations on canonical
polynomials (`sort` is the identity there). -/
def beq (p q : Poly K) : Bool :=
  if p.length ≠ q.length then false else eqLoop (sort p) (sort q)

end Poly
end PFEM
