import Verif.Model.Poly

/-!
Model of the printed form of polynomials: `__repr__` in `/repo/puncturedfem/locfun/poly/monomial.py`, `__repr__` and
`__str__` in `/repo/puncturedfem/locfun/poly/poly.py`; and of `set_to_zero` (poly.py).

A text is a list of characters.  The format of numbers, `f"{c}"`, is a parameter `fmt`; the exponents are natural numbers
in decimal notation.
-/

namespace PFEM

variable {K : Type} [Field K] [LinearOrder K]

/-- the decimal notation of a natural number -/
def decimal (n : ℕ) : List Char := Nat.toDigits 10 n

/-- `Monomial.__repr__` (monomial.py L209-237) -/
def Mono.text (fmt : K → List Char) (m : Mono K) : List Char :=
  let msg := ['+', ' ', '('] ++ fmt m.coef ++ [')', ' ']
  let msg := if m.alpha.x > 0 then msg ++ ['x'] else msg
  let msg := if m.alpha.x > 1 then msg ++ ('^' :: decimal m.alpha.x ++ [' ']) else msg ++ [' ']
  let msg := if m.alpha.y > 0 then msg ++ ['y'] else msg
  if m.alpha.y > 1 then msg ++ ('^' :: decimal m.alpha.y ++ [' ']) else msg ++ [' ']

namespace Poly

/-- `Polynomial.__repr__` (poly.py L424-439) and `__str__` (L441-450): the polynomial afterwards, for it is sorted, and
the text -/
def text (fmt : K → List Char) (p : Poly K) : Poly K × List Char :=
  let p := sort p
  if p.length = 0 then (p, ['+', ' ', '(', '0', ')', ' ']) else (p, p.foldl (fun msg m => msg ++ m.text fmt) [])

/-- `set_to_zero` (poly.py L213-221) -/
def setToZero (_ : Poly K) : Poly K := []

end Poly
end PFEM
