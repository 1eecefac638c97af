import Verif.Model.Pegboard

/-!
The regular mesh of `a` rows and `b` columns of squares with side `h`, written down without loops.
-/

namespace PFEM
namespace Peg

variable {K : Type} [Field K]

/-- the corner in row `i`, column `j` -/
def corner (h : K) (b i j : ℕ) : PVert K := ⟨h * j, h * i, i * (b + 1) + j⟩

/-- the midpoint of the square in row `i`, column `j` -/
def centre (h : K) (a b i j : ℕ) : PVert K := ⟨h * (j + 1 / 2), h * (i + 1 / 2), (a + 1) * (b + 1) + (i * b + j)⟩

/-- the number of the square in row `i`, column `j` -/
def square (b i j : ℕ) : ℤ := i * b + j

/-- the number of the disk in the square in row `i`, column `j` -/
def disk (a b i j : ℕ) : ℤ := a * b + (i * b + j)

/-- the horizontal edge from corner `(i, j)` to corner `(i, j + 1)`: the square above is on its left, the square below on
its right, `-1` stands for the outside -/
def hor (h : K) (a b i j : ℕ) : EdgeRec K :=
  ⟨corner h b i j, corner h b i (j + 1), if i < a then square b i j else -1, if 0 < i then square b (i - 1) j else -1, none⟩

/-- the vertical edge from corner `(i, j)` to corner `(i + 1, j)`: the square to its left and the one to its right -/
def ver (h : K) (b i j : ℕ) : EdgeRec K :=
  ⟨corner h b i j, corner h b (i + 1) j, if 0 < j then square b i (j - 1) else -1, if j < b then square b i j else -1, none⟩

/-- the circle in square `(i, j)`: the disk inside, the square outside -/
def circ (h : K) (a b i j : ℕ) : EdgeRec K :=
  ⟨centre h a b i j, centre h a b i j, disk a b i j, square b i j, none⟩

end Peg
end PFEM
