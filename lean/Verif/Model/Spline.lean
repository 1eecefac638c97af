import Verif.Model.Err
import Mathlib.Analysis.SpecialFunctions.Trigonometric.Basic

/-!
Model of `/repo/puncturedfem/mesh/edgelib/spline.py`.  The two functions of scipy are arbitrary: `splprep` returns the spline that it fits to the
points, or raises; `splev u s k` is the `k`-th derivative of the spline `s` at `u`.
-/

namespace PFEM

/-- the two functions of `scipy.interpolate` that are used -/
structure SplineLib (σ : Type) where
  splprep : List ℝ × List ℝ → Py σ
  splev : ℝ → σ → ℕ → ℝ × ℝ

namespace Spline
variable {σ : Type}

/-- `unpack` (spline.py L20-25); `none`: the keyword argument is missing -/
def unpack (lib : SplineLib σ) (pts : Option (List ℝ × List ℝ)) : Py σ :=
  match pts with
  | some p => lib.splprep p
  | none => .error .keyError

/-- `X` (spline.py L28-34) at one parameter -/
noncomputable def X (lib : SplineLib σ) (pts : Option (List ℝ × List ℝ)) (t : ℝ) : Py (ℝ × ℝ) := do
  let s ← unpack lib pts
  .ok (lib.splev (1 / 2 / Real.pi * t) s 0)

/-- `DX` (spline.py L37-43) at one parameter -/
noncomputable def DX (lib : SplineLib σ) (pts : Option (List ℝ × List ℝ)) (t : ℝ) : Py (ℝ × ℝ) := do
  let s ← unpack lib pts
  let d := lib.splev (1 / 2 / Real.pi * t) s 1
  .ok (1 / 2 / Real.pi * d.1, 1 / 2 / Real.pi * d.2)

/-- `DDX` (spline.py L46-52) at one parameter -/
noncomputable def DDX (lib : SplineLib σ) (pts : Option (List ℝ × List ℝ)) (t : ℝ) : Py (ℝ × ℝ) := do
  let s ← unpack lib pts
  let d := lib.splev (1 / 2 / Real.pi * t) s 2
  .ok (1 / 4 / Real.pi / Real.pi * d.1, 1 / 4 / Real.pi / Real.pi * d.2)

end Spline
end PFEM
