import Mathlib.Analysis.SpecialFunctions.Trigonometric.Basic
import Verif.Model.Err

/-!
Model of `/repo/puncturedfem/mesh/quad.py`.
-/

namespace PFEM

/-- `Quad` attributes (quad.py L69-95) -/
structure Quad where
  type : String
  n : ℕ
  h : ℝ
  t : List ℝ
  wgt : List ℝ

namespace Quad

/-- `np.linspace(0, 2 * np.pi, 2 * n + 1)` (quad.py L114) -/
noncomputable def nodes (n : ℕ) : List ℝ := (List.range (2 * n + 1)).map fun j => (j : ℕ) * (2 * Real.pi / (2 * n : ℕ))

/-- `s` (quad.py L160) -/
noncomputable def kressS (t : ℝ) : ℝ := t / Real.pi - 1
/-- `c` (quad.py L162) -/
noncomputable def kressC (p : ℕ) (s : ℝ) : ℝ := (0.5 - 1 / (p : ℝ)) * s * (s * s) + s / p + 0.5
/-- the new node (quad.py L163-166) -/
noncomputable def kressT (p : ℕ) (t : ℝ) : ℝ :=
  let c := kressC p (kressS t)
  2 * Real.pi * c ^ p / (c ^ p + (1 - c) ^ p)
/-- the weight (quad.py L167) -/
noncomputable def kressW (p : ℕ) (t : ℝ) : ℝ :=
  let s := kressS t
  let c := kressC p s
  (3 * ((p : ℝ) - 2) * (s * s) + 2) * (c * (1 - c)) ^ (p - 1) / (c ^ p + (1 - c) ^ p) ^ 2

/-- `martensen` weight (quad.py L177-180) for one node -/
noncomputable def martW (n : ℕ) (t : ℝ) : ℝ :=
  ((List.range n).foldl (fun w k => w + Real.cos (((k : ℕ) + 1 : ℕ) * t) / ((k : ℕ) + 1 : ℕ)) 0) * (0.5 / n)

/-- `martensen` node (quad.py L182-183) -/
noncomputable def martT (t : ℝ) : ℝ := (2 * Real.sin (t / 2)) * (2 * Real.sin (t / 2))

/-- `__init__` (quad.py L97-122) with `_set_n` (L129-136), `trap` (L138-146), `kress` (L148-167), `martensen`
(L169-183).  The test `type == "martensen"` (L118) compares the built-in class `type` with a string and is never
true.  The arguments are integers. -/
noncomputable def init (qtype : String) (n p : ℤ) : Py Quad :=
  if n < 4 then .error .valueError else
  let n := n.toNat
  let h := Real.pi / n
  let t := nodes n
  if qtype = "kress" then
    if p < 2 then .error .valueError
    else .ok ⟨qtype, n, h, t.map (kressT p.toNat), t.map (kressW p.toNat)⟩
  else if qtype = "mart" then .ok ⟨qtype, n, h, t.map martT, t.map (martW n)⟩
  else .ok ⟨qtype, n, h, t, List.replicate (2 * n + 1) 1⟩

end Quad

/-- `get_quad_dict` (quad.py L44-66): the pair ("trap", "kress") -/
noncomputable def getQuadDict (n p : ℤ) : Py (Quad × Quad) := do
  let a ← Quad.init "trap" n 7
  let b ← Quad.init "kress" n p
  .ok (a, b)

end PFEM
