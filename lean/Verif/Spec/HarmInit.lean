import Verif.Spec.LocRep
import Verif.Spec.InnerProd

/-!
Specification vocabulary for the construction of harmonic functions from boundary data.
-/

namespace PFEM

/-- the normals of the samples are the tangents turned clockwise by a right angle -/
def CellG.Normals (K : CellG) : Prop := ∀ s ∈ K.cols, s.nx = s.ty ∧ s.ny = -s.tx

/-- the solver belongs to the cell `K` and holds the traces of the logarithmic terms of its holes -/
structure Nystrom.Solver.Of (s : Nystrom.Solver) (K : CellG) : Prop where
  cell : s.ops.K = K
  log : K.numHoles ≠ 0 → ∃ g, s.log = some g ∧ ∀ (j : ℕ) (c : ContourG), K.components[j + 1]? = some c →
    ∃ p t, c.interior = some p ∧ g.lam[j]? = some t ∧ TraceOf K (away p) (logDist p) true t

/-- the weighted normal derivative of `Σ a_j log|· - ξ_j|` at a sample -/
noncomputable def logsNormal (K : CellG) (a : List ℝ) (s : Sample) : ℝ :=
  (List.zipWith (fun c (k : ContourG) =>
    let ξ := k.interior.getD (Vert.mk' 0 0)
    c * (((s.x - ξ.x) * s.nx + (s.y - ξ.y) * s.ny) / ((s.x - ξ.x) ^ 2 + (s.y - ξ.y) ^ 2) * s.dxNorm)) a K.components.tail).sum

/-- everything that a harmonic function stores when it is made from boundary values `v` and the solver has answered with the conjugate `c`,
the coefficients `a` and the anti-Laplacian `P`, `W`; `t` and `d` are the Fourier derivatives of `v` and `c` -/
structure LocHarm.Built (K : CellG) (r : LocHarm) (v c a t d P W : List ℝ) : Prop where
  values : r.trace.values = some v
  wtd : r.trace.wtd = some t
  wnd : r.trace.wnd = some (List.zipWith (fun x s => x + logsNormal K a s) d K.cols)
  psi : ∃ u, r.psi = some u ∧ u.values = some (List.zipWith (fun x s => x - withLogs K a (fun _ _ => 0) s.x s.y) v K.cols)
  conj : ∃ u, r.conj = some u ∧ u.values = some c
  logCoef : r.logCoef = some a
  biharm : ∃ u, r.biharm = some (some u) ∧ u.values = some P ∧ u.wnd = some W

/-- the boundary values that an argument `trace` of `LocalPoissonFunction` stands for -/
def LocPoisson.TraceOr.Gives (K : CellG) : LocPoisson.TraceOr → List ℝ → Prop
  | .trace t, v => t.values = some v ∧ v.length = K.numPts
  | .value (.num c), v => v = List.replicate K.numPts c
  | .value (.arr a), v => v = a ∧ v.length = K.numPts
  | .value .other, _ => False

end PFEM
