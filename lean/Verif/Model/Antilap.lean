import Verif.Model.NystromSolve

/-!
Model of `/repo/puncturedfem/locfun/antilap.py`: trace and weighted normal derivative of a function whose Laplacian is a given harmonic
function.

The in-place updates `PHI += …` act on arrays that nothing else refers to, so they are rebindings here.  Divisions by zero (a sample at the
interior point of a hole, a contour of length zero) are `ZeroDivisionError` as in `NystromSolve`.
-/

namespace PFEM
namespace Np

/-- `a * b` for arrays -/
noncomputable def mul (a b : List ℝ) : Py (List ℝ) := bin (· * ·) a b
/-- `a + b` for arrays -/
noncomputable def add (a b : List ℝ) : Py (List ℝ) := bin (· + ·) a b
/-- `a - b` for arrays -/
noncomputable def sub (a b : List ℝ) : Py (List ℝ) := bin (· - ·) a b
/-- `r * a` for a number and an array -/
noncomputable def smul (r : ℝ) (a : List ℝ) : List ℝ := a.map (r * ·)
/-- `-a` -/
noncomputable def neg (a : List ℝ) : List ℝ := a.map (- ·)

end Np

namespace Antilap
open Nystrom
open ContourG (mapPy)

/-- `K.multiply_by_dx_norm(K.dot_with_normal(g1, g2))`, the pattern by which weighted normal derivatives are made -/
noncomputable def weightedNormal (K : CellG) (g1 g2 : List ℝ) : Py (List ℝ) := do
  let nd ← K.dotWithNormal g1 g2
  K.multiplyByDxNorm nd

/-- `K.multiply_by_dx_norm(K.dot_with_tangent(g1, g2))` -/
noncomputable def weightedTangent (K : CellG) (g1 g2 : List ℝ) : Py (List ℝ) := do
  let td ← K.dotWithTangent g1 g2
  K.multiplyByDxNorm td

/-- `_antilap_from_components` (antilap.py L73-94) -/
noncomputable def fromComponents (K : CellG) (rho rhoHat phi phiHat : List ℝ) : Py (List ℝ × List ℝ) := do
  let (x1, x2) ← K.getBoundaryPoints
  let a ← Np.mul x1 rho
  let b ← Np.mul x2 rhoHat
  let P ← Np.add a b
  let P := Np.smul 0.25 P
  let a ← Np.mul x1 phi
  let a ← Np.add rho a
  let b ← Np.mul x2 phiHat
  let P1 ← Np.add a b
  let P1 := Np.smul 0.25 P1
  let a ← Np.mul x2 phi
  let a ← Np.add rhoHat a
  let b ← Np.mul x1 phiHat
  let P2 ← Np.sub a b
  let P2 := Np.smul 0.25 P2
  let wnd ← weightedNormal K P1 P2
  .ok (P, wnd)

/-- `_antilap_simply_connected` (antilap.py L54-70); `K.num_edges` is the number of edges of all components -/
noncomputable def simplyConnected (K : CellG) (phi phiHat : List ℝ) : Py (List ℝ × List ℝ) := do
  let len := 2 * Real.pi * K.getEdges.length
  let rhoW ← weightedTangent K phi (Np.neg phiHat)
  let rho ← fftAntiderivative rhoW len
  let rhoHatW ← weightedTangent K phiHat phi
  let rhoHat ← fftAntiderivative rhoHatW len
  fromComponents K rho rhoHat phi phiHat

/-- the loop that fills `b` and `c`, and the two divisions after it (antilap.py L109-121); `j` is the loop variable -/
noncomputable def residueLoop (K : CellG) (Ft FHatT : List ℝ) (j : ℕ) : List ContourG → Py (List (ℝ × ℝ))
  | [] => .ok []
  | c :: cs => do
    let k ← Np.get K.startIdx (j + 1)
    let k' ← Np.get K.startIdx (j + 2)
    let b ← c.integrate (Np.slice FHatT k k')
    let d ← c.integrate (Np.slice Ft k k')
    let l ← residueLoop K Ft FHatT (j + 1) cs
    .ok ((b / (-2 * Real.pi), d / (2 * Real.pi)) :: l)

/-- `b`, `c` (antilap.py L105-121), as pairs `(b[j], c[j])` -/
noncomputable def residues (K : CellG) (psi psiHat : List ℝ) : Py (List (ℝ × ℝ)) := do
  let Ft ← K.dotWithTangent psi (Np.neg psiHat)
  let FHatT ← K.dotWithTangent psiHat psi
  residueLoop K Ft FHatT 0 K.components.tail

/-- coordinates relative to the interior point of a hole, with the squared norm (antilap.py L129-132 and L168-171) -/
noncomputable def shifted (x1 x2 : List ℝ) (c : ContourG) : Py (List ℝ × List ℝ × List ℝ) := do
  let xi ← Trace.attr c.interior
  let y1 := Np.shift x1 xi.x
  let y2 := Np.shift x2 xi.y
  let n2 ← Np.bin (fun a b => a ^ 2 + b ^ 2) y1 y2
  .ok (y1, y2, n2)

/-- the columns `mu[:, j]`, `mu_hat[:, j]` (antilap.py L128-134) -/
noncomputable def rational (x1 x2 : List ℝ) (c : ContourG) : Py (List ℝ × List ℝ) := do
  let (y1, y2, n2) ← shifted x1 x2 c
  if 0 ∈ n2 then .error .zeroDivision
  else do
    let m ← Np.bin (· / ·) y1 n2
    let mHat ← Np.bin (· / ·) (Np.neg y2) n2
    .ok (m, mHat)

/-- `psi_0`, `psi_hat_0` (antilap.py L124-138) from the columns of `mu`, `mu_hat` -/
noncomputable def reduce (K : CellG) (psi psiHat : List ℝ) (res : List (ℝ × ℝ)) (cols : List (List ℝ × List ℝ)) :
    Py (List ℝ × List ℝ) := do
  let mu ← Mat.ofCols K.numPts (cols.map Prod.fst)
  let muHat ← Mat.ofCols K.numPts (cols.map Prod.snd)
  let mb ← mu.mulVec (res.map Prod.fst)
  let mhc ← muHat.mulVec (res.map Prod.snd)
  let d ← Np.sub mb mhc
  let psi0 ← Np.sub psi d
  let mc ← mu.mulVec (res.map Prod.snd)
  let mhb ← muHat.mulVec (res.map Prod.fst)
  let d ← Np.add mc mhb
  let psiHat0 ← Np.sub psiHat d
  .ok (psi0, psiHat0)

/-- the body of the loop of `_recover_trace_from_tangential_and_normal_derivatives` (antilap.py L281-304) -/
noncomputable def recoverStep (K : CellG) (eta : List Trace) (wnd : List ℝ) (j : ℕ) (c : ContourG) (vals : List ℝ) : Py (List ℝ) := do
  let len ← c.integrate (List.replicate c.numPts 1)
  let start ← Np.get K.startIdx j
  let s ← c.integrate (Np.slice vals start (start + c.numPts))
  if len = 0 then .error .zeroDivision
  else do
    let vals ← Np.setSlice vals start (start + c.numPts) (Np.shift (Np.slice vals start (start + c.numPts)) (s / len))
    if j = 0 then .ok vals
    else do
      let e ← Np.get eta (j - 1)
      let ev ← Trace.attr e.values
      let p ← Np.mul ev wnd
      let d ← K.integratePreweighted p
      Np.setSlice vals start (start + c.numPts) ((Np.slice vals start (start + c.numPts)).map (· + d / len))

/-- that loop -/
noncomputable def recoverLoop (K : CellG) (eta : List Trace) (wnd : List ℝ) (j : ℕ) (vals : List ℝ) : List ContourG → Py (List ℝ)
  | [] => .ok vals
  | c :: cs => do
    let vals ← recoverStep K eta wnd j c vals
    recoverLoop K eta wnd (j + 1) vals cs

/-- `_recover_trace_from_tangential_and_normal_derivatives` (antilap.py L267-306) -/
noncomputable def recover (s : Solver) (t : Trace) : Py Trace :=
  match s.eta, t.wnd, t.wtd with
  | some eta, some wnd, some wtd => do
    let v ← antiderivativeOnComponents s.ops.K wtd
    let t ← Trace.after (t.setValues (.one (.arr v)))
    let v ← Trace.attr t.values
    let v ← recoverLoop s.ops.K eta wnd 0 v s.ops.K.components
    .ok { t with values := some v }
  | _, _, _ => .error .valueError

/-- `_compute_wnd_from_gradient` (antilap.py L200-205) -/
noncomputable def setNormal (K : CellG) (g1 g2 : List ℝ) (t : Trace) : Py Trace := do
  let w ← weightedNormal K g1 g2
  Trace.after (t.setWnd (.one (.arr w)))

/-- `_compute_wtd_from_gradient` (antilap.py L208-213) -/
noncomputable def setTangent (K : CellG) (g1 g2 : List ℝ) (t : Trace) : Py Trace := do
  let w ← weightedTangent K g1 g2
  Trace.after (t.setWtd (.one (.arr w)))

/-- one half of `_get_rho_and_rho_hat_with_direct_solve` (antilap.py L216-230) -/
noncomputable def direct (gmres : Gmres) (s : Solver) (t : Trace) : Py Trace :=
  match t.wnd with
  | none => .error .valueError
  | some w => do
    let v ← solveNeumann gmres s.ops s.diag w
    Trace.after (t.setValues (.one (.arr v)))

/-- `rho_0` (or `rho_hat_0`) from its gradient, with the strategy of the solver (antilap.py L141-158).  Any strategy other than the
two leaves the values zero.  The code treats the two functions in turn, step by step; here each is treated to the end, which changes at
most which of two exceptions is raised first. -/
noncomputable def integrateGradient (gmres : Gmres) (s : Solver) (g1 g2 : List ℝ) : Py (List ℝ) := do
  let t ← Trace.init s.ops.K.getEdges (values := some (.one (.num 0)))
  let t ← setNormal s.ops.K g1 g2 t
  let t ← (if s.strategy = "direct" then direct gmres s t
    else if s.strategy = "fft" then do
      let t ← setTangent s.ops.K g1 g2 t
      recover s t
    else .ok t : Py Trace)
  Trace.attr t.values

/-- the body of the last loop of `_antilap_multiply_connected` (antilap.py L166-195): the terms added to `PHI` and `PHI_wnd`; `m`, `mHat`
are the columns of `mu`, `mu_hat` and `a` is `log_coef[j]` -/
noncomputable def holeTerms (K : CellG) (x1 x2 : List ℝ) (c : ContourG) (b d a : ℝ) (m mHat P W : List ℝ) :
    Py (List ℝ × List ℝ) := do
  let (y1, y2, n2) ← shifted x1 x2 c
  if 0 ∈ n2 then .error .zeroDivision
  else do
    let log := n2.map fun r => 0.5 * Real.log r
    let l ← Np.add (Np.smul b y1) (Np.smul d y2)
    let q ← Np.mul (Np.smul 0.5 l) log
    let P ← Np.add P q
    let r ← Np.sub (Np.smul b m) (Np.smul d mHat)
    let r := Np.smul 0.5 r
    let q ← Np.mul r y1
    let M1 ← Np.add q (Np.smul (0.5 * b) log)
    let q ← Np.mul r y2
    let M2 ← Np.add q (Np.smul (0.5 * d) log)
    let w ← weightedNormal K M1 M2
    let W ← Np.add W w
    let L ← Np.bin (fun n g => n * (g - 1) / 4) n2 log
    let L1 ← Np.bin (fun y g => y * (2 * g - 1) / 4) y1 log
    let L2 ← Np.bin (fun y g => y * (2 * g - 1) / 4) y2 log
    let w ← weightedNormal K L1 L2
    let P ← Np.add P (Np.smul a L)
    let W ← Np.add W (Np.smul a w)
    .ok (P, W)

/-- the last loop of `_antilap_multiply_connected` (antilap.py L166-195) -/
noncomputable def holeLoop (K : CellG) (x1 x2 : List ℝ) (res : List (ℝ × ℝ)) (cols : List (List ℝ × List ℝ)) (logCoef : List ℝ) (j : ℕ)
    (P W : List ℝ) : List ContourG → Py (List ℝ × List ℝ)
  | [] => .ok (P, W)
  | c :: cs => do
    let r ← Np.get res j
    let m ← Np.get cols j
    let a ← Np.get logCoef j
    let (P, W) ← holeTerms K x1 x2 c r.1 r.2 a m.1 m.2 P W
    holeLoop K x1 x2 res cols logCoef (j + 1) P W cs

/-- `_antilap_multiply_connected` (antilap.py L97-197) -/
noncomputable def multiplyConnected (gmres : Gmres) (s : Solver) (psi psiHat logCoef : List ℝ) : Py (List ℝ × List ℝ) := do
  let K := s.ops.K
  let res ← residues K psi psiHat
  let (x1, x2) ← K.getBoundaryPoints
  let cols ← mapPy (rational x1 x2) K.components.tail
  let (psi0, psiHat0) ← reduce K psi psiHat res cols
  let rho ← integrateGradient gmres s psi0 (Np.neg psiHat0)
  let rhoHat ← integrateGradient gmres s psiHat0 psi0
  let (P, W) ← fromComponents K rho rhoHat psi0 psiHat0
  holeLoop K x1 x2 res cols logCoef 0 P W K.components.tail

/-- `get_anti_laplacian_harmonic` (antilap.py L19-51) -/
noncomputable def antilaplacian (gmres : Gmres) (s : Solver) (psi psiHat logCoef : List ℝ) : Py (List ℝ × List ℝ) :=
  if s.ops.K.numHoles = 0 then simplyConnected s.ops.K psi psiHat else multiplyConnected gmres s psi psiHat logCoef

end Antilap
end PFEM
