import Mathlib.Analysis.SpecialFunctions.Log.Base
import Mathlib.Data.EReal.Basic
import Verif.Model.LocFun
import Verif.Model.Masks

/-!
Model of the data that the plotting classes compute: `/repo/puncturedfem/plot/locfun_plot.py`, `globfun_plot.py`,
`trace_plot.py`, `mesh_plot.py`, `plot_util.py`.

* Drawing is left to matplotlib: a model function returns what is handed to it.
* An array that may hold `nan` is a list of `Option ℝ`, with `none` for `nan`.
* Titles, legends (but for their lengths), colours and other decorations are not modelled.
* `e.x` of an edge that is not parameterized raises `AttributeError` here; after `deparameterize` it is an `IndexError` in
  the code.
-/

namespace PFEM

/-- `get_dx_norm` (cell.py L604-614) -/
def CellG.getDxNorm (K : CellG) : Py (List ℝ) := K.multiplyByDxNorm (List.replicate K.numPts 1)

/-- `get_unit_tangent` (cell.py L574-587) -/
def CellG.getUnitTangent (K : CellG) : Py (List ℝ × List ℝ) := do
  let t1 ← K.dotWithTangent (List.replicate K.numPts 1) (List.replicate K.numPts 0)
  let t2 ← K.dotWithTangent (List.replicate K.numPts 0) (List.replicate K.numPts 1)
  .ok (t1, t2)

/-- `get_unit_normal` (cell.py L589-602) -/
def CellG.getUnitNormal (K : CellG) : Py (List ℝ × List ℝ) := do
  let n1 ← K.dotWithNormal (List.replicate K.numPts 1) (List.replicate K.numPts 0)
  let n2 ← K.dotWithNormal (List.replicate K.numPts 0) (List.replicate K.numPts 1)
  .ok (n1, n2)

namespace Plot
open Trace (attr)

/-! ### `locfun_plot.py` -/

/-- a derivative that must be set: `ValueError` if it is `None` -/
def getDeriv : Option (List ℝ) → Py (List ℝ)
  | some l => .ok l
  | none => .error .valueError

/-- the entries of `grad_xj` after the two assignments of `nan` (locfun_plot.py L392-397): `w` the weighted gradient, `g`
the weight -/
noncomputable def cut (w g : ℝ) : Option ℝ :=
  if g < 1 / 10 ^ 8 then none else if w / g > 1000 then none else some (w / g)

/-- `_construct_gradient_component_on_boundary` (locfun_plot.py L367-398) -/
noncomputable def boundaryGradient (v : LocPoisson) (component : ℤ) : Py (List (Option ℝ)) := do
  let h ← attr v.harm
  let hn ← getDeriv h.trace.wnd
  let ht ← getDeriv h.trace.wtd
  let p ← attr v.poly
  let pt ← attr p.trace
  let pn ← getDeriv pt.wnd
  let pt ← getDeriv pt.wtd
  let K ← attr v.cell
  let ones := List.replicate K.numPts (1 : ℝ)
  let zeros := List.replicate K.numPts (0 : ℝ)
  let (b1, b2) ← if component = 1 then .ok (ones, zeros) else if component = 2 then .ok (zeros, ones)
    else .error .valueError
  let n ← K.dotWithNormal b1 b2
  let t ← K.dotWithTangent b1 b2
  let wnd ← Np.bin (· + ·) hn pn
  let wtd ← Np.bin (· + ·) ht pt
  let a ← Np.bin (· * ·) n wnd
  let b ← Np.bin (· * ·) t wtd
  let w ← Np.bin (· + ·) a b
  let g ← K.getDxNorm
  Np.bin cut w g

/-- `np.sqrt(a**2 + b**2)`; `nan` if one of them is -/
noncomputable def hypot (a b : Option ℝ) : Option ℝ :=
  match a, b with
  | some x, some y => some (Real.sqrt (x ^ 2 + y ^ 2))
  | _, _ => none

/-- the boundary values of `_draw_vals` (locfun_plot.py L144-145) -/
def boundaryValues (v : LocPoisson) : Py (List (Option ℝ)) := do
  let h ← attr v.harm
  let hv ← attr h.trace.values
  let p ← attr v.poly
  let pt ← attr p.trace
  let pv ← attr pt.values
  let l ← Np.bin (· + ·) hv pv
  .ok (l.map some)

/-- the array that holds the interior values of a plot: an attribute of the function, or a fresh array -/
inductive Src
  | vals | grad1 | grad2 | fresh

/-- assignment to the entries of this array -/
def Src.write (v : LocPoisson) (l : List ℝ) : Src → LocPoisson
  | .vals => { v with intVals := some l }
  | .grad1 => { v with intGrad1 := some l }
  | .grad2 => { v with intGrad2 := some l }
  | .fresh => v

/-- the interior values, their array, and the boundary values of the four kinds of plots (locfun_plot.py L126-204);
without `use_interp` the boundary values are `None` -/
noncomputable def plotData (v : LocPoisson) (useInterp : Bool) (ty : String) :
    Py (Option (List ℝ) × Src × Option (List (Option ℝ))) :=
  if ty = "values" then do
    let b ← if useInterp then (boundaryValues v).map some else .ok none
    .ok (v.intVals, .vals, b)
  else if ty = "grad_x1" then do
    let b ← if useInterp then (boundaryGradient v 1).map some else .ok none
    .ok (v.intGrad1, .grad1, b)
  else if ty = "grad_x2" then do
    let b ← if useInterp then (boundaryGradient v 2).map some else .ok none
    .ok (v.intGrad2, .grad2, b)
  else if ty = "grad_norm" then
    match v.intGrad1, v.intGrad2 with
    | some g1, some g2 => do
      let b ← if useInterp then do
          let a ← boundaryGradient v 1
          let b ← boundaryGradient v 2
          (Np.bin hypot a b).map some
        else .ok none
      let i ← Np.bin (fun x y => Real.sqrt (x ^ 2 + y ^ 2)) g1 g2
      .ok (some i, .fresh, b)
    | _, _ => .error .valueError
  else .error .valueError

/-- `vals[vals < 1e-16] = 1e-16` (locfun_plot.py L253) -/
noncomputable def clip (x : ℝ) : ℝ := if x < 1 / 10 ^ 16 then 1 / 10 ^ 16 else x

/-- the values handed to matplotlib, one for each triangulated point (locfun_plot.py L241-254), and the function
afterwards: `np.concatenate` makes a fresh array, but without boundary values `vals` is the array of interior values, and
L253 changes it -/
noncomputable def plotVals (v : LocPoisson) (useInterp : Bool) (ty : String) (useLog10 : Bool) :
    LocPoisson × Py (List (Option ℝ)) :=
  match plotData v useInterp ty with
  | .error e => (v, .error e)
  | .ok (none, _, _) => (v, .error .notImplemented)
  | .ok (some i, src, b) =>
    match useInterp, b with
    | true, some b =>
      (v, .ok (if useLog10 then (i.map some ++ b).map (Option.map fun x => Real.logb 10 (clip x)) else i.map some ++ b))
    | _, _ =>
      if useLog10 then (src.write v (i.map clip), .ok ((i.map clip).map fun x => some (Real.logb 10 x)))
      else (v, .ok (i.map some))

/-- `np.any(pointwise_mask[triangles], axis=1)` for one triangle -/
def badTriangle (vals : List (Option ℝ)) (t : ℕ × ℕ × ℕ) : Py Bool := do
  let a ← Np.get vals t.1
  let b ← Np.get vals t.2.1
  let c ← Np.get vals t.2.2
  .ok (a.isNone || b.isNone || c.isNone)

/-- `_apply_masks_and_draw` (locfun_plot.py L286-324): the mask of the triangulation that is drawn with the values.
`tricontourf` requires one value for each point. -/
def applyMasks (R : Triangulated) (useInterp : Bool) (vals : List (Option ℝ)) : Py (List Bool) := do
  let inf ← ContourG.mapPy (badTriangle vals) R.tri.triangles
  let mask ← Np.bin (· || ·) R.holeMask inf
  let mask ← if useInterp then .ok mask
    else if mask.length = R.boundaryMask.length then .ok (List.zipWith (fun m b => if b then true else m) mask R.boundaryMask)
    else .error .indexError
  if vals.length = R.tri.x.length then .ok mask else .error .valueError

/-- `draw` (locfun_plot.py L83-139) of a function on a cell with triangulation `R`: the function afterwards, the values
at the points and the mask of the triangles -/
noncomputable def drawLocal (v : LocPoisson) (R : Triangulated) (useInterp : Bool) (ty : String) (useLog10 : Bool) :
    LocPoisson × Py (List (Option ℝ) × List Bool) :=
  let r := plotVals v useInterp ty useLog10
  (r.1, do
    let vals ← r.2
    let mask ← applyMasks R useInterp vals
    .ok (vals, mask))

/-! ### `globfun_plot.py` -/

/-- `_range_on_cell` (globfun_plot.py L261-270) -/
noncomputable def rangeOnCell (vals : Option (List ℝ)) (r : EReal × EReal) : Py (EReal × EReal) :=
  match vals with
  | none => .error .valueError
  | some l => do
    let lo ← Np.min l
    let hi ← Np.max l
    .ok (min r.1 (lo : EReal), max r.2 (hi : EReal))

/-- the four ranges of a `GlobalFunctionPlot` -/
structure Ranges where
  vals : EReal × EReal := (⊤, ⊥)
  grad1 : EReal × EReal := (⊤, ⊥)
  grad2 : EReal × EReal := (⊤, ⊥)
  norm : EReal × EReal := (⊤, ⊥)

/-- the loop of `_build_global_function` (globfun_plot.py L112-137); `combo` is
`solver.compute_linear_combo_on_mesh_cell(·, self.coef)` -/
noncomputable def buildLoop (combo : ℤ → Py LocPoisson) (fs : List LocPoisson) (r : Ranges) :
    List ℤ → Py (List LocPoisson × Ranges)
  | [] => .ok (fs, r)
  | c :: cs => do
    let f ← combo c
    let v ← rangeOnCell f.intVals r.vals
    let g1 ← rangeOnCell f.intGrad1 r.grad1
    let g2 ← rangeOnCell f.intGrad2 r.grad2
    match f.intGrad1, f.intGrad2 with
    | some a, some b => do
      let n ← Np.bin (fun x y => Real.sqrt (x ^ 2 + y ^ 2)) a b
      let n ← rangeOnCell (some n) r.norm
      buildLoop combo (fs ++ [f]) ⟨v, g1, g2, n⟩ cs
    | _, _ => .error .valueError

/-- `_build_global_function` (globfun_plot.py L106-137) -/
noncomputable def buildGlobal (combo : ℤ → Py LocPoisson) (cells : List ℤ) : Py (List LocPoisson × Ranges) :=
  buildLoop combo [] {} cells

/-! ### `trace_plot.py` -/

/-- what may be passed as a trace -/
inductive TraceLike
  | trace (t : Trace)
  | arr (l : List ℝ)
  | other

/-- what may be passed as `traces` -/
inductive TracesArg
  | one (f : TraceLike)
  | list (l : List TraceLike)

/-- the loop of `set_traces` (trace_plot.py L167-181); `acc` is `self.traces` -/
def traceLoop (numPts : ℕ) (acc : List (List ℝ)) : List TraceLike → Py (List (List ℝ))
  | [] => .ok acc
  | .trace t :: l => do
    let v ← attr t.values
    let acc := acc ++ [v]
    if v.length ≠ numPts then .error .valueError else traceLoop numPts (acc ++ [v]) l
  | .arr v :: l => if v.length ≠ numPts then .error .valueError else traceLoop numPts (acc ++ [v]) l
  | .other :: _ => .error .typeError

/-- `set_traces` (trace_plot.py L154-181) -/
def setTraces (numPts : ℕ) : TracesArg → Py (List (List ℝ))
  | .one f => traceLoop numPts [] [f]
  | .list l => traceLoop numPts [] l

/-- what may be passed as `fmt` -/
inductive FmtArg
  | one (s : String)
  | list (l : List String)
  | other

/-- `set_format` with `_validate_format` (trace_plot.py L183-196, L263-273) -/
def setFormat (traces : List (List ℝ)) : FmtArg → Py FmtArg
  | .one s => .ok (.one s)
  | .list l => if l.length ≠ traces.length then .error .valueError else .ok (.list l)
  | .other => .error .typeError

/-- `set_legend` with `_validate_legend` (trace_plot.py L198-209, L253-261); the legend is a tuple -/
def setLegend (traces : List (List ℝ)) (legend : List String) : Py (List String) :=
  if legend ≠ [] ∧ legend.length ≠ traces.length then .error .valueError else .ok legend

/-- `quad_dict[key]` (trace_plot.py L307) -/
def lookup (d : Quad × Quad) (key : String) : Py Quad :=
  if key = "trap" then .ok d.1 else if key = "kress" then .ok d.2 else .error .keyError

/-- the inner loop of `_find_t_parameter` (trace_plot.py L305-310); the state is `t`, `t0`, `idx_start` -/
noncomputable def paramEdges (d : Quad × Quad) (s : List ℝ × ℝ × ℕ) : List EdgeG → Py (List ℝ × ℝ × ℕ)
  | [] => .ok s
  | e :: es => do
    let q ← lookup d e.quadType
    let n := ContourG.npts e
    let t ← Np.setSlice s.1 s.2.2 (s.2.2 + n - 1) (q.t.dropLast.map (s.2.1 + ·))
    paramEdges d (t, s.2.1 + 2 * Real.pi, s.2.2 + (n - 1)) es

/-- the outer loop of `_find_t_parameter` (trace_plot.py L304-310) -/
noncomputable def paramContours (d : Quad × Quad) (s : List ℝ × ℝ × ℕ) : List ContourG → Py (List ℝ × ℝ × ℕ)
  | [] => .ok s
  | c :: cs => do
    let s ← paramEdges d s c.edges
    paramContours d s cs

/-- `_find_t_parameter` (trace_plot.py L298-310) -/
noncomputable def findT (K : CellG) (d : Quad × Quad) : Py (List ℝ) := do
  let s ← paramContours d (List.replicate K.numPts 0, 0, 0) K.components
  .ok s.1

/-- `np.linspace(a, b, m)` -/
noncomputable def linspace (a b : ℝ) (m : ℤ) : Py (List ℝ) :=
  if m < 0 then .error .valueError
  else .ok ((List.range m.toNat).map fun k => if m = 1 then a else Np.linspace a b m.toNat k)

/-- `[f(k) for k in range(1, n)]` -/
def forRange1 {α : Type} (n : ℤ) (f : ℤ → α) : List α := (List.range (n - 1).toNat).map fun k : ℕ => f ((k : ℤ) + 1)

/-- `_find_ticks_and_labels` and the two methods it calls (trace_plot.py L312-354).  A label `"mπ"` is the integer `m`; the
label `"0"` is `0`.  The lengths of ticks and labels are not compared. -/
noncomputable def findTicks (numEdges : ℕ) (maxNumTicks : ℤ) : Py (List ℝ × List ℤ) :=
  let L := 2 * Real.pi * (numEdges : ℝ)
  let numTicks : ℤ := min ((numEdges : ℤ) + 1) maxNumTicks
  if numTicks - 1 = 0 then .error .zeroDivision
  else
    let r : ℤ := Int.fdiv numEdges (numTicks - 1)
    if Int.fmod numEdges (numTicks - 1) = 0 then do
      let ticks ← linspace 0 L numTicks
      .ok (ticks, 0 :: forRange1 numTicks fun k => 2 * k * r)
    else if numTicks < 0 then .error .valueError
    else do
      let first ← linspace 0 (2 * Real.pi * (r : ℝ) * ((numTicks : ℝ) - 1)) (numTicks - 1)
      .ok (first ++ [L], 0 :: (forRange1 (numTicks - 1) fun k => 2 * k * r) ++ [2 * (numEdges : ℤ)])

/-- a `TracePlot` -/
structure TracePlot where
  t : List ℝ
  ticks : List ℝ
  labels : List ℤ
  traces : List (List ℝ)
  fmt : FmtArg
  legend : List String

/-- `TracePlot.__init__` (trace_plot.py L72-128); `numEdges` is `K.num_edges` -/
noncomputable def TracePlot.init (traces : TracesArg) (K : CellG) (d : Quad × Quad) (fmt : FmtArg) (legend : List String)
    (maxNumTicks : ℤ) : Py TracePlot := do
  let t ← findT K d
  let (ticks, labels) ← findTicks (K.components.map fun c => c.edges.length).sum maxNumTicks
  let fs ← setTraces K.numPts traces
  let fmt ← setFormat fs fmt
  let legend ← setLegend fs legend
  .ok ⟨t, ticks, labels, fs, fmt, legend⟩

/-- `_plot_traces` (trace_plot.py L356-377): the curves that are drawn, each with its format; `self.traces` is a list -/
def TracePlot.curves (P : TracePlot) : List (List (ℝ × ℝ) × String) :=
  match P.fmt with
  | .one s => P.traces.map fun f => (P.t.zip f, s)
  | .list l => (P.traces.zip l).map fun p => (P.t.zip p.1, p.2)
  | .other => []

/-! ### `plot_util.py`, `mesh_plot.py` -/

/-- `e.x`: the sampled points -/
def edgeX (e : EdgeG) : Py (List (ℝ × ℝ)) :=
  match e.pts with
  | none => .error .attributeError
  | some l => .ok (l.map fun s => (s.x, s.y))

/-- the loop of `get_axis_limits` (plot_util.py L72-77); the state is `min_x`, `max_x`, `min_y`, `max_y` -/
noncomputable def limitLoop (s : EReal × EReal × EReal × EReal) : List EdgeG → Py (EReal × EReal × EReal × EReal)
  | [] => .ok s
  | e :: es => do
    let x ← edgeX e
    let a ← Np.min (x.map Prod.fst)
    let b ← Np.max (x.map Prod.fst)
    let c ← Np.min (x.map Prod.snd)
    let d ← Np.max (x.map Prod.snd)
    limitLoop (min s.1 (a : EReal), max s.2.1 (b : EReal), min s.2.2.1 (c : EReal), max s.2.2.2 (d : EReal)) es

/-- `get_axis_limits` (plot_util.py L42-89); `none` stands for limits that are not finite (there are no edges) -/
noncomputable def axisLimits (edges : List EdgeG) (pad : ℝ) : Py (Option (ℝ × ℝ × ℝ × ℝ)) := do
  let s ← limitLoop (⊤, ⊥, ⊤, ⊥) edges
  if edges = [] then .ok none
  else
    let x0 := s.1.toReal
    let x1 := s.2.1.toReal
    let y0 := s.2.2.1.toReal
    let y1 := s.2.2.2.toReal
    if 0 < pad then
      .ok (some (x0 - pad * (x1 - x0), x1 + pad * (x1 - x0), y0 - pad * (y1 - y0), y1 + pad * (y1 - y0)))
    else .ok (some (x0, x1, y0, y1))

/-- `get_figure_size` (plot_util.py L92-121); `none`: the width is not finite -/
noncomputable def figureSize (l : ℝ × ℝ × ℝ × ℝ) (h : ℝ := 4) : Option (ℝ × ℝ) :=
  let dx := l.2.1 - l.1
  let dy := l.2.2.2 - l.2.2.1
  if dy = 0 then none else some (h * dx / dy, h)

/-- the loop of `MeshPlot.__init__` (mesh_plot.py L70-72) on the copies of the edges -/
noncomputable def sampleAll (d : Quad × Quad) (reparameterize : Bool) : List EdgeG → Py (List EdgeG)
  | [] => .ok []
  | e :: es => do
    let e ← if reparameterize || e.pts.isNone then e.parameterize d else .ok e
    let es ← sampleAll d reparameterize es
    .ok (e :: es)

/-- `MeshPlot.__init__` (mesh_plot.py L53-72); the order of the exponents is the default of `get_quad_dict` -/
noncomputable def meshPlot (edges : List EdgeG) (n : ℤ) (reparameterize : Bool) : Py (List EdgeG) := do
  let d ← getQuadDict n 7
  sampleAll d reparameterize edges

/-- `np.roll(a, -1)` -/
def roll1 {α : Type} : List α → List α
  | [] => []
  | a :: l => l ++ [a]

/-- `_plot_oriented_edge_points` (mesh_plot.py L164-175): the arrows, each given by its foot and its vector -/
def arrows (p : List (ℝ × ℝ)) : List ((ℝ × ℝ) × (ℝ × ℝ)) :=
  let u := List.zipWith (fun a b => (a.1 - b.1, a.2 - b.2)) (roll1 p) p
  p.dropLast.zip u.dropLast

/-- `_plot_edge` with `show_orientation` (mesh_plot.py L157-162) -/
def edgeArrows (e : EdgeG) : Py (List ((ℝ × ℝ) × (ℝ × ℝ))) := do
  let p ← e.getSampledPoints false
  .ok (arrows p)

/-- `os.path.dirname` on POSIX systems: the part up to the last `/`, without slashes at its end unless there is nothing
else -/
def dirname (f : List Char) : List Char :=
  let head := (f.reverse.dropWhile (· ≠ '/')).reverse
  if head.all (· = '/') then head else (head.reverse.dropWhile (· = '/')).reverse

/-- what `save_figure` does to the file system -/
inductive FsOp
  | makedirs (d : List Char)
  | save (f : List Char)
  deriving DecidableEq

/-- `save_figure` (plot_util.py L22-39).  `pathExists` is `os.path.exists`; `os.makedirs("")` raises `FileNotFoundError`,
other failures of the system are not modelled. -/
def saveFigure (pathExists : List Char → Bool) (f : List Char) : Py (List FsOp) :=
  if !pathExists (dirname f) then
    if dirname f = [] then .error .fileNotFound else .ok [.makedirs (dirname f), .save f]
  else .ok [.save f]

end Plot
end PFEM
