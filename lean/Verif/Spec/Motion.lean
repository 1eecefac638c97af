import Verif.Spec.Calculus

/-!
Specification vocabulary: a sampled cell that is turned, scaled and shifted.
-/

namespace PFEM

/-- a rotation, a scaling by `r > 0` and a translation: `(x, y) ↦ (r (c x - s y) + b1, r (s x + c y) + b2)` with `c² + s² = 1`.  It is
rigid if `r = 1`. -/
structure Motion where
  r : ℝ
  c : ℝ
  s : ℝ
  b1 : ℝ
  b2 : ℝ
  pos : 0 < r
  rot : c ^ 2 + s ^ 2 = 1

namespace Motion

/-- the image of a sample: the point moves, the tangent and the normal turn, the speed is multiplied by `r` and the curvature divided
by it -/
noncomputable def sample (m : Motion) (p : Sample) : Sample where
  x := m.r * (m.c * p.x - m.s * p.y) + m.b1
  y := m.r * (m.s * p.x + m.c * p.y) + m.b2
  tx := m.c * p.tx - m.s * p.ty
  ty := m.s * p.tx + m.c * p.ty
  nx := m.c * p.nx - m.s * p.ny
  ny := m.s * p.nx + m.c * p.ny
  dxNorm := m.r * p.dxNorm
  curv := p.curv / m.r

/-- the image of a vertex -/
def vert (m : Motion) (p : Vert) : Vert := 
  { p with x := m.r * (m.c * p.x - m.s * p.y) + m.b1, y := m.r * (m.s * p.x + m.c * p.y) + m.b2 }

/-- the image of a point -/
def point (m : Motion) (p : ℝ × ℝ) : ℝ × ℝ := (m.r * (m.c * p.1 - m.s * p.2) + m.b1, m.r * (m.s * p.1 + m.c * p.2) + m.b2)

end Motion

/-- `e'` has the samples of `e`, moved by `m`, and the same kind of quadrature; nothing is said about how `e'` was made -/
structure EdgeG.MovedBy (m : Motion) (e e' : EdgeG) : Prop where
  quadType : e'.quadType = e.quadType
  pts : e'.pts = e.pts.map (List.map m.sample)

/-- the edges of `c'` are those of `c` moved by `m`, and the bookkeeping is the same -/
structure ContourG.MovedBy (m : Motion) (c c' : ContourG) : Prop where
  edges : List.Forall₂ (EdgeG.MovedBy m) c.edges c'.edges
  numPts : c'.numPts = c.numPts
  vertIdx : c'.vertIdx = c.vertIdx

/-- the contours of `K'` are those of `K` moved by `m`, the interior points of the holes move along, and the bookkeeping is the same -/
structure CellG.MovedBy (m : Motion) (K K' : CellG) : Prop where
  components : List.Forall₂ (ContourG.MovedBy m) K.components K'.components
  numPts : K'.numPts = K.numPts
  startIdx : K'.startIdx = K.startIdx
  closest : K'.closest = K.closest
  poles : List.Forall₂ (fun c c' : ContourG => c'.interior = c.interior.map m.vert) K.components.tail K'.components.tail

/-- `t'` is the trace `t` carried to moved edges: all arrays are the same -/
structure Trace.MovedBy (m : Motion) (t t' : Trace) : Prop where
  edges : List.Forall₂ (EdgeG.MovedBy m) t.edges t'.edges
  rest : t' = { t with edges := t'.edges }

/-- scaling by `r` moves no squared distance of two samples of the edge across the number `1e-12` -/
def EdgeG.Keeps (r : ℝ) (e : EdgeG) : Prop :=
  ∀ L, e.pts = some L → ∀ s ∈ L, ∀ t ∈ L,
    r ^ 2 * ((s.x - t.x) ^ 2 + (s.y - t.y) ^ 2) < 1 / 10 ^ 12 ↔ (s.x - t.x) ^ 2 + (s.y - t.y) ^ 2 < 1 / 10 ^ 12

/-- `e` and `e'` were made by the constructor from the same curve, options, quadrature and interval, `e` between two vertices and `e'`
between their images.  A loop is only shifted, not turned: the constructor does not turn a loop either. -/
def EdgeG.MadeAt (m : Motion) (e e' : EdgeG) : Prop :=
  ∃ a b curve opts q tb pos neg pos' neg', EdgeG.init a b curve opts q tb pos neg = .ok e ∧
    EdgeG.init (m.vert a) (m.vert b) curve opts q tb pos' neg' = .ok e' ∧ (a.beq b = true → m.c = 1)

/-- the contours consist of such edges, with the same orientations -/
structure ContourG.MadeAt (m : Motion) (c c' : ContourG) : Prop where
  edges : List.Forall₂ (EdgeG.MadeAt m) c.edges c'.edges
  orients : c'.orients = c.orients
  count : c.edges.length = c.orients.length
  interior : c'.interior = c.interior.map m.vert

/-- the test whether a point is inside a polygon does not notice if both are moved -/
def InsideTest.Invariant (inside : InsideTest) (m : Motion) : Prop := ∀ l p, inside (l.map m.point) (m.point p) = inside l p

end PFEM
