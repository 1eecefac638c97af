import Verif.Model.LocalFunction

/-!
Specification vocabulary for the two classes of local functions.
-/

namespace PFEM

/-- A `LocalFunction` and a `LocalPoissonFunction` hold the same data: cell, polynomial part with its boundary values and normal derivative,
harmonic part with its boundary values, normal derivative, conjugate and logarithmic coefficients, and anti-Laplacian of the harmonic part
with its normal derivative. -/
structure OldFun.Agrees (g : OldFun) (f : LocPoisson) : Prop where
  cell : f.cell = some g.nyst.ops.K
  poly : ∃ p t, f.poly = some p ∧ p.exact = g.poly ∧ p.antilap = some g.polyAnti ∧ p.trace = some t ∧ t.values = g.polyTrace.values ∧
    t.wnd = g.polyTrace.wnd
  harm : ∃ h c B C, f.harm = some h ∧ h.trace.values = g.harm.values ∧ h.trace.wnd = g.harm.wnd ∧ h.conj = some c ∧
    c.values = g.conj.values ∧ h.logCoef = some g.logCoef ∧ h.biharm = some (some B) ∧ g.biharm = some C ∧ B.values = C.values ∧
    B.wnd = C.wnd

end PFEM
