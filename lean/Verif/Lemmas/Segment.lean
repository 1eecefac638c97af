import Verif.Props.QuadOrder

/-!
Straight edges as the constructor makes them: what they follow, and that they are sampled.
-/

namespace PFEM
open EdgeG

/-- the straight edge from `a` to `b` as the constructor makes it -/
noncomputable def sideEdge (a b : Vert) (qt : String) : EdgeG :=
  ⟨a, b, .line, {}, qt, (0, 2 * Real.pi), false, [.joinPoints a b], none, -1, -1⟩

theorem sideEdge_init {a b : Vert} (h : a.beq b = false) (qt : String) :
    EdgeG.init a b .line {} qt (0, 2 * Real.pi) = .ok (sideEdge a b qt) := by
  unfold EdgeG.init
  rw [if_neg (by simp only [ge_iff_le, not_le]; positivity)]
  simp [setVerts, h, sideEdge]

/-- the segment from `a` to `b`, run with constant speed -/
noncomputable def sideCurve (a b : Vert) : PCurve :=
  ⟨fun s => a.x + (b.x - a.x) * (s / (2 * Real.pi)), fun s => a.y + (b.y - a.y) * (s / (2 * Real.pi)),
    fun _ => (b.x - a.x) / (2 * Real.pi), fun _ => (b.y - a.y) / (2 * Real.pi), fun _ => 0, fun _ => 0⟩

/-- the curve of the library -/
noncomputable def lineCurve : PCurve :=
  ⟨fun s => s / (2 * Real.pi), fun _ => 0, fun _ => 1 / (2 * Real.pi), fun _ => 0, fun _ => 0, fun _ => 0⟩

theorem lineCurve_smooth : lineCurve.Smooth := fun s =>
  ⟨(hasDerivAt_id s).div_const _, hasDerivAt_const _ _, hasDerivAt_const _ _, hasDerivAt_const _ _⟩

theorem lineCurve_retime : lineCurve.retime 0 1 = lineCurve := by
  simp [lineCurve, PCurve.retime]

theorem side_act (a b : Vert) : EdgeOp.act (.joinPoints a b) lineCurve = sideCurve a b := by
  have hpi := Real.pi_pos
  have e1 : 2 * Real.pi / (2 * Real.pi) = 1 := div_self (by positivity)
  simp only [EdgeOp.act, lineCurve, PCurve.affine, Mat2.complex, sideCurve, PCurve.mk.injEq, e1]
  refine ⟨?_, ?_, ?_, ?_, ?_, ?_⟩ <;> funext s <;> simp <;> ring

theorem side_follows (a b : Vert) (qt : String) : (sideEdge a b qt).Follows (sideCurve a b) := by
  have e1 : (2 * Real.pi - 0) / (2 * Real.pi) = 1 := by rw [sub_zero]; exact div_self (by positivity)
  refine ⟨lineCurve, lineCurve_smooth, fun t => rfl, ?_⟩
  simp only [sideEdge, List.foldl, e1, lineCurve_retime, side_act]

theorem side_parameterize {n p : ℤ} {d : Quad × Quad} (hd : getQuadDict n p = .ok d) {a b : Vert} (hab : TOL ≤ ‖b.z - a.z‖)
    {qt : String} (hq : qt = "trap" ∨ qt = "kress") : ∃ e', (sideEdge a b qt).parameterize d = .ok e' := by
  obtain ⟨q, hq⟩ : ∃ q, pickQuad qt d = .ok q := by rcases hq with rfl | rfl <;> exact ⟨_, rfl⟩
  have hs := dict_sym hd hq
  obtain ⟨γ, -, g2, g3⟩ := base_samples .line {} (by simp [OptsOk])
  have hdt : (0.5 * (2 * Real.pi - 0) / Real.pi : ℝ) = 1 := by
    have := Real.pi_ne_zero
    field_simp; ring
  have h1 := g3 0 1 (q.t.zip q.wgt)
  have gx : ∀ t, γ.x t = t / (2 * Real.pi) ∧ γ.y t = 0 := fun t => by
    have := (g2 t).1
    simp only [Curve.X, Except.ok.injEq, Prod.mk.injEq] at this
    exact ⟨this.1.symm, this.2.symm⟩
  have hnorm : ‖(⟨(γ.retime 0 1).x (2 * Real.pi), (γ.retime 0 1).y (2 * Real.pi)⟩ - ⟨(γ.retime 0 1).x 0, (γ.retime 0 1).y 0⟩ : ℂ)‖ = 1 := by
    have : (⟨(γ.retime 0 1).x (2 * Real.pi), (γ.retime 0 1).y (2 * Real.pi)⟩ - ⟨(γ.retime 0 1).x 0, (γ.retime 0 1).y 0⟩ : ℂ) = 1 := by
      apply Complex.ext <;> simp [PCurve.retime, gx]
    rw [this, norm_one]
  obtain ⟨e', he'⟩ := join_ok (e := { sideEdge a b qt with pts := some ((γ.retime 0 1).samples (q.t.zip q.wgt)) }) rfl hs a b false hab
    (by rw [hnorm]; norm_num [TOL]) (by rw [hnorm, div_one]; exact hab)
  refine ⟨{ e' with quadType := q.type }, ?_⟩
  simp only [sideEdge] at he'
  simp only [EdgeG.parameterize, sideEdge, hq, bind, Except.bind, hdt, h1, EdgeG.runDiary, EdgeG.apply, he']

end PFEM
