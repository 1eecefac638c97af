import Verif.Props.EllipseCombo
import Verif.Props.EllipseSolveExamples

/-!
The hypotheses of C126 can be met.
-/

namespace PFEM
namespace SolverG

open LocSpaceG Finset Nystrom

/-- there are such solvers -/
theorem solvesSystems_exists : ∃ spsolve, SolvesSystems spsolve := by
  classical
  refine ⟨fun A b N => if h : ∃ x : ℕ → ℝ, ∀ i < N, ∑ j ∈ range N, A i j * x j = b i then (List.range N).map h.choose else [], fun A b N h => ?_⟩
  beta_reduce
  rw [dif_pos h]
  refine ⟨by simp, fun i hi => ?_⟩
  rw [← h.choose_spec i hi]
  refine Finset.sum_congr rfl fun j hj => ?_
  rw [List.getD_eq_getElem _ _ (by simpa using mem_range.1 hj)]
  simp

/-- C126 applies to the unit circle with 64 samples, the space of degree 3 and its one interior point: whatever the constant, its condition on the
number of samples is met there. -/
example : ∃ (K : CellG) (M : ℝ) (w : Poly2) (R : State) (x : List ℝ) (F : LocPoisson) (v : ℝ), K.IsEllipse 0 0 1 1 64 ∧
    GalerkinSol ellForm 0 0 1 1 3 w ∧ init (ellEnv K) ellForm loopSetup.s0 = .ok R ∧
    (∃ spsolve, ∃ c ∈ loopSetup.m.cellIdxList, linearCombo (ellEnv K) (solve spsolve R) c x = .ok F) ∧
    F.traceValues = .ok (List.replicate K.numPts 0) ∧ F.intVals = some [v] ∧
    |v - Poly2.ev w 0 0| ≤ M * (ellipseRate 1 1 1 ^ (2 * 32) + 1 / 10 ^ 4) := by
  obtain ⟨K, hK, hi⟩ := originEllipse (a := 1) (b := 1) (by norm_num) (by norm_num)
  have hfl : flatness 1 1 = 0 := by norm_num [flatness]
  obtain ⟨b0, b1, b2⟩ := ell_bubbles (a := 1) (b := 1) (by norm_num) (by norm_num) (by norm_num)
  obtain ⟨w, M, hw, hM⟩ := C126_solution 0 0 (a := 1) (b := 1) (by norm_num) (by norm_num) (B := ellForm) (p := 3) (by norm_num [ellForm])
    (by norm_num [ellForm]) b1 b2 (ell_load b0) (η := 1) one_pos
  have hload : ∀ m ∈ ellForm.rhsPoly, m.alpha.x + m.alpha.y + 1 < 32 := by
    obtain ⟨_, _, -, -, h, -⟩ := ell_load b0
    exact h
  obtain ⟨spsolve, hsp⟩ := solvesSystems_exists
  obtain ⟨R, x, h1, -, -, h4⟩ := hM loopSetup (ellEnv K) K 32 loopSetup.s0 spsolve rfl (ell_mesh hK hi (by norm_num) (by rw [hfl]; norm_num)) hload
    rfl .refl (by rw [loop_num]; norm_num) hsp (by rw [hfl]; norm_num)
  have hm := ell_mesh hK hi (by norm_num) (by rw [hfl]; norm_num)
  obtain ⟨e, c, k, he, hm, hst, hcl, hk, hp⟩ := hm.loop.cell
  obtain ⟨F, k1, ⟨vs, k2, k3, k4⟩, ⟨U, k5, k6⟩, -⟩ := h4 c (by rw [hcl]; simp)
  refine ⟨K, M, w, R, x, F, U (0, 0), hK, hw, h1, ⟨spsolve, c, by rw [hcl]; simp, k1⟩, ?_, ?_, ?_⟩
  · rw [k2, List.eq_replicate_iff.2 ⟨k3, k4⟩]
  · have : F.intVals = some (K.interior.map U) := k5
    rw [this, hi]
    rfl
  · have := k6 (0, 0) (by rw [hi]; simp) ⟨by simp [ellipseRegion], fun t => by simp⟩
    rw [hfl] at this
    simpa using this

end SolverG
end PFEM
