import Verif.Model.PlotCoef
import Verif.Lemmas.Py

/-!
Property theorem C113: the coefficients of a plot of a global function.
-/

namespace PFEM
namespace Plot

/-- C113: without coefficients the plot uses the solution of the solver, otherwise exactly the array that is given; the vector that is used always
has one entry for each function of the space. -/
theorem C113_coefficients (soln : Option (List ℝ)) (n : ℕ) (coef : CoefArg) (c : List ℝ) :
    setCoefficients soln n coef = .ok c ↔
      (coef = .none ∧ soln = some c ∧ c.length = n) ∨ coef = .array [n] c := by
  unfold setCoefficients
  cases coef with
  | none =>
    cases soln with
    | none => simp [py_error_bind]
    | some u =>
      simp only [py_ok_bind]
      split
      · rename_i h
        simp only [reduceCtorEq, true_and, or_false, Option.some.injEq, false_iff, not_and]
        rintro rfl h'
        exact h (by rw [h'])
      · rename_i h
        simp at h
        simp only [Except.ok.injEq, true_and, Option.some.injEq, reduceCtorEq, or_false]
        exact ⟨fun e => ⟨e, e ▸ h⟩, fun e => e.1⟩
  | array shape data =>
    simp only [py_ok_bind]
    split
    · rename_i h
      simp only [reduceCtorEq, false_and, false_or, CoefArg.array.injEq, false_iff, not_and]
      intro e
      exact absurd e h
    · rename_i h
      simp at h
      simp [h]
  | other => simp [py_ok_bind]

/-- C113: the errors.  No coefficients and no solution: `AttributeError`; something that is not an array: `TypeError`; an array of another shape,
also a column or a row: `ValueError`. -/
theorem C113_errors (soln : Option (List ℝ)) (n : ℕ) :
    setCoefficients none n .none = .error .attributeError ∧ setCoefficients soln n .other = .error .typeError ∧
    (∀ shape data, shape ≠ [n] → setCoefficients soln n (.array shape data) = .error .valueError) ∧
    ∀ u : List ℝ, u.length ≠ n → setCoefficients (some u) n .none = .error .valueError := by
  refine ⟨rfl, rfl, fun shape data h => ?_, fun u h => ?_⟩
  · simp only [setCoefficients, py_ok_bind]
    rw [if_pos h]
  · simp only [setCoefficients, py_ok_bind]
    rw [if_pos (by simpa using h)]

/-- C113: after `solve`, if the sparse solver returns a vector of the size of the system and every cell can be combined, a plot without
coefficients is the plot with the solution as coefficients. -/
theorem C113_solution (E : SolverG.Env) (S : SolverG.State) (spsolve : (ℕ → ℕ → ℝ) → (ℕ → ℝ) → ℕ → List ℝ)
    (hs : (spsolve S.globMat S.globRhs S.numFuns).length = S.space.numFuns) (cells : List ℤ) :
    globalPlot E (SolverG.solve spsolve S) .none cells =
      globalPlot E (SolverG.solve spsolve S) (.array [S.space.numFuns] (spsolve S.globMat S.globRhs S.numFuns)) cells := by
  have h1 : setCoefficients (SolverG.solve spsolve S).soln (SolverG.solve spsolve S).space.numFuns .none =
      .ok (spsolve S.globMat S.globRhs S.numFuns) := (C113_coefficients _ _ _ _).2 (Or.inl ⟨rfl, rfl, hs⟩)
  have h2 : setCoefficients (SolverG.solve spsolve S).soln (SolverG.solve spsolve S).space.numFuns
      (.array [S.space.numFuns] (spsolve S.globMat S.globRhs S.numFuns)) = .ok (spsolve S.globMat S.globRhs S.numFuns) :=
    (C113_coefficients _ _ _ _).2 (Or.inr rfl)
  unfold globalPlot
  rw [h1, h2]

/-- C113: a plot is made exactly from the coefficients of `C113_coefficients`: on each cell it shows the linear combination with these
coefficients. -/
theorem C113_plot (E : SolverG.Env) (S : SolverG.State) (coef : CoefArg) (cells : List ℤ) (c : List ℝ) (r : List LocPoisson × Ranges) :
    globalPlot E S coef cells = .ok (c, r) ↔
      ((coef = .none ∧ S.soln = some c ∧ c.length = S.space.numFuns) ∨ coef = .array [S.space.numFuns] c) ∧
        buildGlobal (fun i => SolverG.linearCombo E S i c) cells = .ok r := by
  rw [← C113_coefficients]
  unfold globalPlot
  constructor
  · intro h
    obtain ⟨c', hc, h⟩ := bind_ok h
    obtain ⟨r', hr, h⟩ := bind_ok h
    simp only [Except.ok.injEq, Prod.mk.injEq] at h
    obtain ⟨rfl, rfl⟩ := h
    exact ⟨hc, hr⟩
  · rintro ⟨hc, hr⟩
    rw [hc, py_ok_bind, hr, py_ok_bind]

/-- C113: no cells, two functions, coefficients that differ from the solution -/
example (E : SolverG.Env) (S : SolverG.State) (h1 : S.space.numFuns = 2) (_ : S.soln = some [1, 2]) :
    globalPlot E S (.array [2] [3, 4]) [] = .ok ([3, 4], [], {}) :=
  (C113_plot E S _ _ _ _).2 ⟨.inr (by rw [h1]), rfl⟩

example : setCoefficients (some [1, 2]) 2 .none = .ok [1, 2] ∧ setCoefficients (some [1, 2]) 2 (.array [2] [3, 4]) = .ok [3, 4] ∧
    setCoefficients (some [1, 2]) 2 (.array [2, 1] [3, 4]) = .error .valueError :=
  ⟨(C113_coefficients _ _ _ _).2 (Or.inl ⟨rfl, rfl, rfl⟩), (C113_coefficients _ _ _ _).2 (Or.inr rfl),
    (C113_errors _ _).2.2.1 _ _ (by decide)⟩

end Plot
end PFEM
