import Verif.Spec.Spline
import Verif.Lemmas.Py
import Mathlib.Analysis.Calculus.Deriv.Mul
import Mathlib.Analysis.Calculus.Deriv.Add
import Mathlib.Analysis.Calculus.Deriv.Comp
import Mathlib.Analysis.Calculus.Deriv.Pow

/-!
Property theorem C112: the spline curve.
-/

namespace PFEM
namespace Spline
variable {σ : Type}

theorem comp_scale {f : ℝ → ℝ} {f' c t : ℝ} (h : HasDerivAt f f' (c * t)) : HasDerivAt (fun s => f (c * s)) (c * f') t := by
  have h1 : HasDerivAt (fun s : ℝ => c * s) c t := by simpa using (hasDerivAt_id t).const_mul c
  have := HasDerivAt.comp t h h1
  rw [mul_comm]
  exact this

/-- C112: for all points that scipy accepts, the three functions of the spline module are defined for every parameter, the second is the derivative
of the first and the third the derivative of the second, coordinate by coordinate. -/
theorem C112_derivatives (lib : SplineLib σ) (hg : lib.Good) (p : List ℝ × List ℝ) (s : σ) (hs : lib.splprep p = .ok s) :
    ∃ x dx ddx : ℝ → ℝ × ℝ, (∀ t, X lib (some p) t = .ok (x t)) ∧ (∀ t, DX lib (some p) t = .ok (dx t)) ∧
      (∀ t, DDX lib (some p) t = .ok (ddx t)) ∧
      ∀ t, HasDerivAt (fun v => (x v).1) (dx t).1 t ∧ HasDerivAt (fun v => (x v).2) (dx t).2 t ∧
        HasDerivAt (fun v => (dx v).1) (ddx t).1 t ∧ HasDerivAt (fun v => (dx v).2) (ddx t).2 t := by
  refine ⟨fun t => lib.splev (1 / 2 / Real.pi * t) s 0,
    fun t => (1 / 2 / Real.pi * (lib.splev (1 / 2 / Real.pi * t) s 1).1, 1 / 2 / Real.pi * (lib.splev (1 / 2 / Real.pi * t) s 1).2),
    fun t => (1 / 4 / Real.pi / Real.pi * (lib.splev (1 / 2 / Real.pi * t) s 2).1,
      1 / 4 / Real.pi / Real.pi * (lib.splev (1 / 2 / Real.pi * t) s 2).2),
    fun t => by simp only [X, unpack, hs, py_ok_bind], fun t => by simp only [DX, unpack, hs, py_ok_bind],
    fun t => by simp only [DDX, unpack, hs, py_ok_bind], fun t => ?_⟩
  obtain ⟨a, b⟩ := hg.deriv p s hs 0 (by omega) (1 / 2 / Real.pi * t)
  obtain ⟨a', b'⟩ := hg.deriv p s hs 1 (by omega) (1 / 2 / Real.pi * t)
  refine ⟨comp_scale (f := fun v => (lib.splev v s 0).1) a, comp_scale (f := fun v => (lib.splev v s 0).2) b, ?_, ?_⟩
  · have := (comp_scale (f := fun v => (lib.splev v s 1).1) a').const_mul (1 / 2 / Real.pi)
    have e : 1 / 2 / Real.pi * (1 / 2 / Real.pi * (lib.splev (1 / 2 / Real.pi * t) s (1 + 1)).1) =
        1 / 4 / Real.pi / Real.pi * (lib.splev (1 / 2 / Real.pi * t) s 2).1 := by norm_num; ring
    rw [e] at this
    exact this
  · have := (comp_scale (f := fun v => (lib.splev v s 1).2) b').const_mul (1 / 2 / Real.pi)
    have e : 1 / 2 / Real.pi * (1 / 2 / Real.pi * (lib.splev (1 / 2 / Real.pi * t) s (1 + 1)).2) =
        1 / 4 / Real.pi / Real.pi * (lib.splev (1 / 2 / Real.pi * t) s 2).2 := by norm_num; ring
    rw [e] at this
    exact this

/-- C112: over the default parameter interval the curve runs from the first point to the last point. -/
theorem C112_ends (lib : SplineLib σ) (hg : lib.Good) (p : List ℝ × List ℝ) (s : σ) (hs : lib.splprep p = .ok s) :
    (∃ a, X lib (some p) 0 = .ok a ∧ p.1.head? = some a.1 ∧ p.2.head? = some a.2) ∧
    ∃ b, X lib (some p) (2 * Real.pi) = .ok b ∧ p.1.getLast? = some b.1 ∧ p.2.getLast? = some b.2 := by
  have h1 : 1 / 2 / Real.pi * (2 * Real.pi) = 1 := by field_simp
  refine ⟨⟨lib.splev 0 s 0, by simp only [X, unpack, hs, py_ok_bind, mul_zero], hg.first p s hs⟩,
    ⟨lib.splev 1 s 0, by simp only [X, unpack, hs, py_ok_bind, h1], hg.last p s hs⟩⟩

/-- C112: the errors.  Without points all three functions raise `KeyError`; an exception of scipy is passed on, the same from all three. -/
theorem C112_errors (lib : SplineLib σ) (t : ℝ) :
    (X lib none t = .error .keyError ∧ DX lib none t = .error .keyError ∧ DDX lib none t = .error .keyError) ∧
    ∀ p e, lib.splprep p = .error e →
      X lib (some p) t = .error e ∧ DX lib (some p) t = .error e ∧ DDX lib (some p) t = .error e := by
  refine ⟨⟨rfl, rfl, rfl⟩, fun p e h => ?_⟩
  simp only [X, DX, DDX, unpack, h]
  exact ⟨rfl, rfl, rfl⟩

/-- a library that keeps the promises: straight segments between two points, anything else is rejected -/
noncomputable def segmentLib : SplineLib ((ℝ × ℝ) × (ℝ × ℝ)) where
  splprep p := match p with
    | ([a, b], [c, d]) => .ok ((a, c), (b, d))
    | _ => .error .typeError
  splev u s k := match k with
    | 0 => (s.1.1 + u * (s.2.1 - s.1.1), s.1.2 + u * (s.2.2 - s.1.2))
    | 1 => (s.2.1 - s.1.1, s.2.2 - s.1.2)
    | _ => (0, 0)

theorem segmentLib_ok {p : List ℝ × List ℝ} {s : (ℝ × ℝ) × (ℝ × ℝ)} (h : segmentLib.splprep p = .ok s) :
    p = ([s.1.1, s.2.1], [s.1.2, s.2.2]) := by
  unfold segmentLib at h
  dsimp only at h
  split at h
  · cases h; rfl
  · cases h

example : segmentLib.Good ∧ ∃ s, segmentLib.splprep ([0, 1], [0, 2]) = .ok s := by
  refine ⟨⟨?_, ?_, ?_⟩, ((0, 0), (1, 2)), rfl⟩
  · intro p s _ k hk u
    have key : ∀ a b : ℝ, HasDerivAt (fun v : ℝ => a + v * b) b u := by
      intro a b
      simpa using ((hasDerivAt_id u).mul_const b).const_add a
    match k, hk with
    | 0, _ => exact ⟨key _ _, key _ _⟩
    | 1, _ => exact ⟨hasDerivAt_const _ _, hasDerivAt_const _ _⟩
  · intro p s h
    rw [segmentLib_ok h]
    simp [segmentLib]
  · intro p s h
    rw [segmentLib_ok h]
    simp [segmentLib]

end Spline
end PFEM
