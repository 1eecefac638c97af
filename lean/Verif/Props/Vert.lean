import Verif.Model.Vert
import Verif.Lemmas.Poly
import Mathlib.Tactic.Linarith

/-!
Property theorem C18: vertex arithmetic and equality.
-/

namespace PFEM

/-- C18: sums, differences and products act on the coordinates; results carry the index -1. -/
theorem C18_componentwise (v w : Vert) (c : ℝ) :
    v.add (.vert w) = .ok ⟨v.x + w.x, v.y + w.y, -1⟩ ∧
    v.sub (.vert w) = .ok ⟨v.x - w.x, v.y - w.y, -1⟩ ∧
    v.mul (.num c) = .ok ⟨v.x * c, v.y * c, -1⟩ ∧
    v.mul (.vert w) = .ok ⟨v.x * w.x, v.y * w.y, -1⟩ := ⟨rfl, rfl, rfl, rfl⟩

/-- C18: division by a nonzero number, by a vertex without zero coordinate, and the rejected cases. -/
theorem C18_division (v w : Vert) (c : ℝ) :
    (v.div (.num c) = .error .zeroDivision ↔ c = 0) ∧
    (c ≠ 0 → ∃ u, v.div (.num c) = .ok u ∧ u.x * c = v.x ∧ u.y * c = v.y) ∧
    (v.div (.vert w) = .error .zeroDivision ↔ w.x = 0 ∨ w.y = 0) ∧
    (w.x ≠ 0 → w.y ≠ 0 → ∃ u, v.div (.vert w) = .ok u ∧ u.x * w.x = v.x ∧ u.y * w.y = v.y) := by
  refine ⟨?_, fun h => ?_, ?_, fun h1 h2 => ?_⟩
  · simp only [Vert.div]; split_ifs with h <;> simp [h]
  · refine ⟨_, by simp only [Vert.div, h, if_false]; rfl, ?_, ?_⟩ <;> simp [Vert.mk', h]
  · simp only [Vert.div]; split_ifs with h <;> simp [h]
  · refine ⟨_, by simp only [Vert.div, h1, h2, or_self, if_false]; rfl, ?_, ?_⟩ <;> simp [Vert.mk', h1, h2]

/-- C18: any other operand is a `TypeError`; `+` and `-` also reject numbers. -/
theorem C18_type_errors (v : Vert) (c : ℝ) :
    v.add .other = .error .typeError ∧ v.sub .other = .error .typeError ∧ v.mul .other = .error .typeError ∧
    v.div .other = .error .typeError ∧ v.add (.num c) = .error .typeError ∧ v.sub (.num c) = .error .typeError :=
  ⟨rfl, rfl, rfl, rfl, rfl, rfl⟩

/-- C18: equality is closeness of the coordinates within 1e-12 in the Euclidean distance; indices are ignored. -/
theorem C18_eq_iff (v w : Vert) :
    v.beq w = true ↔ Real.sqrt ((v.x - w.x) ^ 2 + (v.y - w.y) ^ 2) < 1 / 10 ^ 12 := by
  simp [Vert.beq, Vert.sub, Vert.norm, Vert.mk', tol]

/-- C18: equality is reflexive and symmetric. -/
theorem C18_refl_symm (v w : Vert) : v.beq v = true ∧ v.beq w = w.beq v := by
  refine ⟨by rw [C18_eq_iff]; simp, ?_⟩
  have : (v.x - w.x) ^ 2 + (v.y - w.y) ^ 2 = (w.x - v.x) ^ 2 + (w.y - v.y) ^ 2 := by ring
  rw [Bool.eq_iff_iff, C18_eq_iff, C18_eq_iff, this]

/-- C18: equality is not transitive: three points on a line, 0.6e-12 apart. -/
theorem C18_not_transitive : ∃ u v w : Vert, u.beq v = true ∧ v.beq w = true ∧ u.beq w = false := by
  refine ⟨⟨0, 0, 0⟩, ⟨0.6 / 10 ^ 12, 0, 1⟩, ⟨1.2 / 10 ^ 12, 0, 2⟩, ?_, ?_, ?_⟩
  · rw [C18_eq_iff]
    simp only [sub_self, zero_sub, neg_sq, ne_eq, OfNat.ofNat_ne_zero, not_false_eq_true, zero_pow, add_zero]
    rw [Real.sqrt_sq (by norm_num)]; norm_num
  · rw [C18_eq_iff]
    simp only [sub_self, ne_eq, OfNat.ofNat_ne_zero, not_false_eq_true, zero_pow, add_zero]
    rw [Real.sqrt_sq_eq_abs, abs_lt]
    constructor <;> norm_num
  · rw [← Bool.not_eq_true, C18_eq_iff]
    simp only [sub_self, zero_sub, neg_sq, ne_eq, OfNat.ofNat_ne_zero, not_false_eq_true, zero_pow, add_zero]
    rw [Real.sqrt_sq (by norm_num)]; norm_num

example : (⟨1, 2, 5⟩ : Vert).add (.vert ⟨3, -1, 7⟩) = .ok ⟨4, 1, -1⟩ := by
  rw [(C18_componentwise _ _ 0).1]; norm_num

end PFEM
