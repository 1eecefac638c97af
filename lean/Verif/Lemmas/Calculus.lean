import Mathlib.Tactic.FieldSimp
import Mathlib.Tactic.Linarith
import Mathlib.Tactic.Ring
import Verif.Spec.Calculus

/-!
Calculus lemmas: the logarithm of a distance.
-/

namespace PFEM

/-- squared distance to `p` -/
def sq (p : Vert) (x y : ℝ) : ℝ := (x - p.x) ^ 2 + (y - p.y) ^ 2

theorem sq_pos {p : Vert} {x y : ℝ} (h : (x, y) ∈ away p) : 0 < sq p x y := by
  unfold sq
  rcases h with h | h
  · have := pow_pos (abs_pos.2 (sub_ne_zero.2 h)) 2
    rw [sq_abs] at this
    have := sq_nonneg (y - p.y)
    dsimp only at *
    linarith
  · have := pow_pos (abs_pos.2 (sub_ne_zero.2 h)) 2
    rw [sq_abs] at this
    have := sq_nonneg (x - p.x)
    dsimp only at *
    linarith

theorem sq_eq_zero_iff {p : Vert} {x y : ℝ} : sq p x y = 0 ↔ (x, y) ∉ away p := by
  constructor
  · intro h0 h
    exact absurd h0 (sq_pos h).ne'
  · intro h
    simp only [away, Set.mem_ofPred_eq, not_or, not_not] at h
    simp [sq, h.1, h.2]

theorem logDist_eq (p : Vert) (x y : ℝ) : logDist p x y = 0.5 * Real.log (sq p x y) := by
  unfold logDist
  rw [Real.log_sqrt (by positivity)]
  unfold sq
  ring

theorem sq_d1 (p : Vert) (x y : ℝ) : HasDerivAt (fun s => sq p s y) (2 * (x - p.x)) x := by
  unfold sq
  have := (((hasDerivAt_id x).sub_const p.x).fun_pow 2).add_const ((y - p.y) ^ 2)
  refine this.congr_deriv ?_
  simp

theorem sq_d2 (p : Vert) (x y : ℝ) : HasDerivAt (fun s => sq p x s) (2 * (y - p.y)) y := by
  unfold sq
  have := (((hasDerivAt_id y).sub_const p.y).fun_pow 2).const_add ((x - p.x) ^ 2)
  refine this.congr_deriv ?_
  simp

theorem logDist_d1 {p : Vert} {x y : ℝ} (h : (x, y) ∈ away p) : HasDerivAt (fun s => logDist p s y) ((x - p.x) / sq p x y) x := by
  have h0 := (sq_pos h).ne'
  rw [show (fun s => logDist p s y) = fun s => 0.5 * Real.log (sq p s y) from funext fun s => logDist_eq p s y]
  refine (((sq_d1 p x y).log h0).const_mul 0.5).congr_deriv ?_
  field_simp
  norm_num

theorem logDist_d2 {p : Vert} {x y : ℝ} (h : (x, y) ∈ away p) : HasDerivAt (fun s => logDist p x s) ((y - p.y) / sq p x y) y := by
  have h0 := (sq_pos h).ne'
  rw [show (fun s => logDist p x s) = fun s => 0.5 * Real.log (sq p x s) from funext fun s => logDist_eq p x s]
  refine (((sq_d2 p x y).log h0).const_mul 0.5).congr_deriv ?_
  field_simp
  norm_num

theorem logDist_grad {p : Vert} {x y : ℝ} (h : (x, y) ∈ away p) :
    HasGrad (logDist p) x y ((x - p.x) / sq p x y) ((y - p.y) / sq p x y) := ⟨logDist_d1 h, logDist_d2 h⟩

theorem logDist_harmonic (p : Vert) : HasLaplacian (away p) (logDist p) fun _ _ => 0 := by
  refine ⟨fun x y => (x - p.x) / sq p x y, fun x y => (y - p.y) / sq p x y, fun x y h => ⟨logDist_grad h, _, _,
    ((hasDerivAt_id x).sub_const p.x).fun_div (sq_d1 p x y) (sq_pos h).ne',
    ((hasDerivAt_id y).sub_const p.y).fun_div (sq_d2 p x y) (sq_pos h).ne', ?_⟩⟩
  have h0 := (sq_pos h).ne'
  simp only [id]
  rw [← add_div, div_eq_zero_iff]
  left
  unfold sq
  ring

end PFEM
