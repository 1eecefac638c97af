import Mathlib.Tactic.Ring
import Mathlib.Tactic.FieldSimp
import Mathlib.Tactic.LinearCombination
import Mathlib.Tactic.Linarith
import Mathlib.Tactic.NormNum
import Verif.Lemmas.Py
import Verif.Spec.Edge

/-!
Effect of each transformation of the edge model on the samples of a curve.
-/

namespace PFEM
namespace PCurve

theorem ext' {C D : PCurve} (h1 : ∀ s, C.x s = D.x s) (h2 : ∀ s, C.y s = D.y s) (h3 : ∀ s, C.dx s = D.dx s)
    (h4 : ∀ s, C.dy s = D.dy s) (h5 : ∀ s, C.ddx s = D.ddx s) (h6 : ∀ s, C.ddy s = D.ddy s) : C = D := by
  cases C; cases D
  simp only [mk.injEq]
  exact ⟨funext h1, funext h2, funext h3, funext h4, funext h5, funext h6⟩

theorem sample_ext {s t : Sample} (h1 : s.x = t.x) (h2 : s.y = t.y) (h3 : s.tx = t.tx) (h4 : s.ty = t.ty)
    (h5 : s.nx = t.nx) (h6 : s.ny = t.ny) (h7 : s.dxNorm = t.dxNorm) (h8 : s.curv = t.curv) : s = t := by
  cases s; cases t; simp_all

theorem sample_translate (C : PCurve) (u v s g : ℝ) :
    (C.affine ⟨1, 0, 0, 1⟩ u v).sample s g = { C.sample s g with x := C.x s + u, y := C.y s + v } := by
  simp [sample, affine, speed]

theorem sample_dilate (C : PCurve) {al : ℝ} (h : 0 < al) (s g : ℝ) :
    (C.affine ⟨al, 0, 0, al⟩ 0 0).sample s g =
      { C.sample s g with x := C.x s * al, y := C.y s * al, dxNorm := C.speed s * g * |al|,
                          curv := (C.sample s g).curv * (1 / al) } := by
  have hs : (C.affine ⟨al, 0, 0, al⟩ 0 0).speed s = al * C.speed s := by
    unfold speed affine
    simp only [zero_mul, add_zero, zero_add]
    rw [show (al * C.dx s) ^ 2 + (al * C.dy s) ^ 2 = al ^ 2 * (C.dx s ^ 2 + C.dy s ^ 2) by ring,
      Real.sqrt_mul (sq_nonneg _), Real.sqrt_sq h.le]
  have h' := h.ne'
  apply sample_ext <;> simp only [sample, hs]
  · simp only [affine]; ring
  · simp only [affine]; ring
  · simp only [affine]; rw [zero_mul, add_zero, mul_div_mul_left _ _ h']
  · simp only [affine]; rw [zero_mul, zero_add, mul_div_mul_left _ _ h']
  · simp only [affine]; rw [zero_mul, zero_add, mul_div_mul_left _ _ h']
  · simp only [affine]; rw [zero_mul, add_zero, mul_div_mul_left _ _ h']
  · rw [abs_of_pos h]; ring
  · simp only [affine]
    rw [show (0 * C.dx s + al * C.dy s) * (al * C.ddx s + 0 * C.ddy s) -
        (al * C.dx s + 0 * C.dy s) * (0 * C.ddx s + al * C.ddy s)
        = al ^ 2 * (C.dy s * C.ddx s - C.dx s * C.ddy s) by ring, mul_pow,
      show al ^ 3 = al ^ 2 * al by ring, mul_assoc, mul_div_mul_left _ _ (pow_ne_zero 2 h')]
    rw [div_mul_div_comm, mul_one, mul_comm al]

end PCurve

namespace Mat2

theorem IsOrth.det {A : Mat2} (h : A.IsOrth) : (A.d = A.a ∧ A.c = -A.b) ∨ (A.d = -A.a ∧ A.c = A.b) := by
  obtain ⟨h1, h2, h3⟩ := h
  have hdet : (A.a * A.d - A.b * A.c) ^ 2 = 1 := by
    linear_combination (-(A.a * A.b + A.c * A.d)) * h3 + h2 * (A.a ^ 2 + A.c ^ 2) + h1
  have h4 : (A.a * A.d - A.b * A.c - 1) * (A.a * A.d - A.b * A.c + 1) = 0 := by linear_combination hdet
  rcases mul_eq_zero.1 h4 with h | h
  · left
    constructor
    · linear_combination (-A.d) * h1 + A.c * h3 + A.a * h
    · linear_combination (-A.b) * h1 + A.a * h3 - A.c * h
  · right
    constructor
    · linear_combination (-A.d) * h1 + A.c * h3 + A.a * h
    · linear_combination A.b * h1 - A.a * h3 + A.c * h

theorem IsOrth.defect {A : Mat2} (h : A.IsOrth) : A.orthDefect = 0 := by
  obtain ⟨h1, h2, h3⟩ := h
  unfold orthDefect
  rw [h1, h2, h3]; simp

theorem isOrth_rot (th : ℝ) : (rot th).IsOrth := by
  have := Real.sin_sq_add_cos_sq (th * Real.pi / 180)
  refine ⟨?_, ?_, ?_⟩ <;> simp only [rot]
  · linear_combination this
  · linear_combination this
  · ring

end Mat2

theorem TOL_pos : 0 < EdgeG.TOL := by unfold EdgeG.TOL; positivity
theorem TOL_le : EdgeG.TOL ≤ 1 / 10 := by unfold EdgeG.TOL; norm_num

/-- the sign test of the code detects exactly the reflections -/
theorem Mat2.IsOrth.flip_iff {A : Mat2} (h : A.IsOrth) :
    (|A.b - A.c| < EdgeG.TOL ∧ |A.a + A.d| < EdgeG.TOL) ↔ A.d = -A.a ∧ A.c = A.b := by
  constructor
  · rintro ⟨h1, h2⟩
    rcases h.det with ⟨h3, h4⟩ | h3
    · exfalso
      have ht := TOL_le
      rw [h4, sub_neg_eq_add, abs_lt] at h1
      rw [h3, abs_lt] at h2
      have h5 := h.1
      rw [h4] at h5
      nlinarith
    · exact h3
  · rintro ⟨h1, h2⟩
    rw [h1, h2]; simp [TOL_pos]

namespace PCurve

theorem sample_orth (C : PCurve) {A : Mat2} (h : A.IsOrth) (s g : ℝ) :
    (C.affine A 0 0).sample s g = EdgeG.orthSample A (C.sample s g) := by
  have hs : (C.affine A 0 0).speed s = C.speed s := by
    unfold speed affine
    congr 1
    simp only
    obtain ⟨h1, h2, h3⟩ := h
    linear_combination C.dx s ^ 2 * h1 + C.dy s ^ 2 * h2 + 2 * C.dx s * C.dy s * h3
  apply sample_ext <;> simp only [sample, hs, EdgeG.orthSample]
  · simp only [affine]; ring
  · simp only [affine]; ring
  · simp only [affine]; ring
  · simp only [affine]; ring
  · simp only [affine]; ring
  · simp only [affine]; ring
  · simp only [h.flip_iff, affine]
    have h1 := h.1
    rcases h.det with ⟨h3, h4⟩ | ⟨h3, h4⟩
    · rw [if_neg]
      · rw [h4] at h1
        congr 1
        rw [h3, h4]
        linear_combination (C.dy s * C.ddx s - C.dx s * C.ddy s) * h1
      · rintro ⟨h5, h6⟩
        have : A.a = 0 := by linarith
        have : A.b = 0 := by linarith
        rw [h4] at h1; simp_all
    · rw [if_pos ⟨h3, h4⟩, ← mul_div_right_comm]
      rw [h4] at h1
      congr 1
      rw [h3, h4]
      linear_combination (-(C.dy s * C.ddx s - C.dx s * C.ddy s)) * h1

theorem samples_length (C : PCurve) (l) : (C.samples l).length = l.length := by simp [samples]

end PCurve

namespace EdgeG

theorem note_pts (w op) (e : EdgeG) : (note w op e).pts = e.pts := by unfold note; split <;> rfl

theorem mapPts_pts {e : EdgeG} {C D : PCurve} {l} (h : e.pts = some (C.samples l)) {f : Sample → Sample}
    (hf : ∀ s g, f (C.sample s g) = D.sample s g) : (mapPts f e).pts = some (D.samples l) := by
  simp [mapPts, h, PCurve.samples, hf]

theorem translate_pts {e : EdgeG} {C : PCurve} {l} (h : e.pts = some (C.samples l)) (a : Vert) (w) :
    (e.translate a w).pts = some ((C.affine ⟨1, 0, 0, 1⟩ a.x a.y).samples l) :=
  mapPts_pts (by rw [note_pts, h]) fun s g => by rw [PCurve.sample_translate]; rfl

theorem dilate_pts {e e' : EdgeG} {C : PCurve} {l} (h : e.pts = some (C.samples l)) {al : ℝ} (ha : 0 < al) (w)
    (hr : e.dilate al w = .ok e') : e'.pts = some ((C.affine ⟨al, 0, 0, al⟩ 0 0).samples l) := by
  unfold dilate at hr
  split at hr
  · cases hr
  · cases hr
    exact mapPts_pts (by rw [note_pts, h]) fun s g => by rw [PCurve.sample_dilate _ ha]; rfl

theorem orthogonal_pts {e e' : EdgeG} {C : PCurve} {l} (h : e.pts = some (C.samples l)) {A : Mat2} (ha : A.IsOrth) (w)
    (hr : e.orthogonal A w = .ok e') : e'.pts = some ((C.affine A 0 0).samples l) := by
  unfold orthogonal at hr
  split at hr
  · cases hr
  · cases hr
    exact mapPts_pts (by rw [note_pts, h]) fun s g => (PCurve.sample_orth _ ha s g).symm

theorem rotate_pts {e e' : EdgeG} {C : PCurve} {l} (h : e.pts = some (C.samples l)) (th : ℝ) (w)
    (hr : e.rotate th w = .ok e') : e'.pts = some ((EdgeOp.act (.rotate th) C).samples l) := by
  unfold rotate at hr
  simp only [note_pts, h, Option.isSome_some, if_true] at hr
  exact orthogonal_pts (by rw [note_pts, h]) (Mat2.isOrth_rot th) _ hr

/-- `|u| / |w|` times the rotation by `arg u - arg w` is multiplication by `u / w` -/
theorem turn (ux uy wx wy : ℝ) (hu : 0 < ux ^ 2 + uy ^ 2) (hw : 0 < wx ^ 2 + wy ^ 2) :
    let th := -Complex.arg ⟨wx, wy⟩ + Complex.arg ⟨ux, uy⟩
    let al := Real.sqrt (ux ^ 2 + uy ^ 2) / Real.sqrt (wx ^ 2 + wy ^ 2)
    al * Real.cos th = (ux * wx + uy * wy) / (wx ^ 2 + wy ^ 2) ∧
    al * Real.sin th = (uy * wx - ux * wy) / (wx ^ 2 + wy ^ 2) := by
  intro th al
  have hn : ∀ x y : ℝ, ‖(⟨x, y⟩ : ℂ)‖ = Real.sqrt (x ^ 2 + y ^ 2) := by
    intro x y
    rw [Complex.norm_def, Complex.normSq_mk, sq, sq]
  have h0 : ∀ x y : ℝ, 0 < x ^ 2 + y ^ 2 → (⟨x, y⟩ : ℂ) ≠ 0 := by
    intro x y h e
    have h1 := congrArg Complex.re e
    have h2 := congrArg Complex.im e
    simp only [Complex.zero_re, Complex.zero_im] at h1 h2
    subst h1 h2; simp at h
  have cu := Complex.cos_arg (h0 _ _ hu)
  have cw := Complex.cos_arg (h0 _ _ hw)
  have su := Complex.sin_arg (⟨ux, uy⟩ : ℂ)
  have sw := Complex.sin_arg (⟨wx, wy⟩ : ℂ)
  rw [hn] at cu cw su sw
  simp only at cu cw su sw
  have pu := Real.sqrt_pos.2 hu
  have pw := Real.sqrt_pos.2 hw
  have qu := Real.sq_sqrt hu.le
  have qw := Real.sq_sqrt hw.le
  simp only [th, al]
  rw [neg_add_eq_sub, Real.cos_sub, Real.sin_sub, cu, cw, su, sw]
  set U := Real.sqrt (ux ^ 2 + uy ^ 2)
  set W := Real.sqrt (wx ^ 2 + wy ^ 2)
  rw [← qw]
  constructor
  · field_simp
  · field_simp

theorem joinPoints_pts {e e' : EdgeG} {C : PCurve} {l : List (ℝ × ℝ)} (h : e.pts = some (C.samples l)) (a b : Vert) (w)
    (h0 : ∃ g, l.head? = some (0, g)) (h1 : ∃ g, l.getLast? = some (2 * Real.pi, g))
    (hr : e.joinPoints a b w = .ok e') : e'.pts = some ((EdgeOp.act (.joinPoints a b) C).samples l) := by
  obtain ⟨g0, h0⟩ := h0
  obtain ⟨g1, h1⟩ := h1
  unfold joinPoints at hr
  dsimp only at hr
  split at hr
  · cases hr
  rename_i hab
  cases l with
  | nil => simp at h0
  | cons p l =>
    simp only [List.head?_cons, Option.some.injEq] at h0
    subst h0
    have hp : (note w (.joinPoints a b) e).pts = some (C.samples ((0, g0) :: l)) := by rw [note_pts, h]
    have hl : (C.samples ((0, g0) :: l)).getLast (by simp [PCurve.samples]) = C.sample (2 * Real.pi) g1 := by
      rw [List.getLast_eq_iff_getLast?_eq_some]
      simp only [PCurve.samples, List.getLast?_map, h1, Option.map_some]
    have hs : C.samples ((0, g0) :: l) = C.sample 0 g0 :: C.samples l := rfl
    rw [hp] at hr
    simp only [hs] at hr hl
    rw [hl] at hr
    split at hr
    · cases hr
    rename_i hxy
    set wx := C.x (2 * Real.pi) - C.x 0 with hwx
    set wy := C.y (2 * Real.pi) - C.y 0 with hwy
    have e1 : ((C.sample 0 g0).x - (C.sample (2 * Real.pi) g1).x) ^ 2 +
        ((C.sample 0 g0).y - (C.sample (2 * Real.pi) g1).y) ^ 2 = wx ^ 2 + wy ^ 2 := by
      simp only [PCurve.sample, hwx, hwy]; ring
    have e2 : (a.x - b.x) ^ 2 + (a.y - b.y) ^ 2 = (b.x - a.x) ^ 2 + (b.y - a.y) ^ 2 := by ring
    rw [e1] at hr hxy
    rw [e2] at hr hab
    have hw : 0 < wx ^ 2 + wy ^ 2 := Real.sqrt_pos.1 (TOL_pos.trans_le (not_lt.1 hxy))
    have hu : 0 < (b.x - a.x) ^ 2 + (b.y - a.y) ^ 2 := Real.sqrt_pos.1 (TOL_pos.trans_le (not_lt.1 hab))
    obtain ⟨t1, t2⟩ := turn _ _ _ _ hu hw
    simp only [PCurve.sample] at hr
    rw [← hwx, ← hwy] at hr
    set th := -Complex.arg ⟨wx, wy⟩ + Complex.arg ⟨b.x - a.x, b.y - a.y⟩ with hth
    set al := Real.sqrt ((b.x - a.x) ^ 2 + (b.y - a.y) ^ 2) / Real.sqrt (wx ^ 2 + wy ^ 2) with hal
    have hal0 : 0 < al := div_pos (Real.sqrt_pos.2 hu) (Real.sqrt_pos.2 hw)
    have p1 := translate_pts hp (Vert.mk' (-C.x 0) (-C.y 0)) false
    obtain ⟨e2, r2, hr⟩ := bind_ok hr
    have p2 := rotate_pts p1 _ _ r2
    obtain ⟨e3, r3, hr⟩ := bind_ok hr
    have p3 := dilate_pts p2 hal0 _ r3
    cases hr
    have p4 := translate_pts p3 a false
    have : (setVerts (e3.translate a false) a b).pts = (e3.translate a false).pts := rfl
    rw [this, p4]
    congr 2
    have hpi := Real.pi_pos.ne'
    have hang : th * (180 / Real.pi) * Real.pi / 180 = th := by field_simp
    simp only [EdgeOp.act, hang, ← hwx, ← hwy, ← t1, ← t2]
    apply PCurve.ext' <;> intro s <;> simp only [PCurve.affine, Mat2.complex, Vert.mk'] <;> ring

end EdgeG
end PFEM
