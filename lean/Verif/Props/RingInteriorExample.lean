import Verif.Props.RingInterior
import Verif.Props.RingNeumann
import Verif.Props.DiscInner

/-!
Property theorem C133: the hypotheses can be met.
-/

namespace PFEM
open Nystrom Antilap Polynomial

/-- C133: on the ring between the circles of radius 1 and 2 about `(2, 3)` with 64 samples on each circle, the function with Laplacian 1 and the boundary
values of `(x² + y²)/4 + 7 log |w| + Re (w² + 1/w)`, `w = z - 2 - 3i`: its value at `(7/2, 3)` is right up to `10^(-6)`, its gradient up to `10^(-3)`. -/
example : ∃ q inside K s F U V1 V2, getQuadDict 32 2 = .ok q ∧ ringOfCircles.parameterize inside 8 q = some (.ok K) ∧
    init someGmres { K with interior := [(7 / 2, 3)] } "direct" "jacobi" = .ok s ∧
    LocPoisson.init someGmres (some s) onePoly (.value (.arr (K.samplesOf fun x y => (x ^ 2 + y ^ 2) / 4 + ringData 7 (X ^ 2) X 2 3 x y))) true true = .ok F ∧
    F.intVals = some [U] ∧ F.intGrad1 = some [V1] ∧ F.intGrad2 = some [V2] ∧
    |U - (85 / 16 + 7 * Real.log (3 / 2) + 35 / 12)| ≤ 1 / 10 ^ 6 ∧ |V1 - (7 / 4 + 14 / 3 + 3 - 4 / 9)| ≤ 1 / 10 ^ 3 ∧ |V2 - 3 / 2| ≤ 1 / 10 ^ 3 := by
  classical
  obtain ⟨q, hd⟩ := (C21_dict 32 2).1.2 ⟨by norm_num, le_rfl⟩
  obtain ⟨K, hK, h0⟩ := C114_annulus hd (inside := fun _ q => decide ((q.1 - 2) ^ 2 + (q.2 - 3) ^ 2 < 1)) (fuel := 8) (by norm_num)
    (K := ringOfCircles) (e := circleAt 2) (f := circleAt 1) (v := Vert.mk' 2 3) (a := 1) (b := 2) rfl rfl rfl rfl rfl rfl rfl rfl rfl
    (by norm_num) (by norm_num) rfl rfl rfl rfl rfl rfl (by intro poly; simp [Vert.mk'])
  set K1 : CellG := { K with interior := [(7 / 2, 3)] } with hK1
  have h : K1.IsAnnulus 2 3 1 2 (2 * 32) := ⟨⟨h0.ready.ready, h0.ready.numPts, h0.ready.startIdx⟩, h0.circles, h0.vertices⟩
  have hc : ringConst 1 2 = 241 / 3 := by norm_num [ringConst]
  have hS : ringSum (X ^ 2) X 1 2 = 5 := by
    norm_num [ringSum, coeffSum, natDegree_X_pow, natDegree_X, Finset.sum_range_succ, coeff_X_pow, coeff_X]
  have hS' : ringSum (derivative (X ^ 2)) (-(derivative X * X ^ 2)) 1 2 = 5 := by
    have e1 : derivative (X ^ 2 : ℂ[X]) = C 2 * X := by rw [derivative_X_pow]; simp
    rw [e1, derivative_X, one_mul]
    norm_num [ringSum, coeffSum, natDegree_X_pow, natDegree_neg, natDegree_C_mul_X, Finset.sum_range_succ, coeff_X_pow, coeff_X]
  have hsm : 4 * ringConst 1 2 * (1 / 2) ^ (2 * 32) ≤ 1 := by rw [hc]; norm_num
  obtain ⟨s, hs, -⟩ := C70_init someGmres h.ready (h.even rfl (by norm_num) (by norm_num)) h.edges_ne (h.holes one_pos two_pos)
    (h.apart one_pos (by norm_num)) (h.simple one_pos (by norm_num))
  have hres : ResidualWithin someGmres fun _ => 0 := by
    intro A b M x hx
    have := someGmres_exact A b M x hx
    exact ⟨b, this, List.forall₂_same.2 fun u _ => by simp⟩
  have hgr : RingGradient 7 (X ^ 2) X 2 3 (fun x y => 7 * ((x - 2) / ((x - 2) ^ 2 + (y - 3) ^ 2)) + (laurentDeriv (X ^ 2) X 2 3 x y).re)
      (fun x y => 7 * ((y - 3) / ((x - 2) ^ 2 + (y - 3) ^ 2)) + -(laurentDeriv (X ^ 2) X 2 3 x y).im) :=
    fun x y hxy => log_gradient 7 _ _ hxy
  have hp : Poly.antiLaplacian onePoly = .ok (Poly.alP onePoly) := Poly.antiLaplacian_ok _
  have hev : ∀ x y : ℝ, (Poly.alP onePoly).eval x y = (x ^ 2 + y ^ 2) / 4 := fun x y => by
    rw [onePoly, one_alP]
    simp [Poly.eval, mono_eval]
    ring
  have hpg : HasGradOn Set.univ (Poly.alP onePoly).eval (fun x _ => x / 2) (fun _ y => y / 2) := fun x y _ => by
    unfold HasGrad
    rw [show (fun s => (Poly.alP onePoly).eval s y) = fun s => (s ^ 2 + y ^ 2) / 4 from funext fun s => hev s y,
      show (fun s => (Poly.alP onePoly).eval x s) = fun s => (x ^ 2 + s ^ 2) / 4 from funext fun s => hev x s]
    refine ⟨?_, ?_⟩
    · have := ((hasDerivAt_pow 2 x).add_const (y ^ 2)).div_const 4
      refine this.congr_deriv ?_
      push_cast
      ring
    · have := ((hasDerivAt_pow 2 y).const_add (x ^ 2)).div_const 4
      refine this.congr_deriv ?_
      push_cast
      ring
  have hv : (LocPoisson.TraceOr.value (.arr (K1.samplesOf fun x y => (x ^ 2 + y ^ 2) / 4 + ringData 7 (X ^ 2) X 2 3 x y))).Gives K1
      (K1.samplesOf fun x y => (Poly.alP onePoly).eval x y + ringData 7 (X ^ 2) X 2 3 x y) :=
    ⟨by simp only [hev], by simp [CellG.samplesOf, h.ready.numPts]⟩
  have hin : ∀ y ∈ K1.interior, y ∈ ring 2 3 1 2 := by
    intro y hy
    simp only [hK1, List.mem_singleton] at hy
    subst hy
    constructor <;> norm_num
  obtain ⟨rhs, F, -, -, h1, -, h2, h3⟩ := C133_interior hres someGmres_finds h (by norm_num) (by norm_num) (by norm_num) (by norm_num) hsm hs (d := 2)
    (by norm_num) (by rw [natDegree_X_pow]) (by rw [natDegree_X]; norm_num) hp hv hin hpg hgr true true
  obtain ⟨U, hU, hUe⟩ := h2 rfl
  obtain ⟨V1, V2, hV1, hV2, hVe⟩ := h3 rfl
  have hr : radius 2 3 (7 / 2, 3) = 3 / 2 := by
    rw [radius, show ((7 / 2 : ℝ) - 2) ^ 2 + ((3 : ℝ) - 3) ^ 2 = (3 / 2) ^ 2 by norm_num, Real.sqrt_sq (by norm_num)]
  have e1 := hUe (1 / 2) (by norm_num) (7 / 2, 3) (by simp [hK1]) (by rw [hr]; norm_num) (by rw [hr]; norm_num)
  obtain ⟨e2, e3⟩ := hVe (1 / 2) (by norm_num) (7 / 2, 3) (by simp [hK1]) (by rw [hr]; norm_num) (by rw [hr]; norm_num)
  have hP : ringPairErr 1 2 32 2 0 (X ^ 2) X = 241 / 3 * (50 / 2 ^ 62) := by
    rw [ringPairErr, ringLogErr, hc, hS]
    norm_num
  have b1 : ringValueErr 1 2 (1 / 2) 32 2 0 (X ^ 2) X ≤ 1 / 10 ^ 6 := by
    rw [ringValueErr, hP, ringLogErr, hS]
    norm_num
  have b2 : ringGradErr 1 2 (1 / 2) 32 2 0 (X ^ 2) X ≤ 1 / 10 ^ 3 := by
    rw [ringGradErr, hP, ringLogErr, hS, hS']
    norm_num
  have ew : (⟨(7 / 2 : ℝ) - 2, (3 : ℝ) - 3⟩ : ℂ) = ((3 / 2 : ℝ) : ℂ) := by apply Complex.ext <;> norm_num
  have f1 : ringData 7 (X ^ 2) X 2 3 (7 / 2) 3 = 7 * Real.log (3 / 2) + 35 / 12 := by
    have := hr
    rw [radius] at this
    rw [ringData, this, laurent, ew, eval_pow, eval_X, eval_X, ← Complex.ofReal_inv, ← Complex.ofReal_pow, ← Complex.ofReal_add, Complex.ofReal_re]
    norm_num
  have f2 : laurentDeriv (X ^ 2) X 2 3 (7 / 2) 3 = ((3 - 4 / 9 : ℝ) : ℂ) := by
    rw [laurentDeriv, ew, derivative_X, derivative_X_pow]
    simp
    norm_num
  refine ⟨q, _, K, s, F, U (7 / 2, 3), V1 (7 / 2, 3), V2 (7 / 2, 3), hd, hK, hs, h1, hU, hV1, hV2, ?_, ?_, ?_⟩
  · refine le_trans (le_of_eq ?_) (e1.trans b1)
    simp only [f1, hev]
    congr 1
    ring
  · refine le_trans (le_of_eq ?_) (e2.trans b2)
    simp only [f2, Complex.ofReal_re]
    congr 1
    ring
  · refine le_trans (le_of_eq ?_) (e3.trans b2)
    simp only [f2, Complex.ofReal_im]
    congr 1
    ring

end PFEM
