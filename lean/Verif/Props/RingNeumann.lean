import Verif.Props.AnnulusNeumann
import Verif.Props.RingCell

/-!
Property theorems C130: the hypotheses can be met.
-/

namespace PFEM
open Nystrom Antilap Polynomial

/-- C130: the ring between the circles of radius 1 and 2 about `(2, 3)` is parameterized with 64 samples on each circle, the solver is made, and the
Neumann problem with solution `7 log |w| + Re (w² + 1/w)` is solved up to `10^(-10)`; the mean value that is taken off is not zero. -/
example : ∃ q inside K s u, getQuadDict 32 2 = .ok q ∧ ringOfCircles.parameterize inside 8 q = some (.ok K) ∧
    init someGmres K "direct" "jacobi" = .ok s ∧ solveNeumann someGmres s.ops s.diag (K.normalOf
      (fun x y => 7 * ((x - 2) / ((x - 2) ^ 2 + (y - 3) ^ 2)) + (laurentDeriv (X ^ 2) X 2 3 x y).re)
      (fun x y => 7 * ((y - 3) / ((x - 2) ^ 2 + (y - 3) ^ 2)) + -(laurentDeriv (X ^ 2) X 2 3 x y).im)) = .ok u ∧
    PFEM.Within (1 / 10 ^ 10) u (K.samplesOf fun x y => ringData 7 (X ^ 2) X 2 3 x y - ringMean 7 (X ^ 2) X 1 2) ∧
    ringMean 7 (X ^ 2) X 1 2 = 14 / 3 * Real.log 2 := by
  classical
  obtain ⟨q, hd⟩ := (C21_dict 32 2).1.2 ⟨by norm_num, le_rfl⟩
  obtain ⟨K, hK, h⟩ := C114_annulus hd (inside := fun _ q => decide ((q.1 - 2) ^ 2 + (q.2 - 3) ^ 2 < 1)) (fuel := 8) (by norm_num)
    (K := ringOfCircles) (e := circleAt 2) (f := circleAt 1) (v := Vert.mk' 2 3) (a := 1) (b := 2) rfl rfl rfl rfl rfl rfl rfl rfl rfl
    (by norm_num) (by norm_num) rfl rfl rfl rfl rfl rfl (by intro poly; simp [Vert.mk'])
  have h : K.IsAnnulus 2 3 1 2 (2 * 32) := h
  have hc : ringConst 1 2 = 241 / 3 := by norm_num [ringConst]
  have hS : ringSum (X ^ 2) X 1 2 = 5 := by
    norm_num [ringSum, coeffSum, natDegree_X_pow, natDegree_X, Finset.sum_range_succ, coeff_X_pow, coeff_X]
  have hsm : 4 * ringConst 1 2 * (1 / 2) ^ (2 * 32) ≤ 1 := by rw [hc]; norm_num
  obtain ⟨s, hs, -⟩ := C70_init someGmres h.ready (h.even rfl (by norm_num) (by norm_num)) h.edges_ne (h.holes one_pos two_pos)
    (h.apart one_pos (by norm_num)) (h.simple one_pos (by norm_num))
  have hres : ResidualWithin someGmres fun _ => 0 := by
    intro A b M x hx
    have := someGmres_exact A b M x hx
    exact ⟨b, this, List.forall₂_same.2 fun u _ => by simp⟩
  have hgr : RingGradient 7 (X ^ 2) X 2 3 (fun x y => 7 * ((x - 2) / ((x - 2) ^ 2 + (y - 3) ^ 2)) + (laurentDeriv (X ^ 2) X 2 3 x y).re)
      (fun x y => 7 * ((y - 3) / ((x - 2) ^ 2 + (y - 3) ^ 2)) + -(laurentDeriv (X ^ 2) X 2 3 x y).im) :=
    fun x y hxy => log_gradient 7 _ _ hxy
  obtain ⟨u, hu⟩ := C130_returns someGmres_finds h (by norm_num) (by norm_num) (by norm_num) (by norm_num) hsm hs (w := K.normalOf
      (fun x y => 7 * ((x - 2) / ((x - 2) ^ 2 + (y - 3) ^ 2)) + (laurentDeriv (X ^ 2) X 2 3 x y).re)
      (fun x y => 7 * ((y - 3) / ((x - 2) ^ 2 + (y - 3) ^ 2)) + -(laurentDeriv (X ^ 2) X 2 3 x y).im))
    (by rw [CellG.normalOf, List.length_map, h.cols, h.numPts]; simp)
  obtain ⟨rhs, -, -, h3⟩ := C130_neumann hres h (by norm_num) (by norm_num) (by norm_num) (by norm_num) hsm hs (d := 2) (by norm_num)
    (by rw [natDegree_X_pow]) (by rw [natDegree_X]; norm_num) hgr hu
  refine ⟨q, _, K, s, u, hd, hK, hs, hu, ?_, ?_⟩
  · rw [hc, hS] at h3
    have hl : Real.log (2 / 1) ≤ 1 := by
      have := Real.log_le_sub_one_of_pos (show (0 : ℝ) < 2 / 1 by norm_num)
      linarith
    refine h3.imp fun u v huv => huv.trans ?_
    have : |(7 : ℝ)| = 7 := by norm_num
    rw [this, zero_add]
    calc _ ≤ 241 / 3 * (5 * ((1 / 2 : ℝ) ^ (2 * 32 - 2) / (1 - 1 / 2)) * (5 + 7 * (1 + 1))) := by gcongr
      _ ≤ _ := by norm_num
  · simp [ringMean, coeff_X_pow, coeff_X]
    ring

end PFEM
