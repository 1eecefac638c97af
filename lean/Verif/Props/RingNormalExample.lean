import Verif.Props.RingHarm
import Verif.Props.RingNeumann

/-!
Property theorems C131: the hypotheses can be met.
-/

namespace PFEM
open Nystrom Antilap Polynomial

/-- C131: on the ring between the circles of radius 1 and 2 about `(2, 3)` with 64 samples on each circle the harmonic function with the boundary values
`7 log |w| + Re (w² + 1/w)` is made; its logarithmic coefficient is 7 and its normal derivative is right up to `10^(-12)`. -/
example : ∃ q inside K s t u w, getQuadDict 32 2 = .ok q ∧ ringOfCircles.parameterize inside 8 q = some (.ok K) ∧
    init someGmres K "direct" "jacobi" = .ok s ∧ Trace.init K.getEdges (values := some (.one (.arr (K.samplesOf (ringData 7 (X ^ 2) X 2 3))))) = .ok t ∧
    LocHarm.init someGmres t (some s) = .ok u ∧ u.logCoef = some [7] ∧ u.trace.wnd = some w ∧
    PFEM.Within (1 / 10 ^ 12) w (K.normalOf
      (fun x y => 7 * ((x - 2) / ((x - 2) ^ 2 + (y - 3) ^ 2)) + (laurentDeriv (X ^ 2) X 2 3 x y).re)
      (fun x y => 7 * ((y - 3) / ((x - 2) ^ 2 + (y - 3) ^ 2)) + -(laurentDeriv (X ^ 2) X 2 3 x y).im)) := by
  classical
  obtain ⟨q, hd⟩ := (C21_dict 32 2).1.2 ⟨by norm_num, le_rfl⟩
  obtain ⟨K, hK, h⟩ := C114_annulus hd (inside := fun _ q => decide ((q.1 - 2) ^ 2 + (q.2 - 3) ^ 2 < 1)) (fuel := 8) (by norm_num)
    (K := ringOfCircles) (e := circleAt 2) (f := circleAt 1) (v := Vert.mk' 2 3) (a := 1) (b := 2) rfl rfl rfl rfl rfl rfl rfl rfl rfl
    (by norm_num) (by norm_num) rfl rfl rfl rfl rfl rfl (by intro poly; simp [Vert.mk'])
  have h : K.IsAnnulus 2 3 1 2 (2 * 32) := h
  have hc : ringConst 1 2 = 241 / 3 := by norm_num [ringConst]
  have hS : ringSum (X ^ 2) X 1 2 = 5 := by
    norm_num [ringSum, coeffSum, natDegree_X_pow, natDegree_X, Finset.sum_range_succ, coeff_X_pow, coeff_X]
  have hsm : 4 * ringConst 1 2 * (1 / 2) ^ (2 * 32) ≤ 1 := by rw [hc]; norm_num
  obtain ⟨s, hs, -⟩ := C70_init someGmres h.ready (h.even rfl (by norm_num) (by norm_num)) h.edges_ne (h.holes one_pos two_pos)
    (h.apart one_pos (by norm_num)) (h.simple one_pos (by norm_num))
  have hres : ResidualWithin someGmres fun _ => 0 := by
    intro A b M x hx
    have := someGmres_exact A b M x hx
    exact ⟨b, this, List.forall₂_same.2 fun u _ => by simp⟩
  have hgr : RingGradient 7 (X ^ 2) X 2 3 (fun x y => 7 * ((x - 2) / ((x - 2) ^ 2 + (y - 3) ^ 2)) + (laurentDeriv (X ^ 2) X 2 3 x y).re)
      (fun x y => 7 * ((y - 3) / ((x - 2) ^ 2 + (y - 3) ^ 2)) + -(laurentDeriv (X ^ 2) X 2 3 x y).im) :=
    fun x y hxy => log_gradient 7 _ _ hxy
  have hl : (K.samplesOf (ringData 7 (X ^ 2) X 2 3)).length = K.numPts := by rw [CellG.samplesOf, List.length_map, h.ready.numPts]
  have ht : (Trace.made K.getEdges (some (K.samplesOf (ringData 7 (X ^ 2) X 2 3))) none none).On K.getEdges :=
    made_on h.ready hl (fun _ e => by cases e) (fun _ e => by cases e)
  obtain ⟨u, hu, -⟩ := C131_returns hres someGmres_finds h (by norm_num) (by norm_num) (by norm_num) (by norm_num) hsm hs (Q := X ^ 2) (R := X)
    (A := 7) (by rw [natDegree_X_pow]; norm_num) (by rw [natDegree_X]; norm_num) ht rfl
  obtain ⟨rhs, α, w, -, -, -, h4, h5, h6, h7⟩ := C131_normal hres h (by norm_num) (by norm_num) (by norm_num) (by norm_num) hsm hs (d := 2)
    (by norm_num) (by rw [natDegree_X_pow]) (by rw [natDegree_X]; norm_num) hgr ht rfl hu
  have hα : α = 7 := by
    rw [zero_div] at h5
    linarith [abs_eq_zero.1 (le_antisymm h5 (abs_nonneg _))]
  refine ⟨q, _, K, s, _, u, w, hd, hK, hs, init_arr h.ready hl, hu, by rw [h4, hα], h6, ?_⟩
  rw [hc, hS, h.numPts] at h7
  refine h7.imp fun u v huv => huv.trans ?_
  have hq : Real.sqrt ((2 * (2 * 32) : ℕ) : ℝ) ≤ 12 := by
    rw [Real.sqrt_le_left (by norm_num)]
    norm_num
  rw [zero_add, zero_div, add_zero]
  calc _ ≤ 12 * ((2 * (2 * 32) : ℕ) : ℝ) / 2 * (241 / 3 * (5 * ((1 / 2 : ℝ) ^ (2 * 32 - 2) / (1 - 1 / 2)) * 5)) := by gcongr
    _ ≤ _ := by norm_num

end PFEM
