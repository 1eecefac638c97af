import Verif.Props.RingPoisson
import Verif.Props.RingNeumann
import Verif.Props.DiscInner

/-!
Property theorem C134: the hypotheses can be met.
-/

namespace PFEM
open Nystrom Antilap Polynomial

/-- C134: on the ring between the circles of radius 1 and 2 about `(2, 3)` with 64 samples on each circle, the energy of the function with Laplacian 1 and
the boundary values of `(x² + y²)/4 + 7 log |w| + Re (w² + 1/w)`, `w = z - 2 - 3i`, is right up to `10^(-8)`. -/
example : ∃ q inside K s F I, getQuadDict 32 2 = .ok q ∧ ringOfCircles.parameterize inside 8 q = some (.ok K) ∧
    init someGmres { K with interior := [] } "direct" "jacobi" = .ok s ∧
    LocPoisson.init someGmres (some s) onePoly (.value (.arr (K.samplesOf fun x y => (x ^ 2 + y ^ 2) / 4 + ringData 7 (X ^ 2) X 2 3 x y))) false false = .ok F ∧
    F.getH1 (.poisson F) = .ok I ∧ ∃ g1 g2, RingGradient 7 (X ^ 2) X 2 3 g1 g2 ∧
      |I - ringEnergy 2 3 1 2 (fun x y => x / 2 + g1 x y) (fun x y => y / 2 + g2 x y) (fun x y => x / 2 + g1 x y) (fun x y => y / 2 + g2 x y)| ≤ 1 / 10 ^ 8 := by
  classical
  obtain ⟨q, hd⟩ := (C21_dict 32 2).1.2 ⟨by norm_num, le_rfl⟩
  obtain ⟨K, hK, h0⟩ := C114_annulus hd (inside := fun _ q => decide ((q.1 - 2) ^ 2 + (q.2 - 3) ^ 2 < 1)) (fuel := 8) (by norm_num)
    (K := ringOfCircles) (e := circleAt 2) (f := circleAt 1) (v := Vert.mk' 2 3) (a := 1) (b := 2) rfl rfl rfl rfl rfl rfl rfl rfl rfl
    (by norm_num) (by norm_num) rfl rfl rfl rfl rfl rfl (by intro poly; simp [Vert.mk'])
  set K1 : CellG := { K with interior := [] } with hK1
  have h : K1.IsAnnulus 2 3 1 2 (2 * 32) := ⟨⟨h0.ready.ready, h0.ready.numPts, h0.ready.startIdx⟩, h0.circles, h0.vertices⟩
  have hc : ringConst 1 2 = 241 / 3 := by norm_num [ringConst]
  have hS : ringSum (X ^ 2) X 1 2 = 5 := by
    norm_num [ringSum, coeffSum, natDegree_X_pow, natDegree_X, Finset.sum_range_succ, coeff_X_pow, coeff_X]
  have hsm : 4 * ringConst 1 2 * (1 / 2) ^ (2 * 32) ≤ 1 := by rw [hc]; norm_num
  obtain ⟨s, hs, -⟩ := C70_init someGmres h.ready (h.even rfl (by norm_num) (by norm_num)) h.edges_ne (h.holes one_pos two_pos)
    (h.apart one_pos (by norm_num)) (h.simple one_pos (by norm_num))
  have hres : ResidualWithin someGmres fun _ => 0 := by
    intro A b M x hx
    have := someGmres_exact A b M x hx
    exact ⟨b, this, List.forall₂_same.2 fun u _ => by simp⟩
  have hgr : RingGradient 7 (X ^ 2) X 2 3 (fun x y => 7 * ((x - 2) / ((x - 2) ^ 2 + (y - 3) ^ 2)) + (laurentDeriv (X ^ 2) X 2 3 x y).re)
      (fun x y => 7 * ((y - 3) / ((x - 2) ^ 2 + (y - 3) ^ 2)) + -(laurentDeriv (X ^ 2) X 2 3 x y).im) :=
    fun x y hxy => log_gradient 7 _ _ hxy
  have hp : Poly.antiLaplacian onePoly = .ok (Poly.alP onePoly) := Poly.antiLaplacian_ok _
  have hev : ∀ x y : ℝ, (Poly.alP onePoly).eval x y = (x ^ 2 + y ^ 2) / 4 := fun x y => by
    rw [onePoly, one_alP]
    simp [Poly.eval, mono_eval]
    ring
  have hpg : HasGradOn Set.univ (Poly.alP onePoly).eval (fun x _ => x / 2) (fun _ y => y / 2) := fun x y _ => by
    unfold HasGrad
    rw [show (fun s => (Poly.alP onePoly).eval s y) = fun s => (s ^ 2 + y ^ 2) / 4 from funext fun s => hev s y,
      show (fun s => (Poly.alP onePoly).eval x s) = fun s => (x ^ 2 + s ^ 2) / 4 from funext fun s => hev x s]
    refine ⟨?_, ?_⟩
    · have := ((hasDerivAt_pow 2 x).add_const (y ^ 2)).div_const 4
      refine this.congr_deriv ?_
      push_cast
      ring
    · have := ((hasDerivAt_pow 2 y).const_add (x ^ 2)).div_const 4
      refine this.congr_deriv ?_
      push_cast
      ring
  have hv : (LocPoisson.TraceOr.value (.arr (K1.samplesOf fun x y => (x ^ 2 + y ^ 2) / 4 + ringData 7 (X ^ 2) X 2 3 x y))).Gives K1
      (K1.samplesOf fun x y => (Poly.alP onePoly).eval x y + ringData 7 (X ^ 2) X 2 3 x y) :=
    ⟨by simp only [hev], by simp [CellG.samplesOf, h.ready.numPts]⟩
  obtain ⟨rhs, F, -, -, hF, -⟩ := C133_interior hres someGmres_finds h (by norm_num) (by norm_num) (by norm_num) (by norm_num) hsm hs (d := 2)
    (by norm_num) (by rw [natDegree_X_pow]) (by rw [natDegree_X]; norm_num) hp hv (by simp [hK1]) hpg hgr false false
  have hM : ∀ t ∈ K1.samplesOf (Poly.alP onePoly).eval, |t| ≤ 11 := by
    intro t ht
    obtain ⟨p, hp, rfl⟩ := List.mem_map.1 ht
    rw [h.cols, List.mem_append] at hp
    rw [hev, abs_of_nonneg (by positivity)]
    rcases hp with hp | hp <;> obtain ⟨j, -, rfl⟩ := List.mem_map.1 hp <;> simp only [circleSample, holeSample] <;>
      nlinarith [Real.neg_one_le_cos (2 * Real.pi * j / (2 * 32 : ℕ)), Real.cos_le_one (2 * Real.pi * j / (2 * 32 : ℕ)),
        Real.neg_one_le_sin (2 * Real.pi * j / (2 * 32 : ℕ)), Real.sin_le_one (2 * Real.pi * j / (2 * 32 : ℕ))]
  have hB : ringBound 7 (X ^ 2) X 1 2 ≤ 16 := by
    rw [ringBound, hS, Real.log_one, abs_zero, max_eq_right (abs_nonneg _), abs_of_pos (Real.log_pos (by norm_num)), abs_of_pos (by norm_num)]
    have := Real.log_le_sub_one_of_pos (x := 2) two_pos
    linarith
  have hq : Real.sqrt ((2 * (2 * 32) : ℕ) : ℝ) ≤ 12 := by
    rw [Real.sqrt_le_left (by norm_num)]
    norm_num
  have hE : ringFluxErr K1.numPts 1 2 32 2 0 (X ^ 2) X ≤ 1 / 10 ^ 12 := by
    rw [ringFluxErr, ringLogErr, hc, hS, h.numPts, zero_add, zero_div, add_zero]
    calc _ ≤ 12 * ((2 * (2 * 32) : ℕ) : ℝ) / 2 * (241 / 3 * (5 * ((1 / 2 : ℝ) ^ (2 * 32 - 2) / (1 - 1 / 2)) * 5)) := by gcongr
      _ ≤ _ := by norm_num
  have hE0 : 0 ≤ ringFluxErr K1.numPts 1 2 32 2 0 (X ^ 2) X := by
    rw [ringFluxErr, ringLogErr, hc, hS, h.numPts, zero_add, zero_div, add_zero]
    norm_num
  have dp : ∀ c ∈ Poly.alP onePoly, c.alpha.x + c.alpha.y ≤ (2 : ℕ) := by
    rw [onePoly, one_alP]
    simp
  have cp : ∀ c ∈ Poly.alP onePoly, (1 / 10 ^ 12 : ℝ) ≤ |c.coef| := by
    rw [onePoly, one_alP]
    simp
    norm_num
  obtain ⟨I, hI, hI'⟩ := C134_energy hres h (by norm_num) (by norm_num) (by norm_num) (by norm_num) hsm hs (d := 2) (e := 2) (m := 2) (by norm_num)
    (by norm_num) (by norm_num) (by rw [natDegree_X_pow]) (by rw [natDegree_X]; norm_num) (by rw [natDegree_X_pow]) (by rw [natDegree_X]; norm_num)
    (τ := 0) (τ' := 0) (fun _ _ _ => le_rfl) (fun _ _ _ => le_rfl) hp hp dp dp cp cp one_lattice' one_lattice' (by norm_num) (M := 11) (M' := 11)
    (by norm_num) (by norm_num) hM hM hpg hpg hgr hgr hv hv hF hF
  refine ⟨q, _, K, s, F, I, hd, hK, hs, hF, hI, _, _, hgr, hI'.trans ?_⟩
  have := Real.pi_pos
  have hB0 : 0 ≤ ringBound 7 (X ^ 2) X 1 2 + 11 := by
    rw [ringBound, hS]
    positivity
  have h4 := Real.pi_le_four
  calc _ ≤ 4 * 4 * (16 + 11) * (1 / 10 ^ 12) + 4 * 4 * 11 * (1 / 10 ^ 12) := by
        gcongr
    _ ≤ (1 / 10 ^ 8 : ℝ) := by norm_num

end PFEM
