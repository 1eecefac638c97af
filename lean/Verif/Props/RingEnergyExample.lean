import Verif.Props.RingEnergy
import Verif.Props.RingNeumann

/-!
Property theorems C132: the hypotheses can be met.
-/

namespace PFEM
open Nystrom Antilap Polynomial

/-- C132: on the ring between the circles of radius 1 and 2 about `(2, 3)` with 64 samples on each circle the energy of the harmonic function with the
boundary values `7 log |w| + Re (w² + 1/w)` is right up to `10^(-9)`; so is the inner product with the polynomial `x²`, and the integral of `x²` is
exact. -/
example : ∃ q inside K s t u r I J, getQuadDict 32 2 = .ok q ∧ ringOfCircles.parameterize inside 8 q = some (.ok K) ∧
    init someGmres K "direct" "jacobi" = .ok s ∧ Trace.init K.getEdges (values := some (.one (.arr (K.samplesOf (ringData 7 (X ^ 2) X 2 3))))) = .ok t ∧
    LocHarm.init someGmres t (some s) = .ok u ∧ LocPoly.init [⟨⟨2, 0⟩, 1⟩] (some K) = .ok r ∧
    h1 (.harm u) (.harm u) K = .ok I ∧ h1 (.harm u) (.poly r) K = .ok J ∧
    ∃ g1 g2, RingGradient 7 (X ^ 2) X 2 3 g1 g2 ∧ |I - ringEnergy 2 3 1 2 g1 g2 g1 g2| ≤ 1 / 10 ^ 9 ∧
      |J - ringEnergy 2 3 1 2 g1 g2 (fun x _ => 2 * x) (fun _ _ => 0)| ≤ 1 / 10 ^ 9 ∧
      integratePoly [⟨⟨2, 0⟩, 1⟩] K = .ok (∫ z in ring 2 3 1 2, z.1 ^ 2) ∧
      h1 (.poly r) (.poly r) K = .ok (ringEnergy 2 3 1 2 (fun x _ => 2 * x) (fun _ _ => 0) (fun x _ => 2 * x) (fun _ _ => 0)) := by
  classical
  obtain ⟨q, hd⟩ := (C21_dict 32 2).1.2 ⟨by norm_num, le_rfl⟩
  obtain ⟨K, hK, h⟩ := C114_annulus hd (inside := fun _ q => decide ((q.1 - 2) ^ 2 + (q.2 - 3) ^ 2 < 1)) (fuel := 8) (by norm_num)
    (K := ringOfCircles) (e := circleAt 2) (f := circleAt 1) (v := Vert.mk' 2 3) (a := 1) (b := 2) rfl rfl rfl rfl rfl rfl rfl rfl rfl
    (by norm_num) (by norm_num) rfl rfl rfl rfl rfl rfl (by intro poly; simp [Vert.mk'])
  have h : K.IsAnnulus 2 3 1 2 (2 * 32) := h
  have hc : ringConst 1 2 = 241 / 3 := by norm_num [ringConst]
  have hS : ringSum (X ^ 2) X 1 2 = 5 := by
    norm_num [ringSum, coeffSum, natDegree_X_pow, natDegree_X, Finset.sum_range_succ, coeff_X_pow, coeff_X]
  have hsm : 4 * ringConst 1 2 * (1 / 2) ^ (2 * 32) ≤ 1 := by rw [hc]; norm_num
  obtain ⟨s, hs, -⟩ := C70_init someGmres h.ready (h.even rfl (by norm_num) (by norm_num)) h.edges_ne (h.holes one_pos two_pos)
    (h.apart one_pos (by norm_num)) (h.simple one_pos (by norm_num))
  have hres : ResidualWithin someGmres fun _ => 0 := by
    intro A b M x hx
    have := someGmres_exact A b M x hx
    exact ⟨b, this, List.forall₂_same.2 fun u _ => by simp⟩
  have hgr : RingGradient 7 (X ^ 2) X 2 3 (fun x y => 7 * ((x - 2) / ((x - 2) ^ 2 + (y - 3) ^ 2)) + (laurentDeriv (X ^ 2) X 2 3 x y).re)
      (fun x y => 7 * ((y - 3) / ((x - 2) ^ 2 + (y - 3) ^ 2)) + -(laurentDeriv (X ^ 2) X 2 3 x y).im) :=
    fun x y hxy => log_gradient 7 _ _ hxy
  have hl : (K.samplesOf (ringData 7 (X ^ 2) X 2 3)).length = K.numPts := by rw [CellG.samplesOf, List.length_map, h.ready.numPts]
  have ht : (Trace.made K.getEdges (some (K.samplesOf (ringData 7 (X ^ 2) X 2 3))) none none).On K.getEdges :=
    made_on h.ready hl (fun _ e => by cases e) (fun _ e => by cases e)
  obtain ⟨u, hu, -⟩ := C131_returns hres someGmres_finds h (by norm_num) (by norm_num) (by norm_num) (by norm_num) hsm hs (Q := X ^ 2) (R := X)
    (A := 7) (by rw [natDegree_X_pow]; norm_num) (by rw [natDegree_X]; norm_num) ht rfl
  have huv : u.trace.values = some (K.samplesOf (ringData 7 (X ^ 2) X 2 3)) := by
    obtain ⟨rhs, α, w, -, -, h3, -⟩ := C131_normal hres h (by norm_num) (by norm_num) (by norm_num) (by norm_num) hsm hs (d := 2)
      (by norm_num) (by rw [natDegree_X_pow]) (by rw [natDegree_X]; norm_num) hgr ht rfl hu
    exact h3
  have hr := polyPart_init h.ready [⟨⟨2, 0⟩, 1⟩]
  have hev : ∀ x y : ℝ, Poly.eval [⟨⟨2, 0⟩, 1⟩] x y = x ^ 2 := fun x y => by
    simp [Poly.eval, mono_eval]
  have hpg : HasGradOn Set.univ (Poly.eval [⟨⟨2, 0⟩, (1 : ℝ)⟩]) (fun x _ => 2 * x) (fun _ _ => 0) := fun x y _ => by
    unfold HasGrad
    rw [show (fun s => Poly.eval [⟨⟨2, 0⟩, (1 : ℝ)⟩] s y) = fun s => s ^ 2 from funext fun s => hev s y,
      show (fun s => Poly.eval [⟨⟨2, 0⟩, (1 : ℝ)⟩] x s) = fun _ => x ^ 2 from funext fun s => hev x s]
    exact ⟨by simpa using hasDerivAt_pow 2 x, hasDerivAt_const y (x ^ 2)⟩
  have hM : ∀ t ∈ K.samplesOf (Poly.eval [⟨⟨2, 0⟩, 1⟩]), |t| ≤ 16 := by
    intro t ht
    obtain ⟨p, hp, rfl⟩ := List.mem_map.1 ht
    rw [h.cols, List.mem_append] at hp
    rw [hev, abs_of_nonneg (pow_two_nonneg _)]
    rcases hp with hp | hp <;> obtain ⟨j, -, rfl⟩ := List.mem_map.1 hp <;> simp only [circleSample, holeSample]
    · nlinarith [Real.neg_one_le_cos (2 * Real.pi * j / (2 * 32 : ℕ)), Real.cos_le_one (2 * Real.pi * j / (2 * 32 : ℕ))]
    · nlinarith [Real.neg_one_le_cos (2 * Real.pi * j / (2 * 32 : ℕ)), Real.cos_le_one (2 * Real.pi * j / (2 * 32 : ℕ))]
  have hB : ringBound 7 (X ^ 2) X 1 2 ≤ 16 := by
    rw [ringBound, hS, Real.log_one, abs_zero, max_eq_right (abs_nonneg _), abs_of_pos (Real.log_pos (by norm_num)), abs_of_pos (by norm_num)]
    have := Real.log_le_sub_one_of_pos (x := 2) two_pos
    linarith
  have hq : Real.sqrt ((2 * (2 * 32) : ℕ) : ℝ) ≤ 12 := by
    rw [Real.sqrt_le_left (by norm_num)]
    norm_num
  have hE : Real.sqrt ((2 * (2 * 32) : ℕ) : ℝ) * ((2 * (2 * 32) : ℕ) : ℝ) / 2 * (241 / 3 * (0 + 5 * ((1 / 2 : ℝ) ^ (2 * 32 - 2) / (1 - 1 / 2)) * 5)) +
      0 / (2 * Real.pi * Real.log (2 / 1)) ≤ 1 / 10 ^ 12 := by
    rw [zero_add, zero_div, add_zero]
    calc _ ≤ 12 * ((2 * (2 * 32) : ℕ) : ℝ) / 2 * (241 / 3 * (5 * ((1 / 2 : ℝ) ^ (2 * 32 - 2) / (1 - 1 / 2)) * 5)) := by gcongr
      _ ≤ _ := by norm_num
  have hfin : ∀ {M E : ℝ}, M ≤ 16 → 0 ≤ E → E ≤ 1 / 10 ^ 12 → 4 * Real.pi * M * E ≤ 1 / 10 ^ 9 := by
    intro M E hM h0 hE
    have := Real.pi_pos
    calc 4 * Real.pi * M * E ≤ 4 * Real.pi * 16 * E := by gcongr
      _ ≤ 4 * 4 * 16 * (1 / 10 ^ 12) := by
          gcongr
          exact Real.pi_le_four
      _ ≤ _ := by norm_num
  have hE0 : 0 ≤ Real.sqrt ((2 * (2 * 32) : ℕ) : ℝ) * ((2 * (2 * 32) : ℕ) : ℝ) / 2 * (241 / 3 * (0 + 5 * ((1 / 2 : ℝ) ^ (2 * 32 - 2) / (1 - 1 / 2)) * 5)) +
      0 / (2 * Real.pi * Real.log (2 / 1)) := by
    rw [zero_add, zero_div, add_zero]
    norm_num
  obtain ⟨rhs, I, -, -, hI, hI'⟩ := C132_energy hres h (by norm_num) (by norm_num) (by norm_num) (by norm_num) hsm hs (d := 2) (e := 2) (by norm_num)
    (by norm_num) (by rw [natDegree_X_pow]) (by rw [natDegree_X]; norm_num) (by rw [natDegree_X_pow]) (by rw [natDegree_X]; norm_num) hgr hgr ht rfl hu huv
  obtain ⟨rhs', J, -, -, hJ, -, hJ'⟩ := C132_mixed hres h (by norm_num) (by norm_num) (by norm_num) (by norm_num) hsm hs (d := 2) (e := 2) (by norm_num)
    (by norm_num) (by rw [natDegree_X_pow]) (by rw [natDegree_X]; norm_num) (P := [⟨⟨2, 0⟩, 1⟩]) (by simp) hgr (k1 := fun x _ => 2 * x) (k2 := fun _ _ => 0)
    hpg hM ht rfl hu hr
  rw [hc, hS, h.numPts] at hI' hJ'
  refine ⟨q, _, K, s, _, u, _, I, J, hd, hK, hs, init_arr h.ready hl, hu, hr, hI, hJ, _, _, hgr, hI'.trans (hfin hB hE0 hE), hJ'.trans (hfin le_rfl hE0 hE), ?_,
    (C132_polys h one_pos (by norm_num) (m := 2) (by norm_num) (by simp) (by simp) (by simp; norm_num) (by simp; norm_num) (δ := 1) (ε := 1)
      (fun c hc => ⟨1, by simp at hc; simp [hc]⟩) (fun c hc => ⟨1, by simp at hc; simp [hc]⟩) (by norm_num) hr hr hpg hpg).1⟩
  rw [C132_integral h one_pos (by norm_num) (m := 2) (by norm_num) (by simp)]
  simp only [hev]

end PFEM
