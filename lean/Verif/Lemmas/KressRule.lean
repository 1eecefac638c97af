import Verif.Lemmas.EulerMaclaurin
import Verif.Props.Quad

/-!
The change of variables of the Kress rule: smoothness, substitution, and the order of the zeros of its weight.
-/

namespace PFEM
open Set intervalIntegral Quad

theorem kressS_contDiff {k : WithTop ℕ∞} : ContDiff ℝ k kressS := by
  unfold kressS; fun_prop

theorem kressC_contDiff {p : ℕ} {k : WithTop ℕ∞} : ContDiff ℝ k fun t => kressC p (kressS t) := by
  unfold kressC kressS; fun_prop

theorem kress_den {p : ℕ} (hp : 2 ≤ p) {t : ℝ} (ht : t ∈ Icc 0 (2 * Real.pi)) :
    kressC p (kressS t) ^ p + (1 - kressC p (kressS t)) ^ p ≠ 0 := by
  obtain ⟨s0, s1⟩ := kressS_mem ht.1 ht.2
  obtain ⟨c0, c1⟩ := kressC_mem hp s0 s1
  exact (denom_pos c0 c1).ne'

theorem kressT_contDiffAt {p : ℕ} (hp : 2 ≤ p) {k : WithTop ℕ∞} {t : ℝ} (ht : t ∈ Icc 0 (2 * Real.pi)) :
    ContDiffAt ℝ k (kressT p) t := by
  have hc := (kressC_contDiff (p := p) (k := k)).contDiffAt (x := t)
  unfold kressT
  exact ((contDiffAt_const.mul (hc.pow p))).div ((hc.pow p).add ((contDiffAt_const.sub hc).pow p)) (kress_den hp ht)

theorem kressT_mem {p : ℕ} (hp : 2 ≤ p) {t : ℝ} (ht : t ∈ Icc 0 (2 * Real.pi)) : kressT p t ∈ Icc 0 (2 * Real.pi) := by
  obtain ⟨s0, s1⟩ := kressS_mem ht.1 ht.2
  obtain ⟨c0, c1⟩ := kressC_mem hp s0 s1
  have hpi := Real.pi_pos
  have hd := denom_pos (p := p) c0 c1
  have h1 : 0 ≤ kressC p (kressS t) ^ p := pow_nonneg c0 p
  have h2 : 0 ≤ (1 - kressC p (kressS t)) ^ p := pow_nonneg (by linarith) p
  unfold kressT
  refine ⟨by positivity, ?_⟩
  rw [div_le_iff₀ hd]
  nlinarith

theorem kressS_zero : kressS 0 = -1 := by simp [kressS]
theorem kressS_end : kressS (2 * Real.pi) = 1 := by
  have := Real.pi_pos.ne'
  unfold kressS; field_simp; norm_num

theorem kressT_zero {p : ℕ} (hp : 2 ≤ p) : kressT p 0 = 0 := by
  simp [kressT, kressS_zero, kressC_neg_one, show p ≠ 0 by omega]
theorem kressT_end {p : ℕ} (hp : 2 ≤ p) : kressT p (2 * Real.pi) = 2 * Real.pi := by
  simp [kressT, kressS_end, kressC_one, show p ≠ 0 by omega]

/-- the weight without its zeros at the ends -/
noncomputable def kressU (p : ℕ) (t : ℝ) : ℝ :=
  let s := kressS t
  let c := kressC p s
  (3 * ((p : ℝ) - 2) * (s * s) + 2) * ((((0.5 - 1 / (p : ℝ)) * (s ^ 2 - s + 1) + 1 / p) / Real.pi) *
    (((0.5 - 1 / (p : ℝ)) * (s ^ 2 + s + 1) + 1 / p) / Real.pi)) ^ (p - 1) / (c ^ p + (1 - c) ^ p) ^ 2

theorem kressU_contDiffAt {p : ℕ} (hp : 2 ≤ p) {k : WithTop ℕ∞} {t : ℝ} (ht : t ∈ Icc 0 (2 * Real.pi)) :
    ContDiffAt ℝ k (kressU p) t := by
  have hc := (kressC_contDiff (p := p) (k := k)).contDiffAt (x := t)
  have hs := (kressS_contDiff (k := k)).contDiffAt (x := t)
  unfold kressU
  refine ContDiffAt.div ?_ (((hc.pow p).add ((contDiffAt_const.sub hc).pow p)).pow 2) (pow_ne_zero 2 (kress_den hp ht))
  fun_prop

theorem kressW_factor (p : ℕ) (t : ℝ) : kressW p t = (t - 0) ^ (p - 1) * ((2 * Real.pi - t) ^ (p - 1) * kressU p t) := by
  have hpi := Real.pi_pos.ne'
  have e1 : kressC p (kressS t) = t * (((0.5 - 1 / (p : ℝ)) * (kressS t ^ 2 - kressS t + 1) + 1 / p) / Real.pi) := by
    have : t = Real.pi * (kressS t + 1) := by unfold kressS; field_simp; ring
    rw [mul_div_assoc', eq_div_iff hpi]
    conv_rhs => lhs; rw [this]
    unfold kressC
    ring
  have e2 : 1 - kressC p (kressS t) = (2 * Real.pi - t) *
      (((0.5 - 1 / (p : ℝ)) * (kressS t ^ 2 + kressS t + 1) + 1 / p) / Real.pi) := by
    have : 2 * Real.pi - t = Real.pi * (1 - kressS t) := by unfold kressS; field_simp; ring
    rw [mul_div_assoc', eq_div_iff hpi, this]
    unfold kressC
    ring
  unfold kressW kressU
  dsimp only
  rw [show kressC p (kressS t) * (1 - kressC p (kressS t)) = (t - 0) * (2 * Real.pi - t) *
    ((((0.5 - 1 / (p : ℝ)) * (kressS t ^ 2 - kressS t + 1) + 1 / p) / Real.pi) *
    (((0.5 - 1 / (p : ℝ)) * (kressS t ^ 2 + kressS t + 1) + 1 / p) / Real.pi)) by rw [e2]; rw [e1]; ring]
  rw [mul_pow ((t - 0) * (2 * Real.pi - t)), mul_pow (t - 0)]
  ring

theorem kressW_factor' (p : ℕ) (t : ℝ) :
    kressW p t = (t - 2 * Real.pi) ^ (p - 1) * ((-1) ^ (p - 1) * t ^ (p - 1) * kressU p t) := by
  rw [kressW_factor, sub_zero, show 2 * Real.pi - t = (-1) * (t - 2 * Real.pi) by ring, mul_pow]
  ring

theorem kressW_contDiffAt {p : ℕ} (hp : 2 ≤ p) {k : WithTop ℕ∞} {t : ℝ} (ht : t ∈ Icc 0 (2 * Real.pi)) :
    ContDiffAt ℝ k (kressW p) t := by
  rw [show kressW p = fun t => (t - 0) ^ (p - 1) * ((2 * Real.pi - t) ^ (p - 1) * kressU p t) from funext (kressW_factor p)]
  have := kressU_contDiffAt hp (k := k) ht
  fun_prop

/-- derivatives of lower order vanish at a zero of order `m` -/
theorem iter_zero {a : ℝ} {S : ℝ → ℝ} {i m : ℕ} (hi : i < m) (hS : ContDiffAt ℝ i S a) :
    iteratedDeriv i (fun t => (t - a) ^ m * S t) a = 0 := by
  have h1 : ContDiffAt ℝ i (fun t : ℝ => (t - a) ^ m) a := by fun_prop
  have := iteratedDeriv_mul (n := i) h1 hS
  rw [show (fun t => (t - a) ^ m * S t) = (fun t : ℝ => (t - a) ^ m) * S from rfl, this]
  refine Finset.sum_eq_zero fun j hj => ?_
  have hj : j < m := by have := Finset.mem_range.1 hj; omega
  have h2 : iteratedDeriv j (fun t : ℝ => (t - a) ^ m) a = 0 := by
    have := congrFun (iteratedDeriv_comp_sub_const j (fun t : ℝ => t ^ m) a) a
    rw [this]
    simp
    omega
  rw [h2]
  simp

/-- the integral after the change of variables -/
theorem kress_substitution {p : ℕ} (hp : 2 ≤ p) {G : ℝ → ℝ} (hG : ContinuousOn G (Icc 0 (2 * Real.pi))) :
    ∫ t in (0 : ℝ)..2 * Real.pi, G (kressT p t) * kressW p t = ∫ t in (0 : ℝ)..2 * Real.pi, G t := by
  have hpi : (0 : ℝ) ≤ 2 * Real.pi := by positivity
  have h := intervalIntegral.integral_comp_mul_deriv'' (f := kressT p) (f' := kressW p) (g := G) (a := 0) (b := 2 * Real.pi)
    (by rw [uIcc_of_le hpi]; exact fun t ht => (kressT_contDiffAt hp (k := 0) ht).continuousAt.continuousWithinAt)
    (fun t ht => by
      rw [min_eq_left hpi, max_eq_right hpi] at ht
      exact (kressT_hasDerivAt p hp t ht.1.le ht.2.le).hasDerivWithinAt)
    (by rw [uIcc_of_le hpi]; exact fun t ht => (kressW_contDiffAt hp (k := 0) ht).continuousAt.continuousWithinAt)
    (by
      refine hG.mono ?_
      rw [uIcc_of_le hpi]
      rintro _ ⟨t, ht, rfl⟩
      exact kressT_mem hp ht)
  rw [kressT_zero hp, kressT_end hp] at h
  exact h

/-- the Kress sums of a continuous function converge to its integral -/
theorem kress_tendsto {p : ℕ} (hp : 2 ≤ p) {G : ℝ → ℝ} (hG : ContinuousOn G (Icc 0 (2 * Real.pi))) {ε : ℝ} (hε : 0 < ε) :
    ∃ N0 : ℕ, ∀ N ≥ N0, |lsum (2 * Real.pi) N (fun t => G (kressT p t) * kressW p t) -
      ∫ t in (0 : ℝ)..2 * Real.pi, G t| < ε := by
  have hF : ContinuousOn (fun t => G (kressT p t) * kressW p t) (Icc 0 (2 * Real.pi)) := by
    refine ContinuousOn.mul (hG.comp (fun t ht => ?_) fun t ht => kressT_mem hp ht) fun t ht => ?_
    · exact (kressT_contDiffAt hp (k := 0) ht).continuousAt.continuousWithinAt
    · exact (kressW_contDiffAt hp (k := 0) ht).continuousAt.continuousWithinAt
  have := lsum_tendsto (by positivity) hF hε
  rwa [kress_substitution hp hG] at this

/-- the integrand after the change of variables vanishes at the ends, with its derivatives up to order `p - 2` -/
theorem kress_flat {p k : ℕ} (hp : 2 ≤ p) {G : ℝ → ℝ} (hG : ∀ t ∈ Icc 0 (2 * Real.pi), ContDiffAt ℝ k G t) :
    (∀ t ∈ Icc 0 (2 * Real.pi), ContDiffAt ℝ k (fun t => G (kressT p t) * kressW p t) t) ∧ ∀ i, i + 1 < p → i ≤ k →
      iteratedDeriv i (fun t => G (kressT p t) * kressW p t) 0 = 0 ∧
      iteratedDeriv i (fun t => G (kressT p t) * kressW p t) (2 * Real.pi) = 0 := by
  have hpi : (0 : ℝ) < 2 * Real.pi := by positivity
  have hGl : ∀ t ∈ Icc 0 (2 * Real.pi), ContDiffAt ℝ k (fun t => G (kressT p t)) t := fun t ht =>
    (hG _ (kressT_mem hp ht)).comp t (kressT_contDiffAt hp ht)
  have hF : ∀ t ∈ Icc 0 (2 * Real.pi), ContDiffAt ℝ k (fun t => G (kressT p t) * kressW p t) t := fun t ht =>
    (hGl t ht).mul (kressW_contDiffAt hp ht)
  have h0 : (0 : ℝ) ∈ Icc 0 (2 * Real.pi) := ⟨le_rfl, hpi.le⟩
  have h1 : 2 * Real.pi ∈ Icc 0 (2 * Real.pi) := ⟨hpi.le, le_rfl⟩
  have z0 : ∀ i, i + 1 < p → i ≤ k → iteratedDeriv i (fun t => G (kressT p t) * kressW p t) 0 = 0 := by
    intro i hi hik
    have e : (fun t => G (kressT p t) * kressW p t) = fun t => (t - 0) ^ (p - 1) *
        (G (kressT p t) * ((2 * Real.pi - t) ^ (p - 1) * kressU p t)) := by
      funext t
      rw [kressW_factor]; ring
    rw [e]
    refine iter_zero (by omega) (((hGl 0 h0).of_le (by exact_mod_cast hik)).mul ?_)
    have := kressU_contDiffAt hp (k := (i : ℕ)) h0
    fun_prop
  have z1 : ∀ i, i + 1 < p → i ≤ k → iteratedDeriv i (fun t => G (kressT p t) * kressW p t) (2 * Real.pi) = 0 := by
    intro i hi hik
    have e : (fun t => G (kressT p t) * kressW p t) = fun t => (t - 2 * Real.pi) ^ (p - 1) *
        (G (kressT p t) * ((-1) ^ (p - 1) * t ^ (p - 1) * kressU p t)) := by
      funext t
      rw [kressW_factor']; ring
    rw [e]
    refine iter_zero (by omega) (((hGl _ h1).of_le (by exact_mod_cast hik)).mul ?_)
    have := kressU_contDiffAt hp (k := (i : ℕ)) h1
    fun_prop
  exact ⟨hF, fun i h1 h2 => ⟨z0 i h1 h2, z1 i h1 h2⟩⟩

/-- the order of convergence of the Kress rule with parameter `p`: `p` if it is even, `p + 1` if it is odd -/
theorem kress_rate {p k : ℕ} (hp : 2 ≤ p) (hk : 1 ≤ k) (hkp : k ≤ p + p % 2) {G : ℝ → ℝ}
    (hG : ∀ t ∈ Icc 0 (2 * Real.pi), ContDiffAt ℝ k G t) :
    ∃ M, ∀ N : ℕ, 0 < N → |lsum (2 * Real.pi) N (fun t => G (kressT p t) * kressW p t) -
      ∫ t in (0 : ℝ)..2 * Real.pi, G t| ≤ M / (N : ℝ) ^ k := by
  have hpi : (0 : ℝ) < 2 * Real.pi := by positivity
  obtain ⟨hF, hz⟩ := kress_flat hp hG
  have z0 := fun i h1 h2 => (hz i h1 h2).1
  have z1 := fun i h1 h2 => (hz i h1 h2).2
  obtain ⟨M, hM⟩ := tsum_rate hpi hk hF (fun i ho hi => by
    obtain ⟨m, rfl⟩ := ho
    rw [z0 _ (by omega) (by omega), z1 _ (by omega) (by omega)])
  refine ⟨M, fun N hN => ?_⟩
  have := hM N hN
  rw [kress_substitution hp (fun t ht => (hG t ht).continuousAt.continuousWithinAt), tsum] at this
  have f0 := z0 0 (by omega) (by omega)
  have f1 := z1 0 (by omega) (by omega)
  rw [iteratedDeriv_zero] at f0 f1
  rw [f0, f1] at this
  simpa using this

/-- the trapezoid sums of a periodic function converge with every order -/
theorem periodic_rate {T : ℝ} (hT : 0 < T) {k : ℕ} (hk : 1 ≤ k) {G : ℝ → ℝ} (hper : ∀ t, G (t + T) = G t)
    (hG : ∀ t ∈ Icc 0 T, ContDiffAt ℝ k G t) :
    ∃ M, ∀ N : ℕ, 0 < N → |lsum T N G - ∫ t in (0 : ℝ)..T, G t| ≤ M / (N : ℝ) ^ k := by
  obtain ⟨M, hM⟩ := tsum_rate hT hk hG (fun i _ _ => by
    have := congrFun (iteratedDeriv_comp_add_const i G T) 0
    rw [show (fun z => G (z + T)) = G from funext hper, zero_add] at this
    exact this.symm)
  refine ⟨M, fun N hN => ?_⟩
  have := hM N hN
  have e := hper 0
  rw [zero_add] at e
  rw [tsum, e] at this
  simpa using this

end PFEM
