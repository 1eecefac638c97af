import Verif.Props.Fft
import Verif.Spec.Parts
import Mathlib.Analysis.PSeries
import Mathlib.Algebra.Order.BigOperators.Ring.Finset

/-!
Property theorem C49, stability: integration by the Fourier transform does not amplify errors.
-/

namespace PFEM
namespace Fft
open ZMod Finset

variable {N : ℕ} [NeZero N]

/-- Parseval's identity -/
theorem parseval (v : ZMod N → ℂ) : ∑ k, ‖dft v k‖ ^ 2 = N * ∑ j, ‖v j‖ ^ 2 := by
  have hN : (N : ℂ) ≠ 0 := by exact_mod_cast NeZero.ne N
  have key : ∑ k, dft v k * (starRingEnd ℂ) (dft v k) = N * ∑ j, v j * (starRingEnd ℂ) (v j) := by
    have h1 : ∀ k, dft v k * (starRingEnd ℂ) (dft v k) = ∑ j, v j * (starRingEnd ℂ) (stdAddChar (k * j) • dft v k) := by
      intro k
      rw [dft_apply, sum_mul]
      refine sum_congr rfl fun j _ => ?_
      rw [smul_eq_mul, smul_eq_mul, map_mul, conj_char, mul_comm k j]
      ring
    rw [sum_congr rfl fun k _ => h1 k, sum_comm, mul_sum]
    refine sum_congr rfl fun j _ => ?_
    rw [← mul_sum, ← map_sum]
    have h2 := congrFun (dft.symm_apply_apply v) j
    rw [invDFT_apply, smul_eq_mul] at h2
    have h3 : ∑ k, stdAddChar (k * j) • dft v k = N * v j := by
      rw [← h2]
      field_simp
    rw [h3, map_mul, Complex.conj_natCast]
    ring
  have e : ∀ z : ℂ, z * (starRingEnd ℂ) z = ((‖z‖ ^ 2 : ℝ) : ℂ) := fun z => by
    rw [Complex.mul_conj, Complex.normSq_eq_norm_sq]
  simp only [e] at key
  exact_mod_cast key

/-- the squares of the multipliers of `fft_antiderivative` -/
theorem mA_sq (len : ℝ) : ∑ k : ZMod N, ‖mA len k‖ ^ 2 ≤ (len / Real.pi) ^ 2 := by
  have hpi := Real.pi_pos
  have hN : 0 < N := Nat.pos_of_ne_zero (NeZero.ne N)
  set a : ℝ := (0.5 * len / Real.pi) ^ 2 with ha
  have ha0 : 0 ≤ a := sq_nonneg _
  have h1 : ∀ v ∈ range N, ‖mA len (v : ZMod N)‖ ^ 2 ≤
      if 0 < v then a * ((v : ℝ) ^ 2)⁻¹ + a * (((N - v : ℕ) : ℝ) ^ 2)⁻¹ else 0 := by
    intro v hv
    have hv := mem_range.1 hv
    rcases Nat.eq_zero_or_pos v with rfl | h0
    · simp [mA]
    · have hk : (v : ZMod N) ≠ 0 := fun h => by
        have := val_cast hv
        rw [h, ZMod.val_zero] at this
        omega
      have e : ‖mA len (v : ZMod N)‖ ^ 2 = a * ((sfreq (v : ZMod N) : ℝ) ^ 2)⁻¹ := by
        rw [mA, if_neg hk, norm_mul, norm_div, norm_neg, Complex.norm_I, Complex.norm_real, mul_pow, Real.norm_eq_abs, sq_abs, div_pow,
          Complex.norm_intCast, sq_abs, one_pow, ha]
        ring
      rw [if_pos h0, e, sfreq, val_cast hv]
      have p1 : 0 ≤ a * ((v : ℝ) ^ 2)⁻¹ := by positivity
      have p2 : 0 ≤ a * (((N - v : ℕ) : ℝ) ^ 2)⁻¹ := by positivity
      split
      · push_cast
        linarith
      · have : (((v : ℤ) - N : ℤ) : ℝ) ^ 2 = ((N - v : ℕ) : ℝ) ^ 2 := by
          rw [Nat.cast_sub hv.le]
          push_cast
          ring
        rw [this]
        linarith
  rw [← sum_range_zmod]
  refine (sum_le_sum h1).trans ?_
  rw [← sum_filter, show {v ∈ range N | 0 < v} = Ioo 0 N by ext v; simp [and_comm], sum_add_distrib]
  have h2 := sum_Ioo_inv_sq_le (α := ℝ) 0 N
  have h3 : ∑ v ∈ Ioo 0 N, (((N - v : ℕ) : ℝ) ^ 2)⁻¹ = ∑ v ∈ Ioo 0 N, ((v : ℝ) ^ 2)⁻¹ := by
    refine sum_nbij' (fun v => N - v) (fun v => N - v) ?_ ?_ ?_ ?_ ?_ <;> intro v hv <;> simp at hv ⊢ <;> omega
  rw [← mul_sum, ← mul_sum, h3]
  norm_num at h2
  have h4 : (len / Real.pi) ^ 2 = 4 * a := by rw [ha]; ring
  rw [h4]
  nlinarith

/-- the values of the antiderivative of bounded data -/
theorem apply_mA_le (len : ℝ) {e : ℝ} {f : ZMod N → ℝ} (hf : ∀ j, |f j| ≤ e) (j : ZMod N) : |apply (mA len) f j| ≤ |len| / Real.pi * e := by
  have hpi := Real.pi_pos
  have hN : (0 : ℝ) < N := by exact_mod_cast Nat.pos_of_ne_zero (NeZero.ne N)
  have he : 0 ≤ e := (abs_nonneg _).trans (hf 0)
  set v : ZMod N → ℂ := fun i => (f i : ℂ) with hv
  have h1 : |apply (mA len) f j| ≤ 1 / N * ∑ k, ‖dft v k‖ * ‖mA len k‖ := by
    refine (Complex.abs_re_le_norm _).trans ?_
    rw [invDFT_apply, norm_smul, norm_inv, Complex.norm_natCast, ← one_div]
    gcongr
    refine (norm_sum_le _ _).trans (sum_le_sum fun k _ => le_of_eq ?_)
    rw [norm_smul, norm_mul]
    have : ‖stdAddChar (k * j)‖ = 1 := by
      rw [stdAddChar_apply]
      exact Circle.norm_coe _
    rw [this, one_mul]
  have h2 : (∑ k, ‖dft v k‖ * ‖mA len k‖) ^ 2 ≤ (N * (|len| / Real.pi * e)) ^ 2 := by
    refine (sum_mul_sq_le_sq_mul_sq _ _ _).trans ?_
    have h3 : ∑ k, ‖dft v k‖ ^ 2 ≤ N * (N * e ^ 2) := by
      rw [parseval]
      gcongr
      calc ∑ j, ‖v j‖ ^ 2 ≤ ∑ _j : ZMod N, e ^ 2 := by
            refine sum_le_sum fun i _ => ?_
            rw [hv, Complex.norm_real, Real.norm_eq_abs]
            exact pow_le_pow_left₀ (abs_nonneg _) (hf i) 2
        _ = N * e ^ 2 := by simp [ZMod.card]
    calc _ ≤ (N * (N * e ^ 2)) * (len / Real.pi) ^ 2 := mul_le_mul h3 (mA_sq len) (sum_nonneg fun _ _ => sq_nonneg _) (by positivity)
      _ = _ := by rw [mul_pow, mul_pow, div_pow, div_pow, sq_abs]; ring
  have h4 := abs_le_of_sq_le_sq h2 (by positivity)
  rw [abs_of_nonneg (sum_nonneg fun _ _ => by positivity)] at h4
  calc _ ≤ 1 / N * (N * (|len| / Real.pi * e)) := h1.trans (by gcongr)
    _ = _ := by field_simp

theorem apply_sub (m : ZMod N → ℂ) (f g : ZMod N → ℝ) : apply m (fun i => f i - g i) = fun j => apply m f j - apply m g j := by
  funext j
  unfold apply
  rw [← Complex.sub_re, ← Pi.sub_apply, ← map_sub]
  congr 1
  refine congrFun (congrArg _ ?_) j
  funext k
  have : (fun i => ((f i - g i : ℝ) : ℂ)) = (fun i => (f i : ℂ)) - fun i => (g i : ℂ) := by
    funext i
    simp
  rw [this, map_sub]
  simp only [Pi.sub_apply]
  ring

end Fft

open Fft in
/-- C49, stability: if two arrays differ by at most `ε` in every entry, their antiderivatives over an interval of length `len` differ by at most
`len / π · ε`, whatever the number of entries. -/
theorem C49_stable {f g F G : List ℝ} {ε len : ℝ} (h : Within ε f g) (hF : fftAntiderivative f len = .ok F) (hG : fftAntiderivative g len = .ok G) :
    Within (|len| / Real.pi * ε) F G := by
  have hl : f.length = g.length := h.length_eq
  rcases eq_or_ne g [] with rfl | hg
  · rw [fftAntiderivative] at hG
    simp [Np.fft, bind, Except.bind] at hG
  have : NeZero g.length := ⟨by simpa using hg⟩
  rw [antiderivative_eq (N := g.length) hl] at hF
  rw [antiderivative_eq (N := g.length) rfl] at hG
  cases hF
  cases hG
  have hb : ∀ j : ZMod g.length, |vec g.length f j - vec g.length g j| ≤ ε := by
    intro j
    have hj : j.val < g.length := ZMod.val_lt j
    unfold vec
    rw [List.getD_eq_getElem _ _ (by omega), List.getD_eq_getElem _ _ hj]
    exact (List.forall₂_iff_get.1 h).2 j.val (by omega) hj
  unfold Within ofVec
  rw [List.forall₂_map_left_iff, List.forall₂_map_right_iff, List.forall₂_same]
  intro k _
  have := apply_mA_le (N := g.length) len hb k
  rwa [show (fun j => vec g.length f j - vec g.length g j) = fun i => vec g.length f i - vec g.length g i from rfl, apply_sub] at this

/-- two arrays that differ by `1`, and the interval of one turn -/
example : Within 1 [3, 0, 1, -1] [2, 1, 1, 0] ∧ (∃ F, fftAntiderivative [3, 0, 1, -1] (2 * Real.pi) = .ok F) ∧
    ∃ G, fftAntiderivative [2, 1, 1, 0] (2 * Real.pi) = .ok G := by
  have hp : 2 * Real.pi ≠ 0 := by have := Real.pi_pos; positivity
  obtain ⟨F, hF, -⟩ := C49_antiderivative [3, 0, 1, -1] (by simp) _ hp
  obtain ⟨G, hG, -⟩ := C49_antiderivative [2, 1, 1, 0] (by simp) _ hp
  exact ⟨by simp [Within]; norm_num, ⟨F, hF⟩, G, hG⟩

end PFEM
