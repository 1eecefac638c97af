import Verif.Props.Fft
import Verif.Lemmas.FourierDecay

/-!
Property theorems C100: differentiation and integration by the Fourier transform converge faster than the power of the number of
samples allowed by the smoothness of the function.
-/

namespace PFEM
open Fft ZMod Wave

namespace Fft
variable {N : ℕ} [NeZero N]

/-- a wave on the grid is a character -/
theorem wave_grid {L : ℝ} (hL : L ≠ 0) (k : ℤ) (j : ZMod N) : wave L k (j.val * L / N) = stdAddChar (j * (k : ZMod N)) := by
  have hN : (N : ℂ) ≠ 0 := by exact_mod_cast NeZero.ne N
  have hL' : (L : ℂ) ≠ 0 := by exact_mod_cast hL
  have := stdAddChar_coe (N := N) ((j.val : ℤ) * k)
  push_cast at this
  rw [ZMod.natCast_zmod_val] at this
  rw [this]
  unfold wave
  congr 1
  push_cast
  field_simp

/-- a multiplier applied to a series of characters -/
theorem mult_series {m : ZMod N → ℂ} {v : ZMod N → ℂ} {c : ℤ → ℂ}
    (h : ∀ j, HasSum (fun k : ℤ => c k * stdAddChar (j * (k : ZMod N))) (v j)) (j : ZMod N) :
    HasSum (fun k : ℤ => c k * m k * stdAddChar (j * (k : ZMod N))) (dft.symm (fun k => dft v k * m k) j) := by
  let T : (ZMod N → ℂ) →ₗ[ℂ] ℂ :=
    { toFun := fun v => dft.symm (fun k => dft v k * m k) j
      map_add' := fun v w => by
        rw [← Pi.add_apply, ← map_add]
        refine congrArg (fun u : ZMod N → ℂ => dft.symm u j) (funext fun k => ?_)
        rw [map_add, Pi.add_apply, add_mul]
        rfl
      map_smul' := fun a v => by
        rw [RingHom.id_apply, ← Pi.smul_apply, ← _root_.map_smul]
        refine congrArg (fun u : ZMod N → ℂ => dft.symm u j) (funext fun k => ?_)
        rw [_root_.map_smul, Pi.smul_apply, Pi.smul_apply, smul_eq_mul, smul_eq_mul, mul_assoc] }
  have hT : ∀ l : ZMod N, T (fun j => stdAddChar (j * l)) = m l * stdAddChar (j * l) := by
    intro l
    have : (fun k => dft (fun j : ZMod N => (stdAddChar (j * l) : ℂ)) k * m k) =
        dft (m l • fun j : ZMod N => (stdAddChar (j * l) : ℂ)) := by
      funext k
      rw [_root_.map_smul, Pi.smul_apply, dft_char, smul_eq_mul]
      by_cases hk : k = l
      · rw [hk]; ring
      · simp [hk]
    change dft.symm (fun k => dft (fun j : ZMod N => (stdAddChar (j * l) : ℂ)) k * m k) j = _
    rw [this, LinearEquiv.symm_apply_apply]
    rfl
  have hv : HasSum (fun k : ℤ => (c k • fun j : ZMod N => (stdAddChar (j * (k : ZMod N)) : ℂ))) v :=
    Pi.hasSum.2 fun i => h i
  have := (LinearMap.toContinuousLinearMap T).hasSum hv
  refine this.congr_fun fun k => ?_
  simp only [LinearMap.coe_toContinuousLinearMap', _root_.map_smul, hT, smul_eq_mul, mul_assoc]

/-- the frequency of a wave on the grid -/
theorem sfreq_cast (k : ℤ) (h : 2 * |k| < N) : sfreq (k : ZMod N) = k := by
  rcases le_or_gt 0 k with h0 | h0
  · lift k to ℕ using h0
    rw [abs_of_nonneg (by positivity)] at h
    have hv : ((k : ℤ) : ZMod N) = (k : ZMod N) := by push_cast; rfl
    unfold sfreq
    rw [hv, val_cast (by omega), if_pos (by omega)]
  · rw [abs_of_neg h0] at h
    obtain ⟨q, hq⟩ : ∃ q : ℕ, k = -(q : ℤ) := ⟨k.natAbs, by omega⟩
    subst hq
    have hq : (q : ZMod N).val = q := val_cast (by omega)
    have hn : ¬ Nyq (q : ZMod N) := by unfold Nyq; omega
    push_cast
    rw [sfreq_neg hn]
    unfold sfreq
    rw [hq, if_pos (by omega)]

theorem sfreq_abs (k : ZMod N) : 2 * |sfreq k| ≤ N := by
  have := ZMod.val_lt k
  unfold sfreq
  split
  · rw [abs_of_nonneg (by positivity)]; omega
  · rw [abs_of_nonpos (by omega)]; omega

theorem mD_wave (L : ℝ) {k : ℤ} (h : 2 * |k| < N) : mD L (k : ZMod N) = 2 * Real.pi * Complex.I * k / L := by
  unfold mD
  rw [sfreq_cast k h]
  push_cast
  ring

theorem mD_norm {L : ℝ} (hL : 0 < L) (k : ZMod N) : ‖mD L k‖ ≤ Real.pi * N / L := by
  unfold mD
  have hpi := Real.pi_pos
  have h : |(sfreq k : ℝ)| ≤ N / 2 := by
    have := sfreq_abs k
    have h2 : (2 : ℝ) * |(sfreq k : ℝ)| ≤ N := by exact_mod_cast this
    linarith
  rw [norm_mul, norm_mul, Complex.norm_I, one_mul, Complex.norm_real, Complex.norm_intCast, Real.norm_of_nonneg (by positivity)]
  calc _ ≤ (N / 2 : ℝ) * (2 * Real.pi / L) := by gcongr
    _ = _ := by ring

theorem mA_norm {L : ℝ} (hL : 0 < L) (k : ZMod N) : ‖mA L k‖ ≤ L / (2 * Real.pi) := by
  have hpi := Real.pi_pos
  unfold mA
  split
  · simp; positivity
  · next h =>
    have h1 : sfreq k ≠ 0 := fun h2 => h ((sfreq_zero_iff k).1 h2)
    have h2 : (1 : ℝ) ≤ |(sfreq k : ℝ)| := by exact_mod_cast Int.one_le_abs h1
    rw [norm_mul, norm_div, norm_neg, Complex.norm_I, Complex.norm_real, Complex.norm_intCast, Real.norm_of_nonneg (by positivity)]
    calc _ ≤ 1 * (0.5 * L / Real.pi) := by
          gcongr
          rw [div_le_one (by linarith)]
          exact h2
      _ = _ := by ring

theorem mA_wave {L : ℝ} (hL : L ≠ 0) {k : ℤ} (h0 : k ≠ 0) (h : 2 * |k| < N) :
    mA L (k : ZMod N) * (2 * Real.pi * Complex.I * k / L) = 1 := by
  have hs := sfreq_cast (N := N) k h
  have hk : (k : ZMod N) ≠ 0 := fun hk => h0 (by rw [← hs, hk, (sfreq_zero_iff 0).2 rfl])
  have := mD_mul_mA (N := N) hL (k : ZMod N)
  rw [if_neg hk, mD_wave L h] at this
  rw [mul_comm]
  exact this

/-- high frequencies are small -/
theorem high_small {p : ℕ} (hp : 1 ≤ p) {k : ℤ} (h : ¬ 2 * |k| < (N : ℤ)) (hk : k ≠ 0) {B : ℝ} (hB : 0 ≤ B) :
    |(k : ℝ)| * (B / |(k : ℝ)| ^ (p + 2)) ≤ 2 ^ (p - 1) * B / (N : ℝ) ^ (p - 1) * high N k := by
  have hN : (0 : ℝ) < N := by exact_mod_cast Nat.pos_of_ne_zero (NeZero.ne N)
  have hk' : 0 < |(k : ℝ)| := by positivity
  have h2 : (N : ℝ) ≤ 2 * |(k : ℝ)| := by
    have : (N : ℤ) ≤ 2 * |k| := not_lt.1 h
    exact_mod_cast this
  have e : |(k : ℝ)| * (B / |(k : ℝ)| ^ (p + 2)) = 2 ^ (p - 1) * B / (2 * |(k : ℝ)|) ^ (p - 1) * (1 / |(k : ℝ)| ^ 2) := by
    obtain ⟨q, rfl⟩ : ∃ q, p = q + 1 := ⟨p - 1, by omega⟩
    rw [mul_pow, Nat.add_sub_cancel, show q + 1 + 2 = q + 3 by ring, pow_add]
    field_simp
  unfold high
  rw [e, if_neg h]
  gcongr

/-- the sum of the bounds -/
theorem high_total {p : ℕ} (hp : 1 ≤ p) {B S : ℝ} (hB : 0 ≤ B) (hS : S ≤ 8 / N) :
    2 ^ (p - 1) * B / (N : ℝ) ^ (p - 1) * S ≤ 2 ^ (p + 2) * B / (N : ℝ) ^ p := by
  have hN : (0 : ℝ) < N := by exact_mod_cast Nat.pos_of_ne_zero (NeZero.ne N)
  calc _ ≤ 2 ^ (p - 1) * B / (N : ℝ) ^ (p - 1) * (8 / N) := by gcongr
    _ = _ := by
      obtain ⟨q, rfl⟩ : ∃ q, p = q + 1 := ⟨p - 1, by omega⟩
      rw [Nat.add_sub_cancel, show q + 1 + 2 = q + 3 by ring, pow_add 2 q 3, pow_succ (N : ℝ) q]
      field_simp
      norm_num

end Fft

/-- the complex version of a real function is as smooth and as periodic -/
theorem complexify {f : ℝ → ℝ} {n : WithTop ℕ∞} (h : ContDiff ℝ n f) : ContDiff ℝ n fun x => (f x : ℂ) :=
  Complex.ofRealCLM.contDiff.comp h

theorem deriv_complexify {f : ℝ → ℝ} (h : Differentiable ℝ f) (x : ℝ) : deriv (fun x => (f x : ℂ)) x = ((deriv f x : ℝ) : ℂ) :=
  ((h x).hasDerivAt.ofReal_comp).deriv

theorem iteratedDeriv_complexify {f : ℝ → ℝ} : ∀ {m : ℕ}, ContDiff ℝ m f →
    iteratedDeriv m (fun x => (f x : ℂ)) = fun x => ((iteratedDeriv m f x : ℝ) : ℂ) := by
  intro m
  induction m generalizing f with
  | zero => intro _; simp
  | succ m ih =>
    intro h
    have h1 : ContDiff ℝ (m + 1 : ℕ) f := h
    rw [show ((m + 1 : ℕ) : WithTop ℕ∞) = (m : WithTop ℕ∞) + 1 by norm_cast, contDiff_succ_iff_deriv] at h1
    rw [iteratedDeriv_succ', iteratedDeriv_succ', ← ih h1.2.2]
    congr 1
    funext x
    exact deriv_complexify h1.1 x

theorem lipschitz_complexify {f : ℝ → ℝ} {Λ : NNReal} (h : LipschitzWith Λ f) : LipschitzWith Λ fun x => (f x : ℂ) := by
  refine LipschitzWith.of_dist_le_mul fun x y => ?_
  rw [Complex.dist_eq, ← Complex.ofReal_sub, Complex.norm_real, ← dist_eq_norm]
  exact h.dist_le_mul x y

/-- C100: `fft_derivative` of `N` samples of a periodic function with `p + 1` continuous derivatives, the last of
which has a Lipschitz bound, differs from the samples of the
derivative by at most a constant, the same for all `N`, over `N ^ p`. -/
theorem C100_derivative {L : ℝ} (hL : 0 < L) {f : ℝ → ℝ} (hp : ∀ x, f (x + L) = f x) {p : ℕ} (h1p : 1 ≤ p)
    (hf : ContDiff ℝ (p + 1 : ℕ) f) {Λ : NNReal} (hl : LipschitzWith Λ (iteratedDeriv (p + 1) f)) :
    ∃ C, ∀ N : ℕ, 0 < N → ∃ d, fftDerivative (samples N L f) L = .ok d ∧ d.length = N ∧
      ∀ j < N, |d.getD j 0 - deriv f (j * L / N)| ≤ C / (N : ℝ) ^ p := by
  have hpc : ∀ x, ((f (x + L) : ℝ) : ℂ) = f x := fun x => by rw [hp]
  have hfc := complexify hf
  obtain ⟨⟨B, hB0, hB⟩, hsd⟩ := series_deriv hL hpc h1p hfc (by
    rw [iteratedDeriv_complexify hf]
    exact lipschitz_complexify hl)
  have hpi := Real.pi_pos
  have hfd : Differentiable ℝ f := hf.differentiable (by norm_cast)
  refine ⟨2 * (2 * Real.pi / L) * (2 ^ (p + 2) * B), fun N hN => ?_⟩
  have : NeZero N := ⟨hN.ne'⟩
  obtain ⟨S, hS, hS8⟩ := high_sum hN
  refine ⟨_, derivative_eq (samples_length L f) hL.ne', ofVec_length _, fun j hj => ?_⟩
  have hN' : (0 : ℝ) < N := by exact_mod_cast hN
  set c := coef L fun x => (f x : ℂ) with hc
  have hser : ∀ i : ZMod N, HasSum (fun k : ℤ => c k * stdAddChar (i * (k : ZMod N))) (((vec N (samples N L f) i : ℝ) : ℂ)) := by
    intro i
    rw [vec_samples]
    refine (hsd _).1.congr_fun fun k => ?_
    rw [wave_grid hL.ne']
  have hval : (j : ZMod N).val = j := val_cast hj
  have h1 := mult_series (m := mD L) hser (j : ZMod N)
  have h2 := (hsd (j * L / N)).2
  rw [deriv_complexify hfd] at h2
  have h3 := h1.sub h2
  have hd : (ofVec (apply (mD L) (vec N (samples N L f)))).getD j 0 - deriv f (j * L / N) =
      (dft.symm (fun k => dft (fun i => ((vec N (samples N L f) i : ℝ) : ℂ)) k * mD L k) (j : ZMod N) - ((deriv f (j * L / N) : ℝ) : ℂ)).re := by
    rw [List.getD_eq_getElem _ _ (by rw [ofVec_length]; exact hj)]
    simp [ofVec, apply]
  rw [hd]
  refine (Complex.abs_re_le_norm _).trans ?_
  have hsum : HasSum (fun k : ℤ => 2 * (2 * Real.pi / L) * (2 ^ (p - 1) * B / (N : ℝ) ^ (p - 1)) * high N k)
      (2 * (2 * Real.pi / L) * (2 ^ (p - 1) * B / (N : ℝ) ^ (p - 1)) * S) := hS.mul_left _
  refine (h3.norm_le_of_bounded hsum fun k => ?_).trans (by
    have := mul_le_mul_of_nonneg_left (high_total (N := N) h1p hB0 hS8) (by positivity : (0 : ℝ) ≤ 2 * (2 * Real.pi / L))
    exact (le_of_eq (by ring)).trans (this.trans (le_of_eq (by ring))))
  have hw : wave L k (j * L / N) = stdAddChar ((j : ZMod N) * (k : ZMod N)) := by
    have := wave_grid (N := N) hL.ne' k (j : ZMod N)
    rwa [hval] at this
  rw [hw, show c k * mD L (k : ZMod N) * stdAddChar ((j : ZMod N) * (k : ZMod N)) -
      2 * Real.pi * Complex.I * k / L * coef L (fun x => (f x : ℂ)) k * stdAddChar ((j : ZMod N) * (k : ZMod N)) =
      (mD L (k : ZMod N) - 2 * Real.pi * Complex.I * k / L) * c k * stdAddChar ((j : ZMod N) * (k : ZMod N)) by rw [hc]; ring,
    norm_mul, ← hw, wave_norm, mul_one, norm_mul]
  by_cases hk : 2 * |k| < (N : ℤ)
  · rw [mD_wave L hk, sub_self, norm_zero, zero_mul]
    have := high_nonneg N k
    positivity
  · have hk0 : k ≠ 0 := fun h0 => hk (by rw [h0]; simpa using hN)
    have hkp : 0 < |(k : ℝ)| := by positivity
    have h4 : ‖mD L (k : ZMod N) - 2 * Real.pi * Complex.I * k / L‖ ≤ 2 * (2 * Real.pi / L) * |(k : ℝ)| := by
      have h5 : ‖(2 * Real.pi * Complex.I * k / L : ℂ)‖ = 2 * Real.pi * |(k : ℝ)| / L := by
        simp only [norm_div, norm_mul, Complex.norm_I, Complex.norm_real, Complex.norm_intCast, Real.norm_eq_abs, mul_one,
          abs_of_pos hL, abs_of_pos Real.pi_pos]
        norm_num
      have h6 : (N : ℝ) ≤ 2 * |(k : ℝ)| := by
        have : (N : ℤ) ≤ 2 * |k| := not_lt.1 hk
        exact_mod_cast this
      calc _ ≤ Real.pi * N / L + 2 * Real.pi * |(k : ℝ)| / L := (norm_sub_le _ _).trans (by rw [h5]; gcongr; exact mD_norm hL _)
        _ ≤ Real.pi * (2 * |(k : ℝ)|) / L + 2 * Real.pi * |(k : ℝ)| / L := by gcongr
        _ = _ := by ring
    calc _ ≤ 2 * (2 * Real.pi / L) * |(k : ℝ)| * (B / |(k : ℝ)| ^ (p + 2)) := by gcongr; exact hB k hk0
      _ = 2 * (2 * Real.pi / L) * (|(k : ℝ)| * (B / |(k : ℝ)| ^ (p + 2))) := by ring
      _ ≤ 2 * (2 * Real.pi / L) * (2 ^ (p - 1) * B / (N : ℝ) ^ (p - 1) * high N k) := mul_le_mul_of_nonneg_left (high_small h1p hk hk0 hB0) (by positivity)
      _ = _ := by ring

/-- C100: `fft_antiderivative` of `N` samples of the derivative of a periodic function `f` with `p + 1` continuous derivatives, the
last of which has a Lipschitz bound, plus any constant, differs from the samples of `f` less its mean by at most a constant, the same for all `N`, over `N ^ p`. -/
theorem C100_antiderivative {L : ℝ} (hL : 0 < L) {f : ℝ → ℝ} (hp : ∀ x, f (x + L) = f x) {p : ℕ} (h1p : 1 ≤ p)
    (hf : ContDiff ℝ (p + 1 : ℕ) f) {Λ : NNReal} (hl : LipschitzWith Λ (iteratedDeriv (p + 1) f))
    (q : ℝ) :
    ∃ C, ∀ N : ℕ, 0 < N → ∃ F, fftAntiderivative (samples N L fun t => deriv f t + q) L = .ok F ∧ F.length = N ∧
      ∀ j < N, |F.getD j 0 - (f (j * L / N) - (∫ t in (0 : ℝ)..L, f t) / L)| ≤ C / (N : ℝ) ^ p := by
  have hpc : ∀ x, ((f (x + L) : ℝ) : ℂ) = f x := fun x => by rw [hp]
  have hfc := complexify hf
  obtain ⟨⟨B, hB0, hB⟩, hsd⟩ := series_deriv hL hpc h1p hfc (by
    rw [iteratedDeriv_complexify hf]
    exact lipschitz_complexify hl)
  have hpi := Real.pi_pos
  have hL' : (L : ℂ) ≠ 0 := by exact_mod_cast hL.ne'
  have hfd : Differentiable ℝ f := hf.differentiable (by norm_cast)
  refine ⟨2 * (2 ^ (p + 2) * B), fun N hN => ?_⟩
  have : NeZero N := ⟨hN.ne'⟩
  obtain ⟨S, hS, hS8⟩ := high_sum hN
  refine ⟨_, antiderivative_eq (samples_length L _) L, ofVec_length _, fun j hj => ?_⟩
  have hN' : (0 : ℝ) < N := by exact_mod_cast hN
  set c := coef L fun x => (f x : ℂ) with hc
  have hc0 : c 0 = (((∫ t in (0 : ℝ)..L, f t) / L : ℝ) : ℂ) := by
    rw [hc]
    unfold coef wave
    simp only [neg_zero, Int.cast_zero, mul_zero, zero_mul, zero_div, Complex.exp_zero, one_mul]
    rw [intervalIntegral.integral_ofReal, Complex.real_smul]
    push_cast
    ring
  let d : ℤ → ℂ := fun k => 2 * Real.pi * Complex.I * k / L * c k + if k = 0 then (q : ℂ) else 0
  have hser : ∀ i : ZMod N, HasSum (fun k : ℤ => d k * stdAddChar (i * (k : ZMod N)))
      (((vec N (samples N L fun t => deriv f t + q) i : ℝ) : ℂ)) := by
    intro i
    rw [vec_samples]
    have h2 := (hsd (i.val * L / N)).2
    rw [deriv_complexify hfd] at h2
    have h3 : HasSum (fun k : ℤ => if k = 0 then (q : ℂ) else 0) (q : ℂ) := hasSum_ite_eq 0 (q : ℂ)
    push_cast
    refine (h2.add h3).congr_fun fun k => ?_
    rw [wave_grid hL.ne']
    simp only [d]
    by_cases hk : k = 0
    · subst hk; simp
    · simp [hk, hc]
  have hval : (j : ZMod N).val = j := val_cast hj
  have h1 := mult_series (m := mA L) hser (j : ZMod N)
  have h2 := ((hsd (j * L / N)).1).sub (hasSum_ite_eq (0 : ℤ) (c 0))
  have h3 := h1.sub h2
  have hd : (ofVec (apply (mA L) (vec N (samples N L fun t => deriv f t + q)))).getD j 0 -
        (f (j * L / N) - (∫ t in (0 : ℝ)..L, f t) / L) =
      (dft.symm (fun k => dft (fun i => ((vec N (samples N L fun t => deriv f t + q) i : ℝ) : ℂ)) k * mA L k) (j : ZMod N) -
        (((f (j * L / N) : ℝ) : ℂ) - c 0)).re := by
    rw [List.getD_eq_getElem _ _ (by rw [ofVec_length]; exact hj), hc0, ← Complex.ofReal_sub, Complex.sub_re, Complex.ofReal_re]
    simp [ofVec, apply]
  rw [hd]
  refine (Complex.abs_re_le_norm _).trans ?_
  have hsum : HasSum (fun k : ℤ => 2 * (2 ^ (p - 1) * B / (N : ℝ) ^ (p - 1)) * high N k)
      (2 * (2 ^ (p - 1) * B / (N : ℝ) ^ (p - 1)) * S) := hS.mul_left _
  refine (h3.norm_le_of_bounded hsum fun k => ?_).trans (by
    have := mul_le_mul_of_nonneg_left (high_total (N := N) h1p hB0 hS8) (by positivity : (0 : ℝ) ≤ 2)
    exact (le_of_eq (by ring)).trans (this.trans (le_of_eq (by ring))))
  have hw : wave L k (j * L / N) = stdAddChar ((j : ZMod N) * (k : ZMod N)) := by
    have := wave_grid (N := N) hL.ne' k (j : ZMod N)
    rwa [hval] at this
  by_cases hk0 : k = 0
  · subst hk0
    have : mA L ((0 : ℤ) : ZMod N) = 0 := by simp [mA]
    rw [this, hw]
    have := high_nonneg N 0
    simp [hc]
    positivity
  have hkp : 0 < |(k : ℝ)| := by positivity
  have hdk : d k = 2 * Real.pi * Complex.I * k / L * c k := by simp [d, hk0]
  rw [hw, hdk, if_neg hk0, sub_zero, show 2 * Real.pi * Complex.I * k / L * c k * mA L (k : ZMod N) *
      stdAddChar ((j : ZMod N) * (k : ZMod N)) - coef L (fun x => (f x : ℂ)) k * stdAddChar ((j : ZMod N) * (k : ZMod N)) =
      (mA L (k : ZMod N) * (2 * Real.pi * Complex.I * k / L) - 1) * c k * stdAddChar ((j : ZMod N) * (k : ZMod N)) by rw [hc]; ring,
    norm_mul, ← hw, wave_norm, mul_one, norm_mul]
  by_cases hk : 2 * |k| < (N : ℤ)
  · rw [mA_wave hL.ne' hk0 hk, sub_self, norm_zero, zero_mul]
    have := high_nonneg N k
    positivity
  · have h4 : ‖mA L (k : ZMod N) * (2 * Real.pi * Complex.I * k / L) - 1‖ ≤ 2 * |(k : ℝ)| := by
      have h5 : ‖(2 * Real.pi * Complex.I * k / L : ℂ)‖ = 2 * Real.pi * |(k : ℝ)| / L := by
        simp only [norm_div, norm_mul, Complex.norm_I, Complex.norm_real, Complex.norm_intCast, Real.norm_eq_abs, mul_one,
          abs_of_pos hL, abs_of_pos Real.pi_pos]
        norm_num
      have h6 : (1 : ℝ) ≤ |(k : ℝ)| := by exact_mod_cast Int.one_le_abs hk0
      calc _ ≤ L / (2 * Real.pi) * (2 * Real.pi * |(k : ℝ)| / L) + 1 := (norm_sub_le _ _).trans (by
            rw [norm_mul, h5, norm_one]; gcongr; exact mA_norm hL _)
        _ = |(k : ℝ)| + 1 := by field_simp
        _ ≤ _ := by linarith
    calc _ ≤ 2 * |(k : ℝ)| * (B / |(k : ℝ)| ^ (p + 2)) := by gcongr; exact hB k hk0
      _ = 2 * (|(k : ℝ)| * (B / |(k : ℝ)| ^ (p + 2))) := by ring
      _ ≤ 2 * (2 ^ (p - 1) * B / (N : ℝ) ^ (p - 1) * high N k) := mul_le_mul_of_nonneg_left (high_small h1p hk hk0 hB0) (by positivity)
      _ = _ := by ring

/-- one more continuous derivative is enough -/
theorem periodic_lipschitz {L : ℝ} (hL : 0 < L) {f : ℝ → ℝ} (hp : ∀ x, f (x + L) = f x) {q : ℕ} (hf : ContDiff ℝ (q + 1 : ℕ) f) :
    ∃ Λ, LipschitzWith Λ (iteratedDeriv q f) := by
  have hper : ∀ j : ℕ, ∀ x, iteratedDeriv j f (x + L) = iteratedDeriv j f x := fun j x => by
    have := congrFun (iteratedDeriv_comp_add_const j f L) x
    rw [← this]
    exact congrArg (fun g => iteratedDeriv j g x) (funext hp)
  have hc : Continuous (iteratedDeriv (q + 1) f) := hf.continuous_iteratedDeriv _ le_rfl
  obtain ⟨B, hB0, hB⟩ := Wave.periodic_bounded hL (f := fun x => ((iteratedDeriv (q + 1) f x : ℝ) : ℂ))
    (fun x => by rw [hper]) (Complex.continuous_ofReal.comp hc)
  refine ⟨⟨B, hB0⟩, lipschitzWith_of_nnnorm_deriv_le ?_ fun x => ?_⟩
  · exact hf.differentiable_iteratedDeriv q (by exact_mod_cast Nat.lt_succ_self q)
  · rw [← iteratedDeriv_succ]
    have := hB x
    rw [Complex.norm_real] at this
    exact this

/-- C100: a function with all frequencies -/
example : ∃ f : ℝ → ℝ, (∀ x, f (x + 2 * Real.pi) = f x) ∧ ContDiff ℝ (3 + 1 : ℕ) f ∧ (∃ Λ, LipschitzWith Λ (iteratedDeriv (3 + 1) f)) ∧
    f 0 ≠ f (Real.pi / 2) := by
  have hp : ∀ x, Real.exp (Real.sin (x + 2 * Real.pi)) = Real.exp (Real.sin x) := fun x => by rw [Real.sin_add_two_pi]
  have hc : ContDiff ℝ (3 + 1 + 1 : ℕ) fun x => Real.exp (Real.sin x) := Real.contDiff_exp.comp Real.contDiff_sin
  refine ⟨fun x => Real.exp (Real.sin x), hp, hc.of_le (by exact_mod_cast (by norm_num)), periodic_lipschitz (by positivity) hp hc, ?_⟩
  simp only [Real.sin_zero, Real.exp_zero, Real.sin_pi_div_two]
  exact (Real.one_lt_exp_iff.2 one_pos).ne

end PFEM
