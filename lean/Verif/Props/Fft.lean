import Verif.Lemmas.Fft
import Verif.Props.CellBoundary
import Mathlib.Analysis.SpecialFunctions.Trigonometric.Deriv

/-!
Property theorems C49: differentiation and integration of periodic data by the Fourier transform.
-/

namespace PFEM
open Fft ZMod

/-- trigonometric polynomial of period `len` with frequencies below `M` -/
noncomputable def trig (a b : ℕ → ℝ) (M : ℕ) (len t : ℝ) : ℝ :=
  ∑ k ∈ Finset.range M, (a k * Real.cos (2 * Real.pi * k / len * t) + b k * Real.sin (2 * Real.pi * k / len * t))

/-- values on the uniform grid of `N` points of `[0, len)` -/
noncomputable def samples (N : ℕ) (len : ℝ) (f : ℝ → ℝ) : List ℝ := (List.range N).map fun j : ℕ => f (j * len / N)

/-- its derivative -/
noncomputable def trig' (a b : ℕ → ℝ) (M : ℕ) (len t : ℝ) : ℝ :=
  ∑ k ∈ Finset.range M, 2 * Real.pi * k / len *
    (b k * Real.cos (2 * Real.pi * k / len * t) - a k * Real.sin (2 * Real.pi * k / len * t))

theorem trig_deriv (a b : ℕ → ℝ) (M : ℕ) (len t : ℝ) : HasDerivAt (trig a b M len) (trig' a b M len t) t := by
  unfold trig trig'
  refine HasDerivAt.fun_sum fun k _ => ?_
  have h : HasDerivAt (fun t => 2 * Real.pi * k / len * t) (2 * Real.pi * k / len) t := by
    simpa using (hasDerivAt_id t).const_mul (2 * Real.pi * k / len)
  have := (h.cos.const_mul (a k)).fun_add (h.sin.const_mul (b k))
  refine this.congr_deriv ?_
  ring

namespace Fft

variable {N : ℕ} [NeZero N]

/-- Fourier series -/
noncomputable def series (α β : ℕ → ℂ) (M : ℕ) (j : ZMod N) : ℂ :=
  ∑ l ∈ Finset.range M, (α l * stdAddChar (j * (l : ZMod N)) + β l * stdAddChar (-(j * (l : ZMod N))))

theorem dft_char (l k : ZMod N) : dft (fun j : ZMod N => (stdAddChar (j * l) : ℂ)) k = if k = l then (N : ℂ) else 0 := by
  rw [dft_apply]
  have : ∀ j : ZMod N, stdAddChar (-(j * k)) • (stdAddChar (j * l) : ℂ) = stdAddChar (j * (l - k)) := fun j => by
    rw [smul_eq_mul, ← AddChar.map_add_eq_mul]
    congr 1
    ring
  rw [Finset.sum_congr rfl fun j _ => this j, AddChar.sum_mulShift _ (isPrimitive_stdAddChar N), ZMod.card]
  by_cases h : k = l
  · simp [h]
  · rw [if_neg (sub_ne_zero.2 (Ne.symm h)), if_neg h]
    simp

theorem dft_series (α β : ℕ → ℂ) (M : ℕ) (k : ZMod N) : dft (series (N := N) α β M) k =
    ∑ l ∈ Finset.range M, (α l * (if k = (l : ZMod N) then (N : ℂ) else 0) + β l * (if k = -(l : ZMod N) then (N : ℂ) else 0)) := by
  have : series (N := N) α β M = ∑ l ∈ Finset.range M, (α l • (fun j : ZMod N => (stdAddChar (j * (l : ZMod N)) : ℂ)) +
      β l • (fun j : ZMod N => (stdAddChar (j * -(l : ZMod N)) : ℂ))) := by
    funext j
    simp [series]
  rw [this, map_sum, Finset.sum_apply]
  refine Finset.sum_congr rfl fun l _ => ?_
  rw [map_add, _root_.map_smul, _root_.map_smul, Pi.add_apply, Pi.smul_apply, Pi.smul_apply, dft_char, dft_char, smul_eq_mul, smul_eq_mul]

theorem char_cos_sin {len : ℝ} (hl : len ≠ 0) {j : ZMod N} (l : ℕ) :
    (stdAddChar (j * (l : ZMod N)) : ℂ) = Real.cos (2 * Real.pi * l / len * (j.val * len / N)) +
      Real.sin (2 * Real.pi * l / len * (j.val * len / N)) * Complex.I ∧
    (stdAddChar (-(j * (l : ZMod N))) : ℂ) = Real.cos (2 * Real.pi * l / len * (j.val * len / N)) -
      Real.sin (2 * Real.pi * l / len * (j.val * len / N)) * Complex.I := by
  have hN : (N : ℂ) ≠ 0 := by exact_mod_cast NeZero.ne N
  have hl' : (len : ℂ) ≠ 0 := by exact_mod_cast hl
  have h1 : (stdAddChar (j * (l : ZMod N)) : ℂ) = Complex.exp (((2 * Real.pi * l / len * (j.val * len / N) : ℝ) : ℂ) * Complex.I) := by
    have := exp_char (N := N) l j.val
    rw [ZMod.natCast_zmod_val] at this
    rw [← this]
    congr 1
    push_cast
    field_simp
  have h2 : (stdAddChar (j * (l : ZMod N)) : ℂ) = Real.cos (2 * Real.pi * l / len * (j.val * len / N)) +
      Real.sin (2 * Real.pi * l / len * (j.val * len / N)) * Complex.I := by
    rw [h1, Complex.exp_mul_I, Complex.ofReal_cos, Complex.ofReal_sin]
  refine ⟨h2, ?_⟩
  rw [← conj_char, h2, map_add, map_mul, Complex.conj_ofReal, Complex.conj_ofReal, Complex.conj_I]
  ring

omit [NeZero N] in
theorem samples_length (len : ℝ) (f : ℝ → ℝ) : (samples N len f).length = N := by simp [samples]

theorem vec_samples (len : ℝ) (f : ℝ → ℝ) (j : ZMod N) : vec N (samples N len f) j = f (j.val * len / N) := by
  have hj : j.val < N := ZMod.val_lt j
  unfold vec
  rw [List.getD_eq_getElem _ _ (by simpa [samples] using hj)]
  simp [samples]

theorem trig_series (a b : ℕ → ℝ) (M : ℕ) {len : ℝ} (hl : len ≠ 0) (j : ZMod N) :
    ((vec N (samples N len (trig a b M len)) j : ℝ) : ℂ) =
      series (fun l => (a l - b l * Complex.I) / 2) (fun l => (a l + b l * Complex.I) / 2) M j := by
  rw [vec_samples]
  unfold trig series
  rw [Complex.ofReal_sum]
  refine Finset.sum_congr rfl fun l _ => ?_
  obtain ⟨h1, h2⟩ := char_cos_sin (N := N) hl (j := j) l
  rw [h1, h2]
  push_cast
  linear_combination ((b l : ℂ) * Complex.sin (2 * Real.pi * l / len * (j.val * len / N))) * Complex.I_mul_I

theorem trig'_series (a b : ℕ → ℝ) (M : ℕ) {len : ℝ} (hl : len ≠ 0) (j : ZMod N) :
    ((vec N (samples N len (trig' a b M len)) j : ℝ) : ℂ) =
      series (fun l => Complex.I * (2 * Real.pi * l / len : ℝ) * ((a l - b l * Complex.I) / 2))
        (fun l => -Complex.I * (2 * Real.pi * l / len : ℝ) * ((a l + b l * Complex.I) / 2)) M j := by
  rw [vec_samples]
  unfold trig' series
  rw [Complex.ofReal_sum]
  refine Finset.sum_congr rfl fun l _ => ?_
  obtain ⟨h1, h2⟩ := char_cos_sin (N := N) hl (j := j) l
  rw [h1, h2]
  push_cast
  linear_combination (2 * Real.pi * l / len) * ((b l : ℂ) * Complex.cos (2 * Real.pi * l / len * (j.val * len / N)) -
    (a l : ℂ) * Complex.sin (2 * Real.pi * l / len * (j.val * len / N))) * Complex.I_mul_I

theorem eff_char (len : ℝ) {l : ℕ} (h : 2 * l < N) (k : ZMod N) :
    ((if Nyq k then 0 else mD len k) * (if k = (l : ZMod N) then (N : ℂ) else 0) =
      Complex.I * (2 * Real.pi * l / len : ℝ) * (if k = (l : ZMod N) then (N : ℂ) else 0)) ∧
    ((if Nyq k then 0 else mD len k) * (if k = -(l : ZMod N) then (N : ℂ) else 0) =
      -Complex.I * (2 * Real.pi * l / len : ℝ) * (if k = -(l : ZMod N) then (N : ℂ) else 0)) := by
  have hv : (l : ZMod N).val = l := val_cast (by omega)
  have hn : ¬ Nyq (l : ZMod N) := by unfold Nyq; rw [hv]; omega
  have hs : sfreq (l : ZMod N) = l := by unfold sfreq; rw [hv, if_pos h]
  have hn' : ¬ Nyq (-(l : ZMod N)) := fun h' => by
    have h2 := nyq_neg h'
    rw [neg_neg] at h2
    rw [← h2] at h'
    exact hn h'
  constructor
  · by_cases hk : k = (l : ZMod N)
    · subst hk
      rw [if_neg hn]
      unfold mD
      rw [hs]
      push_cast
      ring
    · simp [hk]
  · by_cases hk : k = -(l : ZMod N)
    · subst hk
      rw [if_neg hn']
      unfold mD
      rw [sfreq_neg hn, hs]
      push_cast
      ring
    · simp [hk]

end Fft

/-- C49: `fft_derivative` of samples of a trigonometric polynomial with all frequencies below `N / 2` returns exactly the samples
of its derivative. -/
theorem C49_exact (N : ℕ) (hN : 0 < N) (len : ℝ) (hl : len ≠ 0) (a b : ℕ → ℝ) (M : ℕ) (hM : ∀ k < M, 2 * k < N) :
    fftDerivative (samples N len (trig a b M len)) len = .ok (samples N len fun t => deriv (trig a b M len) t) := by
  have : NeZero N := ⟨hN.ne'⟩
  rw [show (fun t => deriv (trig a b M len) t) = trig' a b M len from funext fun t => (trig_deriv a b M len t).deriv,
    derivative_eq (samples_length len _) hl]
  congr 1
  rw [← ofVec_vec (l := samples N len (trig' a b M len)) (samples_length len _)]
  congr 1
  apply dft_inj
  intro k
  rw [dft_apply_mult, effD, show (fun j : ZMod N => ((vec N (samples N len (trig a b M len)) j : ℝ) : ℂ)) = _ from
    funext fun j => trig_series a b M hl j, show (fun j : ZMod N => ((vec N (samples N len (trig' a b M len)) j : ℝ) : ℂ)) = _ from
    funext fun j => trig'_series a b M hl j, dft_series, dft_series, Finset.mul_sum]
  refine Finset.sum_congr rfl fun l hl' => ?_
  obtain ⟨h1, h2⟩ := eff_char len (hM l (by simpa using hl')) k
  linear_combination ((a l - b l * Complex.I) / 2) * h1 + ((a l + b l * Complex.I) / 2) * h2

/-- the mean of data -/
noncomputable def meanOf (f : List ℝ) : ℝ := f.sum / f.length

/-- the part of data of even length at the highest frequency: an alternating vector; zero for data of odd length -/
noncomputable def nyquistPart (f : List ℝ) (j : ℕ) : ℝ :=
  if f.length % 2 = 0 then (-1) ^ j * ((∑ n ∈ Finset.range f.length, (-1) ^ n * f.getD n 0) / f.length) else 0

/-- the data without mean and without the part at the highest frequency -/
noncomputable def reduced (f : List ℝ) : List ℝ := (List.range f.length).map fun j => f.getD j 0 - meanOf f - nyquistPart f j

namespace Fft
variable {N : ℕ} [NeZero N]

theorem list_sum_vec {f : List ℝ} (h : f.length = N) : f.sum = ∑ j : ZMod N, vec N f j := by
  rw [← sum_range_zmod]
  conv_lhs => rw [← ofVec_vec (N := N) h]
  unfold ofVec
  rw [← List.sum_toFinset _ List.nodup_range, List.toFinset_range]

theorem dft_zero_sum (f : ZMod N → ℝ) : dft (fun j => (f j : ℂ)) 0 = ((∑ j, f j : ℝ) : ℂ) := by
  rw [dft_apply_zero]
  push_cast
  rfl

theorem sum_apply_zero {m : ZMod N → ℂ} (h : m 0 = 0) (f : ZMod N → ℝ) : ∑ j, apply m f j = 0 := by
  have := dft_apply_mult m f 0
  rw [dft_zero_sum, neg_zero, h, map_zero, add_zero, zero_div, zero_mul] at this
  exact_mod_cast this

theorem mD_zero (len : ℝ) : mD len (0 : ZMod N) = 0 := by
  unfold mD
  rw [(sfreq_zero_iff 0).2 rfl]
  simp

omit [NeZero N] in
theorem mA_zero (len : ℝ) : mA len (0 : ZMod N) = 0 := by simp [mA]

/-- the alternating character -/
theorem char_nyq {q : ℕ} (h : N = 2 * q) (j : ZMod N) : (stdAddChar (j * (q : ZMod N)) : ℂ) = (-1) ^ j.val := by
  have := exp_char (N := N) q j.val
  rw [ZMod.natCast_zmod_val] at this
  rw [← this]
  have hq : (q : ℂ) ≠ 0 := by
    have := NeZero.ne N
    exact_mod_cast (by omega : q ≠ 0)
  have : (2 * Real.pi * Complex.I * ((q * j.val : ℕ) : ℂ) / (N : ℂ)) = (j.val : ℂ) * (Real.pi * Complex.I) := by
    have : (N : ℂ) = 2 * q := by exact_mod_cast h
    rw [this]
    push_cast
    field_simp
  rw [this, Complex.exp_nat_mul, Complex.exp_pi_mul_I]

/-- what `reduced` does to the transform -/
theorem dft_reduced {f : List ℝ} (h : f.length = N) (k : ZMod N) :
    dft (fun j => ((vec N (reduced f) j : ℝ) : ℂ)) k = if k = 0 ∨ Nyq k then 0 else dft (fun j => ((vec N f j : ℝ) : ℂ)) k := by
  have hN : (N : ℂ) ≠ 0 := by exact_mod_cast NeZero.ne N
  have hv : ∀ j : ZMod N, vec N (reduced f) j = vec N f j - meanOf f - nyquistPart f j.val := by
    intro j
    have hj : j.val < N := ZMod.val_lt j
    conv_lhs => unfold vec
    rw [List.getD_eq_getElem _ _ (by simpa [reduced, h] using hj)]
    simp [reduced, vec]
  have hmean : ((meanOf f : ℝ) : ℂ) = dft (fun j => ((vec N f j : ℝ) : ℂ)) 0 / N := by
    rw [dft_zero_sum, ← list_sum_vec h]
    simp [meanOf, h]
  have hconst : ∀ c : ℂ, dft (fun _ : ZMod N => c) k = if k = 0 then c * N else 0 := by
    intro c
    have := dft_char (N := N) 0 k
    have h2 : (fun _ : ZMod N => c) = c • fun j : ZMod N => (stdAddChar (j * 0) : ℂ) := by
      funext j; simp
    rw [h2, _root_.map_smul, Pi.smul_apply, this]
    split <;> simp
  rcases Nat.even_or_odd' N with ⟨q, hq | hq⟩
  · have hq0 : 0 < q := by have := NeZero.ne N; omega
    have hqv : (q : ZMod N).val = q := val_cast (by omega)
    have hnq : ∀ k : ZMod N, Nyq k ↔ k = (q : ZMod N) := by
      intro k
      unfold Nyq
      constructor
      · intro h; apply ZMod.val_injective; rw [hqv]; omega
      · rintro rfl; rw [hqv]; exact hq.symm
    have hny : ∀ j : ZMod N, ((nyquistPart f j.val : ℝ) : ℂ) = stdAddChar (j * (q : ZMod N)) *
        (dft (fun j => ((vec N f j : ℝ) : ℂ)) (q : ZMod N) / N) := by
      intro j
      unfold nyquistPart
      rw [if_pos (by omega), char_nyq hq, dft_apply, ← sum_range_zmod, h]
      push_cast
      congr 2
      refine Finset.sum_congr rfl fun n hn => ?_
      have hn' : n < N := by simpa using hn
      rw [smul_eq_mul, ← conj_char, char_nyq hq, val_cast hn']
      simp only [map_pow, map_neg, map_one, vec, val_cast hn']
    have hsplit : (fun j => ((vec N (reduced f) j : ℝ) : ℂ)) = (fun j => ((vec N f j : ℝ) : ℂ)) - (fun _ => ((meanOf f : ℝ) : ℂ)) -
        (dft (fun j => ((vec N f j : ℝ) : ℂ)) (q : ZMod N) / N) • fun j : ZMod N => (stdAddChar (j * (q : ZMod N)) : ℂ) := by
      funext j
      rw [hv]
      push_cast
      rw [hny]
      simp only [Pi.sub_apply, Pi.smul_apply, smul_eq_mul]
      ring
    rw [hsplit, map_sub, map_sub, _root_.map_smul]
    simp only [Pi.sub_apply, Pi.smul_apply, smul_eq_mul]
    rw [hconst, dft_char, hmean]
    have h0q : (q : ZMod N) ≠ 0 := fun h0 => by
      rw [h0, ZMod.val_zero] at hqv; omega
    by_cases h0 : k = 0
    · subst h0
      rw [if_pos rfl, if_neg (Ne.symm h0q), if_pos (Or.inl rfl)]
      field_simp
      ring
    · by_cases h1 : k = (q : ZMod N)
      · subst h1
        rw [if_neg h0, if_pos rfl, if_pos (Or.inr ((hnq _).2 rfl))]
        field_simp
        ring
      · rw [if_neg h0, if_neg h1, if_neg (by rintro (h | h); exacts [h0 h, h1 ((hnq k).1 h)])]
        ring
  · have hny : ∀ j : ZMod N, nyquistPart f j.val = 0 := by
      intro j
      unfold nyquistPart
      rw [if_neg (by omega)]
    have hnq : ¬ Nyq k := by unfold Nyq; omega
    have hsplit : (fun j => ((vec N (reduced f) j : ℝ) : ℂ)) = (fun j => ((vec N f j : ℝ) : ℂ)) - (fun _ => ((meanOf f : ℝ) : ℂ)) := by
      funext j
      rw [hv, hny]
      simp
    rw [hsplit, map_sub]
    simp only [Pi.sub_apply]
    rw [hconst, hmean]
    by_cases h0 : k = 0
    · subst h0
      rw [if_pos rfl, if_pos (Or.inl rfl)]
      field_simp
      ring
    · rw [if_neg h0, if_neg (by rintro (h | h); exacts [h0 h, hnq h])]
      ring

theorem reduced_length (f : List ℝ) : (reduced f).length = f.length := by simp [reduced]

end Fft

/-- C49: every derivative has as many entries as the data and sums to zero. -/
theorem C49_sum (f : List ℝ) (hf : f ≠ []) (len : ℝ) (hl : len ≠ 0) :
    ∃ d, fftDerivative f len = .ok d ∧ d.length = f.length ∧ d.sum = 0 := by
  have : NeZero f.length := ⟨by simpa using hf⟩
  refine ⟨_, derivative_eq (N := f.length) rfl hl, ofVec_length _, ?_⟩
  rw [list_sum_vec (ofVec_length _), vec_ofVec]
  exact sum_apply_zero (mD_zero len) _

/-- C49: the derivative of a constant is zero. -/
theorem C49_constant (N : ℕ) (hN : 0 < N) (c len : ℝ) (hl : len ≠ 0) :
    fftDerivative (List.replicate N c) len = .ok (List.replicate N 0) := by
  have h := C49_exact N hN len hl (fun _ => c) (fun _ => 0) 1 (by intro k hk; omega)
  have e1 : samples N len (trig (fun _ => c) (fun _ => 0) 1 len) = List.replicate N c := by
    rw [samples, List.eq_replicate_iff]
    simp [trig]
  have e2 : (fun t => deriv (trig (fun _ => c) (fun _ => 0) 1 len) t) = fun _ => 0 := by
    funext t
    rw [(trig_deriv _ _ _ _ t).deriv]
    simp [trig']
  rw [e1, e2] at h
  rw [h]
  congr 1
  rw [samples, List.eq_replicate_iff]
  simp

/-- C49: the antiderivative has mean zero, and differentiating it gives the data without their mean and without the part at the
highest frequency. -/
theorem C49_antiderivative (f : List ℝ) (hf : f ≠ []) (len : ℝ) (hl : len ≠ 0) :
    ∃ F, fftAntiderivative f len = .ok F ∧ F.length = f.length ∧ F.sum = 0 ∧ fftDerivative F len = .ok (reduced f) := by
  have : NeZero f.length := ⟨by simpa using hf⟩
  refine ⟨_, antiderivative_eq (N := f.length) rfl len, ofVec_length _, ?_, ?_⟩
  · rw [list_sum_vec (ofVec_length _), vec_ofVec]
    exact sum_apply_zero (mA_zero len) _
  · rw [derivative_eq (N := f.length) (ofVec_length _) hl, vec_ofVec, ← ofVec_vec (N := f.length) (l := reduced f) (reduced_length f)]
    congr 2
    apply dft_inj
    intro k
    rw [dft_apply_mult, dft_apply_mult, effD, effA, dft_reduced rfl]
    by_cases h1 : Nyq k
    · simp [h1]
    · rw [if_neg h1, if_neg h1, ← mul_assoc, mD_mul_mA hl]
      by_cases h0 : k = 0
      · simp [h0]
      · simp [h0, h1]

/-- C49: integrating the derivative gives the data without their mean and without the part at the highest frequency. -/
theorem C49_integral_of_derivative (f : List ℝ) (hf : f ≠ []) (len : ℝ) (hl : len ≠ 0) :
    ∃ d, fftDerivative f len = .ok d ∧ fftAntiderivative d len = .ok (reduced f) := by
  have : NeZero f.length := ⟨by simpa using hf⟩
  refine ⟨_, derivative_eq (N := f.length) rfl hl, ?_⟩
  rw [antiderivative_eq (N := f.length) (ofVec_length _) len, vec_ofVec, ← ofVec_vec (N := f.length) (l := reduced f) (reduced_length f)]
  congr 2
  apply dft_inj
  intro k
  rw [dft_apply_mult, dft_apply_mult, effD, effA, dft_reduced rfl]
  by_cases h1 : Nyq k
  · simp [h1]
  · rw [if_neg h1, if_neg h1, ← mul_assoc, mul_comm (mA len k), mD_mul_mA hl]
    by_cases h0 : k = 0
    · simp [h0]
    · simp [h0, h1]

/-- leaving out mean and highest frequency of samples of a trigonometric polynomial leaves out its constant term -/
theorem reduced_trig (N : ℕ) (hN : 0 < N) (len : ℝ) (hl : len ≠ 0) (a b : ℕ → ℝ) (M : ℕ) (hM : ∀ k < M, 2 * k < N) :
    reduced (samples N len (trig a b M len)) =
      samples N len (trig (Function.update a 0 0) (Function.update b 0 0) M len) := by
  have : NeZero N := ⟨hN.ne'⟩
  have hlen : (samples N len (trig a b M len)).length = N := samples_length len _
  rw [← ofVec_vec (N := N) (l := reduced (samples N len (trig a b M len))) (by rw [reduced_length, hlen]),
    ← ofVec_vec (N := N) (l := samples N len (trig (Function.update a 0 0) (Function.update b 0 0) M len)) (samples_length len _)]
  congr 1
  apply dft_inj
  intro k
  rw [dft_reduced hlen, show (fun j : ZMod N => ((vec N (samples N len (trig a b M len)) j : ℝ) : ℂ)) = _ from
    funext fun j => trig_series a b M hl j,
    show (fun j : ZMod N => ((vec N (samples N len (trig (Function.update a 0 0) (Function.update b 0 0) M len)) j : ℝ) : ℂ)) = _ from
    funext fun j => trig_series (Function.update a 0 0) (Function.update b 0 0) M hl j, dft_series, dft_series]
  have key : ∀ l < M, l ≠ 0 → (k = 0 ∨ Nyq k) → k ≠ (l : ZMod N) ∧ k ≠ -(l : ZMod N) := by
    intro l hlM hl0 hk
    have h2 := hM l hlM
    have hv : (l : ZMod N).val = l := val_cast (by omega)
    have hn : ¬ Nyq (l : ZMod N) := by unfold Nyq; rw [hv]; omega
    have hz : (l : ZMod N) ≠ 0 := fun h0 => by rw [h0, ZMod.val_zero] at hv; omega
    have hn' : ¬ Nyq (-(l : ZMod N)) := fun h' => by
      have h3 := nyq_neg h'
      rw [neg_neg] at h3
      rw [← h3] at h'
      exact hn h'
    rcases hk with rfl | hk
    · exact ⟨hz.symm, fun h => hz (neg_eq_zero.1 h.symm)⟩
    · exact ⟨fun h => hn (h ▸ hk), fun h => hn' (h ▸ hk)⟩
  split
  · rename_i hk
    symm
    refine Finset.sum_eq_zero fun l hlM => ?_
    by_cases hl0 : l = 0
    · subst hl0; simp
    · obtain ⟨h1, h2⟩ := key l (by simpa using hlM) hl0 hk
      rw [if_neg h1, if_neg h2]
      simp
  · rename_i hk
    refine Finset.sum_congr rfl fun l hlM => ?_
    by_cases hl0 : l = 0
    · subst hl0
      have : k ≠ 0 := fun h => hk (Or.inl h)
      simp [this]
    · simp [hl0]

/-- C49: `fft_antiderivative` of samples of the derivative of a trigonometric polynomial with all frequencies below `N / 2` returns the
samples of the polynomial without its constant term. -/
theorem C49_exact_integral (N : ℕ) (hN : 0 < N) (len : ℝ) (hl : len ≠ 0) (a b : ℕ → ℝ) (M : ℕ) (hM : ∀ k < M, 2 * k < N) :
    fftAntiderivative (samples N len fun t => deriv (trig a b M len) t) len =
      .ok (samples N len fun t => trig a b M len t - if 0 < M then a 0 else 0) := by
  obtain ⟨d, h1, h2⟩ := C49_integral_of_derivative (samples N len (trig a b M len)) (by
    intro h0
    have := samples_length (N := N) len (trig a b M len)
    rw [h0] at this
    simp at this
    omega) len hl
  rw [C49_exact N hN len hl a b M hM] at h1
  cases h1
  rw [h2, reduced_trig N hN len hl a b M hM]
  congr 2
  funext t
  unfold trig
  cases M with
  | zero => simp
  | succ M => rw [Finset.sum_range_succ', Finset.sum_range_succ']; simp

/-- C49: no data, or an interval of length zero. -/
theorem C49_errors (len : ℝ) (f : List ℝ) :
    fftDerivative [] len = .error .valueError ∧ fftAntiderivative [] len = .error .valueError ∧
    (f ≠ [] → fftDerivative f 0 = .error .zeroDivision) := by
  refine ⟨by simp [fftDerivative, Np.fft, bind, Except.bind], by simp [fftAntiderivative, Np.fft, bind, Except.bind], fun hf => ?_⟩
  have : NeZero f.length := ⟨by simpa using hf⟩
  unfold fftDerivative
  dsimp only
  rw [fft_eq (N := f.length) (l := f.map fun x : ℝ => (x : ℂ)) (by simp)]
  simp only [bind, Except.bind]
  rw [fftfreq_eq, ofVec_map, bin_ofVec]
  simp

/-- work done component by component on the data of a cell -/
theorem cell_blocks {K : CellG} (h : K.Ready) (op : ContourG → List ℝ → Py (List ℝ)) (g : ContourG → List ℝ → List ℝ)
    (hop : ∀ c ∈ K.components, ∀ u : List ℝ, u.length = c.cols.length → op c u = .ok (g c u) ∧ (g c u).length = u.length)
    {us : List (List ℝ)} (hu : Fits K us) :
    Concat (fun q : ContourG × List ℝ => op q.1 q.2) (K.components.zip us)
      (Np.blockLoop (fun c j j' => op c (Np.slice us.flatten j j')) K.startIdx 0 (List.replicate K.numPts 0) K.components) := by
  have hw : K.components.map ContourG.numPts = K.components.map fun c => c.cols.length :=
    List.map_congr_left fun c hc => (h.ready c hc).numPts
  refine ⟨List.zipWith g K.components us, forall₂_zip (fun c u => op c u) g hu fun c hc u hl => (hop c hc u hl).1, ?_⟩
  have hb := blocks_data (fun c j j' => op c (Np.slice us.flatten j j')) ContourG.numPts g us.flatten K.components [] us (by simp)
    (by rw [hw]; exact hu) (fun c hc j hj => (hop c hc _ (by rw [slice_length _ hj, (h.ready c hc).numPts])).1)
  have := blockLoop_start (fun c j j' => op c (Np.slice us.flatten j j')) ContourG.numPts K.components
    (List.replicate K.numPts 0) (vs := List.zipWith g K.components us) (by
      rw [List.length_replicate, h.numPts, CellG.cols, List.length_flatMap, hw])
    hb (by
      rw [hw]
      clear hb
      have hop' := hop
      unfold Fits at hu
      clear hw h hop
      generalize K.components = l at *
      induction l generalizing us with
      | nil => simp
      | cons c l ih =>
        match us, hu with
        | u :: us, hu =>
          simp only [List.map_cons, List.cons.injEq] at hu
          simp only [List.zipWith_cons_cons, List.map_cons, List.cons.injEq]
          exact ⟨by rw [(hop' c (by simp) u hu.1).2, hu.1], ih hu.2 fun c hc => hop' c (by simp [hc])⟩)
  rw [offsets_zero, ← h.startIdx] at this
  exact this

/-- C49 on a cell: the data of every component are differentiated and integrated on their own, with period `2π` times the number of
edges of the component. -/
theorem C49_cell {K : CellG} (h : K.Ready) (hne : ∀ c ∈ K.components, c.edges ≠ []) {us : List (List ℝ)} (hu : Fits K us) :
    Concat (fun q : ContourG × List ℝ => fftDerivative q.2 (2 * Real.pi * q.1.edges.length)) (K.components.zip us)
      (wtdFromTrace K us.flatten) ∧
    Concat (fun q : ContourG × List ℝ => fftAntiderivative q.2 (2 * Real.pi * q.1.edges.length)) (K.components.zip us)
      (antiderivativeOnComponents K us.flatten) := by
  have hpos : ∀ c ∈ K.components, 2 * Real.pi * (c.edges.length : ℝ) ≠ 0 ∧ ∀ u : List ℝ, u.length = c.cols.length → u ≠ [] := by
    intro c hc
    have hce := hne c hc
    refine ⟨by simpa [Real.pi_ne_zero] using hce, fun u hl h0 => ?_⟩
    obtain ⟨e, l, hel⟩ := List.exists_cons_of_ne_nil hce
    obtain ⟨L, hL, hL2⟩ := (h.ready c hc).sampled e (by rw [hel]; simp)
    rw [h0, ContourG.cols_len, hel] at hl
    simp [cols_length hL] at hl
    omega
  constructor
  · refine cell_blocks h (fun c u => fftDerivative u (2 * Real.pi * c.edges.length))
      (fun c u => (fftDerivative u (2 * Real.pi * c.edges.length)).toOption.getD []) (fun c hc u hl => ?_) hu
    obtain ⟨d, h1, h2, -⟩ := C49_sum u ((hpos c hc).2 u hl) _ (hpos c hc).1
    simp only [h1]
    exact ⟨rfl, h2⟩
  · refine cell_blocks h (fun c u => fftAntiderivative u (2 * Real.pi * c.edges.length))
      (fun c u => (fftAntiderivative u (2 * Real.pi * c.edges.length)).toOption.getD []) (fun c hc u hl => ?_) hu
    obtain ⟨d, h1, h2, -⟩ := C49_antiderivative u ((hpos c hc).2 u hl) _ (hpos c hc).1
    simp only [h1]
    exact ⟨rfl, h2⟩

/-- data of one full wave on four points: no mean and no part at the highest frequency -/
example : reduced [0, 1, 0, -1] = [0, 1, 0, -1] := by
  simp [reduced, meanOf, nyquistPart, List.range_succ, Finset.sum_range_succ]
  norm_num

end PFEM
