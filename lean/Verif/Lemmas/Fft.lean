import Verif.Model.Fft
import Verif.Lemmas.Py
import Mathlib.Analysis.Fourier.ZMod
import Mathlib.Data.List.GetD

/-!
The model's transforms in terms of Mathlib's discrete Fourier transform on `ZMod N`.
-/

namespace PFEM
namespace Fft
open ZMod

variable {N : ℕ} [NeZero N]

/-- a list of `N` entries as a function on `ZMod N` -/
def vec {α : Type} [Zero α] (N : ℕ) (l : List α) : ZMod N → α := fun j => l.getD j.val 0

/-- the list of values of a function on `ZMod N` -/
def ofVec {α : Type} (Φ : ZMod N → α) : List α := (List.range N).map fun k : ℕ => Φ (k : ZMod N)

omit [NeZero N] in
theorem ofVec_length {α : Type} (Φ : ZMod N → α) : (ofVec Φ).length = N := by simp [ofVec]

omit [NeZero N] in
theorem val_cast {k : ℕ} (h : k < N) : ((k : ZMod N)).val = k := ZMod.val_cast_of_lt h

omit [NeZero N] in
theorem ofVec_vec {α : Type} [Zero α] {l : List α} (h : l.length = N) : ofVec (vec N l) = l := by
  apply List.ext_getElem
  · rw [ofVec_length, h]
  · intro i h1 h2
    simp only [ofVec, List.getElem_map, List.getElem_range, vec]
    rw [val_cast (by omega), List.getD_eq_getElem _ _ h2]

theorem vec_ofVec {α : Type} [Zero α] (Φ : ZMod N → α) : vec N (ofVec Φ) = Φ := by
  funext j
  have hj : j.val < N := ZMod.val_lt j
  unfold vec
  rw [List.getD_eq_getElem _ _ (by rw [ofVec_length]; exact hj)]
  simp [ofVec]

omit [NeZero N] in
theorem ofVec_map {α β : Type} (g : α → β) (Φ : ZMod N → α) : (ofVec Φ).map g = ofVec fun k => g (Φ k) := by
  simp [ofVec]

omit [NeZero N] in
theorem vec_map {l : List ℝ} : vec N (l.map fun x : ℝ => (x : ℂ)) = fun j => ((vec N l j : ℝ) : ℂ) := by
  funext j
  unfold vec
  rw [show (0 : ℂ) = ((0 : ℝ) : ℂ) by simp, List.getD_map]

theorem sum_range_zmod {M : Type} [AddCommMonoid M] (F : ZMod N → M) :
    ∑ n ∈ Finset.range N, F (n : ZMod N) = ∑ j : ZMod N, F j := by
  refine Finset.sum_nbij' (fun n => (n : ZMod N)) (fun j => j.val) ?_ ?_ ?_ ?_ ?_
  · simp
  · intro j _; simpa using ZMod.val_lt j
  · intro n hn; exact val_cast (by simpa using hn)
  · intro j _; simp
  · simp

theorem exp_neg_char (k n : ℕ) : Complex.exp (-(2 * Real.pi * Complex.I * (k * n : ℕ) / N)) =
    stdAddChar (-((n : ZMod N) * (k : ZMod N))) := by
  have := stdAddChar_coe (N := N) (-((n : ℤ) * k))
  push_cast at this
  rw [this]
  push_cast
  congr 1
  ring

theorem exp_char (k n : ℕ) : Complex.exp (2 * Real.pi * Complex.I * (k * n : ℕ) / N) =
    stdAddChar ((n : ZMod N) * (k : ZMod N)) := by
  have := stdAddChar_coe (N := N) ((n : ℤ) * k)
  push_cast at this
  rw [this]
  push_cast
  congr 1
  ring

theorem fft_eq {l : List ℂ} (h : l.length = N) : Np.fft l = .ok (ofVec (dft (vec N l))) := by
  unfold Np.fft
  rw [if_neg (by rw [h]; exact NeZero.ne N), h]
  congr 1
  unfold ofVec
  refine List.map_congr_left fun k _ => ?_
  rw [dft_apply, ← sum_range_zmod]
  refine Finset.sum_congr rfl fun n hn => ?_
  rw [exp_neg_char, smul_eq_mul, mul_comm]
  unfold vec
  rw [val_cast (by simpa using hn)]

theorem ifft_eq {l : List ℂ} (h : l.length = N) : Np.ifft l = .ok (ofVec (dft.symm (vec N l))) := by
  unfold Np.ifft
  rw [if_neg (by rw [h]; exact NeZero.ne N), h]
  congr 1
  unfold ofVec
  refine List.map_congr_left fun k _ => ?_
  rw [invDFT_apply, ← sum_range_zmod, smul_eq_mul]
  congr 1
  refine Finset.sum_congr rfl fun n hn => ?_
  rw [exp_char, smul_eq_mul, mul_comm]
  unfold vec
  rw [val_cast (by simpa using hn)]

/-- the signed frequency of `fftfreq` -/
def sfreq (k : ZMod N) : ℤ := if 2 * k.val < N then k.val else (k.val : ℤ) - N

theorem fftfreq_eq : Np.fftfreq N = ofVec fun k : ZMod N => (sfreq k : ℝ) * (1 / N) := by
  have hN : 0 < N := Nat.pos_of_ne_zero (NeZero.ne N)
  apply List.ext_getElem
  · simp [Np.fftfreq, ofVec]; omega
  · intro i h1 h2
    rw [ofVec_length] at h2
    simp only [Np.fftfreq, List.getElem_map, ofVec, List.getElem_range]
    congr 1
    unfold sfreq
    rw [val_cast h2]
    by_cases hi : 2 * i < N
    · rw [List.getElem_append_left (by simp; omega)]
      simp [hi]
    · rw [List.getElem_append_right (by simp; omega)]
      simp only [List.length_map, List.length_range, List.getElem_map, List.getElem_range, hi, if_false]
      have : i - ((N - 1) / 2 + 1) + N = i + N / 2 := by omega
      have h3 : ((i - ((N - 1) / 2 + 1) : ℕ) : ℝ) + N = i + (N / 2 : ℕ) := by exact_mod_cast this
      push_cast
      linarith

omit [NeZero N] in
theorem bin_ofVec {α β γ : Type} (g : α → β → γ) (Φ : ZMod N → α) (Ψ : ZMod N → β) :
    Np.bin g (ofVec Φ) (ofVec Ψ) = .ok (ofVec fun k => g (Φ k) (Ψ k)) := by
  unfold Np.bin
  rw [if_pos (by simp [ofVec])]
  simp [ofVec, List.zipWith_map, List.zipWith_self]

omit [NeZero N] in
theorem set_ofVec {α : Type} (Φ : ZMod N → α) (a : α) : (ofVec Φ).set 0 a = ofVec fun k => if k = 0 then a else Φ k := by
  apply List.ext_getElem
  · simp [ofVec]
  · intro i h1 h2
    rw [ofVec_length] at h2
    rw [List.getElem_set]
    simp only [ofVec, List.getElem_map, List.getElem_range]
    by_cases h : 0 = i
    · subst h; simp
    · have : (i : ZMod N) ≠ 0 := fun h0 => by
        have := val_cast h2
        rw [h0, ZMod.val_zero] at this
        exact h this
      simp [h, this]

/-- the multiplier of `fft_derivative` -/
noncomputable def mD (len : ℝ) (k : ZMod N) : ℂ := Complex.I * (sfreq k : ℂ) * ((2 * Real.pi / len : ℝ) : ℂ)

/-- the multiplier of `fft_antiderivative` -/
noncomputable def mA (len : ℝ) (k : ZMod N) : ℂ :=
  if k = 0 then 0 else -Complex.I / (sfreq k : ℂ) * ((0.5 * len / Real.pi : ℝ) : ℂ)

/-- real part of the inverse transform of the transform times a multiplier -/
noncomputable def apply (m : ZMod N → ℂ) (f : ZMod N → ℝ) : ZMod N → ℝ :=
  fun j => (dft.symm (fun k => dft (fun i => (f i : ℂ)) k * m k) j).re

theorem derivative_eq {f : List ℝ} (h : f.length = N) {len : ℝ} (hl : len ≠ 0) :
    fftDerivative f len = .ok (ofVec (apply (mD len) (vec N f))) := by
  have hN : (N : ℂ) ≠ 0 := by exact_mod_cast NeZero.ne N
  unfold fftDerivative
  dsimp only
  rw [fft_eq (l := f.map fun x : ℝ => (x : ℂ)) (by simpa using h)]
  simp only [bind, Except.bind]
  rw [h, fftfreq_eq, ofVec_map, bin_ofVec]
  simp only [hl, if_false]
  rw [ofVec_map, ifft_eq (ofVec_length _)]
  simp only
  rw [ofVec_map, vec_ofVec, vec_map]
  congr 2
  funext j
  unfold apply mD
  refine congrArg (fun v : ZMod N → ℂ => (dft.symm v j).re) (funext fun k => ?_)
  push_cast
  field_simp

theorem antiderivative_eq {f : List ℝ} (h : f.length = N) (len : ℝ) :
    fftAntiderivative f len = .ok (ofVec (apply (mA len) (vec N f))) := by
  have hN : (N : ℂ) ≠ 0 := by exact_mod_cast NeZero.ne N
  unfold fftAntiderivative
  dsimp only
  rw [fft_eq (l := f.map fun x : ℝ => (x : ℂ)) (by simpa using h)]
  simp only [bind, Except.bind]
  rw [h, fftfreq_eq, set_ofVec, ofVec_map, bin_ofVec]
  simp only
  rw [ofVec_map, set_ofVec, ifft_eq (ofVec_length _)]
  simp only
  rw [ofVec_map, vec_ofVec, vec_map]
  congr 2
  funext j
  unfold apply mA
  refine congrArg (fun v : ZMod N → ℂ => (dft.symm v j).re) (funext fun k => ?_)
  by_cases hk : k = 0
  · simp [hk]
  · simp only [hk, if_false]
    push_cast
    rw [mul_assoc]
    congr 2
    field_simp

/-! ### real data -/

theorem conj_char (x : ZMod N) : (starRingEnd ℂ) (stdAddChar x) = stdAddChar (-x) := by
  rw [stdAddChar_apply, stdAddChar_apply, ← Circle.coe_inv_eq_conj, ← AddChar.map_neg_eq_inv]

theorem dft_conj (v : ZMod N → ℂ) (k : ZMod N) : dft (fun j => (starRingEnd ℂ) (v j)) k = (starRingEnd ℂ) (dft v (-k)) := by
  rw [dft_apply, dft_apply, map_sum]
  refine Finset.sum_congr rfl fun j _ => ?_
  rw [smul_eq_mul, smul_eq_mul, map_mul, conj_char]
  simp

theorem dft_real (f : ZMod N → ℝ) (k : ZMod N) : (starRingEnd ℂ) (dft (fun j => (f j : ℂ)) (-k)) = dft (fun j => (f j : ℂ)) k := by
  rw [← dft_conj]
  simp

theorem dft_re (v : ZMod N → ℂ) (k : ZMod N) : dft (fun j => ((v j).re : ℂ)) k = (dft v k + (starRingEnd ℂ) (dft v (-k))) / 2 := by
  have : (fun j => ((v j).re : ℂ)) = (2 : ℂ)⁻¹ • (v + fun j => (starRingEnd ℂ) (v j)) := by
    funext j
    simp only [Pi.smul_apply, Pi.add_apply, smul_eq_mul, Complex.add_conj]
    push_cast
    ring
  rw [this, _root_.map_smul, map_add]
  simp only [Pi.smul_apply, Pi.add_apply, smul_eq_mul, dft_conj]
  ring

/-- the effective multiplier on real data -/
theorem dft_apply_mult (m : ZMod N → ℂ) (f : ZMod N → ℝ) (k : ZMod N) :
    dft (fun j => ((apply m f j : ℝ) : ℂ)) k = (m k + (starRingEnd ℂ) (m (-k))) / 2 * dft (fun j => (f j : ℂ)) k := by
  unfold apply
  rw [dft_re, LinearEquiv.apply_symm_apply, map_mul, dft_real]
  ring

theorem dft_inj {f g : ZMod N → ℝ} (h : ∀ k, dft (fun j => (f j : ℂ)) k = dft (fun j => (g j : ℂ)) k) : f = g := by
  have := dft.injective (funext h)
  funext j
  exact_mod_cast congrFun this j

/-- the frequency `N / 2` of an even number of samples -/
def Nyq (k : ZMod N) : Prop := 2 * k.val = N

instance (k : ZMod N) : Decidable (Nyq k) := inferInstanceAs (Decidable (_ = _))

theorem sfreq_zero_iff (k : ZMod N) : sfreq k = 0 ↔ k = 0 := by
  have := ZMod.val_lt k
  unfold sfreq
  rw [← ZMod.val_eq_zero k]
  split <;> omega

theorem nyq_neg {k : ZMod N} (h : Nyq k) : -k = k := by
  have h0 : k ≠ 0 := fun h0 => by
    subst h0
    unfold Nyq at h
    rw [ZMod.val_zero] at h
    exact NeZero.ne N (by omega)
  have : NeZero k := ⟨h0⟩
  apply ZMod.val_injective
  rw [ZMod.val_neg_of_ne_zero]
  unfold Nyq at h
  omega

theorem sfreq_neg {k : ZMod N} (h : ¬ Nyq k) : sfreq (-k) = -sfreq k := by
  by_cases h0 : k = 0
  · subst h0
    rw [neg_zero, (sfreq_zero_iff 0).2 rfl, neg_zero]
  have : NeZero k := ⟨h0⟩
  have := ZMod.val_lt k
  have hk : k.val ≠ 0 := fun h => h0 ((ZMod.val_eq_zero k).1 h)
  unfold sfreq
  rw [ZMod.val_neg_of_ne_zero]
  unfold Nyq at h
  have : ((N - k.val : ℕ) : ℤ) = N - k.val := by omega
  rw [this]
  split <;> split <;> omega

/-- effective multiplier of the derivative -/
theorem effD (len : ℝ) (k : ZMod N) : (mD len k + (starRingEnd ℂ) (mD len (-k))) / 2 = if Nyq k then 0 else mD len k := by
  unfold mD
  split
  · next h =>
    rw [nyq_neg h]
    simp only [map_mul, Complex.conj_I, Complex.conj_ofReal, map_intCast]
    ring
  · next h =>
    rw [sfreq_neg h]
    simp only [map_mul, Complex.conj_I, Complex.conj_ofReal, map_intCast, Int.cast_neg, map_neg]
    ring

/-- effective multiplier of the antiderivative -/
theorem effA (len : ℝ) (k : ZMod N) : (mA len k + (starRingEnd ℂ) (mA len (-k))) / 2 = if Nyq k then 0 else mA len k := by
  unfold mA
  by_cases h0 : k = 0
  · simp [h0]
  · have h0' : -k ≠ 0 := by simpa using h0
    simp only [h0, h0', if_false]
    split
    · next h =>
      rw [nyq_neg h]
      simp only [map_mul, map_div₀, map_neg, Complex.conj_I, Complex.conj_ofReal, map_intCast]
      ring
    · next h =>
      rw [sfreq_neg h]
      simp only [map_mul, map_div₀, map_neg, Complex.conj_I, Complex.conj_ofReal, map_intCast, Int.cast_neg, neg_neg]
      ring

theorem mD_mul_mA {len : ℝ} (hl : len ≠ 0) (k : ZMod N) : mD len k * mA len k = if k = 0 then 0 else 1 := by
  unfold mD mA
  split
  · simp
  · next h =>
    have h1 : (sfreq k : ℂ) ≠ 0 := by exact_mod_cast fun h2 => h ((sfreq_zero_iff k).1 h2)
    have h2 : (len : ℂ) ≠ 0 := by exact_mod_cast hl
    have h3 : (Real.pi : ℂ) ≠ 0 := by exact_mod_cast Real.pi_ne_zero
    push_cast
    field_simp
    norm_num

end Fft
end PFEM
