import Verif.Props.FftStable
import Verif.Props.HarmInit

/-!
Property theorems C131, first part: how differentiation by the Fourier transform amplifies errors.
-/

namespace PFEM
namespace Fft
open ZMod Finset

variable {N : ℕ} [NeZero N]

theorem mD_le (len : ℝ) (k : ZMod N) : ‖mD len k‖ ≤ Real.pi * N / |len| := by
  have hpi := Real.pi_pos
  have hs : |(sfreq k : ℝ)| ≤ N / 2 := by
    have hk : k.val < N := ZMod.val_lt k
    unfold sfreq
    rw [abs_le]
    split
    · rename_i h
      have h1 : (2 * k.val : ℝ) < N := by exact_mod_cast h
      push_cast
      constructor
      · have : (0 : ℝ) ≤ k.val := by positivity
        have : (0 : ℝ) ≤ N := by positivity
        linarith
      · linarith
    · rename_i h
      have h1 : (N : ℝ) ≤ 2 * k.val := by exact_mod_cast (by omega : N ≤ 2 * k.val)
      have h2 : (k.val : ℝ) < N := by exact_mod_cast hk
      push_cast
      constructor <;> linarith
  rw [mD, norm_mul, norm_mul, Complex.norm_I, one_mul, Complex.norm_intCast, Complex.norm_real, Real.norm_eq_abs, abs_div, abs_of_pos (by positivity : 0 < 2 * Real.pi)]
  calc |(sfreq k : ℝ)| * (2 * Real.pi / |len|) ≤ N / 2 * (2 * Real.pi / |len|) := by gcongr
    _ = _ := by ring

/-- the values of the derivative of bounded data -/
theorem apply_mD_le (len : ℝ) {e : ℝ} {f : ZMod N → ℝ} (hf : ∀ j, |f j| ≤ e) (j : ZMod N) :
    |apply (mD len) f j| ≤ Real.sqrt N * (Real.pi * N / |len|) * e := by
  have hpi := Real.pi_pos
  have hN : (0 : ℝ) < N := by exact_mod_cast Nat.pos_of_ne_zero (NeZero.ne N)
  have he : 0 ≤ e := (abs_nonneg _).trans (hf 0)
  set v : ZMod N → ℂ := fun i => (f i : ℂ) with hv
  have h1 : |apply (mD len) f j| ≤ 1 / N * ∑ k, ‖dft v k‖ * ‖mD len k‖ := by
    refine (Complex.abs_re_le_norm _).trans ?_
    rw [invDFT_apply, norm_smul, norm_inv, Complex.norm_natCast, ← one_div]
    gcongr
    refine (norm_sum_le _ _).trans (sum_le_sum fun k _ => le_of_eq ?_)
    rw [norm_smul, norm_mul]
    have : ‖stdAddChar (k * j)‖ = 1 := by
      rw [stdAddChar_apply]
      exact Circle.norm_coe _
    rw [this, one_mul]
  set B := Real.pi * N / |len| with hB
  have hB0 : 0 ≤ B := by positivity
  have h2 : (∑ k, ‖dft v k‖ * ‖mD len k‖) ^ 2 ≤ (N * (Real.sqrt N * B * e)) ^ 2 := by
    refine (sum_mul_sq_le_sq_mul_sq _ _ _).trans ?_
    have h3 : ∑ k, ‖dft v k‖ ^ 2 ≤ N * (N * e ^ 2) := by
      rw [parseval]
      gcongr
      calc ∑ j, ‖v j‖ ^ 2 ≤ ∑ _j : ZMod N, e ^ 2 := by
            refine sum_le_sum fun i _ => ?_
            rw [hv, Complex.norm_real, Real.norm_eq_abs]
            exact pow_le_pow_left₀ (abs_nonneg _) (hf i) 2
        _ = N * e ^ 2 := by simp [ZMod.card]
    have h4 : ∑ k : ZMod N, ‖mD len k‖ ^ 2 ≤ N * B ^ 2 := by
      calc ∑ k : ZMod N, ‖mD len k‖ ^ 2 ≤ ∑ _k : ZMod N, B ^ 2 := sum_le_sum fun k _ => pow_le_pow_left₀ (norm_nonneg _) (mD_le len k) 2
        _ = N * B ^ 2 := by simp [ZMod.card]
    calc _ ≤ (N * (N * e ^ 2)) * (N * B ^ 2) := mul_le_mul h3 h4 (sum_nonneg fun _ _ => sq_nonneg _) (by positivity)
      _ = _ := by rw [mul_pow, mul_pow, mul_pow, Real.sq_sqrt hN.le]; ring
  have h4 := abs_le_of_sq_le_sq h2 (by positivity)
  rw [abs_of_nonneg (sum_nonneg fun _ _ => by positivity)] at h4
  calc _ ≤ 1 / N * (N * (Real.sqrt N * B * e)) := h1.trans (by gcongr)
    _ = _ := by field_simp

end Fft

open Fft in
/-- C131: if two arrays with `N` entries differ by at most `ε` in every entry, their Fourier derivatives over an interval of length `len` differ by at
most `√N · π N / len · ε`. -/
theorem C131_array {f g F G : List ℝ} {ε len : ℝ} (hl : len ≠ 0) (h : Within ε f g) (hF : fftDerivative f len = .ok F) (hG : fftDerivative g len = .ok G) :
    Within (Real.sqrt g.length * (Real.pi * g.length / |len|) * ε) F G := by
  have hfl : f.length = g.length := h.length_eq
  rcases eq_or_ne g [] with rfl | hg
  · rw [fftDerivative] at hG
    simp [Np.fft, bind, Except.bind] at hG
  have : NeZero g.length := ⟨by simpa using hg⟩
  rw [derivative_eq (N := g.length) hfl hl] at hF
  rw [derivative_eq (N := g.length) rfl hl] at hG
  cases hF
  cases hG
  have hb : ∀ j : ZMod g.length, |Fft.vec g.length f j - Fft.vec g.length g j| ≤ ε := by
    intro j
    have hj : j.val < g.length := ZMod.val_lt j
    unfold Fft.vec
    rw [List.getD_eq_getElem _ _ (by omega), List.getD_eq_getElem _ _ hj]
    exact (List.forall₂_iff_get.1 h).2 j.val (by omega) hj
  unfold Within ofVec
  rw [List.forall₂_map_left_iff, List.forall₂_map_right_iff, List.forall₂_same]
  intro k _
  have := apply_mD_le (N := g.length) len hb k
  rwa [show (fun j => Fft.vec g.length f j - Fft.vec g.length g j) = fun i => Fft.vec g.length f i - Fft.vec g.length g i from rfl, apply_sub] at this

open Fft in
/-- an error of 1/10 in one of four values -/
example : ∃ F G, fftDerivative [11 / 10, 2, 3, 4] (2 * Real.pi) = .ok F ∧ fftDerivative [1, 2, 3, 4] (2 * Real.pi) = .ok G ∧ Within (2 / 5) F G := by
  have hpi := Real.pi_pos
  have hl : (2 * Real.pi : ℝ) ≠ 0 := by positivity
  have h1 := derivative_eq (N := 4) (f := [11 / 10, 2, 3, 4]) (len := 2 * Real.pi) rfl hl
  have h2 := derivative_eq (N := 4) (f := [1, 2, 3, 4]) (len := 2 * Real.pi) rfl hl
  have h0 : Within (1 / 10) [11 / 10, 2, 3, 4] [1, 2, 3, 4] := by
    refine .cons ?_ (.cons ?_ (.cons ?_ (.cons ?_ .nil))) <;> norm_num
  refine ⟨_, _, h1, h2, (C131_array hl h0 h1 h2).imp fun x y hxy => hxy.trans (le_of_eq ?_)⟩
  have hs : Real.sqrt 4 = 2 := by rw [show (4 : ℝ) = 2 ^ 2 by norm_num, Real.sqrt_sq (by norm_num)]
  rw [abs_of_pos (by positivity)]
  simp only [List.length_cons, List.length_nil]
  norm_num [hs]
  field_simp
  norm_num

theorem within_split {ε : ℝ} : ∀ {us vs : List (List ℝ)}, us.map List.length = vs.map List.length → Within ε us.flatten vs.flatten →
    List.Forall₂ (Within ε) us vs
  | [], [], _, _ => .nil
  | [], v :: vs, h, _ => by simp at h
  | u :: us, [], h, _ => by simp at h
  | u :: us, v :: vs, h, hw => by
    simp only [List.map_cons, List.cons.injEq] at h
    simp only [List.flatten_cons] at hw
    have h1 : Within ε u v := by
      have := List.forall₂_take u.length hw
      rwa [List.take_left, h.1, List.take_left] at this
    have h2 : Within ε us.flatten vs.flatten := by
      have := List.forall₂_drop u.length hw
      rwa [List.drop_left, h.1, List.drop_left] at this
    exact .cons h1 (within_split h.2 h2)

theorem within_join {ε : ℝ} : ∀ {us vs : List (List ℝ)}, List.Forall₂ (Within ε) us vs → Within ε us.flatten vs.flatten
  | _, _, .nil => .nil
  | _, _, .cons h t => List.rel_append h (within_join t)

/-- C131: if two arrays of boundary values differ by at most `ε` in every entry, the weighted tangential derivatives that the code computes from them
differ by at most `M^(3/2) ε / 2`, `M` the number of samples on the boundary. -/
theorem C131_trace {K : CellG} (h : K.Ready) (hne : ∀ c ∈ K.components, c.edges ≠ []) {u v du dv : List ℝ} {ε : ℝ} (hw : Within ε u v)
    (hu : u.length = K.numPts) (hdu : wtdFromTrace K u = .ok du) (hdv : wtdFromTrace K v = .ok dv) :
    Within (Real.sqrt K.numPts * K.numPts / 2 * ε) du dv := by
  have hpi := Real.pi_pos
  have hv : v.length = K.numPts := by rw [← hu]; exact (List.Forall₂.length_eq hw).symm
  obtain ⟨us, f1, rfl⟩ := exists_fits (K := K) (v := u) (by rw [hu, h.numPts])
  obtain ⟨vs, f2, rfl⟩ := exists_fits (K := K) (v := v) (by rw [hv, h.numPts])
  obtain ⟨dus, g1, e1⟩ := (C49_cell h hne f1).1
  obtain ⟨dvs, g2, e2⟩ := (C49_cell h hne f2).1
  rw [hdu] at e1
  rw [hdv] at e2
  cases e1
  cases e2
  refine within_join ?_
  have hs : List.Forall₂ (Within ε) us vs := within_split (by rw [f1, f2]) hw
  have hlen : ∀ w ∈ vs, w.length ≤ K.numPts := by
    intro w hw
    rw [← hv, List.length_flatten]
    exact List.single_le_sum (by simp) _ (List.mem_map.2 ⟨w, hw, rfl⟩)
  have hl1 : K.components.length = us.length := by have := congrArg List.length f1; simpa using this.symm
  rw [List.forall₂_iff_get] at g1 g2 hs ⊢
  have hl2 := hs.1
  obtain ⟨k1, k2⟩ := g1
  obtain ⟨k3, k4⟩ := g2
  simp only [List.length_zip] at k1 k3
  refine ⟨by omega, fun i h1 h2 => ?_⟩
  have hi : i < K.components.length := by omega
  have q1 := k2 i (by rw [List.length_zip]; omega) h1
  have q2 := k4 i (by rw [List.length_zip]; omega) h2
  simp only [List.get_eq_getElem, List.getElem_zip] at q1 q2
  have hE : 1 ≤ (K.components[i].edges.length : ℝ) := by
    have := List.length_pos_iff.2 (hne _ (List.getElem_mem hi))
    exact_mod_cast this
  have hlen0 : 2 * Real.pi * (K.components[i].edges.length : ℝ) ≠ 0 := by positivity
  have hwi : Within ε us[i] vs[i] := hs.2 i (by omega) (by omega)
  have := C131_array hlen0 hwi q1 q2
  refine List.Forall₂.imp (fun x y hxy => hxy.trans ?_) this
  have hv0 : vs[i] ≠ [] := by
    intro h0
    rw [h0] at q2
    simp [fftDerivative, Np.fft, bind, Except.bind] at q2
  have hε : 0 ≤ ε := by
    obtain ⟨y, l, hyl⟩ := List.exists_cons_of_ne_nil hv0
    obtain ⟨x, _, hxy, _⟩ := List.forall₂_cons_right_iff.1 (hyl ▸ hwi)
    exact (abs_nonneg _).trans hxy
  have hM : ((vs[i].length : ℕ) : ℝ) ≤ K.numPts := by exact_mod_cast hlen _ (List.getElem_mem (by omega))
  rw [abs_of_pos (by positivity)]
  have e : Real.pi * (vs[i].length : ℝ) / (2 * Real.pi * (K.components[i].edges.length : ℝ)) ≤ (K.numPts : ℝ) / 2 := by
    rw [div_le_div_iff₀ (by positivity) (by norm_num)]
    nlinarith [mul_le_mul hM hE zero_le_one (by positivity)]
  calc Real.sqrt vs[i].length * (Real.pi * vs[i].length / (2 * Real.pi * (K.components[i].edges.length : ℝ))) * ε
      ≤ Real.sqrt K.numPts * ((K.numPts : ℝ) / 2) * ε := by gcongr
    _ = _ := by ring

end PFEM
