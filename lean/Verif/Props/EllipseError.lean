import Verif.Props.EllipsePoly
import Verif.Props.HarmInit

/-!
Property theorems C106: on an ellipse, harmonic conjugates and normal derivatives of harmonic polynomials are computed with an error that
decays geometrically with the number of samples.
-/

namespace PFEM
open Nystrom Antilap Finset

/-- sums of modes with small coefficients, and their derivatives, are small -/
theorem err_bound (α : ℕ → ℂ) (x y : ℕ → ℝ) {d : ℕ} {w : ℕ → ℝ} {e S : ℝ} (he : 0 ≤ e) (hx : ∀ k, 1 ≤ k → k ≤ d → |x k| ≤ e * w k)
    (hy : ∀ k, 1 ≤ k → k ≤ d → |y k| ≤ e * w k) (hw : ∀ k, 0 ≤ w k) (hS : ∑ k ∈ range (d + 1), ‖α k‖ * w k ≤ S) (t : ℝ) :
    |trig (fun k => (α k).im * x k) (fun k => (α k).re * y k) (d + 1) (2 * Real.pi) t - (α 0).im * x 0| ≤ e * S ∧
    |trig' (fun k => (α k).im * x k) (fun k => (α k).re * y k) (d + 1) (2 * Real.pi) t| ≤ d * (e * S) := by
  have hn : ∀ k, Real.sqrt ((α k).im ^ 2 + (α k).re ^ 2) = ‖α k‖ := fun k => by
    rw [Complex.norm_def, Complex.normSq_apply]
    congr 1
    ring
  have hS1 : ∑ k ∈ range d, ‖α (k + 1)‖ * w (k + 1) ≤ S := by
    rw [sum_range_succ'] at hS
    have : 0 ≤ ‖α 0‖ * w 0 := mul_nonneg (norm_nonneg _) (hw 0)
    linarith
  have hS0 : 0 ≤ S := le_trans (sum_nonneg fun k _ => mul_nonneg (norm_nonneg _) (hw k)) hS
  constructor
  · rw [trig_eq, sum_range_succ']
    simp only [Nat.cast_zero, zero_mul, Real.cos_zero, Real.sin_zero, mul_one, mul_zero, add_zero, add_sub_cancel_right]
    refine (abs_sum_le_sum_abs _ _).trans ?_
    calc ∑ k ∈ range d, |(α (k + 1)).im * x (k + 1) * Real.cos ((k + 1 : ℕ) * t) + (α (k + 1)).re * y (k + 1) * Real.sin ((k + 1 : ℕ) * t)|
        ≤ ∑ k ∈ range d, ‖α (k + 1)‖ * (e * w (k + 1)) := by
          refine sum_le_sum fun k hk => ?_
          have hk := mem_range.1 hk
          rw [← hn]
          exact cos_sin_le _ _ _ _ _ _ (hx _ (by omega) (by omega)) (hy _ (by omega) (by omega))
      _ = e * ∑ k ∈ range d, ‖α (k + 1)‖ * w (k + 1) := by rw [mul_sum]; exact sum_congr rfl fun k _ => by ring
      _ ≤ e * S := by gcongr
  · rw [trig'_eq, trig_eq, sum_range_succ']
    simp only [Nat.cast_zero, zero_mul, Real.cos_zero, Real.sin_zero, mul_one, mul_zero, add_zero]
    refine (abs_sum_le_sum_abs _ _).trans ?_
    calc ∑ k ∈ range d, |((k + 1 : ℕ) : ℝ) * ((α (k + 1)).re * y (k + 1)) * Real.cos ((k + 1 : ℕ) * t) +
          -(((k + 1 : ℕ) : ℝ) * ((α (k + 1)).im * x (k + 1))) * Real.sin ((k + 1 : ℕ) * t)|
        ≤ ∑ k ∈ range d, d * (‖α (k + 1)‖ * (e * w (k + 1))) := by
          refine sum_le_sum fun k hk => ?_
          have hk := mem_range.1 hk
          have hkd : (((k + 1 : ℕ) : ℝ)) ≤ d := by exact_mod_cast (by omega)
          have h1 := cos_sin_le (α (k + 1)).re (α (k + 1)).im ((k + 1 : ℕ) * t) (y (k + 1)) (-x (k + 1)) _ (hy _ (by omega) (by omega))
            (by rw [abs_neg]; exact hx _ (by omega) (by omega))
          rw [add_comm ((α (k + 1)).re ^ 2), hn] at h1
          rw [show ((k + 1 : ℕ) : ℝ) * ((α (k + 1)).re * y (k + 1)) * Real.cos ((k + 1 : ℕ) * t) +
            -(((k + 1 : ℕ) : ℝ) * ((α (k + 1)).im * x (k + 1))) * Real.sin ((k + 1 : ℕ) * t) = ((k + 1 : ℕ) : ℝ) *
            ((α (k + 1)).re * y (k + 1) * Real.cos ((k + 1 : ℕ) * t) + (α (k + 1)).im * -x (k + 1) * Real.sin ((k + 1 : ℕ) * t)) by ring,
            abs_mul, Nat.abs_cast]
          gcongr
      _ = d * (e * ∑ k ∈ range d, ‖α (k + 1)‖ * w (k + 1)) := by
          rw [mul_sum, mul_sum]; exact sum_congr rfl fun k _ => by ring
      _ ≤ d * (e * S) := by gcongr

/-- the bound of the error -/
noncomputable def ellErr (a b : ℝ) (N d : ℕ) (S : ℝ) : ℝ := 6 * S * (flatness a b ^ (N - d) / (1 - flatness a b) ^ 2)

open Polynomial in
/-- the computed conjugate of the real part of a polynomial as a trigonometric polynomial, with the errors of its values and derivatives -/
theorem ellipse_conj_error {a b : ℝ} (ha : 0 < a) (hb : 0 < b) {N : ℕ} (hN : 4 * flatness a b ^ (N - 1) ≤ 1 - flatness a b) (Q : ℂ[X])
    (hQ : 2 * Q.natDegree < N) : ∃ A B : ℕ → ℝ, ∃ k0 : ℝ,
    (∀ t, (Q.eval (⟨a * Real.cos t, b * Real.sin t⟩ : ℂ)).re = trig A B (Q.natDegree + 1) (2 * Real.pi) t) ∧
    (∀ t, |ellConj a b N A B (Q.natDegree + 1) t - ((Q.eval (⟨a * Real.cos t, b * Real.sin t⟩ : ℂ)).im + k0)| ≤
      ellErr a b N Q.natDegree (coeffSum Q (max a b))) ∧
    (∀ t, |deriv (ellConj a b N A B (Q.natDegree + 1)) t - deriv (fun s : ℝ => (Q.eval (⟨a * Real.cos s, b * Real.sin s⟩ : ℂ)).im) t| ≤
      Q.natDegree * ellErr a b N Q.natDegree (coeffSum Q (max a b))) := by
  obtain ⟨α, hα, hS⟩ := ellipse_poly ha hb Q
  rw [ellRho_abs ha hb] at hS
  set d := Q.natDegree
  set ρ := ellRho a b with hρ
  set A : ℕ → ℝ := fun k => (α k).re * (1 + ρ ^ k) with hA
  set B : ℕ → ℝ := fun k => -((α k).im * (1 - ρ ^ k)) with hB
  set x : ℕ → ℝ := fun k => if k = 0 then -2 else (1 - ρ ^ k) * (1 - k * logCoef a b N k) / (1 - kerCoef a b N k) - (1 + ρ ^ k) with hx
  set y : ℕ → ℝ := fun k => (1 + ρ ^ k) * (1 + k * logCoef a b N k) / (1 + kerCoef a b N k) - (1 - ρ ^ k) with hy
  have him : ∀ t, (Q.eval (⟨a * Real.cos t, b * Real.sin t⟩ : ℂ)).im =
      trig (fun k => (α k).im * (1 + ρ ^ k)) (fun k => (α k).re * (1 - ρ ^ k)) (d + 1) (2 * Real.pi) t := by
    intro t
    rw [← (mode_parts ρ α d t).2, ← hα]
  have hsplit : ∀ t, ellConj a b N A B (d + 1) t = trig (fun k => (α k).im * (1 + ρ ^ k)) (fun k => (α k).re * (1 - ρ ^ k)) (d + 1) (2 * Real.pi) t +
      trig (fun k => (α k).im * x k) (fun k => (α k).re * y k) (d + 1) (2 * Real.pi) t := by
    intro t
    rw [ellConj, trig_eq, trig_eq, trig_eq, ← sum_add_distrib]
    refine sum_congr rfl fun k _ => ?_
    rcases Nat.eq_zero_or_pos k with rfl | hk
    · simp [hx]
      ring
    · simp only [hx, hy, hA, hB, if_neg hk.ne']
      ring
  have hf1 := flatness_lt ha hb
  have hf0 := flatness_nonneg ha hb
  set r := flatness a b with hr
  set e := 6 * (r ^ (N - d) / (1 - r) ^ 2) with he
  have he0 : 0 ≤ e := by positivity
  have hmode : ∀ k, 1 ≤ k → k ≤ d → |x k| ≤ e * (1 + r ^ k) ∧ |y k| ≤ e * (1 + r ^ k) := by
    intro k h1 h2
    have h3 := mode_error ha hb hN h1 (show 2 * k < N by omega)
    have h4 : 6 * (r ^ (N - k) / (1 - r) ^ 2) * (1 + r ^ k) ≤ e * (1 + r ^ k) := by
      have : r ^ (N - k) ≤ r ^ (N - d) := pow_le_pow_of_le_one hf0 hf1.le (by omega)
      rw [he]
      gcongr
    refine ⟨?_, h3.2.trans h4⟩
    simp only [hx, if_neg (show k ≠ 0 by omega)]
    exact h3.1.trans h4
  have hb' := fun t => err_bound α x y (d := d) (w := fun k => 1 + r ^ k) he0 (fun k h1 h2 => (hmode k h1 h2).1) (fun k h1 h2 => (hmode k h1 h2).2)
    (fun k => by positivity) hS t
  have hE : e * coeffSum Q (max a b) = ellErr a b N d (coeffSum Q (max a b)) := by
    rw [he, ellErr]; ring
  rw [hE] at hb'
  refine ⟨A, B, (α 0).im * x 0, fun t => ?_, fun t => ?_, fun t => ?_⟩
  · rw [← (mode_parts ρ α d t).1, ← hα]
  · have := (hb' t).1
    rw [hsplit, him]
    convert this using 2
    ring
  · have h1 : deriv (ellConj a b N A B (d + 1)) t =
        trig' (fun k => (α k).im * (1 + ρ ^ k)) (fun k => (α k).re * (1 - ρ ^ k)) (d + 1) (2 * Real.pi) t +
        trig' (fun k => (α k).im * x k) (fun k => (α k).re * y k) (d + 1) (2 * Real.pi) t := by
      rw [show ellConj a b N A B (d + 1) = _ from funext hsplit]
      exact ((trig_deriv _ _ _ _ t).fun_add (trig_deriv _ _ _ _ t)).deriv
    rw [h1, show (fun s : ℝ => (Q.eval (⟨a * Real.cos s, b * Real.sin s⟩ : ℂ)).im) = _ from funext him, (trig_deriv _ _ _ _ t).deriv,
      add_sub_cancel_left]
    exact (hb' t).2

open Polynomial in
/-- values at the samples of an ellipse -/
theorem ellipse_samples {K : CellG} {x0 y0 a b : ℝ} {N : ℕ} (h : K.IsEllipse x0 y0 a b N) (Q : ℂ[X]) :
    K.samplesOf (rePoly Q x0 y0) = samples N (2 * Real.pi) fun t => (Q.eval (⟨a * Real.cos t, b * Real.sin t⟩ : ℂ)).re := by
  have hθ : ∀ j : ℕ, (j : ℝ) * (2 * Real.pi) / N = 2 * Real.pi * j / N := fun j => by ring
  rw [CellG.samplesOf, h.cols, samples, List.map_map]
  refine List.map_congr_left fun j _ => ?_
  simp [rePoly, ellipseSample, hθ]

open Polynomial in
/-- C106, harmonic conjugates on an ellipse with the half-axes `a`, `b`.  If the boundary values are those of a harmonic polynomial `Re Q(z - z0)`
of degree `d`, less than half the number `N = 2n` of samples, the values that `get_harmonic_conjugate` returns are those of `Im Q(z - z0)` plus a
constant, up to an error of `6 Σ |q_k| max(a,b)^k · r^(N-d) / (1-r)²`, where `r = |a-b| / (a+b)`. -/
theorem C106_conjugate {gmres : Gmres} (hx : Exact gmres) (hf : Finds gmres) {K : CellG} {x0 y0 a b : ℝ} {n : ℕ}
    (h : K.IsEllipse x0 y0 a b (2 * n)) (ha : 0 < a) (hb : 0 < b) (hab : (2 * n : ℕ) / (4 * 10 ^ 6) ≤ min a b) (h4 : 4 ≤ n)
    (hn : n ≤ 2 * 10 ^ 7) (hN : 4 * flatness a b ^ (2 * n - 1) ≤ 1 - flatness a b) {strategy pc : String} {s : Solver}
    (hs : init gmres K strategy pc = .ok s) (Q : ℂ[X]) (hQ : Q.natDegree < n) :
    ∃ v k0, conjugate gmres s (K.samplesOf (rePoly Q x0 y0)) = .ok (v, []) ∧ v.length = K.numPts ∧
      ∀ (j : ℕ) (z : Sample) (y : ℝ), K.cols[j]? = some z → v[j]? = some y →
        |y - (imPoly Q x0 y0 z.x z.y + k0)| ≤
          6 * coeffSum Q (max a b) * (flatness a b ^ (2 * n - Q.natDegree) / (1 - flatness a b) ^ 2) := by
  obtain ⟨A, B, k0, h1, h2, -⟩ := ellipse_conj_error ha hb hN Q (by omega)
  obtain ⟨c, hc⟩ := ellipse_conjugate hx hf h ha hb hab h4 hn hN hs A B (M := Q.natDegree + 1) (by omega)
  rw [show trig A B (Q.natDegree + 1) (2 * Real.pi) = _ from funext fun t => (h1 t).symm, ← ellipse_samples h] at hc
  refine ⟨_, k0 + c, hc, by rw [h.numPts]; simp [samples], fun j z y hz hy => ?_⟩
  have hj : j < 2 * n := by simpa [samples] using (List.getElem?_eq_some_iff.1 hy).1
  have hθ : (j : ℝ) * (2 * Real.pi) / (2 * n : ℕ) = 2 * Real.pi * j / (2 * n : ℕ) := by ring
  have hz' : z = ellipseSample x0 y0 a b (2 * n) j := by
    rw [h.cols] at hz
    simp only [List.getElem?_map, List.getElem?_range hj, Option.map_some, Option.some.injEq] at hz
    exact hz.symm
  have hy' : y = ellConj a b (2 * n) A B (Q.natDegree + 1) (2 * Real.pi * j / (2 * n : ℕ)) + c := by
    simp only [samples, List.getElem?_map, List.getElem?_range hj, Option.map_some, Option.some.injEq] at hy
    rw [← hy, hθ]
  have := h2 (2 * Real.pi * j / (2 * n : ℕ))
  rw [hy', hz', imPoly]
  simp only [ellipseSample, add_sub_cancel_left]
  rw [ellErr] at this
  convert this using 2
  ring

/-- the anti-Laplacian is always computed on cells without holes -/
theorem antilap_total {gmres : Gmres} {s : Solver} (h : s.ops.K.Ready) (hne : s.ops.K.numPts ≠ 0) (h0 : s.ops.K.numHoles = 0) {u v a : List ℝ}
    (hu : u.length = s.ops.K.numPts) (hv : v.length = s.ops.K.numPts) :
    ∃ P W, antilaplacian gmres s u v a = .ok (P, W) ∧ P.length = s.ops.K.numPts ∧ W.length = s.ops.K.numPts := by
  have hcl := h.numPts
  set K := s.ops.K with hK
  have : NeZero K.numPts := ⟨hne⟩
  have hwt : ∀ {x y : List ℝ}, x.length = K.numPts → y.length = K.numPts → ∃ w, weightedTangent K x y = .ok w ∧ w.length = K.numPts := by
    intro x y hx hy
    have e : weightedTangent K x y = .ok (List.zipWith (fun (s : Sample) v => v * s.dxNorm) K.cols
        (List.zipWith (fun (s : Sample) p => p.1 * s.tx + p.2 * s.ty) K.cols (x.zip y))) := by
      simp only [weightedTangent, h.dotWithTangent (hx.trans hcl) (hy.trans hcl), py_ok_bind]
      exact h.multiplyByDxNorm (by simp [hx, hy, hcl])
    exact ⟨_, e, by simp [hx, hy, hcl]⟩
  have hwn : ∀ {x y : List ℝ}, x.length = K.numPts → y.length = K.numPts → ∃ w, Antilap.weightedNormal K x y = .ok w ∧ w.length = K.numPts := by
    intro x y hx hy
    have e : Antilap.weightedNormal K x y = .ok (List.zipWith (fun (s : Sample) v => v * s.dxNorm) K.cols
        (List.zipWith (fun (s : Sample) p => p.1 * s.nx + p.2 * s.ny) K.cols (x.zip y))) := by
      simp only [Antilap.weightedNormal, h.dotWithNormal (hx.trans hcl) (hy.trans hcl), py_ok_bind]
      exact h.multiplyByDxNorm (by simp [hx, hy, hcl])
    exact ⟨_, e, by simp [hx, hy, hcl]⟩
  have hbin : ∀ (f : ℝ → ℝ → ℝ) {x y : List ℝ}, x.length = K.numPts → y.length = K.numPts →
      ∃ w, Np.bin f x y = .ok w ∧ w.length = K.numPts := by
    intro f x y hx hy
    exact ⟨_, bin_eq f (hx.trans hy.symm), by simp [hx, hy]⟩
  have hanti : ∀ {x : List ℝ} (len : ℝ), x.length = K.numPts → ∃ w, fftAntiderivative x len = .ok w ∧ w.length = K.numPts := by
    intro x len hx
    exact ⟨_, Fft.antiderivative_eq hx len, Fft.ofVec_length _⟩
  have hsm : ∀ {x : List ℝ} (c : ℝ), x.length = K.numPts → (Np.smul c x).length = K.numPts := by
    intro x c hx
    simpa [Np.smul] using hx
  obtain ⟨w1, e1, l1⟩ := hwt hu (show (Np.neg v).length = K.numPts by simpa [Np.neg] using hv)
  obtain ⟨r1, e2, l2⟩ := hanti (2 * Real.pi * K.getEdges.length) l1
  obtain ⟨w2, e3, l3⟩ := hwt hv hu
  obtain ⟨r2, e4, l4⟩ := hanti (2 * Real.pi * K.getEdges.length) l3
  have lx : (K.cols.map Sample.x).length = K.numPts := by simp [hcl]
  have ly : (K.cols.map Sample.y).length = K.numPts := by simp [hcl]
  obtain ⟨a1, f1, m1⟩ := hbin (· * ·) lx l2
  obtain ⟨a2, f2, m2⟩ := hbin (· * ·) ly l4
  obtain ⟨a3, f3, m3⟩ := hbin (· + ·) m1 m2
  obtain ⟨a4, f4, m4⟩ := hbin (· * ·) lx hu
  obtain ⟨a5, f5, m5⟩ := hbin (· + ·) l2 m4
  obtain ⟨a6, f6, m6⟩ := hbin (· * ·) ly hv
  obtain ⟨a7, f7, m7⟩ := hbin (· + ·) m5 m6
  obtain ⟨a8, f8, m8⟩ := hbin (· * ·) ly hu
  obtain ⟨a9, f9, m9⟩ := hbin (· + ·) l4 m8
  obtain ⟨a10, f10, m10⟩ := hbin (· * ·) lx hv
  obtain ⟨a11, f11, m11⟩ := hbin (· - ·) m9 m10
  obtain ⟨w3, f12, m12⟩ := hwn (hsm 0.25 m7) (hsm 0.25 m11)
  refine ⟨Np.smul 0.25 a3, w3, ?_, hsm _ m3, m12⟩
  simp only [antilaplacian, ← hK, h0, if_true, simplyConnected, e1, e2, e3, e4, py_ok_bind, fromComponents, h.getBoundaryPoints, Np.mul, Np.add,
    Np.sub, f1, f2, f3, f4, f5, f6, f7, f8, f9, f10, f11, f12]

/-- tangential derivatives of samples of trigonometric polynomials -/
theorem ellipse_wtd {K : CellG} {x0 y0 a b : ℝ} {n : ℕ} (h : K.IsEllipse x0 y0 a b (2 * n)) (h4 : 4 ≤ n) (A B : ℕ → ℝ) {M : ℕ}
    (hM : ∀ k < M, 2 * k < 2 * n) : wtdFromTrace K (samples (2 * n) (2 * Real.pi) (trig A B M (2 * Real.pi))) =
      .ok (samples (2 * n) (2 * Real.pi) fun t => deriv (trig A B M (2 * Real.pi)) t) := by
  obtain ⟨c, e, h1, h2, -, h3⟩ := h.ellipse
  have hu : Fits K [samples (2 * n) (2 * Real.pi) (trig A B M (2 * Real.pi))] := by
    simp [Fits, h1, ContourG.cols, h2, h3, samples]
  obtain ⟨vs, hv, hw⟩ := (C49_cell h.ready h.edges_ne hu).1
  rw [List.flatten_singleton] at hw
  rw [hw]
  simp only [h1, List.zip_cons_cons, List.zip_nil_right] at hv
  cases hv with
  | cons hv1 hv2 =>
    cases hv2
    simp only [h2, List.length_singleton, Nat.cast_one, mul_one] at hv1
    rw [C49_exact _ (by omega) _ (by have := Real.pi_pos; positivity) A B M hM] at hv1
    cases hv1
    simp

open Polynomial in
/-- the derivative of the conjugate along an ellipse is the normal derivative -/
theorem ellipse_cr {a b : ℝ} (ha : 0 < a) (hb : 0 < b) (Q : ℂ[X]) (x0 y0 : ℝ) (N j : ℕ) {g1 g2 : ℝ}
    (hg : HasGrad (rePoly Q x0 y0) (ellipseSample x0 y0 a b N j).x (ellipseSample x0 y0 a b N j).y g1 g2) :
    deriv (fun s : ℝ => (Q.eval (⟨a * Real.cos s, b * Real.sin s⟩ : ℂ)).im) (2 * Real.pi * j / N) =
      (g1 * (ellipseSample x0 y0 a b N j).nx + g2 * (ellipseSample x0 y0 a b N j).ny) * (ellipseSample x0 y0 a b N j).dxNorm := by
  set t := 2 * Real.pi * j / N with ht
  obtain ⟨k1, k2⟩ := hg.unique (rePoly_grad Set.univ Q x0 y0 _ _ (Set.mem_univ _))
  have hpos : 0 < a ^ 2 * Real.sin t ^ 2 + b ^ 2 * Real.cos t ^ 2 := by
    have h1 := Real.sin_sq_add_cos_sq t
    rcases eq_or_ne (Real.sin t) 0 with h0 | h0
    · rw [h0] at h1
      have : Real.cos t ^ 2 = 1 := by linarith
      rw [h0, this]; positivity
    · positivity
  have hs := (Real.sqrt_pos.2 hpos).ne'
  have hz : HasDerivAt (fun s : ℝ => (⟨a * Real.cos s, b * Real.sin s⟩ : ℂ)) (⟨-(a * Real.sin t), b * Real.cos t⟩ : ℂ) t := by
    have e : (fun s : ℝ => (⟨a * Real.cos s, b * Real.sin s⟩ : ℂ)) = fun s : ℝ => ((a * Real.cos s : ℝ) : ℂ) + ((b * Real.sin s : ℝ) : ℂ) * Complex.I := by
      funext s; apply Complex.ext <;> simp [-Complex.ofReal_mul]
    rw [e]
    have h1 := ((Real.hasDerivAt_cos t).const_mul a).ofReal_comp
    have h2 := (((Real.hasDerivAt_sin t).const_mul b).ofReal_comp).mul_const Complex.I
    refine (h1.fun_add h2).congr_deriv ?_
    apply Complex.ext <;> simp [-Complex.ofReal_mul, -Complex.ofReal_neg, -mul_neg] <;> ring
  have hd := im_deriv ((Q.hasDerivAt (⟨a * Real.cos t, b * Real.sin t⟩ : ℂ)).comp t hz)
  have hd' : HasDerivAt (fun s : ℝ => (Q.eval (⟨a * Real.cos s, b * Real.sin s⟩ : ℂ)).im)
      ((derivative Q).eval (⟨a * Real.cos t, b * Real.sin t⟩ : ℂ) * ⟨-(a * Real.sin t), b * Real.cos t⟩).im t := hd
  rw [hd'.deriv, k1, k2]
  simp only [ellipseSample, rePoly, imPoly, ← ht, add_sub_cancel_left, Complex.mul_im]
  generalize Real.sqrt (a ^ 2 * Real.sin t ^ 2 + b ^ 2 * Real.cos t ^ 2) = g at hs
  generalize (derivative Q).eval (⟨a * Real.cos t, b * Real.sin t⟩ : ℂ) = w
  field_simp

open Polynomial in
/-- C106, normal derivatives on an ellipse: `LocalHarmonic(trace, nyst)` is defined whenever the trace holds the values of a harmonic polynomial
`u = Re Q(z - z0)` of degree `d < n`; it keeps these values, and every sample of the weighted normal derivative that it stores differs from the
weighted normal derivative of `u` by at most `6 d Σ |q_k| max(a,b)^k · r^(N-d) / (1-r)²`, where `N = 2n` and `r = |a-b| / (a+b)`. -/
theorem C106_normal {gmres : Gmres} (hx : Exact gmres) (hf : Finds gmres) {K : CellG} {x0 y0 a b : ℝ} {n : ℕ}
    (h : K.IsEllipse x0 y0 a b (2 * n)) (ha : 0 < a) (hb : 0 < b) (hab : (2 * n : ℕ) / (4 * 10 ^ 6) ≤ min a b) (h4 : 4 ≤ n)
    (hn : n ≤ 2 * 10 ^ 7) (hN : 4 * flatness a b ^ (2 * n - 1) ≤ 1 - flatness a b) {strategy pc : String} {s : Solver}
    (hs : init gmres K strategy pc = .ok s) (Q : ℂ[X]) (hQ : Q.natDegree < n) {t : Trace} (ht : t.On K.getEdges)
    (hv : t.values = some (K.samplesOf (rePoly Q x0 y0))) :
    ∃ u w, LocHarm.init gmres t (some s) = .ok u ∧ u.Full K.getEdges K.numHoles ∧ u.trace.values = some (K.samplesOf (rePoly Q x0 y0)) ∧
      u.logCoef = some [] ∧ u.trace.wnd = some w ∧ w.length = K.numPts ∧
      ∀ (j : ℕ) (z : Sample) (y g1 g2 : ℝ), K.cols[j]? = some z → w[j]? = some y → HasGrad (rePoly Q x0 y0) z.x z.y g1 g2 →
        |y - (g1 * z.nx + g2 * z.ny) * z.dxNorm| ≤
          Q.natDegree * (6 * coeffSum Q (max a b) * (flatness a b ^ (2 * n - Q.natDegree) / (1 - flatness a b) ^ 2)) := by
  obtain ⟨A, B, k0, h1, -, h2⟩ := ellipse_conj_error ha hb hN Q (by omega)
  have hM : ∀ k < Q.natDegree + 1, 2 * k < 2 * n := by omega
  obtain ⟨c, hc⟩ := ellipse_conjugate hx hf h ha hb hab h4 hn hN hs A B hM
  rw [show trig A B (Q.natDegree + 1) (2 * Real.pi) = _ from funext fun t => (h1 t).symm, ← ellipse_samples h] at hc
  have hof := C74_solver h.ready (h.even rfl h4 hn) h.edges_ne h.holes hs
  have hcell : s.ops.K = K := hof.cell
  have hcl : (samples (2 * n) (2 * Real.pi) fun t => ellConj a b (2 * n) A B (Q.natDegree + 1) t + c).length = K.numPts := by
    rw [h.numPts]; simp [samples]
  have h0 := h.numHoles
  have hlen : K.cols.length = K.numPts := h.ready.numPts.symm
  obtain ⟨P, W, hP, hPl, hWl⟩ := antilap_total (gmres := gmres) (s := s) (by rw [hcell]; exact h.ready) (by rw [hcell, h.numPts]; omega)
    (by rw [hcell]; exact h0)
    (u := List.zipWith (fun x (q : Sample) => x - withLogs K [] (fun _ _ => 0) q.x q.y) (K.samplesOf (rePoly Q x0 y0)) K.cols) (a := [])
    (by rw [hcell]; simp [CellG.samplesOf, hlen]) (v := samples (2 * n) (2 * Real.pi) fun t => ellConj a b (2 * n) A B (Q.natDegree + 1) t + c)
    (by rw [hcell]; exact hcl)
  rw [hcell] at hPl hWl
  obtain ⟨r, w, d, e1, -, e3, e4, e5⟩ := C74_data h.ready h.edges_ne hof ht hv hc hcl (by rw [h0]; rfl) hP hPl hWl
  obtain ⟨A', B', hAB⟩ : ∃ A' B' : ℕ → ℝ, ∀ t, ellConj a b (2 * n) A B (Q.natDegree + 1) t + c = trig A' B' (Q.natDegree + 1) (2 * Real.pi) t := by
    refine ⟨fun k => if k = 0 then c else -(B k * (1 - k * logCoef a b (2 * n) k)) / (1 - kerCoef a b (2 * n) k),
      fun k => A k * (1 + k * logCoef a b (2 * n) k) / (1 + kerCoef a b (2 * n) k), fun t => ?_⟩
    rw [ellConj, trig_eq, trig_eq, sum_range_succ', sum_range_succ']
    simp
  rw [funext hAB, ellipse_wtd h h4 A' B' hM] at e3
  cases e3
  have hder : ∀ t, deriv (trig A' B' (Q.natDegree + 1) (2 * Real.pi)) t = deriv (ellConj a b (2 * n) A B (Q.natDegree + 1)) t := by
    intro t
    rw [show trig A' B' (Q.natDegree + 1) (2 * Real.pi) = _ from (funext hAB).symm, deriv_add_const]
  refine ⟨r, _, e1, e4, e5.values, e5.logCoef, e5.wnd, by simp [samples, hlen, h.numPts], fun j z y g1 g2 hz hy hg => ?_⟩
  have hj : j < 2 * n := by
    have := (List.getElem?_eq_some_iff.1 hz).1
    rwa [hlen, h.numPts] at this
  have hθ : (j : ℝ) * (2 * Real.pi) / (2 * n : ℕ) = 2 * Real.pi * j / (2 * n : ℕ) := by ring
  have hz' : z = ellipseSample x0 y0 a b (2 * n) j := by
    have hz := hz
    rw [h.cols] at hz
    simp only [List.getElem?_map, List.getElem?_range hj, Option.map_some, Option.some.injEq] at hz
    exact hz.symm
  have hy' : y = deriv (ellConj a b (2 * n) A B (Q.natDegree + 1)) (2 * Real.pi * j / (2 * n : ℕ)) := by
    have hl0 : ∀ q : Sample, logsNormal K [] q = 0 := fun q => by rw [logsNormal_grad]; simp
    simp only [List.getElem?_zipWith, hz, samples, List.getElem?_map, List.getElem?_range hj, Option.map_some, hl0, add_zero,
      Option.some.injEq] at hy
    rw [← hy, hθ, hder]
  subst hz'
  rw [hy', ← ellipse_cr ha hb Q x0 y0 (2 * n) j hg]
  exact h2 _

end PFEM
