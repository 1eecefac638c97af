import Verif.Lemmas.PolyDegree
import Verif.Lemmas.DiscIntegral
import Verif.Lemmas.TrigSum
import Verif.Spec.Calculus
import Mathlib.Analysis.SpecialFunctions.Integrals.Basic
import Mathlib.Analysis.SpecialFunctions.ExpDeriv

/-!
Functions of two variables that are polynomials of bounded degree, and their sums over equispaced points of a circle.
-/

namespace PFEM
open Set

/-- `f` is a polynomial of degree at most `d` -/
def PolyFn (d : ℕ) (f : ℝ → ℝ → ℝ) : Prop := ∃ p : MvPolynomial (Fin 2) ℝ, p.totalDegree ≤ d ∧ ∀ x y, f x y = MvPolynomial.eval ![x, y] p

namespace PolyFn
variable {d e : ℕ} {f g : ℝ → ℝ → ℝ}

theorem mono (h : PolyFn d f) (hd : d ≤ e) : PolyFn e f := by
  obtain ⟨p, h1, h2⟩ := h
  exact ⟨p, h1.trans hd, h2⟩

theorem const (c : ℝ) : PolyFn 0 fun _ _ => c := ⟨MvPolynomial.C c, by simp, fun x y => by simp⟩

theorem x : PolyFn 1 fun x _ => x := ⟨MvPolynomial.X 0, by simp, fun x y => by simp⟩

theorem y : PolyFn 1 fun _ y => y := ⟨MvPolynomial.X 1, by simp, fun x y => by simp⟩

theorem add (h : PolyFn d f) (h' : PolyFn e g) : PolyFn (max d e) fun x y => f x y + g x y := by
  obtain ⟨p, h1, h2⟩ := h
  obtain ⟨q, k1, k2⟩ := h'
  exact ⟨p + q, (MvPolynomial.totalDegree_add _ _).trans (max_le_max h1 k1), fun x y => by rw [map_add, ← h2, ← k2]⟩

theorem mul (h : PolyFn d f) (h' : PolyFn e g) : PolyFn (d + e) fun x y => f x y * g x y := by
  obtain ⟨p, h1, h2⟩ := h
  obtain ⟨q, k1, k2⟩ := h'
  exact ⟨p * q, (MvPolynomial.totalDegree_mul _ _).trans (add_le_add h1 k1), fun x y => by rw [map_mul, ← h2, ← k2]⟩

theorem smul (c : ℝ) (h : PolyFn d f) : PolyFn d fun x y => c * f x y := by
  simpa using (const c).mul h

theorem neg (h : PolyFn d f) : PolyFn d fun x y => -f x y := by
  simpa using h.smul (-1)

theorem sub (h : PolyFn d f) (h' : PolyFn e g) : PolyFn (max d e) fun x y => f x y - g x y := by
  simpa [sub_eq_add_neg] using h.add h'.neg

theorem add' (h : PolyFn d f) (h' : PolyFn d g) : PolyFn d fun x y => f x y + g x y := (h.add h').mono (by simp)

theorem sub' (h : PolyFn d f) (h' : PolyFn d g) : PolyFn d fun x y => f x y - g x y := (h.sub h').mono (by simp)

theorem ofPoly {p : Poly ℝ} (h : Poly.DegLe d p) : PolyFn d p.eval := ⟨Poly.toMv p, Poly.totalDegree_toMv h, Poly.eval_mv p⟩

theorem mv_contDiff (p : MvPolynomial (Fin 2) ℝ) : ContDiff ℝ 2 fun q : ℝ × ℝ => MvPolynomial.eval ![q.1, q.2] p := by
  induction p using MvPolynomial.induction_on with
  | C c => simpa using contDiff_const
  | add p q hp hq =>
    simp only [map_add]
    exact hp.add hq
  | mul_X p i hp =>
    simp only [map_mul, MvPolynomial.eval_X]
    refine hp.mul ?_
    fin_cases i
    · simpa using contDiff_fst
    · simpa using contDiff_snd

theorem contDiff (h : PolyFn d f) : ContDiff ℝ 2 fun p : ℝ × ℝ => f p.1 p.2 := by
  obtain ⟨p, -, h2⟩ := h
  simp only [h2]
  exact mv_contDiff p

end PolyFn

theorem totalDegree_pderiv (i : Fin 2) (p : MvPolynomial (Fin 2) ℝ) : (MvPolynomial.pderiv i p).totalDegree ≤ p.totalDegree := by
  refine Finset.sup_le fun m hm => ?_
  rw [MvPolynomial.mem_support_iff, MvPolynomial.coeff_pderiv] at hm
  have h1 := MvPolynomial.le_totalDegree (MvPolynomial.mem_support_iff.2 (left_ne_zero_of_mul hm))
  rw [Finsupp.sum_fintype _ _ (fun _ => rfl), Fin.sum_univ_two] at h1 ⊢
  simp only [Finsupp.add_apply] at h1
  omega

/-- `f` is a polynomial of degree at most `d` with gradient `(f1, f2)` and Laplacian `l` -/
structure PolyLap (d : ℕ) (f f1 f2 l : ℝ → ℝ → ℝ) : Prop where
  fn : PolyFn d f
  fn1 : PolyFn d f1
  fn2 : PolyFn d f2
  grad : HasGradOn Set.univ f f1 f2
  lap : ∃ a b : ℝ → ℝ → ℝ, (∀ x y, HasDerivAt (fun s => f1 s y) (a x y) x) ∧ (∀ x y, HasDerivAt (fun s => f2 x s) (b x y) y) ∧
    ∀ x y, a x y + b x y = l x y

theorem PolyFn.lap {d : ℕ} {f f1 f2 l : ℝ → ℝ → ℝ} (h : PolyFn d f) (hg : HasGradOn Set.univ f f1 f2) (hl : HasLaplacian Set.univ f l) :
    PolyLap d f f1 f2 l := by
  obtain ⟨p, hp, e⟩ := h
  have e' : f = fun x y => MvPolynomial.eval ![x, y] p := by funext x y; exact e x y
  have e1 : ∀ x y, f1 x y = MvPolynomial.eval ![x, y] (MvPolynomial.pderiv 0 p) := fun x y =>
    (hg x y trivial).1.unique (by rw [e']; exact Poly.mv_x p x y)
  have e2 : ∀ x y, f2 x y = MvPolynomial.eval ![x, y] (MvPolynomial.pderiv 1 p) := fun x y =>
    (hg x y trivial).2.unique (by rw [e']; exact Poly.mv_y p x y)
  refine ⟨⟨p, hp, e⟩, ⟨_, (totalDegree_pderiv 0 p).trans hp, e1⟩, ⟨_, (totalDegree_pderiv 1 p).trans hp, e2⟩, hg, ?_⟩
  obtain ⟨u1, u2, hu⟩ := hl
  have k1 : ∀ x y, u1 x y = f1 x y := fun x y => (hu x y trivial).1.1.unique (hg x y trivial).1
  have k2 : ∀ x y, u2 x y = f2 x y := fun x y => (hu x y trivial).1.2.unique (hg x y trivial).2
  have hu' : ∀ x y, ∃ a b, HasDerivAt (fun s => f1 s y) a x ∧ HasDerivAt (fun s => f2 x s) b y ∧ a + b = l x y := fun x y => by
    obtain ⟨-, a, b, h1, h2, h3⟩ := hu x y trivial
    simp only [k1, k2] at h1 h2
    exact ⟨a, b, h1, h2, h3⟩
  choose a b h1 h2 h3 using hu'
  exact ⟨a, b, h1, h2, h3⟩

open Polynomial in
/-- real and imaginary part of a complex polynomial -/
theorem PolyFn.complex (x0 y0 : ℝ) (Q : ℂ[X]) : PolyFn Q.natDegree (rePoly Q x0 y0) ∧ PolyFn Q.natDegree (imPoly Q x0 y0) := by
  have hx : PolyFn 1 fun x _ => x - x0 := (PolyFn.x.sub (PolyFn.const x0)).mono (by simp)
  have hy : PolyFn 1 fun _ y => y - y0 := (PolyFn.y.sub (PolyFn.const y0)).mono (by simp)
  have hpow : ∀ n : ℕ, PolyFn n (fun x y => ((⟨x - x0, y - y0⟩ : ℂ) ^ n).re) ∧ PolyFn n fun x y => ((⟨x - x0, y - y0⟩ : ℂ) ^ n).im := by
    intro n
    induction n with
    | zero => exact ⟨by simpa using PolyFn.const 1, by simpa using PolyFn.const 0⟩
    | succ n ih =>
      simp only [pow_succ, Complex.mul_re, Complex.mul_im]
      exact ⟨(ih.1.mul hx).sub' (ih.2.mul hy), (ih.1.mul hy).add' (ih.2.mul hx)⟩
  have hsum : ∀ (s : Finset ℕ) (d : ℕ) (a : ℕ → ℂ), (∀ k ∈ s, k ≤ d) → PolyFn d (fun x y => (∑ k ∈ s, a k * (⟨x - x0, y - y0⟩ : ℂ) ^ k).re) ∧
      PolyFn d fun x y => (∑ k ∈ s, a k * (⟨x - x0, y - y0⟩ : ℂ) ^ k).im := by
    intro s d a
    induction s using Finset.induction_on with
    | empty => exact fun _ => ⟨by simpa using (PolyFn.const 0).mono (Nat.zero_le d), by simpa using (PolyFn.const 0).mono (Nat.zero_le d)⟩
    | insert k s hk ih =>
      intro hs
      obtain ⟨i1, i2⟩ := ih fun j hj => hs j (by simp [hj])
      have hkd := hs k (by simp)
      simp only [Finset.sum_insert hk, Complex.add_re, Complex.add_im, Complex.mul_re, Complex.mul_im]
      obtain ⟨p1, p2⟩ := hpow k
      exact ⟨(((p1.smul _).sub' (p2.smul _)).mono hkd).add' i1, (((p2.smul _).add' (p1.smul _)).mono hkd).add' i2⟩
  have := hsum (Finset.range (Q.natDegree + 1)) Q.natDegree Q.coeff fun k hk => by
    rw [Finset.mem_range] at hk
    omega
  unfold rePoly imPoly
  simp only [eval_eq_sum_range]
  exact this

/-! ### trigonometric polynomials -/

/-- combinations of `e^{ikθ}` with `|k| ≤ d` -/
def trigSpan (d : ℕ) : Submodule ℂ (ℝ → ℂ) := Submodule.span ℂ {g | ∃ k : ℤ, |k| ≤ d ∧ g = fun θ : ℝ => Complex.exp (k * θ * Complex.I)}

theorem trigSpan_exp {d : ℕ} {k : ℤ} (hk : |k| ≤ d) : (fun θ : ℝ => Complex.exp (k * θ * Complex.I)) ∈ trigSpan d :=
  Submodule.subset_span ⟨k, hk, rfl⟩

theorem trigSpan_mono {d e : ℕ} (h : d ≤ e) : trigSpan d ≤ trigSpan e :=
  Submodule.span_mono fun g ⟨k, hk, hg⟩ => ⟨k, hk.trans (by exact_mod_cast h), hg⟩

theorem trigSpan_const (d : ℕ) (c : ℂ) : (fun _ => c) ∈ trigSpan d := by
  have := (trigSpan d).smul_mem c (trigSpan_exp (d := d) (k := 0) (by simp))
  convert this using 1
  funext θ
  simp

theorem trigSpan_mul {d e : ℕ} {f g : ℝ → ℂ} (hf : f ∈ trigSpan d) (hg : g ∈ trigSpan e) : (fun θ => f θ * g θ) ∈ trigSpan (d + e) := by
  induction hf using Submodule.span_induction with
  | mem f hf =>
    obtain ⟨k, hk, rfl⟩ := hf
    induction hg using Submodule.span_induction with
    | mem g hg =>
      obtain ⟨l, hl, rfl⟩ := hg
      convert trigSpan_exp (d := d + e) (k := k + l) ((abs_add_le k l).trans (by push_cast; exact add_le_add hk hl)) using 1
      funext θ
      rw [← Complex.exp_add]
      congr 1
      push_cast
      ring
    | zero => convert (trigSpan (d + e)).zero_mem using 1; funext θ; simp
    | add a b _ _ ha hb => convert (trigSpan (d + e)).add_mem ha hb using 1; funext θ; simp [mul_add]
    | smul c a _ ha => convert (trigSpan (d + e)).smul_mem c ha using 1; funext θ; simp; ring
  | zero => convert (trigSpan (d + e)).zero_mem using 1; funext θ; simp
  | add a b _ _ ha hb => convert (trigSpan (d + e)).add_mem ha hb using 1; funext θ; simp [add_mul]
  | smul c a _ ha => convert (trigSpan (d + e)).smul_mem c ha using 1; funext θ; simp; ring

theorem trigSpan_cos : (fun θ : ℝ => ((Real.cos θ : ℝ) : ℂ)) ∈ trigSpan 1 := by
  have h := (trigSpan 1).smul_mem (1 / 2 : ℂ) ((trigSpan 1).add_mem (trigSpan_exp (k := 1) (by simp)) (trigSpan_exp (k := -1) (by simp)))
  convert h using 1
  funext θ
  simp only [Pi.smul_apply, Pi.add_apply, smul_eq_mul, Complex.ofReal_cos, Complex.cos]
  push_cast
  ring_nf

theorem trigSpan_sin : (fun θ : ℝ => ((Real.sin θ : ℝ) : ℂ)) ∈ trigSpan 1 := by
  have h := (trigSpan 1).smul_mem (Complex.I / 2 : ℂ) ((trigSpan 1).sub_mem (trigSpan_exp (k := -1) (by simp)) (trigSpan_exp (k := 1) (by simp)))
  convert h using 1
  funext θ
  simp only [Pi.smul_apply, Pi.sub_apply, smul_eq_mul, Complex.ofReal_sin, Complex.sin]
  push_cast
  ring_nf

theorem trigSpan_pow {f : ℝ → ℂ} (hf : f ∈ trigSpan 1) (n : ℕ) : (fun θ => f θ ^ n) ∈ trigSpan n := by
  induction n with
  | zero => simpa using trigSpan_const 0 1
  | succ n ih =>
    simp only [pow_succ]
    exact trigSpan_mul ih hf

/-- a polynomial on a circle -/
theorem PolyFn.trig {d : ℕ} {f : ℝ → ℝ → ℝ} (h : PolyFn d f) (x0 y0 r : ℝ) :
    (fun θ : ℝ => ((f (x0 + r * Real.cos θ) (y0 + r * Real.sin θ) : ℝ) : ℂ)) ∈ trigSpan d := by
  obtain ⟨p, h1, h2⟩ := h
  have hx : (fun θ : ℝ => ((x0 + r * Real.cos θ : ℝ) : ℂ)) ∈ trigSpan 1 := by
    convert (trigSpan 1).add_mem (trigSpan_const 1 x0) ((trigSpan 1).smul_mem (r : ℂ) trigSpan_cos) using 1
    funext θ
    simp
  have hy : (fun θ : ℝ => ((y0 + r * Real.sin θ : ℝ) : ℂ)) ∈ trigSpan 1 := by
    convert (trigSpan 1).add_mem (trigSpan_const 1 y0) ((trigSpan 1).smul_mem (r : ℂ) trigSpan_sin) using 1
    funext θ
    simp
  have e : (fun θ : ℝ => ((f (x0 + r * Real.cos θ) (y0 + r * Real.sin θ) : ℝ) : ℂ)) = ∑ m ∈ p.support, ((p.coeff m : ℝ) : ℂ) • fun θ : ℝ =>
      ((x0 + r * Real.cos θ : ℝ) : ℂ) ^ m 0 * ((y0 + r * Real.sin θ : ℝ) : ℂ) ^ m 1 := by
    funext θ
    rw [h2, MvPolynomial.eval_eq', Finset.sum_apply]
    push_cast
    refine Finset.sum_congr rfl fun m _ => ?_
    simp [Fin.prod_univ_two]
  rw [e]
  refine (trigSpan d).sum_mem fun m hm => (trigSpan d).smul_mem _ ?_
  refine trigSpan_mono ?_ (trigSpan_mul (trigSpan_pow hx (m 0)) (trigSpan_pow hy (m 1)))
  have := (MvPolynomial.le_totalDegree hm).trans h1
  rwa [Finsupp.sum_fintype _ _ (fun _ => rfl), Fin.sum_univ_two] at this

/-- the trapezoidal rule integrates trigonometric polynomials of degree less than the number of points exactly -/
theorem trapezoid_exact {d N : ℕ} (hd : d < N) {f : ℝ → ℂ} (hf : f ∈ trigSpan d) :
    Continuous f ∧ ∑ j ∈ Finset.range N, (2 * Real.pi / N : ℂ) * f (2 * Real.pi * j / N) = ∫ θ in -Real.pi..Real.pi, f θ := by
  have hN : 0 < N := by omega
  have hN' : (N : ℂ) ≠ 0 := by exact_mod_cast hN.ne'
  induction hf using Submodule.span_induction with
  | mem g hg =>
    obtain ⟨k, hk, rfl⟩ := hg
    refine ⟨by fun_prop, ?_⟩
    rw [← Finset.mul_sum]
    by_cases h0 : k = 0
    · subst h0
      simp
      field_simp
      ring
    · have h1 := sum_exp hN (j := k) (by
        intro hdvd
        have := Int.le_of_dvd (abs_pos.2 h0) ((dvd_abs _ _).2 hdvd)
        omega)
      have h2 : ∑ j ∈ Finset.range N, Complex.exp (k * ((2 * Real.pi * j / N : ℝ) : ℂ) * Complex.I) = 0 := by
        rw [← h1]
        refine Finset.sum_congr rfl fun j _ => ?_
        rw [← Complex.exp_nat_mul]
        congr 1
        push_cast
        ring
      rw [h2, mul_zero]
      have hki : (k : ℂ) * Complex.I ≠ 0 := mul_ne_zero (by exact_mod_cast h0) Complex.I_ne_zero
      have h3 := integral_exp_mul_complex (a := -Real.pi) (b := Real.pi) hki
      have e1 : (fun θ : ℝ => Complex.exp (k * θ * Complex.I)) = fun θ : ℝ => Complex.exp (k * Complex.I * θ) := by
        funext θ; congr 1; ring
      rw [e1, h3]
      have e2 : Complex.exp (k * Complex.I * (Real.pi : ℝ)) = Complex.exp (k * Complex.I * ((-Real.pi : ℝ) : ℂ)) := by
        rw [Complex.exp_eq_exp_iff_exists_int]
        exact ⟨k, by push_cast; ring⟩
      rw [e2, sub_self, zero_div]
  | zero => exact ⟨continuous_const, by simp⟩
  | add a b _ _ ha hb =>
    refine ⟨ha.1.add hb.1, ?_⟩
    simp only [Pi.add_apply, mul_add, Finset.sum_add_distrib]
    rw [ha.2, hb.2, intervalIntegral.integral_add (ha.1.intervalIntegrable _ _) (hb.1.intervalIntegrable _ _)]
  | smul c a _ ha =>
    refine ⟨ha.1.const_smul c, ?_⟩
    simp only [Pi.smul_apply]
    rw [intervalIntegral.integral_smul, ← ha.2, Finset.smul_sum]
    refine Finset.sum_congr rfl fun j _ => ?_
    simp only [smul_eq_mul]
    ring

/-- the same for a real function -/
theorem trapezoid_real {d N : ℕ} (hd : d < N) {f : ℝ → ℝ} (hf : (fun θ => (f θ : ℂ)) ∈ trigSpan d) :
    ∑ j ∈ Finset.range N, 2 * Real.pi / N * f (2 * Real.pi * j / N) = ∫ θ in -Real.pi..Real.pi, f θ := by
  have h := (trapezoid_exact hd hf).2
  rw [intervalIntegral.integral_ofReal] at h
  exact_mod_cast h

end PFEM
