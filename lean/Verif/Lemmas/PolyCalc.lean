import Mathlib.Analysis.Calculus.Deriv.Pow
import Mathlib.Analysis.Calculus.Deriv.Mul
import Mathlib.Analysis.Calculus.Deriv.Add
import Verif.Lemmas.PolyValue

set_option linter.unusedSectionVars false

namespace PFEM
namespace Poly

section gen
variable {K : Type} [Field K] [LinearOrder K] [IsStrictOrderedRing K]

theorem clean_mul_nat {c : K} (h : tol K ≤ |c|) {n : ℕ} (hn : n ≠ 0) : tol K ≤ |c * n| := by
  rw [abs_mul, Nat.abs_cast]
  have : (1 : K) ≤ n := by exact_mod_cast Nat.one_le_iff_ne_zero.2 hn
  nlinarith [abs_nonneg c]

theorem dx_clean {p : Poly K} (hp : ∀ m ∈ p, tol K ≤ |m.coef|) :
    ∀ m ∈ p.map Mono.dx, CleanC m.coef := by
  intro m hm
  simp only [List.mem_map] at hm
  obtain ⟨n, hn, rfl⟩ := hm
  unfold Mono.dx
  by_cases h : n.alpha.x = 0
  · left; simp [h]
  · right; simp only [h, if_false]; exact clean_mul_nat (hp n hn) h

theorem dy_clean {p : Poly K} (hp : ∀ m ∈ p, tol K ≤ |m.coef|) :
    ∀ m ∈ p.map Mono.dy, CleanC m.coef := by
  intro m hm
  simp only [List.mem_map] at hm
  obtain ⟨n, hn, rfl⟩ := hm
  unfold Mono.dy
  by_cases h : n.alpha.y = 0
  · left; simp [h]
  · right; simp only [h, if_false]; exact clean_mul_nat (hp n hn) h

theorem nz_coef (p : Poly K) : ∀ m ∈ nz p, tol K ≤ |m.coef| := fun m hm =>
  (not_isZero_iff m).1 (List.mem_filter.1 hm).2

end gen

theorem hasDerivAt_x (p : Poly ℝ) (x y : ℝ) :
    HasDerivAt (fun t => eval p t y) (eval (p.map Mono.dx) x y) x := by
  induction p with
  | nil => simpa [eval_nil] using hasDerivAt_const x (0 : ℝ)
  | cons m p ih =>
    simp only [List.map_cons, eval_cons]
    refine HasDerivAt.add ?_ ih
    simp only [Mono.eval_eq]
    unfold Mono.dx
    by_cases h : m.alpha.x = 0
    · simp only [h, if_true, pow_zero, zero_mul]
      exact hasDerivAt_const x _
    · simp only [h, if_false]
      have := ((hasDerivAt_pow m.alpha.x x).const_mul m.coef).mul_const (y ^ m.alpha.y)
      refine this.congr_deriv ?_
      ring

theorem hasDerivAt_y (p : Poly ℝ) (x y : ℝ) :
    HasDerivAt (fun t => eval p x t) (eval (p.map Mono.dy) x y) y := by
  induction p with
  | nil => simpa [eval_nil] using hasDerivAt_const y (0 : ℝ)
  | cons m p ih =>
    simp only [List.map_cons, eval_cons]
    refine HasDerivAt.add ?_ ih
    have ee : m.eval x = fun t => m.coef * x ^ m.alpha.x * t ^ m.alpha.y := by
      funext t; rw [Mono.eval_eq]
    rw [ee]
    simp only [Mono.eval_eq]
    unfold Mono.dy
    by_cases h : m.alpha.y = 0
    · simp only [h, if_true, pow_zero, zero_mul]
      exact hasDerivAt_const y (m.coef * x ^ m.alpha.x * 1)
    · simp only [h, if_false]
      have := (hasDerivAt_pow m.alpha.y y).const_mul (m.coef * x ^ m.alpha.x)
      refine this.congr_deriv ?_
      ring

theorem hasDerivAt_dx {p : Poly ℝ} (hp : ∀ m ∈ p, tol ℝ ≤ |m.coef|) (x y : ℝ) :
    HasDerivAt (fun t => eval p t y) (eval (nz (p.map Mono.dx)) x y) x := by
  rw [eval_of_toMv (toMv_nz (dx_clean hp))]; exact hasDerivAt_x p x y

theorem hasDerivAt_dy {p : Poly ℝ} (hp : ∀ m ∈ p, tol ℝ ≤ |m.coef|) (x y : ℝ) :
    HasDerivAt (fun t => eval p x t) (eval (nz (p.map Mono.dy)) x y) y := by
  rw [eval_of_toMv (toMv_nz (dy_clean hp))]; exact hasDerivAt_y p x y

theorem deriv2_x {p : Poly ℝ} (hp : ∀ m ∈ p, tol ℝ ≤ |m.coef|) (x y : ℝ) :
    deriv (deriv (fun t => eval p t y)) x =
      eval (nz ((nz (p.map Mono.dx)).map Mono.dx)) x y := by
  have : deriv (fun t => eval p t y) = fun t => eval (nz (p.map Mono.dx)) t y := by
    funext t; exact (hasDerivAt_dx hp t y).deriv
  rw [this]
  exact (hasDerivAt_dx (nz_coef _) x y).deriv

theorem deriv2_y {p : Poly ℝ} (hp : ∀ m ∈ p, tol ℝ ≤ |m.coef|) (x y : ℝ) :
    deriv (deriv (fun t => eval p x t)) y =
      eval (nz ((nz (p.map Mono.dy)).map Mono.dy)) x y := by
  have : deriv (fun t => eval p x t) = fun t => eval (nz (p.map Mono.dy)) x t := by
    funext t; exact (hasDerivAt_dy hp x t).deriv
  rw [this]
  exact (hasDerivAt_dy (nz_coef _) x y).deriv

section lattice
variable {K : Type} [Field K] [LinearOrder K] [IsStrictOrderedRing K]

theorem dx_lat {p : Poly K} {δ : K} (hδ : tol K ≤ δ) (hp : InA (lat δ) p) :
    toMv (nz (p.map Mono.dx)) = MvPolynomial.pderiv 0 (toMv p) ∧
      InA (lat δ) (nz (p.map Mono.dx)) :=
  dx_A (sep_lat hδ) hp fun x y c hc => by
    rw [mem_lat] at *
    obtain ⟨n, rfl⟩ := hc
    exact ⟨n * ((x + 1 : ℕ) : ℤ), by push_cast; ring⟩

theorem dy_lat {p : Poly K} {δ : K} (hδ : tol K ≤ δ) (hp : InA (lat δ) p) :
    toMv (nz (p.map Mono.dy)) = MvPolynomial.pderiv 1 (toMv p) ∧
      InA (lat δ) (nz (p.map Mono.dy)) :=
  dy_A (sep_lat hδ) hp fun x y c hc => by
    rw [mem_lat] at *
    obtain ⟨n, rfl⟩ := hc
    exact ⟨n * ((y + 1 : ℕ) : ℤ), by push_cast; ring⟩

end lattice

end Poly
end PFEM
