import Mathlib.Data.Nat.Factorial.Basic
import Mathlib.Tactic.LinearCombination
import Mathlib.Tactic.FieldSimp
import Verif.Lemmas.PolyCalc

set_option linter.unusedSectionVars false

namespace PFEM
namespace Poly

open MvPolynomial (X C pderiv monomial)

variable {K : Type} [Field K] [LinearOrder K] [IsStrictOrderedRing K]

/-! ### Algebra of the Laplacian and `|x|^2` -/

/-- formal Laplacian -/
noncomputable def Lap (f : MvPolynomial (Fin 2) K) : MvPolynomial (Fin 2) K :=
  pderiv 0 (pderiv 0 f) + pderiv 1 (pderiv 1 f)

/-- formal Euler operator -/
noncomputable def Eu (f : MvPolynomial (Fin 2) K) : MvPolynomial (Fin 2) K :=
  X 0 * pderiv 0 f + X 1 * pderiv 1 f

/-- `x^2 + y^2` -/
noncomputable def rho (K : Type) [Field K] : MvPolynomial (Fin 2) K := X 0 ^ 2 + X 1 ^ 2

theorem Lap_add (f g : MvPolynomial (Fin 2) K) : Lap (f + g) = Lap f + Lap g := by
  simp only [Lap, map_add]; ring

theorem Lap_zero : Lap (0 : MvPolynomial (Fin 2) K) = 0 := by simp [Lap]

theorem Lap_C_mul (c : K) (f : MvPolynomial (Fin 2) K) : Lap (C c * f) = C c * Lap f := by
  simp only [Lap, MvPolynomial.pderiv_C_mul]; ring

theorem pderiv0_rho : pderiv 0 (rho K) = 2 * X 0 := by
  simp [rho,
    MvPolynomial.pderiv_X_of_ne (show (1 : Fin 2) ≠ 0 by decide)]

theorem pderiv1_rho : pderiv 1 (rho K) = 2 * X 1 := by
  simp [rho,
    MvPolynomial.pderiv_X_of_ne (show (0 : Fin 2) ≠ 1 by decide)]

theorem Lap_rho_mul (f : MvPolynomial (Fin 2) K) :
    Lap (rho K * f) = rho K * Lap f + 4 * Eu f + 4 * f := by
  have h2a : pderiv (0 : Fin 2) (2 : MvPolynomial (Fin 2) K) = 0 := by
    have : (2 : MvPolynomial (Fin 2) K) = C 2 := (map_ofNat C 2).symm
    rw [this, MvPolynomial.pderiv_C]
  have h2b : pderiv (1 : Fin 2) (2 : MvPolynomial (Fin 2) K) = 0 := by
    have : (2 : MvPolynomial (Fin 2) K) = C 2 := (map_ofNat C 2).symm
    rw [this, MvPolynomial.pderiv_C]
  simp only [Lap, Eu, MvPolynomial.pderiv_mul, map_add, pderiv0_rho, pderiv1_rho,
    MvPolynomial.pderiv_X_self, h2a, h2b]
  ring

theorem Eu_rho_mul (f : MvPolynomial (Fin 2) K) : Eu (rho K * f) = rho K * Eu f + 2 * rho K * f := by
  simp only [Eu, MvPolynomial.pderiv_mul, pderiv0_rho, pderiv1_rho]
  simp only [rho]; ring

theorem Eu_rho_pow_mul (j : ℕ) (f : MvPolynomial (Fin 2) K) (d : K) (h : Eu f = C d * f) :
    Eu (rho K ^ j * f) = C (d + 2 * j) * (rho K ^ j * f) := by
  induction j with
  | zero => simp [h]
  | succ j ih =>
    rw [pow_succ', mul_assoc, Eu_rho_mul, ih]
    push_cast
    simp only [map_add, map_mul, map_one, map_ofNat, map_natCast]
    ring

theorem Lap_rho_pow_mul (j : ℕ) (f : MvPolynomial (Fin 2) K) (d : K) (h : Eu f = C d * f) :
    Lap (rho K ^ (j + 1) * f) =
      rho K ^ (j + 1) * Lap f + C (4 * (j + 1) * (j + 1 + d)) * (rho K ^ j * f) := by
  induction j with
  | zero =>
    simp only [zero_add, pow_one, pow_zero, one_mul, Lap_rho_mul, h, Nat.cast_zero]
    simp only [map_add, map_mul, map_one, map_ofNat]
    ring
  | succ j ih =>
    rw [pow_succ' (rho K) (j + 1), mul_assoc, Lap_rho_mul, ih, Eu_rho_pow_mul _ _ _ h]
    push_cast
    simp only [map_add, map_mul, map_one, map_ofNat, map_natCast]
    ring

/-! ### homogeneous families -/

/-- coefficients of homogeneous polynomials of degree `d` on the lattice `δℤ` -/
def fam (d : ℤ) (δ : K) : MultiIndex → AddSubgroup K := fun a =>
  if (a.order : ℤ) = d then AddSubgroup.zmultiples δ else ⊥

theorem mem_fam {d : ℤ} {δ c : K} {a : MultiIndex} :
    c ∈ fam d δ a ↔ c = 0 ∨ ((a.order : ℤ) = d ∧ ∃ n : ℤ, c = n * δ) := by
  unfold fam
  split
  · rename_i h
    have := mem_lat (δ := δ) (c := c) (a := a)
    unfold lat at this
    rw [this]
    constructor
    · intro hn; exact Or.inr ⟨h, hn⟩
    · rintro (rfl | ⟨_, hn⟩)
      · exact ⟨0, by simp⟩
      · exact hn
  · rename_i h
    simp [h]

theorem sep_fam {d : ℤ} {δ : K} (hδ : tol K ≤ δ) : Sep (fam d δ) := by
  intro a c hc
  rcases mem_fam.1 hc with rfl | ⟨_, hn⟩
  · left; rfl
  · exact lat_clean hδ hn

theorem fam_mul {d e : ℤ} {δ ε : K} {a b : MultiIndex} {x y : K} (hx : x ∈ fam d δ a)
    (hy : y ∈ fam e ε b) : x * y ∈ fam (d + e) (δ * ε) (a.plus b) := by
  rw [mem_fam] at *
  rcases hx with rfl | ⟨h1, m, rfl⟩
  · left; simp
  · rcases hy with rfl | ⟨h2, n, rfl⟩
    · left; simp
    · right
      refine ⟨?_, m * n, by push_cast; ring⟩
      simp only [MultiIndex.order, MultiIndex.plus] at *
      omega

theorem dx_fam {p : Poly K} {d : ℤ} {δ : K} (hδ : tol K ≤ δ) (hp : InA (fam d δ) p) :
    toMv (nz (p.map Mono.dx)) = pderiv 0 (toMv p) ∧ InA (fam (d - 1) δ) (nz (p.map Mono.dx)) :=
  dx_A (sep_fam hδ) hp fun x y c hc => by
    rw [mem_fam] at *
    rcases hc with rfl | ⟨h, n, rfl⟩
    · left; simp
    · right
      refine ⟨?_, n * ((x + 1 : ℕ) : ℤ), by push_cast; ring⟩
      simp only [MultiIndex.order] at *
      omega

theorem dy_fam {p : Poly K} {d : ℤ} {δ : K} (hδ : tol K ≤ δ) (hp : InA (fam d δ) p) :
    toMv (nz (p.map Mono.dy)) = pderiv 1 (toMv p) ∧ InA (fam (d - 1) δ) (nz (p.map Mono.dy)) :=
  dy_A (sep_fam hδ) hp fun x y c hc => by
    rw [mem_fam] at *
    rcases hc with rfl | ⟨h, n, rfl⟩
    · left; simp
    · right
      refine ⟨?_, n * ((y + 1 : ℕ) : ℤ), by push_cast; ring⟩
      simp only [MultiIndex.order] at *
      omega

theorem lap_fam {p : Poly K} {d : ℤ} {δ : K} (hδ : tol K ≤ δ) (hp : InA (fam d δ) p) :
    toMv (lap p) = Lap (toMv p) ∧ InA (fam (d - 2) δ) (lap p) := by
  have h1 := dx_fam hδ hp
  have h2 := dx_fam hδ h1.2
  have h3 := dy_fam hδ hp
  have h4 := dy_fam hδ h3.2
  have e : d - 1 - 1 = d - 2 := by ring
  rw [e] at h2 h4
  have h5 := add_A (sep_fam hδ) h2.2 h4.2
  refine ⟨?_, h5.2⟩
  rw [lap, h5.1, h2.1, h4.1, h1.1, h3.1]; rfl

theorem fam_neg {p : Poly K} {d : ℤ} {δ : K} (hd : d < 0) (hp : InA (fam d δ) p) : toMv p = 0 := by
  induction p with
  | nil => rfl
  | cons m p ih =>
    rw [toMv_cons, ih fun n hn => hp n (by simp [hn])]
    rcases mem_fam.1 (hp m (by simp)) with h | ⟨h, _⟩
    · simp [h]
    · omega

theorem Eu_monomial (a : MultiIndex) (c : K) :
    Eu (monomial a.fs c) = C ((a.order : ℕ) : K) * monomial a.fs c := by
  unfold Eu
  rw [MvPolynomial.X_mul_pderiv_monomial, MvPolynomial.X_mul_pderiv_monomial, MultiIndex.fs_zero,
    MultiIndex.fs_one, ← add_smul, nsmul_eq_mul]
  simp only [MultiIndex.order, map_natCast]

theorem Eu_fam {p : Poly K} {d : ℤ} {δ : K} (hp : InA (fam d δ) p) :
    Eu (toMv p) = C (d : K) * toMv p := by
  induction p with
  | nil => simp [toMv_nil, Eu]
  | cons m p ih =>
    have ih' := ih fun n hn => hp n (by simp [hn])
    have e : Eu (toMv (m :: p)) = Eu (monomial m.alpha.fs m.coef) + Eu (toMv p) := by
      rw [toMv_cons]; simp only [Eu, map_add]; ring
    rw [e, ih', toMv_cons, mul_add, Eu_monomial]
    congr 1
    rcases mem_fam.1 (hp m (by simp)) with h | ⟨h, _⟩
    · simp [h]
    · rw [← h]; simp

theorem toMv_rsq : toMv (rsq K) = rho K := by
  have e1 : (MultiIndex.mk 2 0).fs = Finsupp.single 0 2 := by simp [MultiIndex.fs]
  have e2 : (MultiIndex.mk 0 2).fs = Finsupp.single 1 2 := by simp [MultiIndex.fs]
  simp [toMv, rsq, rho, e1, e2, MvPolynomial.X_pow_eq_monomial]

theorem rsq_fam : InA (fam 2 (1 : K)) (rsq K) := by
  intro m hm
  simp [rsq] at hm
  rw [mem_fam]; right
  rcases hm with rfl | rfl
  · exact ⟨by simp [MultiIndex.order], 1, by simp⟩
  · exact ⟨by simp [MultiIndex.order], 1, by simp⟩

/-! ### the series -/

/-- denominator of the `k`-th scale factor for a monomial of order `n` -/
def den (n k : ℕ) : ℕ := 4 ^ (k + 1) * (k + 1).factorial * (n + 1).descFactorial (k + 1)

/-- common denominator of the series for order `n` -/
def denom (n : ℕ) : ℕ := den n (n / 2)

theorem den_dvd {n k : ℕ} (hk : k ≤ n / 2) : den n k ∣ denom n := by
  unfold denom den
  apply mul_dvd_mul
  · apply mul_dvd_mul
    · exact pow_dvd_pow 4 (by omega)
    · exact Nat.factorial_dvd_factorial (by omega)
  · have := Nat.descFactorial_mul_descFactorial (n := n + 1) (k := k + 1) (m := n / 2 + 1) (by omega)
    exact ⟨_, by rw [mul_comm]; exact this.symm⟩

theorem den_pos {n k : ℕ} (hk : k ≤ n) : 0 < den n k := by
  unfold den
  have h1 : 0 < (n + 1).descFactorial (k + 1) :=
    Nat.pos_of_ne_zero fun h => by rw [Nat.descFactorial_eq_zero_iff_lt] at h; omega
  have h2 := Nat.factorial_pos (k + 1)
  positivity

theorem denom_pos (n : ℕ) : 0 < denom n := den_pos (Nat.div_le_self n 2)

theorem den_succ (n k : ℕ) : den n (k + 1) = den n k * (4 * (k + 2) * (n - k)) := by
  unfold den
  rw [Nat.factorial_succ (k + 1), Nat.descFactorial_succ (n + 1) (k + 1), pow_succ]
  have : n + 1 - (k + 1) = n - k := by omega
  rw [this]; ring

/-- `k`-th scale factor -/
def sc (K : Type) [Field K] (n k : ℕ) : K := (-1) ^ k / (den n k : K)

theorem sc_zero (n : ℕ) : sc K n 0 = (1 / 4) / (1 + (n : K)) := by
  unfold sc den
  simp
  ring

theorem sc_succ {n k : ℕ} (hk : k + 1 ≤ n) :
    sc K n (k + 1) = sc K n k * (-(1 / 4) / ((((k + 1 : ℕ) : K) + 1) * ((n : K) + 1 - ((k + 1 : ℕ) : K)))) := by
  have h1 : (den n k : K) ≠ 0 := by exact_mod_cast (den_pos (show k ≤ n by omega)).ne'
  have h2 : ((n : K) - k) ≠ 0 := by
    have : (k : K) < n := by exact_mod_cast hk
    exact sub_ne_zero.2 this.ne'
  have h3 : ((k : K) + 2) ≠ 0 := by positivity
  have e : ((n - k : ℕ) : K) = (n : K) - k := Nat.cast_sub (by omega)
  unfold sc
  rw [den_succ]
  push_cast [e]
  have h4 : ((k : K) + 1 + 1) ≠ 0 := by positivity
  have h5 : ((n : K) + 1 - (k + 1)) ≠ 0 := by
    intro h; apply h2; linear_combination h
  field_simp
  ring

theorem sc_lat {n k : ℕ} (hk : k ≤ n / 2) {δ c : K} {d : ℤ} {a : MultiIndex} (hc : c ∈ fam d δ a) :
    c * sc K n k ∈ fam d (δ / denom n) a := by
  rw [mem_fam] at *
  rcases hc with rfl | ⟨h, i, rfl⟩
  · left; simp
  · right
    refine ⟨h, ?_⟩
    obtain ⟨q, hq⟩ := den_dvd hk
    have h1 : (den n k : K) ≠ 0 := by exact_mod_cast (den_pos (by omega : k ≤ n)).ne'
    have h2 : (denom n : K) = den n k * q := by rw [hq]; push_cast; ring
    have h3 : (q : K) ≠ 0 := by
      intro h0
      have := denom_pos n
      rw [hq] at this
      have h0' : q = 0 := by exact_mod_cast h0
      subst h0'; omega
    refine ⟨i * (-1) ^ k * q, ?_⟩
    unfold sc
    rw [h2]
    push_cast
    field_simp

/-- term `k` of the series added to the partial sum: invariant of the loop -/
theorem alLoop_spec (ord : ℕ) (δ : K) (hδ : denom ord * tol K ≤ δ) (M : MvPolynomial (Fin 2) K) :
    ∀ (n j : ℕ) (pk Lk P : Poly K), j + n = ord / 2 →
      toMv pk = rho K ^ (j + 1) → InA (fam (2 * (j + 1)) 1) pk →
      InA (fam (ord - 2 * j) δ) Lk → InA (fam (ord + 2) (δ / denom ord)) P →
      Lap (toMv P) = M + C (sc K ord j) * (rho K ^ (j + 1) * Lap (toMv Lk)) →
      Lap (toMv (alLoop ord n (j + 1) pk Lk (sc K ord j) P)) = M ∧
        InA (fam (ord + 2) (δ / denom ord)) (alLoop ord n (j + 1) pk Lk (sc K ord j) P) := by
  have hd1 : (1 : K) ≤ denom ord := by exact_mod_cast denom_pos ord
  have hd0 : (0 : K) < denom ord := by linarith
  have hδ1 : tol K ≤ δ := by nlinarith [tol_pos (K := K)]
  have hδ2 : tol K ≤ δ / denom ord := by rw [le_div_iff₀ hd0]; linarith
  intro n
  induction n with
  | zero =>
    intro j pk Lk P hj hpk hpk' hLk hP hL
    have hl := lap_fam hδ1 hLk
    have h0 := fam_neg (by omega) hl.2
    rw [← hl.1, h0] at hL
    refine ⟨?_, hP⟩
    simpa [alLoop] using hL
  | succ n ih =>
    intro j pk Lk P hj hpk hpk' hLk hP hL
    have hpk2 := mul_A (C := fam (2 * ((j : ℤ) + 1) + 2) (1 : K)) (sep_fam tol_lt_one.le) hpk' rsq_fam
      (fun a b c hc d hd => by simpa using fam_mul hc hd)
    have hLk2 := lap_fam hδ1 hLk
    have ht := mul_A (C := fam (ord + 2) δ) (sep_fam hδ1) hpk2.2 hLk2.2
      (fun a b c hc d hd => by
        have := fam_mul hc hd
        have e : 2 * ((j : ℤ) + 1) + 2 + ((ord : ℤ) - 2 * j - 2) = ord + 2 := by ring
        rwa [e, one_mul] at this)
    have hk : j + 1 ≤ ord / 2 := by omega
    have hs := smul_A (B := fam (ord + 2) (δ / denom ord)) (sep_fam hδ2) ht.2 (sc K ord (j + 1))
      (fun a d hd => sc_lat hk hd)
    have hi := iadd_A (sep_fam hδ2) hP hs.2
    have key := ih (j + 1) (mulP pk (rsq K)) (lap Lk)
      (iadd P (smul (mulP (mulP pk (rsq K)) (lap Lk)) (sc K ord (j + 1)))) (by omega)
      (by rw [hpk2.1, hpk, toMv_rsq]; ring)
      (by
        have e : 2 * (((j + 1 : ℕ) : ℤ) + 1) = 2 * ((j : ℤ) + 1) + 2 := by push_cast; ring
        rw [e]; exact hpk2.2)
      (by
        have e : (ord : ℤ) - 2 * ((j + 1 : ℕ) : ℤ) = ord - 2 * j - 2 := by push_cast; ring
        rw [e]; exact hLk2.2)
      hi.2
      (by
        rw [hi.1, hs.1, ht.1, hpk2.1, hpk, toMv_rsq, Lap_add, hL, ← hLk2.1, Lap_C_mul]
        have hEu := Eu_fam hLk2.2
        have hpow := Lap_rho_pow_mul (j + 1) (toMv (lap Lk)) _ hEu
        rw [← pow_succ, hpow]
        have hsc : sc K ord (j + 1) *
            (4 * (((j + 1 : ℕ) : K) + 1) * (((j + 1 : ℕ) : K) + 1 + ((ord - 2 * j - 2 : ℤ) : K))) =
            - sc K ord j := by
          rw [sc_succ (by omega : j + 1 ≤ ord)]
          have h2 : ((ord : K) - j) ≠ 0 := by
            have : (j : K) < ord := by exact_mod_cast (by omega : j < ord)
            exact sub_ne_zero.2 this.ne'
          push_cast
          have h4 : ((j : K) + 1 + 1) ≠ 0 := by positivity
          have h5 : ((ord : K) + 1 - (j + 1)) ≠ 0 := by
            intro h; apply h2; linear_combination h
          field_simp
          ring
        have hsc' := congrArg (C (σ := Fin 2)) hsc
        rw [map_mul, map_neg] at hsc'
        linear_combination (rho K ^ (j + 1) * toMv (lap Lk)) * hsc')
    have ek : ((j + 1 : ℕ) : K) = (j : K) + 1 := by push_cast; ring
    have esc := sc_succ (K := K) (by omega : j + 1 ≤ ord)
    unfold alLoop
    simp only
    rw [← esc]
    exact key

theorem addMonomial_nil {m : Mono K} (h : tol K ≤ |m.coef|) : addMonomial [] m = [m] := by
  have : m.isZero = false := by simp [Mono.isZero, h]
  simp [addMonomial, this]

theorem alMono_spec (m : Mono K) (δ : K) (hm : tol K ≤ |m.coef|) (hδ : denom m.alpha.order * tol K ≤ δ)
    (hc : ∃ n : ℤ, m.coef = n * δ) :
    Lap (toMv (alMono m)) = toMv [m] ∧
      InA (fam (m.alpha.order + 2) (δ / denom m.alpha.order)) (alMono m) := by
  have hd1 : (1 : K) ≤ denom m.alpha.order := by exact_mod_cast denom_pos _
  have hd0 : (0 : K) < denom m.alpha.order := by linarith
  have hδ1 : tol K ≤ δ := by nlinarith [tol_pos (K := K)]
  have hδ2 : tol K ≤ δ / denom m.alpha.order := by rw [le_div_iff₀ hd0]; linarith
  have hL : InA (fam m.alpha.order δ) [m] := by
    intro n hn
    simp at hn; subst hn
    rw [mem_fam]; exact Or.inr ⟨rfl, hc⟩
  have ht := mul_A (C := fam (m.alpha.order + 2) δ) (sep_fam hδ1) rsq_fam hL
      (fun a b c hc d hd => by
        have := fam_mul hc hd
        rwa [one_mul, add_comm] at this)
  have hs := smul_A (B := fam (m.alpha.order + 2) (δ / denom m.alpha.order)) (sep_fam hδ2) ht.2
    (sc K m.alpha.order 0) (fun a d hd => sc_lat (Nat.zero_le _) hd)
  unfold alMono
  rw [addMonomial_nil hm, ← sc_zero]
  refine alLoop_spec m.alpha.order δ hδ (toMv [m]) (m.alpha.order / 2) 0 (rsq K) [m] _ (by omega)
    (by rw [toMv_rsq]; simp) (by simpa using rsq_fam) (by simpa using hL) hs.2 ?_
  rw [hs.1, ht.1, toMv_rsq, Lap_C_mul]
  have := Lap_rho_pow_mul 0 (toMv [m]) _ (Eu_fam hL)
  simp only [zero_add, pow_one, pow_zero, one_mul, Nat.cast_zero, mul_one] at this
  rw [this]
  have hsc : sc K m.alpha.order 0 * (4 * (1 + ((m.alpha.order : ℤ) : K))) = 1 := by
    rw [sc_zero]
    have : (1 + (m.alpha.order : K)) ≠ 0 := by positivity
    push_cast
    field_simp
  have hsc' := congrArg (C (σ := Fin 2)) hsc
  rw [map_mul, map_one] at hsc'
  simp only [zero_add, pow_one]
  linear_combination (toMv [m]) * hsc'

/-! ### the sum over all monomials -/

/-- graded lattice for the results: degree `d` coefficients are multiples of `δ / denom (d - 2)` -/
noncomputable def grad' (δ : K) (k : ℕ) : MultiIndex → AddSubgroup K := fun a =>
  open Classical in
  if (denom (a.order + k - 2) : K) * tol K ≤ δ then AddSubgroup.zmultiples (δ / denom (a.order + k - 2))
  else ⊥

theorem mem_grad' {δ c : K} {k : ℕ} {a : MultiIndex} :
    c ∈ grad' δ k a ↔ c = 0 ∨ ((denom (a.order + k - 2) : K) * tol K ≤ δ ∧
      ∃ n : ℤ, c = n * (δ / denom (a.order + k - 2))) := by
  unfold grad'
  split
  · rename_i h
    have := mem_lat (δ := δ / denom (a.order + k - 2)) (c := c) (a := a)
    unfold lat at this
    rw [this]
    constructor
    · intro hn; exact Or.inr ⟨h, hn⟩
    · rintro (rfl | ⟨_, hn⟩)
      · exact ⟨0, by simp⟩
      · exact hn
  · rename_i h
    simp [h]

theorem sep_grad' (δ : K) (k : ℕ) : Sep (grad' δ k) := by
  intro a c hc
  rcases mem_grad'.1 hc with rfl | ⟨h, hn⟩
  · left; rfl
  · refine lat_clean ?_ hn
    have hd0 : (0 : K) < denom (a.order + k - 2) := by exact_mod_cast denom_pos _
    rw [le_div_iff₀ hd0]; linarith

theorem fam_grad' {δ : K} {n : ℕ} (h : (denom n : K) * tol K ≤ δ) {p : Poly K}
    (hp : InA (fam (n + 2) (δ / denom n)) p) : InA (grad' δ 0) p := by
  intro m hm
  rw [mem_grad']
  rcases mem_fam.1 (hp m hm) with h0 | ⟨h1, h2⟩
  · exact Or.inl h0
  · right
    have : m.alpha.order + 0 - 2 = n := by omega
    rw [this]; exact ⟨h, h2⟩

theorem dx_grad' {p : Poly K} {δ : K} {k : ℕ} (hp : InA (grad' δ k) p) :
    toMv (nz (p.map Mono.dx)) = pderiv 0 (toMv p) ∧ InA (grad' δ (k + 1)) (nz (p.map Mono.dx)) :=
  dx_A (sep_grad' δ _) hp fun x y c hc => by
    rw [mem_grad'] at *
    have e : (MultiIndex.mk (x + 1) y).order + k = (MultiIndex.mk x y).order + (k + 1) := by
      simp only [MultiIndex.order]; omega
    rw [e] at hc
    rcases hc with rfl | ⟨h, n, rfl⟩
    · left; simp
    · right
      exact ⟨h, n * ((x + 1 : ℕ) : ℤ), by push_cast; ring⟩

theorem dy_grad' {p : Poly K} {δ : K} {k : ℕ} (hp : InA (grad' δ k) p) :
    toMv (nz (p.map Mono.dy)) = pderiv 1 (toMv p) ∧ InA (grad' δ (k + 1)) (nz (p.map Mono.dy)) :=
  dy_A (sep_grad' δ _) hp fun x y c hc => by
    rw [mem_grad'] at *
    have e : (MultiIndex.mk x (y + 1)).order + k = (MultiIndex.mk x y).order + (k + 1) := by
      simp only [MultiIndex.order]; omega
    rw [e] at hc
    rcases hc with rfl | ⟨h, n, rfl⟩
    · left; simp
    · right
      exact ⟨h, n * ((y + 1 : ℕ) : ℤ), by push_cast; ring⟩

theorem lap_grad' {p : Poly K} {δ : K} {k : ℕ} (hp : InA (grad' δ k) p) :
    toMv (lap p) = Lap (toMv p) := by
  have h1 := dx_grad' hp
  have h2 := dx_grad' h1.2
  have h3 := dy_grad' hp
  have h4 := dy_grad' h3.2
  have h5 := add_A (sep_grad' δ _) h2.2 h4.2
  rw [lap, h5.1, h2.1, h4.1, h1.1, h3.1]; rfl

theorem alP_spec (p : Poly K) (δ : K) (hp : ∀ m ∈ p, tol K ≤ |m.coef|)
    (hδ : ∀ m ∈ p, (denom m.alpha.order : K) * tol K ≤ δ) (hc : OnLattice δ p) (r : Poly K)
    (hr : InA (grad' δ 0) r) :
    Lap (toMv (p.foldl (fun r m => iadd r (alMono m)) r)) = Lap (toMv r) + toMv p ∧
      InA (grad' δ 0) (p.foldl (fun r m => iadd r (alMono m)) r) := by
  induction p generalizing r with
  | nil => simpa [toMv_nil] using hr
  | cons m p ih =>
    have hm := alMono_spec m δ (hp m (by simp)) (hδ m (by simp)) (hc m (by simp))
    have hi := iadd_A (sep_grad' δ 0) hr (fam_grad' (hδ m (by simp)) hm.2)
    have := ih (fun n hn => hp n (by simp [hn])) (fun n hn => hδ n (by simp [hn]))
      (fun n hn => hc n (by simp [hn])) _ hi.2
    rw [List.foldl_cons]
    refine ⟨?_, this.2⟩
    rw [this.1, hi.1, Lap_add, hm.1]
    have e : toMv (m :: p) = toMv [m] + toMv p := by
      rw [toMv_cons, toMv_cons, toMv_nil, add_zero]
    rw [e]; ring

end Poly
end PFEM
