import Verif.Model.Legendre
import Verif.Spec.Legendre
import Verif.Lemmas.PolyValue
import Mathlib.Tactic.LinearCombination
import Mathlib.Tactic.FieldSimp
import Mathlib.Algebra.MvPolynomial.CommRing

set_option linter.unusedSectionVars false

namespace PFEM
namespace Poly

open MvPolynomial (X C monomial coeff)

section
variable {K : Type} [Field K] [LinearOrder K] [IsStrictOrderedRing K]

theorem Canonical.coef_eq {p : Poly K} (h : Canonical p) {m : Mono K} (hm : m ∈ p) :
    m.coef = coeff m.alpha.fs (toMv p) := by rw [coeff_toMv, h.coeffOf_mem hm]

theorem Canonical.clean_coeff {p : Poly K} (h : Canonical p) (a : MultiIndex) : CleanC (coeff a.fs (toMv p)) := by
  rw [coeff_toMv]; exact h.clean a

theorem smul_exact {p : Poly K} {c : K} (h : ∀ m ∈ p, CleanC (m.coef * c)) :
    toMv (smul p c) = C c * toMv p := by
  rw [smul_eq, toMv_nz, toMv_map_smul]
  intro m hm
  simp only [List.mem_map] at hm
  obtain ⟨n, hn, rfl⟩ := hm
  exact h n hn

theorem add_exact {p q : Poly K} (hp : ∀ m ∈ p, CleanC m.coef) (hq : ∀ m ∈ q, CleanC m.coef)
    (h : ∀ a : MultiIndex, CleanC (coeff a.fs (toMv p + toMv q))) : toMv (add p q) = toMv p + toMv q := by
  have h1 : toMv (nz (p ++ q)) = toMv p + toMv q := by
    rw [toMv_nz, toMv_append]
    intro m hm
    rcases List.mem_append.1 hm with hm | hm
    · exact hp m hm
    · exact hq m hm
  rw [add_eq, toMv_consolidate, h1]
  intro a
  rw [← coeff_toMv, h1]; exact h a

theorem mem_prods {p q : Poly K} {r : Mono K} (h : r ∈ prods p q) :
    ∃ m ∈ p, ∃ n ∈ q, r = m.times n := by
  unfold prods at h
  simp only [List.mem_flatMap, List.mem_map] at h
  obtain ⟨m, hm, n, hn, e⟩ := h
  exact ⟨m, hm, n, hn, e.symm⟩

theorem mulP_exact {p q : Poly K} (h1 : ∀ m ∈ p, ∀ n ∈ q, CleanC (m.coef * n.coef))
    (h : ∀ a : MultiIndex, CleanC (coeff a.fs (toMv p * toMv q))) : toMv (mulP p q) = toMv p * toMv q := by
  have h2 : toMv (nz (prods p q)) = toMv p * toMv q := by
    rw [toMv_nz, toMv_prods]
    intro m hm
    obtain ⟨m1, hm1, n1, hn1, rfl⟩ := mem_prods hm
    exact h1 m1 hm1 n1 hn1
  rw [mulP, toMv_consolidate, h2]
  intro a
  rw [← coeff_toMv, h2]; exact h a

theorem iadd_exact {p q : Poly K} (hq : ∀ m ∈ q, CleanC m.coef)
    (h : ∀ a : MultiIndex, CleanC (coeff a.fs (toMv p + toMv q))) : toMv (iadd p q) = toMv p + toMv q := by
  have h1 : toMv (p ++ nz q) = toMv p + toMv q := by rw [toMv_append, toMv_nz hq]
  rw [iadd_eq, toMv_consolidate, h1]
  intro a
  rw [← coeff_toMv, h1]; exact h a

/-! ### coefficients of the Legendre polynomials -/

/-- sign pattern with period 4 -/
def sg (K : Type) [Field K] (m : ℕ) : K := if m % 4 < 2 then 1 else -1

theorem sg_add_four (m : ℕ) : sg K (m + 4) = sg K m := by
  unfold sg; rw [Nat.add_mod_right]

theorem sg_add_two (m : ℕ) : sg K (m + 2) = - sg K m := by
  unfold sg
  have : m % 4 < 4 := Nat.mod_lt _ (by norm_num)
  have h2 : (m + 2) % 4 = (m % 4 + 2) % 4 := by omega
  rcases (by omega : m % 4 = 0 ∨ m % 4 = 1 ∨ m % 4 = 2 ∨ m % 4 = 3) with h | h | h | h <;>
    rw [h2, h] <;> norm_num

theorem abs_sg (m : ℕ) : |sg K m| = 1 := by unfold sg; split <;> simp

/-- absolute values of the Legendre coefficients -/
def lb (K : Type) [Field K] : ℕ → ℕ → K
  | 0, 0 => 1
  | 0, _ + 1 => 0
  | 1, 0 => 0
  | 1, 1 => 1
  | 1, _ + 2 => 0
  | n + 2, 0 => ((n : K) + 1) * lb K n 0 / ((n : K) + 2)
  | n + 2, k + 1 => ((2 * (n : K) + 3) * lb K (n + 1) k + ((n : K) + 1) * lb K n (k + 1)) / ((n : K) + 2)

theorem lb_nonneg : ∀ n k, 0 ≤ lb K n k
  | 0, 0 => by simp [lb]
  | 0, _ + 1 => by simp [lb]
  | 1, 0 => by simp [lb]
  | 1, 1 => by simp [lb]
  | 1, _ + 2 => by simp [lb]
  | n + 2, 0 => by
    have := lb_nonneg n 0
    unfold lb; positivity
  | n + 2, k + 1 => by
    have h1 := lb_nonneg (n + 1) k
    have h2 := lb_nonneg n (k + 1)
    unfold lb; positivity

theorem lb_large : ∀ n k, lb K n k = 0 ∨ 1 ≤ max (n : K) 1 * lb K n k
  | 0, 0 => by simp [lb]
  | 0, _ + 1 => by simp [lb]
  | 1, 0 => by simp [lb]
  | 1, 1 => by simp [lb]
  | 1, _ + 2 => by simp [lb]
  | n + 2, 0 => by
    have hn : (0 : K) ≤ n := Nat.cast_nonneg n
    have h2 : (n : K) + 2 ≠ 0 := by positivity
    have hm : max ((n + 2 : ℕ) : K) 1 = (n : K) + 2 := by
      push_cast; exact max_eq_left (by linarith)
    rw [hm]
    unfold lb
    rcases lb_large n 0 with h | h
    · left; rw [h]; simp
    · right
      rw [mul_div_cancel₀ _ h2]
      refine h.trans (mul_le_mul_of_nonneg_right ?_ (lb_nonneg n 0))
      exact max_le (by linarith) (by linarith)
  | n + 2, k + 1 => by
    have hn : (0 : K) ≤ n := Nat.cast_nonneg n
    have h2 : (n : K) + 2 ≠ 0 := by positivity
    have hm : max ((n + 2 : ℕ) : K) 1 = (n : K) + 2 := by
      push_cast; exact max_eq_left (by linarith)
    rw [hm]
    unfold lb
    have p1 := lb_nonneg (K := K) (n + 1) k
    have p2 := lb_nonneg (K := K) n (k + 1)
    rw [mul_div_cancel₀ _ h2]
    rcases lb_large (n + 1) k with h | h
    · rcases lb_large n (k + 1) with h' | h'
      · left; rw [h, h']; simp
      · right
        rw [h, mul_zero, zero_add]
        refine h'.trans (mul_le_mul_of_nonneg_right ?_ p2)
        exact max_le (by linarith) (by linarith)
    · right
      have : max ((n + 1 : ℕ) : K) 1 * lb K (n + 1) k ≤ (2 * (n : K) + 3) * lb K (n + 1) k := by
        refine mul_le_mul_of_nonneg_right ?_ p1
        push_cast
        exact max_le (by linarith) (by linarith)
      have h3 : 0 ≤ ((n : K) + 1) * lb K n (k + 1) := by positivity
      linarith

/-- the Legendre polynomials as formal polynomials in `x` -/
noncomputable def legT (K : Type) [Field K] : ℕ → MvPolynomial (Fin 2) K
  | 0 => 1
  | 1 => X 0
  | n + 2 => C (1 / ((n : K) + 2)) *
      (C (2 * (n : K) + 3) * (X 0 * legT K (n + 1)) - C ((n : K) + 1) * legT K n)

theorem coeff_X0_mul_succ (f : MvPolynomial (Fin 2) K) (k j : ℕ) :
    coeff (MultiIndex.mk (k + 1) j).fs (X 0 * f) = coeff (MultiIndex.mk k j).fs f := by
  rw [mul_comm]
  have : (MultiIndex.mk (k + 1) j).fs = (MultiIndex.mk k j).fs + Finsupp.single 0 1 := by
    simp only [MultiIndex.fs, Finsupp.single_add]; abel
  rw [this, MvPolynomial.coeff_mul_X]

theorem coeff_X0_mul_zero (f : MvPolynomial (Fin 2) K) (j : ℕ) :
    coeff (MultiIndex.mk 0 j).fs (X 0 * f) = 0 := by
  rw [MvPolynomial.coeff_X_mul', if_neg]
  simp [MultiIndex.fs]

theorem fs_mk_zero : (MultiIndex.mk 0 0).fs = 0 := by simp [MultiIndex.fs]
theorem fs_mk_one : (MultiIndex.mk 1 0).fs = Finsupp.single 0 1 := by simp [MultiIndex.fs]

theorem coeff_legT : ∀ (n k j : ℕ), coeff (MultiIndex.mk k j).fs (legT K n) =
    if j = 0 then sg K (n + 3 * k) * lb K n k else 0
  | 0, k, j => by
    rw [legT, MvPolynomial.coeff_one]
    have : (0 : Fin 2 →₀ ℕ) = (MultiIndex.mk k j).fs ↔ k = 0 ∧ j = 0 := by
      rw [← fs_mk_zero, MultiIndex.fs_inj]
      constructor
      · intro h; cases h; exact ⟨rfl, rfl⟩
      · rintro ⟨rfl, rfl⟩; rfl
    cases k with
    | zero => rw [if_congr this rfl rfl]; by_cases hj : j = 0 <;> simp [hj, lb, sg]
    | succ k => simp [this, lb]
  | 1, k, j => by
    rw [legT, MvPolynomial.coeff_X]
    have : Finsupp.single (0 : Fin 2) 1 = (MultiIndex.mk k j).fs ↔ k = 1 ∧ j = 0 := by
      rw [← fs_mk_one, MultiIndex.fs_inj]
      constructor
      · intro h; cases h; exact ⟨rfl, rfl⟩
      · rintro ⟨rfl, rfl⟩; rfl
    match k with
    | 0 => simp [this, lb]
    | 1 => rw [if_congr this rfl rfl]; by_cases hj : j = 0 <;> simp [hj, lb, sg]
    | k + 2 => simp [this, lb]
  | n + 2, 0, j => by
    rw [legT, MvPolynomial.coeff_C_mul, MvPolynomial.coeff_sub, MvPolynomial.coeff_C_mul,
      MvPolynomial.coeff_C_mul, coeff_X0_mul_zero, coeff_legT n 0 j]
    by_cases hj : j = 0
    · simp only [hj, if_true, mul_zero, add_zero, sg_add_two]
      rw [lb]
      ring
    · simp [hj]
  | n + 2, k + 1, j => by
    rw [legT, MvPolynomial.coeff_C_mul, MvPolynomial.coeff_sub, MvPolynomial.coeff_C_mul,
      MvPolynomial.coeff_C_mul, coeff_X0_mul_succ, coeff_legT n (k + 1) j, coeff_legT (n + 1) k j]
    by_cases hj : j = 0
    · simp only [hj, if_true]
      have e1 : n + 2 + 3 * (k + 1) = n + 1 + 3 * k + 4 := by ring
      have e2 : n + 1 + 3 * k + 2 = n + 3 * (k + 1) := by ring
      have e3 : sg K (n + 3 * (k + 1)) = - sg K (n + 1 + 3 * k) := by rw [← e2, sg_add_two]
      rw [e1, sg_add_four, e3, lb]
      ring
    · simp [hj]

theorem one_le_mul_tol {n : ℕ} (hn : n ≤ 10 ^ 12) : max (n : K) 1 * tol K ≤ 1 := by
  unfold tol
  rw [mul_one_div, div_le_one (by positivity)]
  exact max_le (by exact_mod_cast hn) (by norm_num)

theorem legT_large (n : ℕ) (a : MultiIndex) :
    coeff a.fs (legT K n) = 0 ∨ 1 ≤ max (n : K) 1 * |coeff a.fs (legT K n)| := by
  obtain ⟨k, j⟩ := a
  rw [coeff_legT]
  by_cases hj : j = 0
  · simp only [hj, if_true]
    rcases lb_large (K := K) n k with h | h
    · left; simp [h]
    · right; rwa [abs_mul, abs_sg, one_mul, abs_of_nonneg (lb_nonneg n k)]
  · simp [hj]

/-- a coefficient that is 0 or has size at least `1 / M` with `M ≤ 1e12` is not dropped -/
theorem clean_of_large {c M : K} (h : c = 0 ∨ 1 ≤ M * |c|) (hM : M * tol K ≤ 1) (h0 : 0 < M) : CleanC c := by
  rcases h with h | h
  · exact Or.inl h
  · right
    have : M * tol K ≤ M * |c| := hM.trans h
    exact le_of_mul_le_mul_left this h0

theorem legT_clean {n : ℕ} (hn : n ≤ 10 ^ 12) (a : MultiIndex) : CleanC (coeff a.fs (legT K n)) :=
  clean_of_large (legT_large n a) (one_le_mul_tol hn) (lt_of_lt_of_le one_pos (le_max_right _ _))

theorem clean_mul {c d : K} (hc : CleanC c) (hd : 1 ≤ |d|) : CleanC (c * d) := by
  rcases hc with h | h
  · left; simp [h]
  · right
    rw [abs_mul]
    nlinarith [tol_pos (K := K)]

theorem legT_canonical_step {n : ℕ} (hn : n + 2 ≤ 10 ^ 12) {polys : List (Poly K)} {p1 pm1 pm2 : Poly K}
    (g1 : pyGet polys 1 = .ok p1) (g2 : pyGet polys (n + 1) = .ok pm1) (g3 : pyGet polys n = .ok pm2)
    (c1 : Canonical p1) (c2 : Canonical pm1) (c3 : Canonical pm2)
    (t1 : toMv p1 = legT K 1) (t2 : toMv pm1 = legT K (n + 1)) (t3 : toMv pm2 = legT K n) :
    ∃ r, legendreStep polys (n + 2) = .ok r ∧ Canonical r ∧ toMv r = legT K (n + 2) := by
  have hn0 : (0 : K) ≤ n := Nat.cast_nonneg n
  have hc0 : ((n + 2 : ℕ) : K) ≠ 0 := by positivity
  have A : (1 : K) ≤ |2 * ((n + 2 : ℕ) : K) - 1| := by
    rw [abs_of_nonneg (by push_cast; linarith)]; push_cast; linarith
  have B : (1 : K) ≤ |((n + 2 : ℕ) : K) - 1| := by
    rw [abs_of_nonneg (by push_cast; linarith)]; push_cast; linarith
  have canonClean : ∀ {p : Poly K}, Canonical p → ∀ m ∈ p, CleanC m.coef := fun h m hm => Or.inr (h.2 m hm)
  -- (2 n - 1) * polys[1]
  have s1 : toMv (smul p1 (2 * ((n + 2 : ℕ) : K) - 1)) = C (2 * ((n + 2 : ℕ) : K) - 1) * X 0 := by
    rw [smul_exact fun m hm => clean_mul (canonClean c1 m hm) A, t1, legT]
  have cs1 := smul_canonical c1 (2 * ((n + 2 : ℕ) : K) - 1)
  have big1 : ∀ m ∈ smul p1 (2 * ((n + 2 : ℕ) : K) - 1), 1 ≤ |m.coef| := by
    intro m hm
    rw [smul_eq] at hm
    obtain ⟨hm, hz⟩ := List.mem_filter.1 hm
    simp only [List.mem_map] at hm
    obtain ⟨m1, hm1, rfl⟩ := hm
    have := c1.coef_eq hm1
    rw [t1] at this
    rcases legT_large (K := K) 1 m1.alpha with h | h
    · rw [h] at this
      rw [not_isZero_iff] at hz
      simp only [Mono.smul, this, zero_mul, abs_zero] at hz
      exact absurd hz (not_le.2 tol_pos)
    · rw [← this] at h
      simp only [Nat.cast_one, max_self, one_mul] at h
      simp only [Mono.smul, abs_mul]
      nlinarith
  -- times polys[n-1]
  have s2 : toMv (mulP (smul p1 (2 * ((n + 2 : ℕ) : K) - 1)) pm1) =
      C (2 * ((n + 2 : ℕ) : K) - 1) * (X 0 * legT K (n + 1)) := by
    rw [mulP_exact, s1, t2, mul_assoc]
    · intro m hm k hk
      rw [mul_comm]
      exact clean_mul (canonClean c2 k hk) (big1 m hm)
    · intro a
      rw [s1, t2, mul_assoc, MvPolynomial.coeff_C_mul, mul_comm]
      refine clean_mul ?_ A
      obtain ⟨k, j⟩ := a
      cases k with
      | zero => left; exact coeff_X0_mul_zero _ _
      | succ k => rw [coeff_X0_mul_succ]; exact legT_clean (by omega) _
  -- (n - 1) * polys[n-2], negated
  have s3 : toMv (smul pm2 (((n + 2 : ℕ) : K) - 1)) = C (((n + 2 : ℕ) : K) - 1) * legT K n := by
    rw [smul_exact fun m hm => clean_mul (canonClean c3 m hm) B, t3]
  have cs3 := smul_canonical c3 (((n + 2 : ℕ) : K) - 1)
  have s4 : toMv (smul (smul pm2 (((n + 2 : ℕ) : K) - 1)) (-1)) =
      C (-1) * (C (((n + 2 : ℕ) : K) - 1) * legT K n) := by
    rw [smul_exact fun m hm => clean_mul (canonClean cs3 m hm) (by simp), s3]
  have cs4 := smul_canonical cs3 (-1)
  -- the difference
  have e5 : C (2 * ((n + 2 : ℕ) : K) - 1) * (X 0 * legT K (n + 1)) +
      C (-1) * (C (((n + 2 : ℕ) : K) - 1) * legT K n) = C ((n + 2 : ℕ) : K) * legT K (n + 2) := by
    rw [legT, ← mul_assoc (C ((n + 2 : ℕ) : K)), ← MvPolynomial.C_mul]
    have h1 : ((n + 2 : ℕ) : K) * (1 / ((n : K) + 2)) = 1 := by
      push_cast; rw [mul_one_div, div_self (by positivity)]
    have h2 : 2 * ((n + 2 : ℕ) : K) - 1 = 2 * (n : K) + 3 := by push_cast; ring
    have h3 : ((n + 2 : ℕ) : K) - 1 = (n : K) + 1 := by push_cast; ring
    rw [h1, h2, h3, map_one, map_neg, map_one]
    ring
  have s5 : toMv (sub (mulP (smul p1 (2 * ((n + 2 : ℕ) : K) - 1)) pm1) (smul pm2 (((n + 2 : ℕ) : K) - 1))) =
      C ((n + 2 : ℕ) : K) * legT K (n + 2) := by
    rw [sub, add_exact (canonClean (mulP_canonical _ _)) (canonClean cs4), s2, s4, e5]
    intro a
    rw [s2, s4, e5, MvPolynomial.coeff_C_mul, mul_comm]
    refine clean_mul (legT_clean hn _) ?_
    rw [abs_of_nonneg (by positivity)]; push_cast; linarith
  have cs5 : Canonical (sub (mulP (smul p1 (2 * ((n + 2 : ℕ) : K) - 1)) pm1)
      (smul pm2 (((n + 2 : ℕ) : K) - 1))) := by
    rw [sub, add_eq]; exact consolidate_canonical _
  refine ⟨smul (sub (mulP (smul p1 (2 * ((n + 2 : ℕ) : K) - 1)) pm1) (smul pm2 (((n + 2 : ℕ) : K) - 1)))
    (1 / ((n + 2 : ℕ) : K)), ?_, smul_canonical cs5 _, ?_⟩
  · unfold legendreStep
    have e1 : n + 2 - 1 = n + 1 := by omega
    have e2 : n + 2 - 2 = n := by omega
    simp only [g1, e1, g2, e2, g3, bind, Except.bind, mul_eq, div, hc0, if_false]
  · have hh : C (1 / ((n + 2 : ℕ) : K)) * (C ((n + 2 : ℕ) : K) * legT K (n + 2)) = legT K (n + 2) := by
      rw [← mul_assoc, ← MvPolynomial.C_mul, one_div, inv_mul_cancel₀ hc0, map_one, one_mul]
    rw [smul_exact, s5, hh]
    intro m hm
    have := cs5.coef_eq hm
    rw [s5, MvPolynomial.coeff_C_mul] at this
    rw [this, mul_comm ((n + 2 : ℕ) : K), mul_assoc, mul_one_div, div_self hc0, mul_one]
    exact legT_clean hn _

/-- a list of `n` polynomials, entry `k` is canonical and denotes `T k` -/
def FamList (T : ℕ → MvPolynomial (Fin 2) K) (polys : List (Poly K)) (n : ℕ) : Prop :=
  polys.length = n ∧ ∀ k < n, ∃ p, polys[k]? = some p ∧ Canonical p ∧ toMv p = T k

theorem pyGet_ok {α : Type} {l : List α} {i : ℕ} {a : α} (h : l[i]? = some a) : pyGet l i = .ok a := by
  simp [pyGet, h]

theorem FamList.snoc {T : ℕ → MvPolynomial (Fin 2) K} {polys : List (Poly K)} {n : ℕ} (h : FamList T polys n)
    {p : Poly K} (c : Canonical p) (t : toMv p = T n) : FamList T (polys ++ [p]) (n + 1) := by
  refine ⟨by simp [h.1], fun k hk => ?_⟩
  by_cases hkn : k < n
  · obtain ⟨q, hq, cq, tq⟩ := h.2 k hkn
    exact ⟨q, by rw [List.getElem?_append_left (by rw [h.1]; exact hkn)]; exact hq, cq, tq⟩
  · have : k = n := by omega
    subst this
    exact ⟨p, by rw [List.getElem?_append_right (by rw [h.1])]; simp [h.1], c, t⟩

theorem legendreLoop_spec (count n : ℕ) (polys : List (Poly K)) (h : FamList (legT K) polys (n + 2))
    (hn : n + count + 1 ≤ 10 ^ 12) :
    ∃ r, legendreLoop count (n + 2) polys = .ok r ∧ FamList (legT K) r (n + 2 + count) := by
  induction count generalizing n polys with
  | zero => exact ⟨polys, rfl, h⟩
  | succ count ih =>
    obtain ⟨p1, g1, c1, t1⟩ := h.2 1 (by omega)
    obtain ⟨p2, g2, c2, t2⟩ := h.2 (n + 1) (by omega)
    obtain ⟨p3, g3, c3, t3⟩ := h.2 n (by omega)
    obtain ⟨r, e, cr, tr⟩ := legT_canonical_step (by omega) (pyGet_ok g1) (pyGet_ok g2) (pyGet_ok g3)
      c1 c2 c3 t1 t2 t3
    obtain ⟨s, es, hs⟩ := ih (n + 1) (polys ++ [r]) (h.snoc cr tr) (by omega)
    refine ⟨s, ?_, by convert hs using 1; omega⟩
    unfold legendreLoop
    simp only [e, bind, Except.bind]
    exact es

theorem set_x : set [((1 : K), 1, 0)] = .ok [⟨⟨1, 0⟩, 1⟩] := by
  have := set_ok (K := K) [(1, 1, 0)]
  simp only [List.map_cons, List.map_nil, Nat.cast_zero, Nat.cast_one] at this
  rw [this]
  change Except.ok (consolidate (nz [⟨⟨1, 0⟩, 1⟩])) = _
  have c : Canonical ([⟨⟨1, 0⟩, 1⟩] : Poly K) := canonical_singleton (by simp [tol_lt_one.le])
  rw [canonical_nz c, consolidate_eq_self c]

theorem legendre_spec (deg : ℕ) (hd : deg ≤ 10 ^ 12) :
    ∃ r, legendrePolynomials K deg = .ok r ∧ FamList (legT K) r (max (deg + 1) 2) := by
  have base : FamList (legT K) ([oneP K, [⟨⟨1, 0⟩, 1⟩]] : List (Poly K)) 2 := by
    refine ⟨rfl, fun k hk => ?_⟩
    rcases (by omega : k = 0 ∨ k = 1) with rfl | rfl
    · exact ⟨_, rfl, oneP_canonical, by rw [toMv_oneP]; rfl⟩
    · refine ⟨_, rfl, canonical_singleton (by simp [tol_lt_one.le]), ?_⟩
      rw [toMv_cons, toMv_nil, add_zero, fs_mk_one]; rfl
  obtain ⟨r, e, h⟩ := legendreLoop_spec (deg + 1 - 2) 0 _ base (by omega)
  refine ⟨r, ?_, by convert h using 1; omega⟩
  unfold legendrePolynomials
  rw [set_one, set_x]
  exact e

theorem eval_legT (n : ℕ) (x y : K) :
    MvPolynomial.eval (fun i : Fin 2 => if i = 0 then x else y) (legT K n) = legendreFun n x := by
  induction n using Nat.strong_induction_on with
  | _ n ih =>
    match n with
    | 0 => simp [legT, legendreFun]
    | 1 => simp [legT, legendreFun]
    | n + 2 =>
      rw [legT, map_mul, map_sub, map_mul, map_mul, map_mul, ih (n + 1) (by omega), ih n (by omega), legendreFun]
      simp only [MvPolynomial.eval_C, MvPolynomial.eval_X, if_true]
      ring

end

end Poly
end PFEM
