import Verif.Lemmas.Legendre
import Mathlib.Algebra.MvPolynomial.Rename
import Mathlib.Algebra.BigOperators.Intervals
import Mathlib.Analysis.SpecialFunctions.Pow.Real
import Mathlib.Analysis.Calculus.Deriv.Mul
import Mathlib.Analysis.Calculus.Deriv.Add

set_option linter.unusedSectionVars false

namespace PFEM
namespace Poly

open MvPolynomial (X C monomial coeff)

section
variable {K : Type} [Field K] [LinearOrder K] [IsStrictOrderedRing K]

/-! ### swapping the variables -/

/-- exchange the two variables -/
noncomputable def sw (f : MvPolynomial (Fin 2) K) : MvPolynomial (Fin 2) K :=
  MvPolynomial.rename (Equiv.swap (0 : Fin 2) 1) f

theorem fs_swap (i j : ℕ) : (MultiIndex.mk j i).fs =
    Finsupp.mapDomain (Equiv.swap (0 : Fin 2) 1) (MultiIndex.mk i j).fs := by
  simp only [MultiIndex.fs, Finsupp.mapDomain_add, Finsupp.mapDomain_single, Equiv.swap_apply_left,
    Equiv.swap_apply_right]
  exact add_comm _ _

theorem coeff_sw (f : MvPolynomial (Fin 2) K) (i j : ℕ) :
    coeff (MultiIndex.mk j i).fs (sw f) = coeff (MultiIndex.mk i j).fs f := by
  rw [fs_swap, sw, MvPolynomial.coeff_rename_mapDomain _ (Equiv.injective _)]

theorem sw_add (f g : MvPolynomial (Fin 2) K) : sw (f + g) = sw f + sw g := map_add _ _ _

theorem sw_monomial (m : Mono K) : sw (monomial m.alpha.fs m.coef) =
    monomial (MultiIndex.mk m.alpha.y m.alpha.x).fs m.coef := by
  rw [sw, MvPolynomial.rename_monomial, ← fs_swap]

theorem eval_sw (f : MvPolynomial (Fin 2) K) (x y : K) :
    MvPolynomial.eval (fun i : Fin 2 => if i = 0 then x else y) (sw f) =
    MvPolynomial.eval (fun i : Fin 2 => if i = 0 then y else x) f := by
  rw [sw, MvPolynomial.eval_rename]
  congr 2
  funext i
  fin_cases i <;> simp

theorem Canonical.prefix {p q : Poly K} (h : Canonical (p ++ q)) : Canonical p :=
  ⟨(List.pairwise_append.1 h.1).1, fun m hm => h.2 m (List.mem_append_left _ hm)⟩

theorem set_mono {m : Mono K} (h : tol K ≤ |m.coef|) :
    set [(m.coef, (m.alpha.x : ℤ), (m.alpha.y : ℤ))] = .ok [m] := by
  have := set_ok (K := K) [(m.coef, m.alpha.x, m.alpha.y)]
  simp only [List.map_cons, List.map_nil] at this
  rw [this]
  change Except.ok (consolidate (nz [m])) = _
  have c : Canonical ([m] : Poly K) := canonical_singleton h
  rw [canonical_nz c, consolidate_eq_self c]

theorem swapLoop_spec (rest don q : Poly K) (h : Canonical (don ++ rest)) (cq : Canonical q)
    (t : toMv q = sw (toMv don)) :
    ∃ r, swapLoop q rest = .ok r ∧ Canonical r ∧ toMv r = sw (toMv (don ++ rest)) := by
  induction rest generalizing don q with
  | nil => exact ⟨q, rfl, cq, by rw [t, List.append_nil]⟩
  | cons m rest ih =>
    have h' : Canonical ((don ++ [m]) ++ rest) := by simpa using h
    have hm : tol K ≤ |m.coef| := h.2 m (by simp)
    have e := set_mono (K := K) (m := ⟨⟨m.alpha.y, m.alpha.x⟩, m.coef⟩) hm
    have t2 : toMv q + toMv [⟨⟨m.alpha.y, m.alpha.x⟩, m.coef⟩] = sw (toMv (don ++ [m])) := by
      rw [t, toMv_append, sw_add, toMv_cons, toMv_nil, add_zero, toMv_cons, toMv_nil, add_zero, sw_monomial]
    obtain ⟨r, er, cr, tr⟩ := ih (don ++ [m]) (iadd q [⟨⟨m.alpha.y, m.alpha.x⟩, m.coef⟩]) h'
      (iadd_canonical _ _) (by
        rw [iadd_exact, t2]
        · intro n hn
          simp only [List.mem_singleton] at hn
          subst hn; exact Or.inr hm
        · intro a
          rw [t2]
          obtain ⟨j, i⟩ := a
          rw [coeff_sw]
          exact h'.prefix.clean_coeff _)
    refine ⟨r, ?_, cr, by rw [tr]; simp⟩
    unfold swapLoop
    simp only [e, bind, Except.bind]
    exact er

theorem swap_spec {p : Poly K} (h : Canonical p) :
    ∃ r, swapCoordinates p = .ok r ∧ Canonical r ∧ toMv r = sw (toMv p) :=
  swapLoop_spec p [] [] h Canonical.nil (by rw [toMv_nil, sw, map_zero])

theorem swapAll_spec (T : ℕ → MvPolynomial (Fin 2) K) (p : List (Poly K)) (N : ℕ) (h : FamList T p N) :
    ∃ q, swapAll p = .ok q ∧ FamList (fun n => sw (T n)) q N := by
  induction p generalizing T N with
  | nil => exact ⟨[], rfl, by
      have : N = 0 := h.1.symm
      subst this; exact ⟨rfl, fun k hk => absurd hk (by omega)⟩⟩
  | cons a p ih =>
    obtain ⟨h1, h2⟩ := h
    simp only [List.length_cons] at h1
    obtain ⟨a', ha, ca, ta⟩ := h2 0 (by omega)
    simp only [List.getElem?_cons_zero, Option.some.injEq] at ha
    subst ha
    obtain ⟨q, eq, hq⟩ := ih (fun n => T (n + 1)) (N - 1) ⟨by omega, fun k hk => by
      have := h2 (k + 1) (by omega)
      simpa using this⟩
    obtain ⟨b, eb, cb, tb⟩ := swap_spec ca
    refine ⟨b :: q, ?_, ?_, ?_⟩
    · unfold swapAll
      simp only [eb, eq, bind, Except.bind]
    · rw [List.length_cons, hq.1]; omega
    · intro k hk
      cases k with
      | zero => exact ⟨b, rfl, cb, by rw [tb, ta]⟩
      | succ k => simpa using hq.2 k (by omega)

/-! ### products of a polynomial in x and one in y -/

/-- the variable y does not occur -/
def OnlyX (f : MvPolynomial (Fin 2) K) : Prop := ∀ k j, j ≠ 0 → coeff (MultiIndex.mk k j).fs f = 0

/-- every nonzero coefficient has size at least `1 / M` -/
def Large (f : MvPolynomial (Fin 2) K) (M : K) : Prop :=
  ∀ a : MultiIndex, coeff a.fs f = 0 ∨ 1 ≤ M * |coeff a.fs f|

theorem coeff_mul_sw {f g : MvPolynomial (Fin 2) K} (hf : OnlyX f) (hg : OnlyX g) (i j : ℕ) :
    coeff (MultiIndex.mk i j).fs (f * sw g) =
      coeff (MultiIndex.mk i 0).fs f * coeff (MultiIndex.mk j 0).fs g := by
  rw [MvPolynomial.coeff_mul, Finset.sum_eq_single ((MultiIndex.mk i 0).fs, (MultiIndex.mk 0 j).fs)]
  · rw [coeff_sw]
  · rintro ⟨u, v⟩ huv hne
    rw [Finset.mem_antidiagonal] at huv
    obtain ⟨⟨a, b⟩, rfl⟩ := MultiIndex.fs_surj u
    obtain ⟨⟨c, d⟩, rfl⟩ := MultiIndex.fs_surj v
    dsimp only at huv ⊢
    rw [← MultiIndex.fs_plus, MultiIndex.fs_inj] at huv
    simp only [MultiIndex.plus, MultiIndex.mk.injEq] at huv
    by_cases hb : b = 0
    · by_cases hc : c = 0
      · exfalso; apply hne
        obtain ⟨h1, h2⟩ := huv
        have : a = i := by omega
        have : d = j := by omega
        subst hb hc
        rw [‹a = i›, ‹d = j›]
      · rw [coeff_sw, hg d c hc, mul_zero]
    · rw [hf a b hb, zero_mul]
  · intro h
    exfalso; apply h
    rw [Finset.mem_antidiagonal, ← MultiIndex.fs_plus]
    simp [MultiIndex.plus]

theorem large_mul {c d M N : K} (hc : c = 0 ∨ 1 ≤ M * |c|) (hd : d = 0 ∨ 1 ≤ N * |d|) :
    c * d = 0 ∨ 1 ≤ M * N * |c * d| := by
  rcases hc with hc | hc
  · left; simp [hc]
  · rcases hd with hd | hd
    · left; simp [hd]
    · right
      rw [abs_mul]
      calc (1 : K) = 1 * 1 := by ring
        _ ≤ (M * |c|) * (N * |d|) := mul_le_mul hc hd zero_le_one (zero_le_one.trans hc)
        _ = M * N * (|c| * |d|) := by ring

theorem prod_exact {p q : Poly K} (cp : Canonical p) (cq : Canonical q) {f g : MvPolynomial (Fin 2) K}
    (tp : toMv p = f) (tq : toMv q = sw g) (hf : OnlyX f) (hg : OnlyX g) {M N : K} (lf : Large f M)
    (lg : Large g N) (hM : 0 < M) (hN : 0 < N) (h : M * N * tol K ≤ 1) : toMv (mulP p q) = f * sw g := by
  rw [mulP_exact, tp, tq]
  · intro m hm n hn
    refine clean_of_large (large_mul ?_ ?_) h (mul_pos hM hN)
    · rw [cp.coef_eq hm, tp]; exact lf _
    · rw [cq.coef_eq hn, tq]
      generalize n.alpha = b
      obtain ⟨j, i⟩ := b
      rw [coeff_sw]; exact lg _
  · intro a
    rw [tp, tq]
    obtain ⟨i, j⟩ := a
    rw [coeff_mul_sw hf hg]
    exact clean_of_large (large_mul (lf _) (lg _)) h (mul_pos hM hN)

/-! ### the double loop -/

section loops
variable (T : ℕ → MvPolynomial (Fin 2) K) (M : ℕ → K) (deg : ℕ) {p q : List (Poly K)} {N : ℕ}
  (hp : FamList T p N) (hq : FamList (fun n => sw (T n)) q N) (hN : deg < N)
  (ox : ∀ n, OnlyX (T n)) (lg : ∀ n, Large (T n) (M n)) (pos : ∀ n, 0 < M n)
  (small : ∀ m n, m + n ≤ deg → M m * M n * tol K ≤ 1)
include hp hq hN ox lg pos small

theorem tensorInner_spec (m count n : ℕ) (pq : List (Poly K)) (h : m + n + count ≤ deg + 1) :
    ∃ L, tensorInner p q m count n pq = .ok (pq ++ L) ∧ L.length = count ∧
      ∀ i < count, ∃ r, L[i]? = some r ∧ Canonical r ∧ toMv r = T m * sw (T (n + i)) := by
  induction count generalizing n pq with
  | zero => exact ⟨[], by simp [tensorInner], rfl, fun i hi => absurd hi (by omega)⟩
  | succ count ih =>
    obtain ⟨a, ga, ca, ta⟩ := hp.2 m (by omega)
    obtain ⟨b, gb, cb, tb⟩ := hq.2 n (by omega)
    have e := prod_exact ca cb ta tb (ox m) (ox n) (lg m) (lg n) (pos m) (pos n) (small m n (by omega))
    obtain ⟨L, eL, lL, hL⟩ := ih (n + 1) (pq ++ [mulP a b]) (by omega)
    refine ⟨mulP a b :: L, ?_, by simp [lL], fun i hi => ?_⟩
    · unfold tensorInner
      simp only [pyGet_ok ga, pyGet_ok gb, mul_eq, bind, Except.bind]
      rw [eL]; simp
    · cases i with
      | zero => exact ⟨mulP a b, rfl, mulP_canonical _ _, e⟩
      | succ i =>
        obtain ⟨r, h1, h2, h3⟩ := hL i (by omega)
        exact ⟨r, by simpa using h1, h2, by rw [h3]; congr 3; omega⟩

theorem tensorOuter_spec (count m : ℕ) (pq : List (Poly K)) (h : m + count = deg + 1) :
    ∃ L, tensorOuter p q deg count m pq = .ok (pq ++ L) ∧
      L.length = ∑ i ∈ Finset.range count, (deg + 1 - (m + i)) ∧
      ∀ i < count, ∀ j < deg + 1 - (m + i), ∃ r,
        L[(∑ l ∈ Finset.range i, (deg + 1 - (m + l))) + j]? = some r ∧ Canonical r ∧
          toMv r = T (m + i) * sw (T j) := by
  induction count generalizing m pq with
  | zero => exact ⟨[], by simp [tensorOuter], rfl, fun i hi => absurd hi (by omega)⟩
  | succ count ih =>
    obtain ⟨A, eA, lA, hA⟩ := tensorInner_spec T M deg hp hq hN ox lg pos small m (deg + 1 - m) 0 pq (by omega)
    obtain ⟨L, eL, lL, hL⟩ := ih (m + 1) (pq ++ A) (by omega)
    refine ⟨A ++ L, ?_, ?_, fun i hi j hj => ?_⟩
    · unfold tensorOuter
      simp only [eA, bind, Except.bind]
      rw [eL]; simp
    · rw [List.length_append, lA, lL, Finset.sum_range_succ', add_comm]
      congr 1
      exact Finset.sum_congr rfl fun i _ => by congr 1; omega
    · cases i with
      | zero =>
        obtain ⟨r, h1, h2, h3⟩ := hA j (by omega)
        refine ⟨r, ?_, h2, by rw [h3]; simp⟩
        rw [Finset.sum_range_zero, zero_add, List.getElem?_append_left (by omega)]
        exact h1
      | succ i =>
        obtain ⟨r, h1, h2, h3⟩ := hL i (by omega) j (by omega)
        refine ⟨r, ?_, h2, by rw [h3]; congr 2; omega⟩
        rw [Finset.sum_range_succ', List.getElem?_append_right (by omega), ← h1]
        congr 1
        rw [lA]
        have : ∑ k ∈ Finset.range i, (deg + 1 - (m + (k + 1))) =
            ∑ l ∈ Finset.range i, (deg + 1 - (m + 1 + l)) :=
          Finset.sum_congr rfl fun i _ => by congr 1; omega
        omega

end loops

theorem two_mul_offset (deg m : ℕ) (h : m ≤ deg + 1) :
    2 * ∑ l ∈ Finset.range m, (deg + 1 - l) = m * (2 * deg + 3 - m) := by
  induction m with
  | zero => simp
  | succ m ih =>
    rw [Finset.sum_range_succ, mul_add, ih (by omega)]
    zify [show m ≤ deg + 1 by omega, show m ≤ 2 * deg + 3 by omega, show m + 1 ≤ 2 * deg + 3 by omega]
    ring

theorem offset_eq (deg m : ℕ) (h : m ≤ deg + 1) :
    ∑ l ∈ Finset.range m, (deg + 1 - l) = m * (2 * deg + 3 - m) / 2 := by
  rw [← two_mul_offset deg m h]; omega

/-- what the double loop returns -/
def TensorList (T : ℕ → MvPolynomial (Fin 2) K) (deg : ℕ) (L : List (Poly K)) : Prop :=
  L.length = (deg + 1) * (deg + 2) / 2 ∧
  ∀ m n, m + n ≤ deg → ∃ r, L[m * (2 * deg + 3 - m) / 2 + n]? = some r ∧ Canonical r ∧
    toMv r = T m * sw (T n)

theorem tensor_spec (T : ℕ → MvPolynomial (Fin 2) K) (M : ℕ → K) (deg : ℕ) {p q : List (Poly K)} {N : ℕ}
    (hp : FamList T p N) (hq : FamList (fun n => sw (T n)) q N) (hN : deg < N)
    (ox : ∀ n, OnlyX (T n)) (lg : ∀ n, Large (T n) (M n)) (pos : ∀ n, 0 < M n)
    (small : ∀ m n, m + n ≤ deg → M m * M n * tol K ≤ 1) :
    ∃ L, tensorOuter p q deg (deg + 1) 0 [] = .ok L ∧ TensorList T deg L := by
  obtain ⟨L, e, l, h⟩ := tensorOuter_spec T M deg hp hq hN ox lg pos small (deg + 1) 0 [] (by omega)
  refine ⟨L, by simpa using e, ?_, fun m n hmn => ?_⟩
  · rw [l]
    simp only [zero_add]
    rw [offset_eq deg (deg + 1) le_rfl]
    congr 2; omega
  · obtain ⟨r, h1, h2, h3⟩ := h m (by omega) n (by omega)
    refine ⟨r, ?_, h2, by rw [h3]; simp⟩
    rw [← h1, ← offset_eq deg m (by omega)]
    simp only [zero_add]

/-! ### Legendre -/

theorem legT_onlyX (n : ℕ) : OnlyX (legT K n) := fun k j hj => by rw [coeff_legT, if_neg hj]

theorem legendreTensor_spec (deg : ℕ) (hd : deg ≤ 10 ^ 6) :
    ∃ L, legendreTensorProducts K deg = .ok L ∧ TensorList (legT K) deg L := by
  obtain ⟨p, ep, hp⟩ := legendre_spec (K := K) deg (by omega)
  obtain ⟨q, eq, hq⟩ := swapAll_spec _ p _ hp
  have small : ∀ m n : ℕ, m + n ≤ deg → max (m : K) 1 * max (n : K) 1 * tol K ≤ 1 := by
    intro m n hmn
    have h1 : max (m : K) 1 ≤ 10 ^ 6 := max_le (by exact_mod_cast (by omega : m ≤ 10 ^ 6)) (by norm_num)
    have h2 : max (n : K) 1 ≤ 10 ^ 6 := max_le (by exact_mod_cast (by omega : n ≤ 10 ^ 6)) (by norm_num)
    have h3 : max (m : K) 1 * max (n : K) 1 ≤ 10 ^ 6 * 10 ^ 6 :=
      mul_le_mul h1 h2 (zero_le_one.trans (le_max_right _ _)) (by norm_num)
    calc max (m : K) 1 * max (n : K) 1 * tol K ≤ 10 ^ 6 * 10 ^ 6 * tol K :=
          mul_le_mul_of_nonneg_right h3 tol_pos.le
      _ = 1 := by unfold tol; norm_num
  obtain ⟨L, eL, hL⟩ := tensor_spec (legT K) (fun n => max (n : K) 1) deg hp hq (by omega) legT_onlyX
    (fun n a => legT_large n a) (fun n => lt_of_lt_of_le one_pos (le_max_right _ _)) small
  refine ⟨L, ?_, hL⟩
  unfold legendreTensorProducts
  simp only [ep, eq, bind, Except.bind]
  exact eL

end

/-! ### integrated Legendre -/

/-- the integrated Legendre polynomials as formal polynomials -/
noncomputable def intT : ℕ → MvPolynomial (Fin 2) ℝ
  | 0 => legT ℝ 0
  | 1 => legT ℝ 1
  | n + 2 => C (1 / Real.sqrt (4 * ((n + 2 : ℕ) : ℝ) - 2)) * (legT ℝ (n + 2) - legT ℝ n)

theorem coeff_diff (n k j : ℕ) : coeff (MultiIndex.mk k j).fs (legT ℝ (n + 2) - legT ℝ n) =
    if j = 0 then sg ℝ (n + 2 + 3 * k) * (lb ℝ (n + 2) k + lb ℝ n k) else 0 := by
  rw [MvPolynomial.coeff_sub, coeff_legT, coeff_legT]
  by_cases hj : j = 0
  · simp only [hj, if_true]
    have : n + 2 + 3 * k = n + 3 * k + 2 := by ring
    rw [this, sg_add_two]; ring
  · simp [hj]

theorem diff_large (n : ℕ) : Large (legT ℝ (n + 2) - legT ℝ n) ((n + 2 : ℕ) : ℝ) := by
  rintro ⟨k, j⟩
  rw [coeff_diff]
  by_cases hj : j = 0
  · simp only [hj, if_true]
    have p1 := lb_nonneg (K := ℝ) (n + 2) k
    have p2 := lb_nonneg (K := ℝ) n k
    have hn : (0 : ℝ) ≤ n := Nat.cast_nonneg n
    rw [abs_mul, abs_sg, one_mul, abs_of_nonneg (by positivity)]
    have m1 : max ((n + 2 : ℕ) : ℝ) 1 = ((n + 2 : ℕ) : ℝ) := max_eq_left (by push_cast; linarith)
    have m2 : max (n : ℝ) 1 ≤ ((n + 2 : ℕ) : ℝ) := max_le (by push_cast; linarith) (by push_cast; linarith)
    rcases lb_large (K := ℝ) (n + 2) k with h | h
    · rcases lb_large (K := ℝ) n k with h' | h'
      · left; rw [h, h']; simp
      · right
        rw [h, zero_add]
        exact h'.trans (mul_le_mul_of_nonneg_right m2 p2)
    · right
      rw [m1] at h
      have : 0 ≤ ((n + 2 : ℕ) : ℝ) * lb ℝ n k := by positivity
      linarith
  · simp [hj]

/-- inverse size bound for the coefficients of `intT n` -/
noncomputable def intM (n : ℕ) : ℝ := max (n : ℝ) 1 * Real.sqrt (4 * (n : ℝ) + 1)

theorem intM_pos (n : ℕ) : 0 < intM n :=
  mul_pos (lt_of_lt_of_le one_pos (le_max_right _ _)) (Real.sqrt_pos.2 (by positivity))

theorem sqrt_pos' (n : ℕ) : 0 < Real.sqrt (4 * ((n + 2 : ℕ) : ℝ) - 2) :=
  Real.sqrt_pos.2 (by push_cast; linarith [(Nat.cast_nonneg n : (0 : ℝ) ≤ n)])

theorem intT_large : ∀ n, Large (intT n) (intM n)
  | 0 => by
    intro a
    have := legT_large (K := ℝ) 0 a
    simpa [intT, intM] using this
  | 1 => by
    intro a
    rcases legT_large (K := ℝ) 1 a with h | h
    · left; exact h
    · right
      simp only [intT, intM]
      have h1 : (1 : ℝ) ≤ Real.sqrt (4 * ((1 : ℕ) : ℝ) + 1) := Real.le_sqrt_of_sq_le (by norm_num)
      have h2 := abs_nonneg (coeff a.fs (legT ℝ 1))
      simp only [Nat.cast_one, max_self, one_mul] at *
      nlinarith
  | n + 2 => by
    intro a
    rw [intT, MvPolynomial.coeff_C_mul]
    rcases diff_large n a with h | h
    · left; rw [h, mul_zero]
    · right
      have hs := sqrt_pos' n
      have h1 : Real.sqrt (4 * ((n + 2 : ℕ) : ℝ) - 2) ≤ Real.sqrt (4 * ((n + 2 : ℕ) : ℝ) + 1) :=
        Real.sqrt_le_sqrt (by linarith)
      have hm : ((n + 2 : ℕ) : ℝ) ≤ max ((n + 2 : ℕ) : ℝ) 1 := le_max_left _ _
      rw [abs_mul, abs_of_pos (one_div_pos.2 hs), intM]
      have h3 : 1 ≤ Real.sqrt (4 * ((n + 2 : ℕ) : ℝ) + 1) * (1 / Real.sqrt (4 * ((n + 2 : ℕ) : ℝ) - 2)) := by
        rw [mul_one_div, le_div_iff₀ hs, one_mul]; exact h1
      calc (1 : ℝ) ≤ ((n + 2 : ℕ) : ℝ) * |coeff a.fs (legT ℝ (n + 2) - legT ℝ n)| := h
        _ ≤ max ((n + 2 : ℕ) : ℝ) 1 * |coeff a.fs (legT ℝ (n + 2) - legT ℝ n)| :=
          mul_le_mul_of_nonneg_right hm (abs_nonneg _)
        _ = max ((n + 2 : ℕ) : ℝ) 1 * |coeff a.fs (legT ℝ (n + 2) - legT ℝ n)| * 1 := by ring
        _ ≤ max ((n + 2 : ℕ) : ℝ) 1 * |coeff a.fs (legT ℝ (n + 2) - legT ℝ n)| *
            (Real.sqrt (4 * ((n + 2 : ℕ) : ℝ) + 1) * (1 / Real.sqrt (4 * ((n + 2 : ℕ) : ℝ) - 2))) :=
          mul_le_mul_of_nonneg_left h3 (mul_nonneg (zero_le_one.trans (le_max_right _ _)) (abs_nonneg _))
        _ = _ := by ring

theorem intM_small {n : ℕ} (hn : n ≤ 10 ^ 7) : intM n * tol ℝ ≤ 1 := by
  have h0 : (n : ℝ) ≤ 10 ^ 7 := by exact_mod_cast hn
  have h1 : max (n : ℝ) 1 ≤ 10 ^ 7 := max_le h0 (by norm_num)
  have h2 : Real.sqrt (4 * (n : ℝ) + 1) ≤ 10 ^ 5 := by
    rw [Real.sqrt_le_left (by norm_num)]
    linarith
  calc intM n * tol ℝ ≤ (10 ^ 7 * 10 ^ 5) * tol ℝ :=
        mul_le_mul_of_nonneg_right (mul_le_mul h1 h2 (Real.sqrt_nonneg _) (by norm_num)) tol_pos.le
    _ = 1 := by unfold tol; norm_num

theorem intT_onlyX : ∀ n, OnlyX (intT n)
  | 0 => legT_onlyX 0
  | 1 => legT_onlyX 1
  | n + 2 => fun k j hj => by rw [intT, MvPolynomial.coeff_C_mul, coeff_diff, if_neg hj, mul_zero]

theorem int_step {n : ℕ} (hn : n + 2 ≤ 10 ^ 7) {p q : Poly ℝ} (cp : Canonical p) (cq : Canonical q)
    (tp : toMv p = legT ℝ (n + 2)) (tq : toMv q = legT ℝ n) :
    ∃ r, Poly.div (sub p q) (Real.sqrt (4 * ((n + 2 : ℕ) : ℝ) - 2)) = .ok r ∧ Canonical r ∧
      toMv r = intT (n + 2) := by
  have cc : ∀ {p : Poly ℝ}, Canonical p → ∀ m ∈ p, CleanC m.coef := fun h m hm => Or.inr (h.2 m hm)
  have s1 : toMv (smul q (-1)) = C (-1) * legT ℝ n := by
    rw [smul_exact fun m hm => clean_mul (cc cq m hm) (by simp), tq]
  have e : legT ℝ (n + 2) + C (-1) * legT ℝ n = legT ℝ (n + 2) - legT ℝ n := by
    rw [map_neg, map_one]; ring
  have s2 : toMv (sub p q) = legT ℝ (n + 2) - legT ℝ n := by
    rw [sub, add_exact (cc cp) (cc (smul_canonical cq _)), tp, s1, e]
    intro a
    rw [tp, s1, e]
    refine clean_of_large (diff_large n a) ?_ (by positivity)
    have := one_le_mul_tol (K := ℝ) (n := n + 2) (by omega)
    refine le_trans (mul_le_mul_of_nonneg_right (le_max_left _ _) tol_pos.le) this
  have c2 : Canonical (sub p q) := by rw [sub, add_eq]; exact consolidate_canonical _
  have hs := (sqrt_pos' n).ne'
  refine ⟨smul (sub p q) (1 / Real.sqrt (4 * ((n + 2 : ℕ) : ℝ) - 2)), ?_, smul_canonical c2 _, ?_⟩
  · simp only [div, hs, if_false]
  · rw [smul_exact, s2, intT]
    intro m hm
    have := c2.coef_eq hm
    rw [s2] at this
    rw [this]
    have h := clean_of_large (intT_large (n + 2) m.alpha) (intM_small hn) (intM_pos _)
    rwa [intT, MvPolynomial.coeff_C_mul, mul_comm] at h

theorem intLoop_spec {p : List (Poly ℝ)} {N : ℕ} (hp : FamList (legT ℝ) p N) (hN : N ≤ 10 ^ 7 + 1)
    (count n : ℕ) (polys : List (Poly ℝ)) (h : FamList intT polys (n + 2)) (hc : n + 2 + count ≤ N) :
    ∃ r, intLegendreLoop p count (n + 2) polys = .ok r ∧ FamList intT r (n + 2 + count) := by
  induction count generalizing n polys with
  | zero => exact ⟨polys, rfl, h⟩
  | succ count ih =>
    obtain ⟨a, ga, ca, ta⟩ := hp.2 (n + 2) (by omega)
    obtain ⟨b, gb, cb, tb⟩ := hp.2 n (by omega)
    obtain ⟨r, er, cr, tr⟩ := int_step (by omega) ca cb ta tb
    obtain ⟨s, es, hs⟩ := ih (n + 1) (polys ++ [r]) (h.snoc cr tr) (by omega)
    refine ⟨s, ?_, by convert hs using 1; omega⟩
    unfold intLegendreLoop
    have e2 : n + 2 - 2 = n := by omega
    simp only [pyGet_ok ga, e2, pyGet_ok gb, er, bind, Except.bind]
    exact es

theorem integrated_spec (deg : ℕ) (hd : deg ≤ 10 ^ 7) :
    ∃ r, integratedLegendrePolynomials deg = .ok r ∧ FamList intT r (max (deg + 1) 2) := by
  obtain ⟨p, ep, hp⟩ := legendre_spec (K := ℝ) deg (by omega)
  obtain ⟨a, ga, ca, ta⟩ := hp.2 0 (by omega)
  obtain ⟨b, gb, cb, tb⟩ := hp.2 1 (by omega)
  have base : FamList intT [a, b] 2 := by
    refine ⟨rfl, fun k hk => ?_⟩
    rcases (by omega : k = 0 ∨ k = 1) with rfl | rfl
    · exact ⟨a, rfl, ca, ta⟩
    · exact ⟨b, rfl, cb, tb⟩
  obtain ⟨r, er, hr⟩ := intLoop_spec hp (by omega) (deg + 1 - 2) 0 _ base (by omega)
  refine ⟨r, ?_, by convert hr using 1; omega⟩
  unfold integratedLegendrePolynomials
  simp only [ep, pyGet_ok ga, pyGet_ok gb, bind, Except.bind]
  exact er

theorem intM_le (n : ℕ) : intM n ≤ 3 * (max (n : ℝ) 1) ^ 2 := by
  have h1 : (1 : ℝ) ≤ max (n : ℝ) 1 := le_max_right _ _
  have h2 : (n : ℝ) ≤ max (n : ℝ) 1 := le_max_left _ _
  have : Real.sqrt (4 * (n : ℝ) + 1) ≤ 3 * max (n : ℝ) 1 := by
    rw [Real.sqrt_le_left (by positivity)]
    nlinarith
  rw [intM]
  nlinarith

theorem intTensor_spec (deg : ℕ) (hd : deg ≤ 1000) :
    ∃ L, integratedLegendreTensorProducts deg = .ok L ∧ TensorList intT deg L := by
  obtain ⟨p, ep, hp⟩ := integrated_spec deg (by omega)
  obtain ⟨q, eq, hq⟩ := swapAll_spec _ p _ hp
  have small : ∀ m n : ℕ, m + n ≤ deg → intM m * intM n * tol ℝ ≤ 1 := by
    intro m n hmn
    have h0 : (m : ℝ) + n ≤ 1000 := by exact_mod_cast (by omega : m + n ≤ 1000)
    have hm0 : (0 : ℝ) ≤ m := Nat.cast_nonneg m
    have hn0 : (0 : ℝ) ≤ n := Nat.cast_nonneg n
    have key : max (m : ℝ) 1 * max (n : ℝ) 1 ≤ 250000 := by
      rcases le_total (m : ℝ) 1 with h | h <;> rcases le_total (n : ℝ) 1 with h' | h' <;>
        simp only [max_eq_left, max_eq_right, h, h'] <;> nlinarith [sq_nonneg ((m : ℝ) - n)]
    have hpos : 0 ≤ max (m : ℝ) 1 * max (n : ℝ) 1 := by positivity
    have : intM m * intM n ≤ 10 ^ 12 := by
      calc intM m * intM n ≤ (3 * (max (m : ℝ) 1) ^ 2) * (3 * (max (n : ℝ) 1) ^ 2) :=
            mul_le_mul (intM_le m) (intM_le n) (intM_pos n).le (by positivity)
        _ = 9 * (max (m : ℝ) 1 * max (n : ℝ) 1) ^ 2 := by ring
        _ ≤ 9 * 250000 ^ 2 := by
          have := pow_le_pow_left₀ hpos key 2
          linarith
        _ ≤ 10 ^ 12 := by norm_num
    calc intM m * intM n * tol ℝ ≤ 10 ^ 12 * tol ℝ := mul_le_mul_of_nonneg_right this tol_pos.le
      _ = 1 := by unfold tol; norm_num
  obtain ⟨L, eL, hL⟩ := tensor_spec intT intM deg hp hq (by omega) intT_onlyX intT_large intM_pos small
  refine ⟨L, ?_, hL⟩
  unfold integratedLegendreTensorProducts
  simp only [ep, eq, bind, Except.bind]
  exact eL

end Poly

/-! ### facts about the Legendre functions -/

theorem legendreFun_one {K : Type} [Field K] [LinearOrder K] [IsStrictOrderedRing K] (n : ℕ) :
    legendreFun n (1 : K) = 1 := by
  induction n using Nat.strong_induction_on with
  | _ n ih =>
    match n with
    | 0 => rfl
    | 1 => rfl
    | n + 2 =>
      rw [legendreFun, ih (n + 1) (by omega), ih n (by omega), div_eq_one_iff_eq (by positivity)]
      ring

theorem legendreFun_neg {K : Type} [Field K] (n : ℕ) (x : K) :
    legendreFun n (-x) = (-1) ^ n * legendreFun n x := by
  induction n using Nat.strong_induction_on with
  | _ n ih =>
    match n with
    | 0 => simp [legendreFun]
    | 1 => simp [legendreFun]
    | n + 2 =>
      rw [legendreFun, legendreFun, ih (n + 1) (by omega), ih n (by omega)]
      ring

/-- derivatives of the Legendre functions by differentiating the recurrence -/
noncomputable def legendreDer : ℕ → ℝ → ℝ
  | 0, _ => 0
  | 1, _ => 1
  | n + 2, x => ((2 * (n : ℝ) + 3) * (legendreFun (n + 1) x + x * legendreDer (n + 1) x) -
      ((n : ℝ) + 1) * legendreDer n x) / ((n : ℝ) + 2)

theorem hasDerivAt_legendre (n : ℕ) (x : ℝ) : HasDerivAt (fun t => legendreFun n t) (legendreDer n x) x := by
  induction n using Nat.strong_induction_on with
  | _ n ih =>
    match n with
    | 0 => simpa [legendreFun, legendreDer] using hasDerivAt_const x (1 : ℝ)
    | 1 => simpa only [legendreFun, legendreDer] using hasDerivAt_id' x
    | n + 2 =>
      have h1 := ih (n + 1) (by omega)
      have h0 := ih n (by omega)
      have h2 := ((((hasDerivAt_id x).const_mul (2 * (n : ℝ) + 3)).mul h1).sub
        (h0.const_mul ((n : ℝ) + 1))).div_const ((n : ℝ) + 2)
      refine (h2.congr_deriv ?_)
      rw [legendreDer]
      simp only [id]
      ring

theorem legendreDer_rel (n : ℕ) (x : ℝ) :
    legendreDer (n + 1) x = (n + 1) * legendreFun n x + x * legendreDer n x ∧
    x * legendreDer (n + 1) x - legendreDer n x = (n + 1) * legendreFun (n + 1) x := by
  induction n with
  | zero => simp [legendreDer, legendreFun]
  | succ n ih =>
    obtain ⟨h1, h2⟩ := ih
    have hn : (n : ℝ) + 2 ≠ 0 := by positivity
    have e : legendreDer (n + 2) x * ((n : ℝ) + 2) = (2 * (n : ℝ) + 3) * (legendreFun (n + 1) x +
        x * legendreDer (n + 1) x) - ((n : ℝ) + 1) * legendreDer n x := by
      rw [legendreDer, div_mul_cancel₀ _ hn]
    have f : legendreFun (n + 2) x * ((n : ℝ) + 2) = (2 * (n : ℝ) + 3) * x * legendreFun (n + 1) x -
        ((n : ℝ) + 1) * legendreFun n x := by
      rw [legendreFun, div_mul_cancel₀ _ hn]
    have a1 : legendreDer (n + 2) x = (n + 2) * legendreFun (n + 1) x + x * legendreDer (n + 1) x := by
      apply mul_right_cancel₀ hn
      rw [e]
      linear_combination ((n : ℝ) + 1) * h2
    refine ⟨by push_cast; rw [a1]; ring, ?_⟩
    push_cast
    have : x * legendreDer (n + 2) x - legendreDer (n + 1) x = legendreFun (n + 2) x * ((n : ℝ) + 2) := by
      rw [f, a1]
      linear_combination x * h2 - h1
    rw [this]; ring

theorem legendreDer_diff (n : ℕ) (x : ℝ) :
    legendreDer (n + 2) x - legendreDer n x = (2 * n + 3) * legendreFun (n + 1) x := by
  have h1 := (legendreDer_rel (n + 1) x).1
  have h2 := (legendreDer_rel n x).2
  push_cast at h1
  linear_combination h1 + h2

theorem eval_intT (n : ℕ) (x y : ℝ) :
    MvPolynomial.eval (fun i : Fin 2 => if i = 0 then x else y) (Poly.intT n) = intLegendreFun n x := by
  match n with
  | 0 => rw [Poly.intT, Poly.eval_legT]; rfl
  | 1 => rw [Poly.intT, Poly.eval_legT]; rfl
  | n + 2 =>
    rw [Poly.intT, map_mul, map_sub, Poly.eval_legT, Poly.eval_legT, MvPolynomial.eval_C, intLegendreFun]
    ring

theorem hasDerivAt_intLegendre (n : ℕ) (x : ℝ) : HasDerivAt (fun t => intLegendreFun (n + 2) t)
    (Real.sqrt ((2 * ((n + 2 : ℕ) : ℝ) - 1) / 2) * legendreFun (n + 1) x) x := by
  have h := ((hasDerivAt_legendre (n + 2) x).sub (hasDerivAt_legendre n x)).div_const
    (Real.sqrt (4 * ((n + 2 : ℕ) : ℝ) - 2))
  refine h.congr_deriv ?_
  rw [legendreDer_diff]
  have hs := (Poly.sqrt_pos' n).ne'
  have hn : (0 : ℝ) ≤ n := Nat.cast_nonneg n
  rw [div_eq_iff hs]
  have : Real.sqrt ((2 * ((n + 2 : ℕ) : ℝ) - 1) / 2) * Real.sqrt (4 * ((n + 2 : ℕ) : ℝ) - 2) = 2 * n + 3 := by
    rw [← Real.sqrt_mul (by push_cast; linarith)]
    have : (2 * ((n + 2 : ℕ) : ℝ) - 1) / 2 * (4 * ((n + 2 : ℕ) : ℝ) - 2) = (2 * (n : ℝ) + 3) ^ 2 := by
      push_cast; ring
    rw [this, Real.sqrt_sq (by positivity)]
  rw [mul_right_comm, this]

end PFEM
