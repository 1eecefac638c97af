import Mathlib.Algebra.Order.Archimedean.Basic
import Verif.Lemmas.PolyPure

set_option linter.unusedSectionVars false

namespace PFEM
namespace Poly

variable {K : Type} [Field K] [LinearOrder K] [IsStrictOrderedRing K]

/-! ### lattices -/

/-- the lattice `δℤ` at every multi-index -/
def lat (δ : K) : MultiIndex → AddSubgroup K := fun _ => AddSubgroup.zmultiples δ

theorem mem_lat {δ c : K} {a : MultiIndex} : c ∈ lat δ a ↔ ∃ n : ℤ, c = n * δ := by
  unfold lat
  rw [AddSubgroup.mem_zmultiples_iff]
  simp only [zsmul_eq_mul]
  exact ⟨fun ⟨n, h⟩ => ⟨n, h.symm⟩, fun ⟨n, h⟩ => ⟨n, h.symm⟩⟩

theorem onLattice_iff {δ : K} {p : Poly K} : OnLattice δ p ↔ InA (lat δ) p := by
  unfold OnLattice InA; simp only [mem_lat]

theorem lat_clean {δ c : K} (hδ : tol K ≤ δ) (h : ∃ n : ℤ, c = n * δ) : CleanC c := by
  obtain ⟨n, rfl⟩ := h
  by_cases hn : n = 0
  · left; simp [hn]
  · right
    have h1 : (1 : K) ≤ |(n : K)| := by
      rw [← Int.cast_abs]; exact_mod_cast Int.one_le_abs hn
    have h0 : 0 < δ := tol_pos.trans_le hδ
    rw [abs_mul, abs_of_pos h0]
    nlinarith

theorem sep_lat {δ : K} (hδ : tol K ≤ δ) : Sep (lat δ) := fun _ _ hc => lat_clean hδ (mem_lat.1 hc)

theorem lat_mul {δ ε c d : K} {a b e : MultiIndex} (hc : c ∈ lat δ a) (hd : d ∈ lat ε b) :
    c * d ∈ lat (δ * ε) e := by
  rw [mem_lat] at *
  obtain ⟨m, rfl⟩ := hc
  obtain ⟨n, rfl⟩ := hd
  exact ⟨m * n, by push_cast; ring⟩

/-! ### error bounds -/

theorem eval_perm {p q : Poly K} (h : p.Perm q) (x y : K) : eval p x y = eval q x y := by
  rw [eval_eq_sum, eval_eq_sum]; exact (h.map _).sum_eq

theorem eval_of_toMv {p q : Poly K} (h : toMv p = toMv q) (x y : K) : eval p x y = eval q x y := by
  rw [eval_toMv, eval_toMv, h]

theorem eval_collect (l : Poly K) (x y : K) : eval (collect l) x y = eval l x y :=
  eval_of_toMv (toMv_ext fun a => coeffOf_collect l a) x y

theorem abs_eval_mono (m : Mono K) (x y : K) :
    |m.eval x y| = |m.coef| * (|x| ^ m.alpha.x * |y| ^ m.alpha.y) := by
  rw [Mono.eval_eq, abs_mul, abs_mul, abs_pow, abs_pow, mul_assoc]

/-- dropping near-zero monomials: the error is at most the number of dropped monomials times tol times B -/
theorem eval_nz_error {l : Poly K} {x y B : K} (hB : MonoBound l x y B) :
    |eval (nz l) x y - eval l x y| ≤ ((l.length - (nz l).length : ℕ) : K) * tol K * B := by
  induction l with
  | nil => simp [nz, eval_nil]
  | cons m l ih =>
    have ih' := ih fun n hn => hB n (by simp [hn])
    have hle : (nz l).length ≤ l.length := List.length_filter_le _ _
    by_cases hz : m.isZero = true
    · have e : nz (m :: l) = nz l := by simp [nz, hz]
      have e2 : (m :: l).length - (nz l).length = l.length - (nz l).length + 1 := by
        simp only [List.length_cons]; omega
      rw [e, e2, eval_cons]
      push_cast
      have hb := hB m (by simp)
      have h0 : 0 ≤ |x| ^ m.alpha.x * |y| ^ m.alpha.y := by positivity
      have hm : |m.eval x y| ≤ tol K * B := by
        rw [abs_eval_mono]
        have := (Mono.isZero_iff m).1 hz
        exact mul_le_mul this.le hb h0 tol_pos.le
      calc |eval (nz l) x y - (m.eval x y + eval l x y)|
          = |(eval (nz l) x y - eval l x y) - m.eval x y| := by congr 1; ring
        _ ≤ |eval (nz l) x y - eval l x y| + |m.eval x y| := abs_sub _ _
        _ ≤ _ := by nlinarith [ih', hm]
    · have e : nz (m :: l) = m :: nz l := by simp [nz, hz]
      rw [e, eval_cons, eval_cons]
      have e2 : (m :: l).length - (m :: nz l).length = l.length - (nz l).length := by
        simp only [List.length_cons]; omega
      rw [e2]
      simpa using ih'

theorem monoBound_nz {l : Poly K} {x y B : K} (hB : MonoBound l x y B) : MonoBound (nz l) x y B :=
  fun m hm => hB m (List.mem_filter.1 hm).1

theorem monoBound_nonneg {l : Poly K} {x y B : K} (hB : MonoBound l x y B) (h : l ≠ []) : 0 ≤ B := by
  cases l with
  | nil => exact absurd rfl h
  | cons m l => exact le_trans (by positivity) (hB m (by simp))

theorem consolidate_length_le (l : Poly K) : (consolidate l).length ≤ l.length := by
  rw [(consolidate_perm l).length_eq]
  exact (List.length_filter_le _ _).trans (collect_length l).le

theorem eval_consolidate_error {l : Poly K} {x y B : K} (hB : MonoBound l x y B) :
    |eval (consolidate l) x y - eval l x y| ≤ (l.length : K) * tol K * B := by
  have hB' : MonoBound (collect l) x y B := by
    intro m hm
    obtain ⟨n, hn, hna⟩ := collect_alpha_mem l m hm
    rw [← hna]; exact hB n hn
  have h := eval_nz_error hB'
  rw [eval_collect, collect_length] at h
  rw [eval_perm (consolidate_perm l)]
  refine h.trans ?_
  by_cases hl : l = []
  · subst hl; simp [collect_nil, nz]
  · have h0 := monoBound_nonneg hB hl
    have : ((l.length - (nz (collect l)).length : ℕ) : K) ≤ (l.length : K) := by
      exact_mod_cast Nat.sub_le _ _
    have := mul_le_mul_of_nonneg_right this tol_pos.le
    exact mul_le_mul_of_nonneg_right this h0

theorem eval_consolidate_nz_error {l : Poly K} {x y B : K} (hB : MonoBound l x y B) :
    |eval (consolidate (nz l)) x y - eval l x y| ≤ (l.length : K) * tol K * B := by
  have h1 := eval_nz_error hB
  have h2 := eval_consolidate_error (monoBound_nz hB)
  have hle : (nz l).length ≤ l.length := List.length_filter_le _ _
  have e : ((l.length - (nz l).length : ℕ) : K) = (l.length : K) - ((nz l).length : K) := by
    push_cast [hle]; rfl
  rw [e] at h1
  calc |eval (consolidate (nz l)) x y - eval l x y|
      = |(eval (consolidate (nz l)) x y - eval (nz l) x y) + (eval (nz l) x y - eval l x y)| := by
        congr 1; ring
    _ ≤ _ := abs_add_le _ _
    _ ≤ _ := by nlinarith [h1, h2]

theorem eval_map_smul (p : Poly K) (c x y : K) :
    eval (p.map fun m => m.smul c) x y = c * eval p x y := by
  induction p with
  | nil => simp [eval_nil]
  | cons m p ih =>
    rw [List.map_cons, eval_cons, ih, eval_cons, Mono.eval_eq, Mono.eval_eq]
    simp only [Mono.smul]; ring

theorem eval_map_times (m : Mono K) (q : Poly K) (x y : K) :
    eval (q.map fun n => m.times n) x y = m.eval x y * eval q x y := by
  induction q with
  | nil => simp [eval_nil]
  | cons n q ih =>
    rw [List.map_cons, eval_cons, ih, eval_cons, Mono.eval_eq, Mono.eval_eq, Mono.eval_eq]
    simp only [Mono.times, MultiIndex.plus, pow_add]; ring

theorem eval_prods (p q : Poly K) (x y : K) : eval (prods p q) x y = eval p x y * eval q x y := by
  induction p with
  | nil => simp [eval_nil, prods]
  | cons m p ih =>
    have e : prods (m :: p) q = (q.map fun n => m.times n) ++ prods p q := by simp [prods]
    rw [e, eval_append, ih, eval_map_times, eval_cons, add_mul]

theorem prods_length (p q : Poly K) : (prods p q).length = p.length * q.length := by
  induction p with
  | nil => simp [prods]
  | cons m p ih =>
    have e : prods (m :: p) q = (q.map fun n => m.times n) ++ prods p q := by simp [prods]
    rw [e, List.length_append, ih, List.length_map, List.length_cons]; ring

theorem nz_nz (p : Poly K) : nz (nz p) = nz p := by simp [nz]

theorem monoBound_map_smul {p : Poly K} {x y B : K} (c : K) (h : MonoBound p x y B) :
    MonoBound (p.map fun m => m.smul c) x y B := by
  intro m hm
  simp only [List.mem_map] at hm
  obtain ⟨n, hn, rfl⟩ := hm
  exact h n hn

theorem sub_eq (p q : Poly K) : sub p q = consolidate (nz (p ++ q.map fun m => m.smul (-1))) := by
  unfold sub; rw [add_eq, smul_eq, nz_append, nz_append, nz_nz]

theorem monoBound_append {p q : Poly K} {x y B : K} (hp : MonoBound p x y B) (hq : MonoBound q x y B) :
    MonoBound (p ++ q) x y B := by
  intro m hm
  rcases List.mem_append.1 hm with h | h
  · exact hp m h
  · exact hq m h

theorem toMv_oneP : toMv (oneP K) = 1 := by
  have : (MultiIndex.mk 0 0).fs = 0 := by simp [MultiIndex.fs]
  simp [toMv, oneP, this]

theorem oneP_lat : InA (lat (1 : K)) (oneP K) := by
  intro m hm
  simp [oneP] at hm
  subst hm
  rw [mem_lat]; exact ⟨1, by simp⟩

theorem pow_lat {p : Poly K} {δ : K} (n : ℕ) (hp : InA (lat δ) p) (hδ : ∀ k ≤ n, tol K ≤ δ ^ k) :
    toMv (powP p n (oneP K)) = toMv p ^ n ∧ InA (lat (δ ^ n)) (powP p n (oneP K)) := by
  induction n with
  | zero => simpa [powP, toMv_oneP] using oneP_lat
  | succ n ih =>
    have ih' := ih fun k hk => hδ k (by omega)
    have := mul_A (C := lat (δ ^ (n + 1))) (sep_lat (hδ (n + 1) le_rfl)) ih'.2 hp
      (fun a b c hc d hd => by
        have := lat_mul (e := a.plus b) hc hd
        rwa [← pow_succ] at this)
    unfold powP at *
    rw [Function.iterate_succ_apply']
    exact ⟨by rw [this.1, ih'.1, pow_succ], this.2⟩

theorem comp_lat {p q1 q2 : Poly K} {δ : K} (hδ : tol K ≤ δ) (hp : OnLattice δ p)
    (h1 : OnLattice 1 q1) (h2 : OnLattice 1 q2) (new : Poly K) (hnew : InA (lat δ) new) (x y : K) :
    eval (p.foldl (compStep q1 q2) new) x y =
      eval new x y + eval p (eval q1 x y) (eval q2 x y) := by
  induction p generalizing new with
  | nil => simp [eval_nil]
  | cons m p ih =>
    have hp' : OnLattice δ p := fun n hn => hp n (by simp [hn])
    have one : ∀ n : ℕ, ∀ k ≤ n, tol K ≤ (1 : K) ^ k := fun _ _ _ => by simp [tol_lt_one.le]
    have a1 := pow_lat m.alpha.x (onLattice_iff.1 h1) (one _)
    have a2 := pow_lat m.alpha.y (onLattice_iff.1 h2) (one _)
    have a3 := mul_A (C := lat (1 : K)) (sep_lat tol_lt_one.le) a1.2 a2.2
      (fun a b c hc d hd => by
        have := lat_mul (e := a.plus b) hc hd
        simpa using this)
    have a4 := smul_A (B := lat δ) (sep_lat hδ) a3.2 m.coef (fun a d hd => by
        rw [mem_lat] at *
        obtain ⟨i, rfl⟩ := hd
        obtain ⟨j, hj⟩ := hp m (by simp)
        exact ⟨i * j, by rw [hj]; push_cast; ring⟩)
    have a5 := iadd_A (sep_lat hδ) hnew a4.2
    rw [List.foldl_cons, ih hp' (compStep q1 q2 new m) a5.2]
    have e : eval (compStep q1 q2 new m) x y =
        eval new x y + m.coef * (eval q1 x y ^ m.alpha.x * eval q2 x y ^ m.alpha.y) := by
      unfold compStep
      rw [eval_toMv, a5.1, map_add, a4.1, map_mul, a3.1, map_mul, a1.1, a2.1, map_pow, map_pow,
        ← eval_toMv, ← eval_toMv, ← eval_toMv, MvPolynomial.eval_C]
    rw [e, eval_cons, Mono.eval_eq]
    ring

end Poly
end PFEM
