import Mathlib.Data.List.Sort
import Mathlib.LinearAlgebra.BilinearForm.Basic
import Mathlib.LinearAlgebra.Span.Basic
import Mathlib.Tactic.FieldSimp
import Mathlib.Tactic.Linarith
import Mathlib.Tactic.Ring
import Mathlib.Tactic.Abel
import Verif.Model.Pivot
import Verif.Lemmas.Np

/-!
Invariants of the pivoting loop of `_get_basis_index_set`.
-/

namespace PFEM

variable {K : Type} [Field K] [LinearOrder K]

omit [Field K] in
/-- the pivot chosen in each round is a valid position with a largest diagonal entry -/
theorem argmax_diag {m : ℕ} (hm : m ≠ 0) (M : ℕ → ℕ → K) :
    ∃ k, Np.argmax (diag m M) = .ok k ∧ k < m ∧ ∀ i < m, M i i ≤ M k k := by
  obtain ⟨k, w, hk, hw, hmax⟩ := argmax_spec (l := diag m M) (by
    intro h
    have := congrArg List.length h
    simp [diag] at this
    exact hm this)
  have hkm : k < m := by
    by_contra hge
    rw [List.getElem?_eq_none (by simp [diag]; omega)] at hw
    cases hw
  have hwk : M k k = w := by
    simp [diag, hkm] at hw
    exact hw
  refine ⟨k, hk, hkm, fun i hi => ?_⟩
  rw [hwk]
  exact hmax _ (by simp only [diag, List.mem_map, List.mem_range]; exact ⟨i, hi, rfl⟩)

variable [IsStrictOrderedRing K]

/-- state of the loop for an arbitrary matrix: the positions found are distinct and valid and their diagonal entries
are no longer positive -/
structure PivotInv (m : ℕ) (M : ℕ → ℕ → K) (idx : List ℕ) : Prop where
  nodup : idx.Nodup
  valid : ∀ k ∈ idx, k < m
  done : ∀ k ∈ idx, M k k ≤ 0

theorem PivotInv.step {m : ℕ} {M : ℕ → ℕ → K} {idx : List ℕ} (h : PivotInv m M idx) {k : ℕ} (hk : k < m)
    (hp : 0 < M k k) : PivotInv m (pivotStep M k) (idx ++ [k]) where
  nodup := by
    have : k ∉ idx := fun hmem => absurd (h.done k hmem) (not_le.2 hp)
    simp [List.nodup_append, h.nodup]
    rintro a ha rfl
    exact this ha
  valid := by
    intro i hi
    rcases List.mem_append.1 hi with hi | hi
    · exact h.valid i hi
    · simp only [List.mem_singleton] at hi; rw [hi]; exact hk
  done := by
    intro i hi
    rcases List.mem_append.1 hi with hi | hi
    · have h1 := h.done i hi
      have h2 : 0 ≤ M i k * M i k / M k k := div_nonneg (mul_self_nonneg _) hp.le
      unfold pivotStep
      linarith
    · simp only [List.mem_singleton] at hi
      subst hi
      unfold pivotStep
      rw [mul_div_assoc, div_self hp.ne', mul_one, sub_self]

/-- any property kept by the rounds of the loop holds at its end, where no diagonal entry exceeds the tolerance; the
loop ends within `m + 1` tests -/
theorem pivotLoop_run {m : ℕ} (hm : m ≠ 0) {tol : K} (ht : 0 ≤ tol) (P : (ℕ → ℕ → K) → List ℕ → Prop)
    (hP : ∀ M idx k, PivotInv m M idx → P M idx → k < m → tol < M k k → P (pivotStep M k) (idx ++ [k])) :
    ∀ (fuel : ℕ) (M : ℕ → ℕ → K) (idx : List ℕ), PivotInv m M idx → P M idx → m + 1 ≤ fuel + idx.length →
      ∃ M' idx', pivotLoop m tol fuel M idx = some (.ok idx') ∧ PivotInv m M' idx' ∧ P M' idx' ∧
        ∀ i < m, M' i i ≤ tol
  | 0, M, idx, h, _, hf => by
    exfalso
    have : idx.length ≤ m := by
      have := List.Subperm.length_le (List.subperm_of_subset h.nodup
        (fun k hk => List.mem_range.2 (h.valid k hk) : idx ⊆ List.range m))
      simpa using this
    omega
  | fuel + 1, M, idx, h, hp, hf => by
    obtain ⟨k, hk, hkm, hmax⟩ := argmax_diag hm M
    simp only [pivotLoop, hk]
    split
    · next hgt =>
      exact pivotLoop_run hm ht P hP fuel _ _ (h.step hkm (lt_of_le_of_lt ht hgt)) (hP M idx k h hp hkm hgt)
        (by simp; omega)
    · next hle =>
      exact ⟨M, idx, rfl, h, hp, fun i hi => (hmax i hi).trans (not_lt.1 hle)⟩

variable {V : Type} [AddCommGroup V] [Module K V]

/-- span of the functions selected so far -/
def selSpan (f : ℕ → V) (idx : List ℕ) : Submodule K V := Submodule.span K (f '' {i | i ∈ idx})

omit [LinearOrder K] [IsStrictOrderedRing K] in
theorem mem_selSpan_append {f : ℕ → V} {idx : List ℕ} {k : ℕ} {v : V} (h : v ∈ selSpan (K := K) f (idx ++ [k])) :
    ∃ a : K, ∃ w ∈ selSpan (K := K) f idx, v = a • f k + w := by
  have : f '' {i | i ∈ idx ++ [k]} = insert (f k) (f '' {i | i ∈ idx}) := by
    ext x
    simp only [List.mem_append, List.mem_singleton, Set.mem_image, Set.mem_ofPred_eq, Set.mem_insert_iff]
    constructor
    · rintro ⟨i, hi | hi, rfl⟩
      · exact Or.inr ⟨i, hi, rfl⟩
      · exact Or.inl (by rw [hi])
    · rintro (rfl | ⟨i, hi, rfl⟩)
      · exact ⟨k, Or.inr rfl, rfl⟩
      · exact ⟨i, Or.inl hi, rfl⟩
  unfold selSpan at h
  rw [this, Submodule.mem_span_insert] at h
  obtain ⟨a, w, hw, rfl⟩ := h
  exact ⟨a, w, hw, rfl⟩

omit [LinearOrder K] [IsStrictOrderedRing K] in
theorem selSpan_mono {f : ℕ → V} {idx idx' : List ℕ} (h : idx ⊆ idx') : selSpan (K := K) f idx ≤ selSpan f idx' :=
  Submodule.span_mono (Set.image_mono fun _ hi => h hi)

omit [LinearOrder K] [IsStrictOrderedRing K] in
theorem mem_selSpan {f : ℕ → V} {idx : List ℕ} {k : ℕ} (h : k ∈ idx) : f k ∈ selSpan (K := K) f idx :=
  Submodule.subset_span ⟨k, h, rfl⟩

/-- state of the loop when the matrix is the Gram matrix of `f`: it is now the Gram matrix of the functions reduced
by the selected ones -/
structure GramInv (m : ℕ) (tol : K) (B : V →ₗ[K] V →ₗ[K] K) (f : ℕ → V) (M : ℕ → ℕ → K) (idx : List ℕ) : Prop where
  red : ∃ u : ℕ → V, (∀ i < m, f i - u i ∈ selSpan (K := K) f idx) ∧ (∀ i < m, ∀ j < m, M i j = B (u i) (u j)) ∧
    ∀ i < m, ∀ w ∈ selSpan (K := K) f idx, B (u i) w = 0
  nonneg : ∀ w ∈ selSpan (K := K) f idx, 0 ≤ B w w
  far : ∀ pre k post, idx = pre ++ k :: post → ∀ w ∈ selSpan (K := K) f pre, tol < B (f k - w) (f k - w)

theorem GramInv.step {m : ℕ} {tol : K} (ht : 0 ≤ tol) {B : V →ₗ[K] V →ₗ[K] K} (hB : ∀ v w, B v w = B w v)
    {f : ℕ → V} {M : ℕ → ℕ → K} {idx : List ℕ} (h : GramInv m tol B f M idx) {k : ℕ} (hk : k < m)
    (hp : tol < M k k) : GramInv m tol B f (pivotStep M k) (idx ++ [k]) := by
  obtain ⟨u, hu, hM, ho⟩ := h.red
  have hpos : 0 < M k k := lt_of_le_of_lt ht hp
  have hsub : selSpan (K := K) f idx ≤ selSpan f (idx ++ [k]) := selSpan_mono (by simp)
  have hfk : f k ∈ selSpan (K := K) f (idx ++ [k]) := mem_selSpan (by simp)
  have huk : u k ∈ selSpan (K := K) f (idx ++ [k]) := by
    have := Submodule.sub_mem _ hfk (hsub (hu k hk))
    simpa using this
  have hkk : B (u k) (u k) = M k k := (hM k hk k hk).symm
  -- value of the form on `a • u k + w`
  have hval : ∀ (a : K), ∀ w ∈ selSpan (K := K) f idx, B (a • u k + w) (a • u k + w) = a * a * M k k + B w w := by
    intro a w hw
    have h0 := ho k hk w hw
    simp only [map_add, map_smul, LinearMap.add_apply, LinearMap.smul_apply, smul_eq_mul, h0, hB w (u k), hkk]
    ring
  have hdec : ∀ (a : K), ∀ w ∈ selSpan (K := K) f idx, ∃ w' ∈ selSpan (K := K) f idx, a • f k + w = a • u k + w' := by
    intro a w hw
    refine ⟨a • (f k - u k) + w, Submodule.add_mem _ (Submodule.smul_mem _ _ (hu k hk)) hw, ?_⟩
    rw [smul_sub]; abel
  refine ⟨⟨fun i => u i - (M i k / M k k) • u k, fun i hi => ?_, fun i hi j hj => ?_, fun i hi w hw => ?_⟩, ?_, ?_⟩
  · have : f i - (u i - (M i k / M k k) • u k) = (f i - u i) + (M i k / M k k) • u k := by abel
    rw [this]
    exact Submodule.add_mem _ (hsub (hu i hi)) (Submodule.smul_mem _ _ huk)
  · have h1 := hM i hi j hj
    have h2 := hM i hi k hk
    have h3 := hM j hj k hk
    simp only [pivotStep, map_sub, map_smul, LinearMap.sub_apply, LinearMap.smul_apply, smul_eq_mul, hB (u k) (u j),
      ← h1, ← h2, ← h3, hkk]
    field_simp
    ring
  · obtain ⟨a, w', hw', rfl⟩ := mem_selSpan_append hw
    obtain ⟨w'', hw'', he⟩ := hdec a w' hw'
    rw [he]
    simp only [map_sub, map_smul, map_add, LinearMap.sub_apply, LinearMap.smul_apply, smul_eq_mul, ho i hi w'' hw'',
      ho k hk w'' hw'', hkk, ← hM i hi k hk]
    field_simp
    ring
  · intro w hw
    obtain ⟨a, w', hw', rfl⟩ := mem_selSpan_append hw
    obtain ⟨w'', hw'', he⟩ := hdec a w' hw'
    rw [he, hval a w'' hw'']
    have := h.nonneg w'' hw''
    have := mul_nonneg (mul_self_nonneg a) hpos.le
    linarith
  · intro pre k' post he w hw
    rcases List.eq_nil_or_concat post with hnil | ⟨post', x, hpost⟩
    · subst hnil
      have he' : pre = idx ∧ k' = k := by
        have := List.append_inj' he (by simp)
        simp at this
        exact ⟨this.1.symm, this.2.symm⟩
      obtain ⟨rfl, rfl⟩ := he'
      obtain ⟨w'', hw'', hd⟩ := hdec 1 (-w) (Submodule.neg_mem _ hw)
      have : f k' - w = (1 : K) • u k' + w'' := by rw [← hd, one_smul, sub_eq_add_neg]
      rw [this, hval 1 w'' hw'']
      have := h.nonneg w'' hw''
      linarith
    · have he' : idx = pre ++ k' :: post' := by
        have h2 : idx ++ [k] = (pre ++ k' :: post') ++ [x] := by rw [he, hpost]; simp
        exact (List.append_inj' h2 (by simp)).1
      exact h.far pre k' post' he' w hw

end PFEM
