import Verif.Lemmas.Pivot

/-!
Property theorems C53: selection of a basis from a spanning set by the size of the pivots.
-/

namespace PFEM

variable {K : Type} [Field K] [LinearOrder K] [IsStrictOrderedRing K]

/-- C53: for every square matrix, symmetric or not, and every nonnegative tolerance the selection ends after at most
`m` pivots and returns strictly increasing positions below `m`. -/
theorem C53_terminates (m : ℕ) (M : ℕ → ℕ → K) (tol : K) (ht : 0 ≤ tol) (fuel : ℕ) (hf : m + 1 ≤ fuel) :
    ∃ idx, basisIndexSet m M tol fuel = some (.ok idx) ∧ idx.Pairwise (· < ·) ∧ (∀ k ∈ idx, k < m) ∧
      idx.length ≤ m := by
  unfold basisIndexSet
  by_cases hm : m = 0
  · exact ⟨[], by simp [hm], by simp, by simp, by simp⟩
  · obtain ⟨M', idx, hr, hinv, _, _⟩ := pivotLoop_run hm ht (fun _ _ => True) (fun _ _ _ _ _ _ _ => trivial) fuel M []
      ⟨by simp, by simp, by simp⟩ trivial (by simpa using hf)
    have hperm := List.perm_insertionSort (· ≤ ·) idx
    have hnd : (idx.insertionSort (· ≤ ·)).Nodup := hperm.nodup_iff.2 hinv.nodup
    have hval : ∀ k ∈ idx.insertionSort (· ≤ ·), k < m := fun k hk => hinv.valid k (hperm.mem_iff.1 hk)
    refine ⟨idx.insertionSort (· ≤ ·), by simp [hm, hr], ?_, hval, ?_⟩
    · have hs := List.pairwise_insertionSort (· ≤ ·) idx
      refine (hs.and hnd).imp ?_
      rintro a b ⟨h1, h2⟩
      exact lt_of_le_of_ne (by simpa using h1) h2
    · have := List.Subperm.length_le (List.subperm_of_subset hnd
        (fun k hk => List.mem_range.2 (hval k hk) : _ ⊆ List.range m))
      simpa using this

/-- C53: let `M` be the matrix of products `B (f i) (f j)` of functions `f 0, …, f (m - 1)` under a symmetric bilinear
form.  The positions returned can be put in an order (that of selection) in which each function stays farther than
the tolerance from every combination of those before it; and every one of the `m` functions differs from some
combination of the selected functions by a remainder orthogonal to all selected functions whose square is at most the
tolerance. -/
theorem C53_selection {V : Type} [AddCommGroup V] [Module K V] (B : V →ₗ[K] V →ₗ[K] K) (hB : ∀ v w, B v w = B w v)
    (m : ℕ) (f : ℕ → V) (tol : K) (ht : 0 ≤ tol) (fuel : ℕ) (hf : m + 1 ≤ fuel) (idx : List ℕ)
    (hr : basisIndexSet m (fun i j => B (f i) (f j)) tol fuel = some (.ok idx)) :
    (∃ order : List ℕ, order.Perm idx ∧ ∀ pre k post, order = pre ++ k :: post →
      ∀ w ∈ Submodule.span K (f '' {i | i ∈ pre}), tol < B (f k - w) (f k - w)) ∧
    ∀ i < m, ∃ w ∈ Submodule.span K (f '' {k | k ∈ idx}), (∀ k ∈ idx, B (f i - w) (f k) = 0) ∧
      B (f i - w) (f i - w) ≤ tol := by
  unfold basisIndexSet at hr
  by_cases hm : m = 0
  · simp [hm] at hr
    subst hr
    exact ⟨⟨[], List.Perm.refl _, by simp⟩, fun i hi => by omega⟩
  · obtain ⟨M', order, hr', hinv, hg, hle⟩ := pivotLoop_run hm ht (GramInv m tol B f)
      (fun M idx k _ h hk hp => h.step ht hB hk hp) fuel (fun i j => B (f i) (f j)) []
      ⟨by simp, by simp, by simp⟩
      ⟨⟨f, by simp, by simp, by simp [selSpan]⟩, by simp [selSpan], by simp⟩ (by simpa using hf)
    simp [hm, hr'] at hr
    have hperm : idx.Perm order := by rw [← hr]; exact List.perm_insertionSort _ _
    have hset : {k | k ∈ idx} = {k | k ∈ order} := by ext k; exact hperm.mem_iff
    refine ⟨⟨order, hperm.symm, hg.far⟩, fun i hi => ?_⟩
    obtain ⟨u, hu, hM, ho⟩ := hg.red
    have hui : f i - (f i - u i) = u i := by abel
    rw [hset]
    refine ⟨f i - u i, hu i hi, fun k hk => ?_, ?_⟩
    · rw [hui]
      exact ho i hi _ (mem_selSpan (hperm.mem_iff.1 hk))
    · rw [hui, ← hM i hi i hi]
      exact hle i hi

/-- C53: on the selected functions the form is positive definite, so they are linearly independent. -/
theorem C53_independent {V : Type} [AddCommGroup V] [Module K V] (B : V →ₗ[K] V →ₗ[K] K) (hB : ∀ v w, B v w = B w v)
    (m : ℕ) (f : ℕ → V) (tol : K) (ht : 0 ≤ tol) (fuel : ℕ) (hf : m + 1 ≤ fuel) (idx : List ℕ)
    (hr : basisIndexSet m (fun i j => B (f i) (f j)) tol fuel = some (.ok idx)) (c : ℕ → K)
    (h0 : (idx.map fun k => c k • f k).sum = 0) : ∀ k ∈ idx, c k = 0 := by
  obtain ⟨⟨order, hperm, hfar⟩, _⟩ := C53_selection B hB m f tol ht fuel hf idx hr
  have h0' : (order.map fun k => c k • f k).sum = 0 := by rw [(hperm.map _).sum_eq, h0]
  have key : ∀ n, ∀ pre post, order = pre ++ post → pre.length = n → (∀ k ∈ post, c k = 0) → ∀ k ∈ order, c k = 0 := by
    intro n
    induction n with
    | zero =>
      intro pre post he hl hz k hk
      rw [List.length_eq_zero_iff] at hl
      subst hl
      rw [he] at hk
      exact hz k (by simpa using hk)
    | succ n ih =>
      intro pre post he hl hz
      rcases List.eq_nil_or_concat pre with rfl | ⟨pre', x, rfl⟩
      · simp at hl
      · have he2 : order = pre' ++ x :: post := by rw [he]; simp
        refine ih pre' (x :: post) he2 (by simp at hl; omega) ?_
        intro k hk
        rcases List.mem_cons.1 hk with rfl | hk
        · by_contra hc
          have hz' : (post.map fun k => c k • f k).sum = 0 := by
            apply List.sum_eq_zero
            intro v hv
            obtain ⟨j, hj, rfl⟩ := List.mem_map.1 hv
            rw [hz j hj, zero_smul]
          rw [he2, List.map_append, List.map_cons, List.sum_append, List.sum_cons, hz', add_zero] at h0'
          have hw : (pre'.map fun k => c k • f k).sum ∈ Submodule.span K (f '' {i | i ∈ pre'}) := by
            apply list_sum_mem
            intro v hv
            obtain ⟨j, hj, rfl⟩ := List.mem_map.1 hv
            exact Submodule.smul_mem _ _ (Submodule.subset_span ⟨j, hj, rfl⟩)
          have hw2 := Submodule.smul_mem _ (-(c k)⁻¹) hw
          have hk0 : f k - (-(c k)⁻¹) • (pre'.map fun k => c k • f k).sum = 0 := by
            have h3 : (c k) • f k = -(pre'.map fun k => c k • f k).sum := by
              rw [eq_neg_iff_add_eq_zero, add_comm]; exact h0'
            have h4 : f k = (c k)⁻¹ • (c k • f k) := by rw [smul_smul, inv_mul_cancel₀ hc, one_smul]
            rw [h3] at h4
            conv_lhs => rw [h4]
            rw [smul_neg, neg_smul, sub_self]
          have := hfar pre' k post he2 _ hw2
          rw [hk0] at this
          simp at this
          exact absurd this (not_lt.2 ht)
        · exact hz k hk
  intro k hk
  exact key order.length order [] (by simp) rfl (by simp) k (hperm.mem_iff.2 hk)

/-- three functions of which the third is the sum of the others, and a weighted product -/
def pivotForm : (ℚ × ℚ) →ₗ[ℚ] (ℚ × ℚ) →ₗ[ℚ] ℚ :=
  LinearMap.mk₂ ℚ (fun v w => 2 * v.1 * w.1 + v.2 * w.2)
    (by intros; simp only [Prod.fst_add, Prod.snd_add]; ring)
    (by intros; simp only [Prod.smul_fst, Prod.smul_snd, smul_eq_mul]; ring)
    (by intros; simp only [Prod.fst_add, Prod.snd_add]; ring)
    (by intros; simp only [Prod.smul_fst, Prod.smul_snd, smul_eq_mul]; ring)

def pivotFuns : ℕ → ℚ × ℚ
  | 0 => (1, 0)
  | 1 => (0, 1)
  | _ => (1, 1)

/-- `C53_selection` and `C53_independent` apply: two of the three functions are kept -/
example : (∀ v w, pivotForm v w = pivotForm w v) ∧
    basisIndexSet 3 (fun i j => pivotForm (pivotFuns i) (pivotFuns j)) (1 / 1000) 4 = some (.ok [0, 2]) := by
  refine ⟨fun v w => ?_, by decide +kernel⟩
  show 2 * v.1 * w.1 + v.2 * w.2 = 2 * w.1 * v.1 + w.2 * v.2
  ring

end PFEM
