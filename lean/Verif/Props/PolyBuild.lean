import Verif.Lemmas.PolyValue
import Mathlib.Algebra.Order.Field.Rat
import Mathlib.Algebra.Field.Rat
import Mathlib.Tactic.Ring

/-!
Property theorem C59: polynomials built from lists of terms or of ids have the value and raise the errors expected.
-/

namespace PFEM
open Poly

variable {K : Type} [Field K] [LinearOrder K] [IsStrictOrderedRing K]

/-- C59 (a): `Polynomial(terms)` raises `ValueError` exactly when some exponent is negative; otherwise it succeeds. -/
theorem C59_set_errors (ts : List (K × ℤ × ℤ)) :
    (Poly.set ts = .error .valueError ↔ ∃ t ∈ ts, t.2.1 < 0 ∨ t.2.2 < 0) ∧
    ((∃ p, Poly.set ts = .ok p) ↔ ∀ t ∈ ts, 0 ≤ t.2.1 ∧ 0 ≤ t.2.2) := by
  have hneg : ∀ (ts : List (K × ℤ × ℤ)) (p : Poly K), (∃ t ∈ ts, t.2.1 < 0 ∨ t.2.2 < 0) →
      setLoop p ts = .error .valueError := by
    intro ts
    induction ts with
    | nil => intro p h; simp at h
    | cons t ts ih =>
      intro p h
      obtain ⟨c, a, b⟩ := t
      by_cases hab : a < 0 ∨ b < 0
      · have : MultiIndex.set [a, b] = .error .valueError := by
          simp [MultiIndex.set, MultiIndex.validate, bind, Except.bind, hab]
        simp only [setLoop, this, bind, Except.bind]
      · push Not at hab
        simp only [setLoop, MultiIndex.set_ok' hab.1 hab.2, bind, Except.bind]
        apply ih
        obtain ⟨t, ht, h⟩ := h
        rcases List.mem_cons.1 ht with rfl | ht
        · exact absurd h (by simpa using hab)
        · exact ⟨t, ht, h⟩
  have hpos : (∀ t ∈ ts, 0 ≤ t.2.1 ∧ 0 ≤ t.2.2) → ∃ p, Poly.set ts = .ok p := by
    intro h
    have e : ts = (ts.map fun t => (t.1, t.2.1.toNat, t.2.2.toNat)).map
        fun t => (t.1, (t.2.1 : ℤ), (t.2.2 : ℤ)) := by
      rw [List.map_map]
      symm
      refine (List.map_congr_left (g := id) ?_).trans (List.map_id _)
      rintro ⟨c, a, b⟩ ht
      simpa using h _ ht
    rw [e, set_ok]
    exact ⟨_, rfl⟩
  have hneg' : (∃ t ∈ ts, t.2.1 < 0 ∨ t.2.2 < 0) → Poly.set ts = .error .valueError := by
    intro h; simp only [Poly.set, hneg ts [] h, bind, Except.bind]
  refine ⟨⟨fun h => ?_, hneg'⟩, ⟨?_, hpos⟩⟩
  · by_contra hc
    push Not at hc
    obtain ⟨p, hp⟩ := hpos hc
    rw [hp] at h; cases h
  · rintro ⟨p, hp⟩
    by_contra hc
    push Not at hc
    obtain ⟨t, ht, h⟩ := hc
    have := hneg' ⟨t, ht, by by_cases h0 : t.2.1 < 0 <;> [exact Or.inl h0; exact Or.inr (h (not_lt.1 h0))]⟩
    rw [this] at hp; cases hp

/-- C59 (b): the value of `Polynomial(terms)` is the sum of `c x^a y^b` over the terms, up to 1e-12 times the size of
the largest monomial for each term. -/
theorem C59_set_value (ts : List (K × ℕ × ℕ)) :
    ∃ p, Poly.set (ts.map fun t => (t.1, (t.2.1 : ℤ), (t.2.2 : ℤ))) = .ok p ∧
      ∀ x y B, (∀ t ∈ ts, |x| ^ t.2.1 * |y| ^ t.2.2 ≤ B) →
        |eval p x y - (ts.map fun t => t.1 * x ^ t.2.1 * y ^ t.2.2).sum| ≤ (ts.length : K) * (1 / 10 ^ 12) * B := by
  refine ⟨_, set_ok ts, fun x y B hB => ?_⟩
  have h : MonoBound (ts.map fun t => (⟨⟨t.2.1, t.2.2⟩, t.1⟩ : Mono K)) x y B := by
    intro m hm
    obtain ⟨t, ht, rfl⟩ := List.mem_map.1 hm
    exact hB t ht
  have := eval_consolidate_nz_error h
  rw [List.length_map, eval_eq_sum, eval_eq_sum, List.map_map] at this
  rw [eval_eq_sum]
  have e : (ts.map fun t => t.1 * x ^ t.2.1 * y ^ t.2.2) =
      ts.map ((fun m : Mono K => m.eval x y) ∘ fun t => (⟨⟨t.2.1, t.2.2⟩, t.1⟩ : Mono K)) := by
    apply List.map_congr_left
    intro t _
    simp [Mono.eval_eq]
  rw [e]
  exact this

/-- C59 (c): for coefficients that are integer multiples of some `δ ≥ 1e-12` the value is exact. -/
theorem C59_set_exact (ts : List (K × ℕ × ℕ)) (δ : K) (hδ : 1 / 10 ^ 12 ≤ δ)
    (hl : ∀ t ∈ ts, ∃ n : ℤ, t.1 = n * δ) :
    ∃ p, Poly.set (ts.map fun t => (t.1, (t.2.1 : ℤ), (t.2.2 : ℤ))) = .ok p ∧
      ∀ x y, eval p x y = (ts.map fun t => t.1 * x ^ t.2.1 * y ^ t.2.2).sum := by
  refine ⟨_, set_ok ts, fun x y => ?_⟩
  have h : InA (lat δ) (ts.map fun t => (⟨⟨t.2.1, t.2.2⟩, t.1⟩ : Mono K)) := by
    intro m hm
    obtain ⟨t, ht, rfl⟩ := List.mem_map.1 hm
    exact mem_lat.2 (hl t ht)
  rw [eval_toMv, toMv_consolidate_A (sep_lat hδ) h.nz, toMv_nz_A (sep_lat hδ) h, ← eval_toMv, eval_eq_sum,
    List.map_map]
  congr 1
  apply List.map_congr_left
  intro t _
  simp [Mono.eval_eq]

theorem setFromIdx_neg {i : ℤ} (h : i < 0) : MultiIndex.setFromIdx i = .error .valueError := by
  have : 8 * i + 1 < 0 := by omega
  simp [MultiIndex.setFromIdx, this]

theorem addIdxLoop_neg (l : List (K × ℤ)) (p : Poly K) (h : ∃ t ∈ l, t.2 < 0) :
    addIdxLoop p l = .error .valueError := by
  induction l generalizing p with
  | nil => simp at h
  | cons t l ih =>
    obtain ⟨c, i⟩ := t
    by_cases hi : i < 0
    · simp only [addIdxLoop, addMonomialWithIdx, setFromIdx_neg hi, bind, Except.bind]
    · obtain ⟨a, ha, -⟩ := MultiIndex.setFromIdx_nat i.toNat
      rw [Int.toNat_of_nonneg (not_lt.1 hi)] at ha
      simp only [addIdxLoop, addMonomialWithIdx, ha, bind, Except.bind]
      apply ih
      obtain ⟨t, ht, h⟩ := h
      rcases List.mem_cons.1 ht with rfl | ht
      · exact absurd h hi
      · exact ⟨t, ht, h⟩

theorem addIdxLoop_ok (l : List (K × MultiIndex)) (p : Poly K) :
    ∃ q, addIdxLoop p (l.map fun t => (t.1, (t.2.idx : ℤ))) = .ok q ∧
      ∀ δ : K, 1 / 10 ^ 12 ≤ δ → InA (lat δ) p → (∀ t ∈ l, ∃ n : ℤ, t.1 = n * δ) →
        InA (lat δ) q ∧ ∀ x y, eval q x y = eval p x y + (l.map fun t => t.1 * x ^ t.2.x * y ^ t.2.y).sum := by
  induction l generalizing p with
  | nil => exact ⟨p, rfl, fun δ _ h _ => ⟨h, by simp⟩⟩
  | cons t l ih =>
    obtain ⟨c, a⟩ := t
    obtain ⟨q, hq, hv⟩ := ih (consolidate (addMonomial p ⟨a, c⟩))
    refine ⟨q, ?_, ?_⟩
    · simp only [List.map_cons, addIdxLoop, addMonomialWithIdx, MultiIndex.setFromIdx_idx, bind, Except.bind]
      exact hq
    · intro δ hδ hp hl
      have hS := sep_lat hδ
      have hc : InA (lat δ) [(⟨a, c⟩ : Mono K)] := by
        intro m hm
        rw [List.mem_singleton] at hm
        subst hm
        exact mem_lat.2 (hl (c, a) (by simp))
      have e : addMonomial p ⟨a, c⟩ = p ++ nz [(⟨a, c⟩ : Mono K)] := by
        unfold addMonomial nz
        by_cases h : (Mono.mk a c).isZero = true <;> simp [h]
      have hA := hp.append hc.nz
      obtain ⟨h1, h2⟩ := hv δ hδ (by rw [e]; exact hA.consolidate) fun t ht => hl t (by simp [ht])
      refine ⟨h1, fun x y => ?_⟩
      rw [h2, e, eval_toMv (consolidate _), toMv_consolidate_A hS hA, toMv_append, toMv_nz_A hS hc, map_add,
        ← eval_toMv, ← eval_toMv, List.map_cons, List.sum_cons]
      simp only [eval_eq_sum, List.map_cons, List.map_nil, List.sum_cons, List.sum_nil, Mono.eval_eq]
      ring

/-- C59 (d): `add_monomials_with_idxs` raises `PolynomialError` exactly when the lists have different lengths, and
`ValueError` exactly when they have the same length and some id is negative; otherwise it succeeds. -/
theorem C59_idxs_errors (p : Poly K) (cs : List K) (is : List ℤ) :
    (addMonomialsWithIdxs p cs is = .error .polynomialError ↔ cs.length ≠ is.length) ∧
    (addMonomialsWithIdxs p cs is = .error .valueError ↔ cs.length = is.length ∧ ∃ i ∈ is, i < 0) ∧
    ((∃ q, addMonomialsWithIdxs p cs is = .ok q) ↔ cs.length = is.length ∧ ∀ i ∈ is, 0 ≤ i) := by
  by_cases hlen : cs.length = is.length
  · by_cases hneg : ∃ i ∈ is, i < 0
    · have h : addMonomialsWithIdxs p cs is = .error .valueError := by
        have := addIdxLoop_neg (cs.zip is) p (by
          obtain ⟨i, hi, h0⟩ := hneg
          rw [← List.map_snd_zip (le_of_eq hlen.symm), List.mem_map] at hi
          obtain ⟨t, ht, rfl⟩ := hi
          exact ⟨t, ht, h0⟩)
        simp [addMonomialsWithIdxs, hlen, this, bind, Except.bind]
      rw [h]
      refine ⟨by simp [hlen], by simpa [hlen] using hneg, ?_⟩
      simpa [hlen] using hneg
    · push Not at hneg
      obtain ⟨q, hq, -⟩ := addIdxLoop_ok ((cs.zip is).map fun t => (t.1, (MultiIndex.setFromIdx t.2).toOption.getD ⟨0, 0⟩)) p
      have e : (cs.zip is).map ((fun t : K × MultiIndex => (t.1, (t.2.idx : ℤ))) ∘
          fun t => (t.1, (MultiIndex.setFromIdx t.2).toOption.getD ⟨0, 0⟩)) = cs.zip is := by
        refine (List.map_congr_left (g := id) ?_).trans (List.map_id _)
        rintro ⟨c, i⟩ ht
        obtain ⟨a, ha, hi⟩ := MultiIndex.setFromIdx_nat i.toNat
        have h0 := hneg i (List.of_mem_zip ht).2
        rw [Int.toNat_of_nonneg h0] at ha
        simp only [Function.comp, ha, Except.toOption, Option.getD_some, hi]
        rw [Int.toNat_of_nonneg h0]; rfl
      rw [List.map_map, e] at hq
      have h : addMonomialsWithIdxs p cs is = .ok (consolidate q) := by
        simp [addMonomialsWithIdxs, hlen, hq, bind, Except.bind]
      rw [h]
      exact ⟨by simp [hlen], by simpa [hlen] using hneg, by simpa [hlen] using hneg⟩
  · have h : addMonomialsWithIdxs p cs is = .error .polynomialError := by simp [addMonomialsWithIdxs, hlen]
    rw [h]
    simp [hlen]

/-- C59 (e): the result of `add_monomials_with_idxs` evaluates to the old value plus the sum of `c x^a y^b`, where
`(a, b)` is the pair of exponents with the given id, for coefficients that are integer multiples of `δ ≥ 1e-12`. -/
theorem C59_idxs_exact (p : Poly K) (ts : List (K × MultiIndex)) (δ : K) (hδ : 1 / 10 ^ 12 ≤ δ)
    (hp : OnLattice δ p) (hl : ∀ t ∈ ts, ∃ n : ℤ, t.1 = n * δ) :
    ∃ q, addMonomialsWithIdxs p (ts.map fun t => t.1) (ts.map fun t => (t.2.idx : ℤ)) = .ok q ∧
      ∀ x y, eval q x y = eval p x y + (ts.map fun t => t.1 * x ^ t.2.x * y ^ t.2.y).sum := by
  obtain ⟨q, hq, hv⟩ := addIdxLoop_ok ts p
  refine ⟨consolidate q, ?_, fun x y => ?_⟩
  · simp [addMonomialsWithIdxs, List.zip_map', hq, bind, Except.bind]
  · obtain ⟨h1, h2⟩ := hv δ hδ (onLattice_iff.1 hp) hl
    rw [eval_toMv, toMv_consolidate_A (sep_lat hδ) h1, ← eval_toMv, h2]

/-- C59 (f): `copy` of a polynomial in canonical form is equal to it, and `is_zero` on it holds exactly when it has no
terms. -/
theorem C59_copy_isZero (p : Poly K) (hp : Canonical p) :
    copy p = p ∧ ((isZero p).1 = true ↔ p = []) ∧ (isZero p).2 = p := by
  have hc := consolidate_eq_self hp
  refine ⟨?_, ?_, hc⟩
  · have : nz p = p := by
      unfold nz
      rw [List.filter_eq_self]
      intro m hm
      rw [not_isZero_iff]
      exact hp.2 m hm
    unfold copy addMonomials
    rw [addAll_eq]
    change consolidate ([] ++ nz p) = p
    rw [this, List.nil_append, hc]
  · simp [isZero, hc]

/-- building `2 + 3 x^2 y` and adding `-x` and `5 y` by id -/
example : Poly.set [((2 : ℚ), 0, 0), (3, 2, 1)] = .ok [⟨⟨0, 0⟩, 2⟩, ⟨⟨2, 1⟩, 3⟩] := by decide +kernel
example : addMonomialsWithIdxs ([⟨⟨0, 0⟩, 2⟩] : Poly ℚ) [-1, 5] [1, 2] =
    .ok [⟨⟨0, 0⟩, 2⟩, ⟨⟨1, 0⟩, -1⟩, ⟨⟨0, 1⟩, 5⟩] := by decide +kernel

end PFEM
