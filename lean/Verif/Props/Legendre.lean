import Verif.Lemmas.Tensor

/-!
Property theorems C13 (Legendre and integrated Legendre polynomials) and C14 (tensor product families).

`legendreFun n x` is Bonnet's recurrence, `intLegendreFun` the integrated functions (`Verif/Spec/Legendre.lean`).
-/

namespace PFEM
open Poly

variable {K : Type} [Field K] [LinearOrder K] [IsStrictOrderedRing K]

theorem mem_of_getElem? {α : Type} {l : List α} {n : ℕ} (h : n < l.length) : ∃ a, l[n]? = some a :=
  ⟨l[n], List.getElem?_eq_getElem h⟩

/-- C13 (a): the call succeeds and entry `n` is the `n`-th Legendre polynomial in `x` (for `deg = 0` the list has the
two entries `P_0, P_1`). -/
theorem C13_legendre (deg : ℕ) (hd : deg ≤ 10 ^ 12) :
    ∃ ps, legendrePolynomials K deg = .ok ps ∧ ps.length = max (deg + 1) 2 ∧
      ∀ n p, ps[n]? = some p → ∀ x y, eval p x y = legendreFun n x := by
  obtain ⟨ps, e, h⟩ := legendre_spec (K := K) deg hd
  refine ⟨ps, e, h.1, fun n p hp x y => ?_⟩
  have hn : n < max (deg + 1) 2 := by
    rw [← h.1]; exact (List.getElem?_eq_some_iff.1 hp).1
  obtain ⟨q, hq, -, tq⟩ := h.2 n hn
  rw [hp, Option.some.injEq] at hq
  subst hq
  rw [eval_toMv, tq, eval_legT]

/-- C13 (b): every returned polynomial is 1 at `x = 1`. -/
theorem C13_at_one (deg : ℕ) (hd : deg ≤ 10 ^ 12) (ps : List (Poly K)) (h : legendrePolynomials K deg = .ok ps)
    (n : ℕ) (p : Poly K) (hp : ps[n]? = some p) (y : K) : eval p 1 y = 1 := by
  obtain ⟨ps', e, -, h'⟩ := C13_legendre (K := K) deg hd
  rw [h, Except.ok.injEq] at e
  subst e
  rw [h' n p hp, legendreFun_one]

/-- C13 (c): parity. -/
theorem C13_parity (deg : ℕ) (hd : deg ≤ 10 ^ 12) (ps : List (Poly K)) (h : legendrePolynomials K deg = .ok ps)
    (n : ℕ) (p : Poly K) (hp : ps[n]? = some p) (x y : K) : eval p (-x) y = (-1) ^ n * eval p x y := by
  obtain ⟨ps', e, -, h'⟩ := C13_legendre (K := K) deg hd
  rw [h, Except.ok.injEq] at e
  subst e
  rw [h' n p hp, h' n p hp, legendreFun_neg]

/-- C13 (d): the integrated polynomials of index at least 2 vanish at both ends and have derivative
`sqrt ((2 n - 1) / 2) P_{n-1}`. -/
theorem C13_integrated (deg : ℕ) (hd : deg ≤ 10 ^ 7) :
    ∃ qs, integratedLegendrePolynomials deg = .ok qs ∧ qs.length = max (deg + 1) 2 ∧
      ∀ n q, qs[n + 2]? = some q → ∀ x y, eval q 1 y = 0 ∧ eval q (-1) y = 0 ∧
        HasDerivAt (fun t => eval q t y) (Real.sqrt ((2 * ((n + 2 : ℕ) : ℝ) - 1) / 2) * legendreFun (n + 1) x) x := by
  obtain ⟨qs, e, h⟩ := integrated_spec deg hd
  refine ⟨qs, e, h.1, fun n q hq x y => ?_⟩
  have hn : n + 2 < max (deg + 1) 2 := by
    rw [← h.1]; exact (List.getElem?_eq_some_iff.1 hq).1
  obtain ⟨q', hq', -, tq⟩ := h.2 (n + 2) hn
  rw [hq, Option.some.injEq] at hq'
  subst hq'
  have ev : ∀ t, eval q t y = intLegendreFun (n + 2) t := fun t => by rw [eval_toMv, tq, eval_intT]
  refine ⟨?_, ?_, ?_⟩
  · rw [ev, intLegendreFun, legendreFun_one, legendreFun_one, sub_self, zero_div]
  · rw [ev, intLegendreFun, legendreFun_neg, legendreFun_neg, legendreFun_one, legendreFun_one]
    ring_nf
  · rw [funext ev]; exact hasDerivAt_intLegendre n x

/-- C13 (e): the first two integrated polynomials are 1 and `x`. -/
theorem C13_integrated_first (deg : ℕ) (hd : deg ≤ 10 ^ 7) (qs : List (Poly ℝ))
    (h : integratedLegendrePolynomials deg = .ok qs) :
    ∃ q0 q1, qs[0]? = some q0 ∧ qs[1]? = some q1 ∧ ∀ x y, eval q0 x y = 1 ∧ eval q1 x y = x := by
  obtain ⟨qs', e, h'⟩ := integrated_spec deg hd
  rw [h, Except.ok.injEq] at e
  subst e
  obtain ⟨q0, h0, -, t0⟩ := h'.2 0 (by omega)
  obtain ⟨q1, h1, -, t1⟩ := h'.2 1 (by omega)
  refine ⟨q0, q1, h0, h1, fun x y => ⟨?_, ?_⟩⟩
  · rw [eval_toMv, t0, eval_intT]; rfl
  · rw [eval_toMv, t1, eval_intT]; rfl

/-- `P_3 = (5 x^3 - 3 x) / 2` is what the code computes -/
example : (legendrePolynomials ℚ 3).toOption.bind (·[3]?) = some [⟨⟨1, 0⟩, -3/2⟩, ⟨⟨3, 0⟩, 5/2⟩] := by
  decide +kernel

/-! ### C14 -/

/-- C14 (a): size, order and values of `legendre_tensor_products`: the product `P_m(x) P_n(y)` with `m + n ≤ deg`
sits at position `m (2 deg + 3 - m) / 2 + n`. -/
theorem C14_legendre (deg : ℕ) (hd : deg ≤ 10 ^ 6) :
    ∃ L, legendreTensorProducts K deg = .ok L ∧ L.length = (deg + 1) * (deg + 2) / 2 ∧
      ∀ m n, m + n ≤ deg → ∃ r, L[m * (2 * deg + 3 - m) / 2 + n]? = some r ∧
        ∀ x y, eval r x y = legendreFun m x * legendreFun n y := by
  obtain ⟨L, e, l, h⟩ := legendreTensor_spec (K := K) deg hd
  refine ⟨L, e, l, fun m n hmn => ?_⟩
  obtain ⟨r, hr, -, tr⟩ := h m n hmn
  exact ⟨r, hr, fun x y => by rw [eval_toMv, tr, map_mul, eval_legT, eval_sw, eval_legT]⟩

/-- C14 (b): the same for the integrated family. -/
theorem C14_integrated (deg : ℕ) (hd : deg ≤ 1000) :
    ∃ L, integratedLegendreTensorProducts deg = .ok L ∧ L.length = (deg + 1) * (deg + 2) / 2 ∧
      ∀ m n, m + n ≤ deg → ∃ r, L[m * (2 * deg + 3 - m) / 2 + n]? = some r ∧
        ∀ x y, eval r x y = intLegendreFun m x * intLegendreFun n y := by
  obtain ⟨L, e, l, h⟩ := intTensor_spec deg hd
  refine ⟨L, e, l, fun m n hmn => ?_⟩
  obtain ⟨r, hr, -, tr⟩ := h m n hmn
  exact ⟨r, hr, fun x y => by rw [eval_toMv, tr, map_mul, eval_intT, eval_sw, eval_intT]⟩

/-- C14 (c): positions 0, 1 and `deg + 1` hold `1`, `y` and `x`, in both families; these are the positions that the
edge space construction replaces. -/
theorem C14_linear_positions (deg : ℕ) (h1 : 1 ≤ deg) (hd : deg ≤ 1000) (L L' : List (Poly ℝ))
    (hL : legendreTensorProducts ℝ deg = .ok L) (hL' : integratedLegendreTensorProducts deg = .ok L') :
    ∀ M ∈ [L, L'], ∃ a b c, M[0]? = some a ∧ M[1]? = some b ∧ M[deg + 1]? = some c ∧
      ∀ x y, eval a x y = 1 ∧ eval b x y = y ∧ eval c x y = x := by
  have pos : 1 * (2 * deg + 3 - 1) / 2 + 0 = deg + 1 := by omega
  intro M hM
  simp only [List.mem_cons, List.not_mem_nil, or_false] at hM
  rcases hM with rfl | rfl
  · obtain ⟨L1, e, -, h⟩ := C14_legendre (K := ℝ) deg (by omega)
    rw [hL, Except.ok.injEq] at e
    subst e
    obtain ⟨a, ha, va⟩ := h 0 0 (by omega)
    obtain ⟨b, hb, vb⟩ := h 0 1 (by omega)
    obtain ⟨c, hc, vc⟩ := h 1 0 (by omega)
    rw [pos] at hc
    refine ⟨a, b, c, by simpa using ha, by simpa using hb, hc, fun x y => ⟨?_, ?_, ?_⟩⟩
    · rw [va]; simp [legendreFun]
    · rw [vb]; simp [legendreFun]
    · rw [vc]; simp [legendreFun]
  · obtain ⟨L1, e, -, h⟩ := C14_integrated deg (by omega)
    rw [hL', Except.ok.injEq] at e
    subst e
    obtain ⟨a, ha, va⟩ := h 0 0 (by omega)
    obtain ⟨b, hb, vb⟩ := h 0 1 (by omega)
    obtain ⟨c, hc, vc⟩ := h 1 0 (by omega)
    rw [pos] at hc
    refine ⟨a, b, c, by simpa using ha, by simpa using hb, hc, fun x y => ⟨?_, ?_, ?_⟩⟩
    · rw [va]; simp [intLegendreFun]
    · rw [vb]; simp [intLegendreFun]
    · rw [vc]; simp [intLegendreFun]

/-- degree 2: six products; the one for (1,1) is at position 4 -/
example : (legendreTensorProducts ℚ 2).toOption.map List.length = some 6 ∧
    (legendreTensorProducts ℚ 2).toOption.bind (·[4]?) = some [⟨⟨1, 1⟩, 1⟩] := by
  decide +kernel

end PFEM
