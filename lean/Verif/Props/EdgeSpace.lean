import Verif.Lemmas.EdgeSpace
import Verif.Props.Pivot
import Verif.Props.OuterBoundary
import Mathlib.Algebra.BigOperators.Field
import Mathlib.Tactic.IntervalCases

/-!
Property theorems C54: values of the vertex and edge functions of an edge space at the end points of the edge; and C64:
the Gram matrix from which the basis is selected.
-/

namespace PFEM
open Poly
namespace EdgeSpaceG

/-! ### the steps of the constructor -/

theorem endPoints_ok {e : EdgeG} {L : List Sample} (hp : e.pts = some L) {s t : Sample} (hs : L.head? = some s)
    (ht : L.getLast? = some t) : endPoints e = .ok ((s.x, s.y), (t.x, t.y)) := by
  simp only [endPoints, sampled_ok hp, hs, ht, bind, Except.bind]

/-- shape of the result on an edge with two ends -/
theorem buildSpanningSet_inv {e : EdgeG} {deg : ℕ} {vs fs : List (Poly ℝ)} (hl : e.isLoop = false)
    (h : buildSpanningSet e deg = .ok (vs, fs)) :
    ∃ gs z0 z1 l0 l1 l2, spanning e deg = .ok gs ∧ endPoints e = .ok (z0, z1) ∧ barycentricEdge z0 z1 = .ok (l0, l1, l2) ∧
      vs = [l0, l1] ∧ ∀ f ∈ fs, f = l2 ∨ ∃ g ∈ gs, correct e z0 z1 l0 l1 g = .ok f := by
  unfold buildSpanningSet at h
  obtain ⟨gs, hgs, h⟩ := bind_ok h
  simp only [hl, Bool.false_eq_true, if_false] at h
  obtain ⟨⟨z0, z1⟩, hz, h⟩ := bind_ok h
  dsimp only at h
  obtain ⟨⟨l0, l1, l2⟩, hb, h⟩ := bind_ok h
  dsimp only at h
  obtain ⟨rest, hr, h⟩ := bind_ok h
  obtain ⟨f1, h1, h⟩ := bind_ok h
  obtain ⟨f2, h2, h⟩ := bind_ok h
  obtain ⟨f3, h3, h⟩ := bind_ok h
  simp only [Except.ok.injEq, Prod.mk.injEq] at h
  obtain ⟨rfl, rfl⟩ := h
  refine ⟨gs, z0, z1, l0, l1, l2, hgs, hz, hb, rfl, fun f hf => ?_⟩
  rcases List.mem_append.1 hf with hf | hf
  · right
    unfold pyDel at h1 h2 h3
    split at h1
    · next c1 =>
      split at h2
      · next c2 =>
        split at h3
        · next c3 =>
          simp only [Except.ok.injEq] at h1 h2 h3
          have hmem : f ∈ rest := by
            subst h1 h2 h3
            match gs, hr, c1, hf with
            | [], hr, c1, hf =>
              simp only [List.drop_nil, ContourG.mapPy, Except.ok.injEq] at hr
              subst hr
              simp at c1
            | [a], hr, c1, hf =>
              simp only [List.drop_succ_cons, List.drop_nil, ContourG.mapPy, Except.ok.injEq] at hr
              subst hr
              simp at c1
            | a :: b :: gs, hr, c1, hf =>
              simp only [List.take_succ_cons, List.take_zero, List.cons_append, List.nil_append] at hf
              cases deg with
              | zero =>
                simp only [Nat.zero_add, List.eraseIdx_cons_succ, List.eraseIdx_cons_zero] at hf
                exact List.mem_of_mem_eraseIdx hf
              | succ d =>
                simp only [List.eraseIdx_cons_succ, List.eraseIdx_cons_zero] at hf
                exact List.mem_of_mem_eraseIdx hf
          obtain ⟨g, hg, hc⟩ := (mapPy_mem hr).2 f hmem
          exact ⟨g, List.mem_of_mem_drop hg, hc⟩
        · cases h3
      · cases h2
    · cases h1
  · left
    simpa using hf

theorem reduceToBasis_inv {svd : (m : ℕ) → (ℕ → ℕ → ℝ) → Svd} {e : EdgeG} {fs : List (Poly ℝ)} {fuel : ℕ}
    {b : List (Poly ℝ)} (h : reduceToBasis svd e fs fuel = some (.ok b)) : ∀ f ∈ b, f ∈ fs := by
  unfold reduceToBasis at h
  split at h
  · cases h
  · split at h
    · cases h
    · cases h
    · simp only [Option.some.injEq] at h
      intro f hf
      obtain ⟨i, _, hi⟩ := (mapPy_mem h).2 f hf
      unfold pyGet at hi
      split at hi
      · next a ha =>
        simp only [Except.ok.injEq] at hi
        subst hi
        exact List.mem_of_getElem? ha
      · cases hi

theorem init_inv {svd : (m : ℕ) → (ℕ → ℕ → ℝ) → Svd} {e : EdgeG} {deg : ℤ} {fuel : ℕ} {vs b : List (Poly ℝ)}
    (h : init svd e deg fuel = some (.ok (vs, b))) :
    1 ≤ deg ∧ ∃ fs, buildSpanningSet e deg.toNat = .ok (vs, fs) ∧ reduceToBasis svd e fs fuel = some (.ok b) := by
  unfold init setDeg at h
  by_cases hd : deg < 1
  · simp [hd, bind, Except.bind] at h
  · simp only [hd, if_false, bind, Except.bind] at h
    split at h
    · cases h
    · next vs' fs hb =>
      split at h
      · cases h
      · cases h
      · next basis hr =>
        simp only [Option.some.injEq, Except.ok.injEq, Prod.mk.injEq] at h
        obtain ⟨rfl, rfl⟩ := h
        exact ⟨by omega, fs, hb, hr⟩

/-! ### C54 -/

/-- C54, up to the removal of coefficients below 1e-12 by the polynomial arithmetic: for every parameterized edge with
ends at least 1e-12 apart and every degree, a space that is built has two vertex functions, the first nearly 1 at the
start and nearly 0 at the end of the edge and the second the other way round; and every edge function is nearly 0 at both
ends: it is the barycentric coordinate of the third point, or comes from a function `g` of the spanning set (a product
of integrated Legendre polynomials, or a linear function, moved to the bounding box) and the deviation is a multiple of
1e-12 determined by the values of `g` at the ends, by its number of terms, and by a bound `B` of the coordinates of the
ends and of the monomials of `g`.  Missing from the full statement: exact values, which are false
(`C54_violated`). -/
theorem C54_partial (svd : (m : ℕ) → (ℕ → ℕ → ℝ) → Svd) (e : EdgeG) (L : List Sample) (hp : e.pts = some L)
    (hl : e.isLoop = false) (s t : Sample) (hs : L.head? = some s) (ht : L.getLast? = some t)
    (hd : 1 / 10 ^ 12 ≤ pdist (s.x, s.y) (t.x, t.y)) (deg : ℤ) (fuel : ℕ) (vs fs : List (Poly ℝ))
    (h : init svd e deg fuel = some (.ok (vs, fs))) :
    (∃ v0 v1, vs = [v0, v1] ∧ ∀ B, 1 ≤ B → |s.x| ≤ B → |s.y| ≤ B → |t.x| ≤ B → |t.y| ≤ B →
      |eval v0 s.x s.y - 1| ≤ 1 / 10 ^ 12 * B * edgeErr (pdist (s.x, s.y) (t.x, t.y)) ∧
      |eval v0 t.x t.y| ≤ 1 / 10 ^ 12 * B * edgeErr (pdist (s.x, s.y) (t.x, t.y)) ∧
      |eval v1 s.x s.y| ≤ 1 / 10 ^ 12 * B * edgeErr (pdist (s.x, s.y) (t.x, t.y)) ∧
      |eval v1 t.x t.y - 1| ≤ 1 / 10 ^ 12 * B * edgeErr (pdist (s.x, s.y) (t.x, t.y))) ∧
    ∃ gs, spanning e deg.toNat = .ok gs ∧ ∀ f ∈ fs,
      (∀ B, 1 ≤ B → |s.x| ≤ B → |s.y| ≤ B → |t.x| ≤ B → |t.y| ≤ B →
        |eval f s.x s.y| ≤ 1 / 10 ^ 12 * B * edgeErr (pdist (s.x, s.y) (t.x, t.y)) ∧
        |eval f t.x t.y| ≤ 1 / 10 ^ 12 * B * edgeErr (pdist (s.x, s.y) (t.x, t.y))) ∨
      ∃ g ∈ gs, ∀ B, 1 ≤ B → |s.x| ≤ B → |s.y| ≤ B → |t.x| ≤ B → |t.y| ≤ B → MonoBound g s.x s.y B →
        MonoBound g t.x t.y B →
        |eval f s.x s.y| ≤ 1 / 10 ^ 12 * B * ((|eval g s.x s.y| + |eval g t.x t.y|) *
          edgeErr (pdist (s.x, s.y) (t.x, t.y)) + g.length + 30) ∧
        |eval f t.x t.y| ≤ 1 / 10 ^ 12 * B * ((|eval g s.x s.y| + |eval g t.x t.y|) *
          edgeErr (pdist (s.x, s.y) (t.x, t.y)) + g.length + 30) := by
  obtain ⟨_, fs0, hb, hr⟩ := init_inv h
  obtain ⟨gs, z0, z1, l0, l1, l2, hgs, hz, hbar, rfl, hfs⟩ := buildSpanningSet_inv hl hb
  rw [endPoints_ok hp hs ht] at hz
  simp only [Except.ok.injEq, Prod.mk.injEq] at hz
  obtain ⟨rfl, rfl⟩ := hz
  obtain ⟨m0, m1, m2, hm, hlin, hval⟩ := ell_at_ends hd
  rw [hbar] at hm
  simp only [Except.ok.injEq, Prod.mk.injEq] at hm
  obtain ⟨rfl, rfl, rfl⟩ := hm
  obtain ⟨n0, k0⟩ := hlin l0 (by simp)
  obtain ⟨n1, k1⟩ := hlin l1 (by simp)
  refine ⟨⟨l0, l1, rfl, fun B hB a1 a2 b1 b2 => ?_⟩, gs, hgs, fun f hf => ?_⟩
  · obtain ⟨c1, c2, c3, c4, _, _⟩ := hval B hB a1 a2 b1 b2
    exact ⟨c1, c2, c3, c4⟩
  · rcases hfs f (reduceToBasis_inv hr f hf) with rfl | ⟨g, hg, hc⟩
    · left
      intro B hB a1 a2 b1 b2
      obtain ⟨_, _, _, _, c5, c6⟩ := hval B hB a1 a2 b1 b2
      exact ⟨c5, c6⟩
    · right
      refine ⟨g, hg, fun B hB a1 a2 b1 b2 ma mb => ?_⟩
      obtain ⟨c1, c2, c3, c4, _, _⟩ := hval B hB a1 a2 b1 b2
      have q1 := correct_small hc n0 n1 k0 k1 (t0 := 1) (t1 := 0) hB a1 a2 ma c1 (by simpa using c3) (by ring)
      have q2 := correct_small hc n0 n1 k0 k1 (t0 := 0) (t1 := 1) hB b1 b2 mb (by simpa using c2) c4 (by ring)
      exact ⟨q1.trans (le_of_eq (by ring)), q2.trans (le_of_eq (by ring))⟩

/-- C54: a closed edge has no vertex functions. -/
theorem C54_loop (svd : (m : ℕ) → (ℕ → ℕ → ℝ) → Svd) (e : EdgeG) (hl : e.isLoop = true) (deg : ℤ) (fuel : ℕ)
    (vs fs : List (Poly ℝ)) (h : init svd e deg fuel = some (.ok (vs, fs))) : vs = [] := by
  obtain ⟨_, fs0, hb, _⟩ := init_inv h
  unfold buildSpanningSet at hb
  obtain ⟨gs, _, hb⟩ := bind_ok hb
  simp only [hl, if_true, Except.ok.injEq, Prod.mk.injEq] at hb
  exact hb.1.symm

/-- C54: a degree below 1 is rejected with `ValueError`. -/
theorem C54_degree (svd : (m : ℕ) → (ℕ → ℕ → ℝ) → Svd) (e : EdgeG) (deg : ℤ) (hd : deg < 1) (fuel : ℕ) :
    init svd e deg fuel = some (.error .valueError) := by
  simp [init, setDeg, hd, bind, Except.bind]

/-! ### the Gram matrix -/

theorem gramEntry_ok {e : EdgeG} {L : List Sample} (hp : e.pts = some L) (h2 : 2 ≤ L.length) {fs : List (Poly ℝ)} {i j : ℕ}
    (hi : i < fs.length) (hj : j < fs.length) : ∃ v, gramEntry e fs i j = .ok v := by
  obtain ⟨r, hr⟩ := mean_ok hp h2 (mulP fs[i] fs[j])
  refine ⟨r, ?_⟩
  have h1 : pyGet fs i = .ok fs[i] := pyGet_ok (by simp [hi])
  have h3 : pyGet fs j = .ok fs[j] := pyGet_ok (by simp [hj])
  simp only [gramEntry, h1, h3, bind, Except.bind, mul_eq, hr]

theorem gramRow_ok {e : EdgeG} {fs : List (Poly ℝ)} {v : ℕ → ℕ → ℝ} {i : ℕ} :
    ∀ (js : List ℕ) (M : ℕ → ℕ → ℝ), (∀ j ∈ js, gramEntry e fs i j = .ok (v i j)) →
      gramRow e fs i js M = .ok fun a b => if a = i ∧ b ∈ js then v i b else if b = i ∧ a ∈ js then v i a else M a b
  | [], M, _ => by simp [gramRow]
  | j :: js, M, h => by
    simp only [gramRow, h j (by simp), bind, Except.bind]
    rw [gramRow_ok js _ fun k hk => h k (List.mem_cons_of_mem _ hk)]
    congr 1
    funext a b
    simp only [matSet, List.mem_cons]
    by_cases ha : a = i <;> by_cases hb : b = i <;> by_cases haj : a = j <;> by_cases hbj : b = j <;>
      by_cases hma : a ∈ js <;> by_cases hmb : b ∈ js <;> simp_all

theorem gramLoop_ok {e : EdgeG} {fs : List (Poly ℝ)} {v : ℕ → ℕ → ℝ}
    (hv : ∀ i < fs.length, ∀ j < fs.length, gramEntry e fs i j = .ok (v i j)) :
    ∀ (is : List ℕ) (M : ℕ → ℕ → ℝ), (∀ i ∈ is, i < fs.length) →
      ∃ M', gramLoop e fs is M = .ok M' ∧ ∀ a < fs.length, ∀ b < fs.length,
        M' a b = if a ≤ b ∧ a ∈ is then v a b else if b ≤ a ∧ b ∈ is then v b a else M a b
  | [], M, _ => ⟨M, rfl, by simp⟩
  | i :: is, M, h => by
    have hi := h i (by simp)
    have hrow := gramRow_ok (e := e) (fs := fs) (v := v) (i := i) (List.range' i (fs.length - i)) M (fun j hj => by
      rw [List.mem_range'_1] at hj
      exact hv i hi j (by omega))
    obtain ⟨M', h1, h2⟩ := gramLoop_ok hv is (fun a b => if a = i ∧ b ∈ List.range' i (fs.length - i) then v i b else
      if b = i ∧ a ∈ List.range' i (fs.length - i) then v i a else M a b) fun k hk => h k (List.mem_cons_of_mem _ hk)
    refine ⟨M', ?_, fun a ha b hb => ?_⟩
    · simp only [gramLoop, hrow, bind, Except.bind, h1]
    · rw [h2 a ha b hb]
      simp only [List.mem_range'_1, List.mem_cons]
      by_cases c1 : a ≤ b ∧ a ∈ is
      · simp [c1]
      · by_cases c2 : b ≤ a ∧ b ∈ is
        · rw [if_neg c1, if_pos c2]
          by_cases c3 : a ≤ b
          · obtain rfl : a = b := le_antisymm c3 c2.1
            simp [c2]
          · simp [c2, c3]
        · rw [if_neg c1, if_neg c2]
          by_cases c3 : a = i
          · subst c3
            by_cases c4 : a ≤ b
            · rw [if_pos ⟨rfl, by omega⟩, if_pos ⟨c4, Or.inl rfl⟩]
            · rw [if_neg (by omega), if_neg (by omega), if_neg (by omega)]
              by_cases c5 : b = a
              · omega
              · have : ¬ (b ≤ a ∧ (b = a ∨ b ∈ is)) := by tauto
                rw [if_neg this]
          · by_cases c4 : b = i
            · subst c4
              rw [if_neg (by omega)]
              by_cases c5 : b ≤ a
              · rw [if_pos ⟨rfl, by omega⟩, if_neg (by tauto), if_pos ⟨c5, Or.inl rfl⟩]
              · rw [if_neg (by omega), if_neg (by tauto), if_neg (by tauto)]
            · rw [if_neg (by tauto), if_neg (by tauto), if_neg (by tauto), if_neg (by tauto)]

/-- C64: the Gram matrix of every list of functions on a parameterized edge is found, is symmetric, and its entry `(i, j)`
is the edge integral of the values at all sampled points of the product of functions `i` and `j`. -/
theorem C64_gram (e : EdgeG) (L : List Sample) (hp : e.pts = some L) (h2 : 2 ≤ L.length) (fs : List (Poly ℝ)) :
    ∃ M, gram e fs = .ok M ∧ ∀ i j f g, fs[i]? = some f → fs[j]? = some g → M i j = M j i ∧
      ∃ p, Poly.mul f g = .ok p ∧ e.integrate (L.map fun s => eval p s.x s.y) = .ok (M i j) := by
  classical
  have hex : ∀ i j, ∃ v, i < fs.length → j < fs.length → gramEntry e fs i j = .ok v := by
    intro i j
    by_cases hi : i < fs.length
    · by_cases hj : j < fs.length
      · obtain ⟨v, hv⟩ := gramEntry_ok hp h2 hi hj
        exact ⟨v, fun _ _ => hv⟩
      · exact ⟨0, fun _ h => absurd h hj⟩
    · exact ⟨0, fun h => absurd h hi⟩
  choose v hv using hex
  obtain ⟨M, hM, hval⟩ := gramLoop_ok (e := e) (fs := fs) (v := v) (fun i hi j hj => hv i j hi hj) (List.range fs.length)
    (fun _ _ => 0) (by simp)
  have key : ∀ i j f g, fs[i]? = some f → fs[j]? = some g → ∃ p, Poly.mul f g = .ok p ∧
      e.integrate (L.map fun s => eval p s.x s.y) = .ok (v i j) := by
    intro i j f g hf hg
    have hi : i < fs.length := (List.getElem?_eq_some_iff.1 hf).1
    have hj : j < fs.length := (List.getElem?_eq_some_iff.1 hg).1
    refine ⟨mulP f g, mul_eq f g, ?_⟩
    have := hv i j hi hj
    simp only [gramEntry, pyGet_ok hf, pyGet_ok hg, bind, Except.bind, mul_eq, mean, EdgeG.evaluateFunction, sampled_ok hp,
      Bool.false_eq_true, if_false] at this
    exact this
  refine ⟨M, hM, fun i j f g hf hg => ?_⟩
  have hi : i < fs.length := (List.getElem?_eq_some_iff.1 hf).1
  have hj : j < fs.length := (List.getElem?_eq_some_iff.1 hg).1
  have e1 := hval i hi j hj
  have e2 := hval j hj i hi
  simp only [List.mem_range, hi, hj, and_true] at e1 e2
  rcases le_total i j with hij | hij
  · rw [if_pos hij] at e1
    rw [e1, e2]
    refine ⟨?_, key i j f g hf hg⟩
    by_cases hji : j ≤ i
    · obtain rfl : i = j := le_antisymm hij hji
      simp
    · rw [if_neg hji, if_pos hij]
  · rw [if_pos hij] at e2
    have hcomm : Poly.mul f g = Poly.mul g f := C06_mul_comm f g
    by_cases hji : i ≤ j
    · obtain rfl : i = j := le_antisymm hji hij
      rw [e1, if_pos hji]
      exact ⟨rfl, key i i f g hf hg⟩
    · rw [e1, e2, if_neg hji, if_pos hij]
      refine ⟨rfl, ?_⟩
      rw [hcomm]
      exact key j i g f hg hf

/-! ### success -/

theorem lowRank_ok (svd : (m : ℕ) → (ℕ → ℕ → ℝ) → Svd) (m : ℕ) (M : ℕ → ℕ → ℝ) (tol : ℝ) :
    ∃ M', lowRank svd m M tol = .ok M' := by
  unfold lowRank
  by_cases hm : m = 0
  · exact ⟨M, by simp [hm]⟩
  · obtain ⟨a, ha, _⟩ := np_max (l := (List.range m).map (svd m M).S) (by simp [hm])
    simp only [hm, if_false, ha, bind, Except.bind]
    exact ⟨_, rfl⟩

theorem reduceToBasis_ok (svd : (m : ℕ) → (ℕ → ℕ → ℝ) → Svd) {e : EdgeG} {L : List Sample} (hp : e.pts = some L)
    (h2 : 2 ≤ L.length) (fs : List (Poly ℝ)) {fuel : ℕ} (hf : fs.length + 1 ≤ fuel) :
    ∃ b, reduceToBasis svd e fs fuel = some (.ok b) := by
  obtain ⟨M, hM, _⟩ := C64_gram e L hp h2 fs
  obtain ⟨M', hM'⟩ := lowRank_ok svd fs.length M (1 / 10 ^ 6)
  obtain ⟨idx, hidx, _, hv, _⟩ := C53_terminates fs.length M' (1 / 10 ^ 6) (by norm_num) fuel hf
  obtain ⟨b, hb⟩ := mapPy_total (f := pyGet fs) (l := idx) fun k hk => ⟨fs[k]'(hv k hk), pyGet_ok (by simp [hv k hk])⟩
  refine ⟨b, ?_⟩
  simp only [reduceToBasis, hM, hM', hidx, bind, Except.bind, hb]

theorem isMin_exists {l : List ℝ} (h : l ≠ []) : ∃ a, IsMin l a := by
  obtain ⟨a, _, ha⟩ := np_min h
  exact ⟨a, ha⟩

theorem isMax_exists {l : List ℝ} (h : l ≠ []) : ∃ a, IsMax l a := by
  obtain ⟨a, _, ha⟩ := np_max h
  exact ⟨a, ha⟩

theorem box_ok {e : EdgeG} {L : List Sample} (hp : e.pts = some L) {a b : Sample} (ha : a ∈ L) (hb : b ∈ L)
    (hne : (a.x, a.y) ≠ (b.x, b.y)) :
    ∃ x0 x1 y0 y1, e.boundingBox = .ok (x0, x1, y0, y1) ∧ x0 < x1 ∧ y0 < y1 := by
  have hL : L ≠ [] := List.ne_nil_of_mem ha
  obtain ⟨xmin, h1⟩ := isMin_exists (l := L.map Sample.x) (by simpa using hL)
  obtain ⟨xmax, h2⟩ := isMax_exists (l := L.map Sample.x) (by simpa using hL)
  obtain ⟨ymin, h3⟩ := isMin_exists (l := L.map Sample.y) (by simpa using hL)
  obtain ⟨ymax, h4⟩ := isMax_exists (l := L.map Sample.y) (by simpa using hL)
  have : xmin < xmax ∨ ymin < ymax := by
    by_contra hc
    push Not at hc
    apply hne
    have ax := h1.2 a.x (List.mem_map_of_mem ha)
    have bx := h1.2 b.x (List.mem_map_of_mem hb)
    have ax' := h2.2 a.x (List.mem_map_of_mem ha)
    have bx' := h2.2 b.x (List.mem_map_of_mem hb)
    have ay := h3.2 a.y (List.mem_map_of_mem ha)
    have b_y := h3.2 b.y (List.mem_map_of_mem hb)
    have ay' := h4.2 a.y (List.mem_map_of_mem ha)
    have by' := h4.2 b.y (List.mem_map_of_mem hb)
    ext <;> simp <;> linarith
  obtain ⟨x0, x1, y0, y1, hbx, hx, hy⟩ := C56_positive (tol := 1 / 10 ^ 12) (by norm_num) h1 h2 h3 h4 this
  refine ⟨x0, x1, y0, y1, ?_, hx, hy⟩
  simp only [EdgeG.boundingBox, sampled_ok hp, bind, Except.bind, hbx]

/-- C54: the space is built for every degree from 1 to 1000 on every parameterized edge of positive length with two
distinct samples whose ends, unless it is closed, are at least 1e-12 apart; it has two vertex functions unless the edge
is closed. -/
theorem C54_built (svd : (m : ℕ) → (ℕ → ℕ → ℝ) → Svd) (e : EdgeG) (L : List Sample) (hp : e.pts = some L)
    (a b : Sample) (ha : a ∈ L) (hb : b ∈ L) (hne : (a.x, a.y) ≠ (b.x, b.y)) (len : ℝ)
    (hlen : e.integrate (L.map fun _ => 1) = .ok len) (h0 : 0 < len)
    (hends : e.isLoop = false → ∀ s t, L.head? = some s → L.getLast? = some t →
      1 / 10 ^ 12 ≤ pdist (s.x, s.y) (t.x, t.y))
    (deg : ℕ) (h1 : 1 ≤ deg) (hd : deg ≤ 1000) (fuel : ℕ) (hf : (deg + 1) * (deg + 2) / 2 + 1 ≤ fuel) :
    ∃ vs fs, init svd e deg fuel = some (.ok (vs, fs)) ∧ vs.length = if e.isLoop then 0 else 2 := by
  have hL : L ≠ [] := List.ne_nil_of_mem ha
  have h2 : 2 ≤ L.length := by
    match L, ha, hb with
    | [c], ha, hb =>
      simp only [List.mem_singleton] at ha hb
      subst ha hb
      exact absurd rfl hne
    | _ :: _ :: _, _, _ => simp
  obtain ⟨x0, x1, y0, y1, hbox, hx, hy⟩ := box_ok hp ha hb hne
  obtain ⟨gs, hgs, hlg⟩ := spanning_ok hp h2 hlen h0 hbox hx hy h1 hd
  have hset : setDeg (deg : ℤ) = .ok deg := by
    have : ¬ ((deg : ℤ) < 1) := by omega
    simp [setDeg, this]
  have key : ∃ vs fs, buildSpanningSet e deg = .ok (vs, fs) ∧ (vs.length = if e.isLoop then 0 else 2) ∧
      fs.length ≤ (deg + 1) * (deg + 2) / 2 := by
    by_cases hl : e.isLoop = true
    · refine ⟨[], gs, ?_, by simp [hl], hlg.le⟩
      simp only [buildSpanningSet, hgs, bind, Except.bind, hl, if_true]
    · have hl' : e.isLoop = false := by simpa using hl
      obtain ⟨s, hs⟩ : ∃ s, L.head? = some s := by
        cases L with
        | nil => exact absurd rfl hL
        | cons s _ => exact ⟨s, rfl⟩
      obtain ⟨t, ht⟩ : ∃ t, L.getLast? = some t := ⟨L.getLast hL, List.getLast?_eq_some_getLast hL⟩
      obtain ⟨l0, l1, l2, hbar, _⟩ := ell_at_ends (hends hl' s t hs ht)
      obtain ⟨rest, hr⟩ := mapPy_total (f := correct e (s.x, s.y) (t.x, t.y) l0 l1) (l := gs.drop 2)
        fun g _ => correct_ok hp h2 _ _ _ _ g
      have hrl := (mapPy_mem hr).1
      have htri := tri_le h1
      have hlen1 : (gs.take 2 ++ rest).length = gs.length := by
        rw [List.length_append, hrl, ← List.length_append, List.take_append_drop]
      have hd1 : pyDel (gs.take 2 ++ rest) (deg + 1) = .ok ((gs.take 2 ++ rest).eraseIdx (deg + 1)) :=
        pyDel_ok (by omega)
      have hl1 := List.length_eraseIdx_of_lt (l := gs.take 2 ++ rest) (i := deg + 1) (by omega)
      have hd2 : pyDel ((gs.take 2 ++ rest).eraseIdx (deg + 1)) 1 =
          .ok (((gs.take 2 ++ rest).eraseIdx (deg + 1)).eraseIdx 1) := pyDel_ok (by omega)
      have hl2 := List.length_eraseIdx_of_lt (l := (gs.take 2 ++ rest).eraseIdx (deg + 1)) (i := 1) (by omega)
      have hd3 : pyDel (((gs.take 2 ++ rest).eraseIdx (deg + 1)).eraseIdx 1) 0 =
          .ok ((((gs.take 2 ++ rest).eraseIdx (deg + 1)).eraseIdx 1).eraseIdx 0) := pyDel_ok (by omega)
      have hl3 := List.length_eraseIdx_of_lt (l := ((gs.take 2 ++ rest).eraseIdx (deg + 1)).eraseIdx 1) (i := 0) (by omega)
      refine ⟨[l0, l1], (((gs.take 2 ++ rest).eraseIdx (deg + 1)).eraseIdx 1).eraseIdx 0 ++ [l2], ?_, by simp [hl'], ?_⟩
      · simp only [buildSpanningSet, hgs, bind, Except.bind, hl', Bool.false_eq_true, if_false, endPoints_ok hp hs ht, hbar,
          hr, hd1, hd2, hd3]
      · rw [List.length_append, List.length_singleton]
        omega
  obtain ⟨vs, fs, hbs, hvl, hfl⟩ := key
  obtain ⟨basis, hbasis⟩ := reduceToBasis_ok svd hp h2 fs (fuel := fuel) (by omega)
  refine ⟨vs, basis, ?_, hvl⟩
  simp only [init, hset, bind, Except.bind, hbs, hbasis]

/-! ### the low-rank replacement -/

/-- `d` is a singular value decomposition of the array `M` of size `m`: its product is `M`, its rows and columns have length 1,
and the singular values are not negative -/
structure IsSvd (m : ℕ) (M : ℕ → ℕ → ℝ) (d : Svd) : Prop where
  prod : ∀ i < m, ∀ j < m, M i j = ∑ k ∈ Finset.range m, d.U i k * d.S k * d.Vh k j
  rows : ∀ i < m, ∑ k ∈ Finset.range m, d.U i k ^ 2 = 1
  cols : ∀ j < m, ∑ k ∈ Finset.range m, d.Vh k j ^ 2 = 1
  nonneg : ∀ k < m, 0 ≤ d.S k

/-- C66: given a singular value decomposition, the low-rank replacement of the Gram matrix changes no entry by more than `tol`
times the largest singular value. -/
theorem C66_lowRank (svd : (m : ℕ) → (ℕ → ℕ → ℝ) → Svd) (m : ℕ) (hm : 0 < m) (M : ℕ → ℕ → ℝ) (h : IsSvd m M (svd m M))
    (tol : ℝ) (ht : 0 ≤ tol) : ∃ M' smax, lowRank svd m M tol = .ok M' ∧ IsMax ((List.range m).map (svd m M).S) smax ∧
      ∀ i < m, ∀ j < m, |M' i j - M i j| ≤ tol * smax := by
  obtain ⟨smax, hv, hmax⟩ := np_max (l := (List.range m).map (svd m M).S) (by simp; omega)
  have hle : ∀ k < m, (svd m M).S k ≤ smax := fun k hk => hmax.2 _ (List.mem_map.2 ⟨k, by simpa using hk, rfl⟩)
  have h0 : 0 ≤ smax := (h.nonneg 0 hm).trans (hle 0 hm)
  refine ⟨_, smax, by simp only [lowRank, if_neg hm.ne', hv, bind, Except.bind]; rfl, hmax, ?_⟩
  intro i hi j hj
  have hsum : ∀ f : ℕ → ℝ, ((List.range m).map f).sum = ∑ k ∈ Finset.range m, f k := fun f => by
    rw [← List.sum_toFinset f List.nodup_range, List.toFinset_range]
  rw [hsum, h.prod i hi j hj, ← Finset.sum_sub_distrib]
  have hterm : ∀ k ∈ Finset.range m, |(svd m M).U i k * (if (svd m M).S k > tol * smax then (svd m M).S k else 0) * (svd m M).Vh k j -
      (svd m M).U i k * (svd m M).S k * (svd m M).Vh k j| ≤
        tol * smax * (((svd m M).U i k ^ 2 + (svd m M).Vh k j ^ 2) / 2) := by
    intro k hk
    have hk := Finset.mem_range.1 hk
    have hab : |(svd m M).U i k| * |(svd m M).Vh k j| ≤ ((svd m M).U i k ^ 2 + (svd m M).Vh k j ^ 2) / 2 := by
      rw [← sq_abs ((svd m M).U i k), ← sq_abs ((svd m M).Vh k j)]
      nlinarith [sq_nonneg (|(svd m M).U i k| - |(svd m M).Vh k j|)]
    have hts : 0 ≤ tol * smax := mul_nonneg ht h0
    split
    · rw [sub_self, abs_zero]
      positivity
    · next hle' =>
      rw [mul_zero, zero_mul, zero_sub, abs_neg, abs_mul, abs_mul, abs_of_nonneg (h.nonneg k hk), mul_right_comm]
      rw [mul_comm]
      exact mul_le_mul (not_lt.1 hle') hab (by positivity) hts
  refine (Finset.abs_sum_le_sum_abs _ _).trans ((Finset.sum_le_sum hterm).trans ?_)
  rw [← Finset.mul_sum, ← Finset.sum_div, Finset.sum_add_distrib, h.rows i hi, h.cols j hj]
  norm_num

/-- a diagonal Gram matrix with a tiny second entry: the hypotheses of `C66_lowRank` hold -/
example : IsSvd 2 (fun i j => if i = j then (if i = 0 then 1 else 1 / 10 ^ 9) else 0)
    ⟨fun i j => if i = j then 1 else 0, fun k => if k = 0 then 1 else 1 / 10 ^ 9, fun i j => if i = j then 1 else 0⟩ := by
  constructor
  · intro i hi j hj
    interval_cases i <;> interval_cases j <;> simp
  · intro i hi
    interval_cases i <;> simp
  · intro i hi
    interval_cases i <;> simp
  · intro k hk
    interval_cases k <;> simp

/-! ### examples -/

/-- a horizontal edge from `(t, 0)` to `(1, 0)` with its two end points as samples -/
noncomputable def flatEdge (t : ℝ) : EdgeG :=
  { unitCircle "trap" [] with
    isLoop := false
    pts := some [⟨t, 0, 1, 0, 0, -1, 1, 0⟩, ⟨1, 0, 1, 0, 0, -1, 1, 0⟩] }

theorem flatEdge_len (t : ℝ) : (flatEdge t).integrate
    (([⟨t, 0, 1, 0, 0, -1, 1, 0⟩, ⟨1, 0, 1, 0, 0, -1, 1, 0⟩] : List Sample).map fun _ => 1) = .ok (2 * Real.pi) := by
  rw [integrate_eq (L := [⟨t, 0, 1, 0, 0, -1, 1, 0⟩, ⟨1, 0, 1, 0, 0, -1, 1, 0⟩]) rfl (by simp) (by simp)]
  simp [trapezoid, entrywise]
  norm_num

theorem flatEdge_dist {t : ℝ} (h : t < 1) : pdist (t, 0) (1, 0) = 1 - t := by
  unfold pdist
  simp only [sub_zero, ne_eq, OfNat.ofNat_ne_zero, not_false_eq_true, zero_pow, add_zero]
  exact Real.sqrt_sq (by linarith)

theorem flatEdge_built (svd : (m : ℕ) → (ℕ → ℕ → ℝ) → Svd) {t : ℝ} (h : t ≤ 1 / 2) (deg : ℕ) (h1 : 1 ≤ deg)
    (hd : deg ≤ 1000) (fuel : ℕ) (hf : (deg + 1) * (deg + 2) / 2 + 1 ≤ fuel) :
    ∃ vs fs, init svd (flatEdge t) deg fuel = some (.ok (vs, fs)) ∧ vs.length = 2 := by
  have := C54_built svd (flatEdge t) _ rfl ⟨t, 0, 1, 0, 0, -1, 1, 0⟩ ⟨1, 0, 1, 0, 0, -1, 1, 0⟩ (by simp) (by simp)
    (by simp; linarith) (2 * Real.pi) (flatEdge_len t) (by positivity) (by
      intro _ a b ha hb
      simp only [List.head?_cons, Option.some.injEq] at ha
      simp only [List.getLast?_cons_cons, List.getLast?_singleton, Option.some.injEq] at hb
      subst ha hb
      rw [flatEdge_dist (by linarith)]
      norm_num
      linarith) deg h1 hd fuel hf
  simpa [flatEdge] using this

/-- the hypotheses of `C54_partial` hold on the unit interval, whatever the decomposition, for degree 3 -/
example (svd : (m : ℕ) → (ℕ → ℕ → ℝ) → Svd) : (flatEdge 0).isLoop = false ∧
    1 / 10 ^ 12 ≤ pdist (0, 0) (1, 0) ∧ ∃ vs fs, init svd (flatEdge 0) 3 11 = some (.ok (vs, fs)) := by
  refine ⟨rfl, by rw [flatEdge_dist (by norm_num)]; norm_num, ?_⟩
  obtain ⟨vs, fs, h, _⟩ := flatEdge_built svd (t := 0) (by norm_num) 3 (by norm_num) (by norm_num) 11 (by norm_num)
  exact ⟨vs, fs, h⟩

/-- a two-term linear polynomial is its own consolidation -/
theorem canon_lin {c d : ℝ} (hc : tol ℝ ≤ |c|) (hd : tol ℝ ≤ |d|) : Canonical ([⟨⟨1, 0⟩, c⟩, ⟨⟨0, 1⟩, d⟩] : Poly ℝ) := by
  constructor
  · simp [MultiIndex.idx, MultiIndex.order]
  · simp [hc, hd]

theorem canon_lin3 {b c d : ℝ} (hb : tol ℝ ≤ |b|) (hc : tol ℝ ≤ |c|) (hd : tol ℝ ≤ |d|) :
    Canonical ([⟨⟨0, 0⟩, b⟩, ⟨⟨1, 0⟩, c⟩, ⟨⟨0, 1⟩, d⟩] : Poly ℝ) := by
  constructor
  · simp [MultiIndex.idx, MultiIndex.order]
  · simp [hb, hc, hd]

/-- a vertex function when the anchor has coordinates too small to be kept -/
theorem ellP_tiny {t : ℝ} (ht : |t| < tol ℝ) {p n : ℝ × ℝ} {h : ℝ} (h1 : tol ℝ ≤ |p.2 - n.2|) (h2 : tol ℝ ≤ |p.1 - n.1|)
    (h3 : tol ℝ ≤ |(p.2 - n.2) * (-1 / h)|) (h4 : tol ℝ ≤ |(p.1 - n.1) * (-1 / h)|) (x y : ℝ) :
    eval (ellP (t, 0) p n h) x y = 1 + (p.2 - n.2) * (-1 / h) * x - (p.1 - n.1) * (-1 / h) * y := by
  have a1 : add [⟨⟨1, 0⟩, 1⟩] [⟨⟨0, 0⟩, -1 * t⟩] = ([⟨⟨1, 0⟩, 1⟩] : Poly ℝ) := by
    rw [add_eq]
    have : nz ([⟨⟨1, 0⟩, 1⟩] ++ [⟨⟨0, 0⟩, -1 * t⟩] : Poly ℝ) = [⟨⟨1, 0⟩, 1⟩] := by
      simp [nz, Mono.isZero, ht, tol_lt_one.le]
    rw [this, consolidate_eq_self (canonical_singleton (by simp [tol_lt_one.le]))]
  have a2 : add [⟨⟨0, 1⟩, 1⟩] [⟨⟨0, 0⟩, -1 * 0⟩] = ([⟨⟨0, 1⟩, 1⟩] : Poly ℝ) := by
    rw [add_eq]
    have : nz ([⟨⟨0, 1⟩, 1⟩] ++ [⟨⟨0, 0⟩, -1 * 0⟩] : Poly ℝ) = [⟨⟨0, 1⟩, 1⟩] := by
      simp [nz, Mono.isZero, tol_pos, tol_lt_one.le]
    rw [this, consolidate_eq_self (canonical_singleton (by simp [tol_lt_one.le]))]
  have s1 : ∀ (m : Mono ℝ) (c : ℝ), tol ℝ ≤ |m.coef * c| → smul [m] c = [⟨m.alpha, m.coef * c⟩] := by
    intro m c hc
    rw [smul_eq]
    rw [abs_mul] at hc
    simp [nz, Mono.isZero, Mono.smul, hc]
  unfold ellP
  dsimp only
  rw [a1, a2, s1 _ _ (by simpa using h1), s1 _ _ (by simpa using h2), Poly.sub_eq]
  have e1 : nz ([⟨⟨1, 0⟩, 1 * (p.2 - n.2)⟩] ++ ([⟨⟨0, 1⟩, 1 * (p.1 - n.1)⟩] : Poly ℝ).map fun m => m.smul (-1)) =
      [⟨⟨1, 0⟩, p.2 - n.2⟩, ⟨⟨0, 1⟩, -(p.1 - n.1)⟩] := by
    have h2' : tol ℝ ≤ |n.1 - p.1| := by rw [abs_sub_comm]; exact h2
    simp [nz, Mono.isZero, Mono.smul, h1, h2']
  rw [e1, consolidate_eq_self (canon_lin h1 (by rw [abs_neg]; exact h2)), smul_eq]
  have e2 : nz (([⟨⟨1, 0⟩, p.2 - n.2⟩, ⟨⟨0, 1⟩, -(p.1 - n.1)⟩] : Poly ℝ).map fun m => m.smul (-1 / h)) =
      [⟨⟨1, 0⟩, (p.2 - n.2) * (-1 / h)⟩, ⟨⟨0, 1⟩, -(p.1 - n.1) * (-1 / h)⟩] := by
    have h4' : tol ℝ ≤ |-(p.1 - n.1) * (-1 / h)| := by rw [neg_mul, abs_neg]; exact h4
    unfold nz
    simp only [List.map_cons, List.map_nil, Mono.smul]
    rw [List.filter_eq_self]
    intro m hm
    simp only [List.mem_cons, List.not_mem_nil, or_false] at hm
    rcases hm with rfl | rfl
    · simp only [Mono.isZero, decide_eq_false (not_lt.2 h3), Bool.not_false]
    · simp only [Mono.isZero, decide_eq_false (not_lt.2 h4'), Bool.not_false]
  rw [e2, iadd_eq]
  have e3 : nz ([⟨⟨0, 0⟩, 1⟩] : Poly ℝ) = [⟨⟨0, 0⟩, 1⟩] := by simp [nz, Mono.isZero, tol_lt_one.le]
  have hperm : ([⟨⟨1, 0⟩, (p.2 - n.2) * (-1 / h)⟩, ⟨⟨0, 1⟩, -(p.1 - n.1) * (-1 / h)⟩] ++ [⟨⟨0, 0⟩, 1⟩] : Poly ℝ).Perm
      [⟨⟨0, 0⟩, 1⟩, ⟨⟨1, 0⟩, (p.2 - n.2) * (-1 / h)⟩, ⟨⟨0, 1⟩, -(p.1 - n.1) * (-1 / h)⟩] := List.perm_append_comm
  rw [e3, C04_order_independent _ _ hperm, consolidate_eq_self (canon_lin3 (by simp [tol_lt_one.le]) h3 (by
    rw [neg_mul, abs_neg]; exact h4))]
  simp only [eval, List.foldl, Mono.eval_eq, pow_zero, pow_one]
  ring

/-- C54 does not hold exactly: on the edge from `(5e-13, 0)` to `(1, 0)` the space is built, and its first vertex function
is not 1 at the first end. -/
theorem C54_violated (svd : (m : ℕ) → (ℕ → ℕ → ℝ) → Svd) :
    ∃ v0 v1 fs, init svd (flatEdge (1 / (2 * 10 ^ 12))) 1 4 = some (.ok ([v0, v1], fs)) ∧
      eval v0 (1 / (2 * 10 ^ 12)) 0 ≠ 1 := by
  set t : ℝ := 1 / (2 * 10 ^ 12) with ht
  have t0 : 0 < t := by rw [ht]; positivity
  have t1 : t < 1 / 10 ^ 12 := by rw [ht]; norm_num
  have t2 : t ≤ 1 / 2 := by rw [ht]; norm_num
  clear_value t
  clear ht
  obtain ⟨vs, fs, h, _⟩ := flatEdge_built svd t2 1 le_rfl (by norm_num) 4 (by norm_num)
  obtain ⟨_, fs0, hb, _⟩ := init_inv h
  obtain ⟨gs, z0, z1, l0, l1, l2, _, hz, hbar, rfl, _⟩ := buildSpanningSet_inv rfl hb
  rw [endPoints_ok (L := [⟨t, 0, 1, 0, 0, -1, 1, 0⟩, ⟨1, 0, 1, 0, 0, -1, 1, 0⟩]) rfl rfl rfl] at hz
  simp only [Except.ok.injEq, Prod.mk.injEq] at hz
  obtain ⟨rfl, rfl⟩ := hz
  refine ⟨l0, l1, fs, h, ?_⟩
  have hdist : 1 / 10 ^ 12 ≤ Real.sqrt (((1 : ℝ) - t) ^ 2 + ((0 : ℝ) - 0) ^ 2) := by
    have := flatEdge_dist (t := t) (by linarith)
    unfold pdist at this
    rw [this]
    norm_num at t1 ⊢
    linarith
  obtain ⟨ho, hd, _⟩ := C15_edge (t, 0) (1, 0) hdist
  have hform := barycentric_ok (z := edgeTriangle (t, 0) (1, 0))
    (fun j => by unfold baryDist; rw [hd j (j - 1) (by fin_cases j <;> decide)]; exact hdist) ho.ne'
  change barycentric (edgeTriangle (t, 0) (1, 0)) = _ at hbar
  rw [hform] at hbar
  simp only [Except.ok.injEq, Prod.mk.injEq] at hbar
  obtain ⟨rfl, _, _⟩ := hbar
  rw [baryH_eq, abs_of_pos ho]
  have r1 : (0.8 : ℝ) < root3over2 := by
    unfold root3over2
    have : (1.6 : ℝ) < Real.sqrt 3 := by
      rw [Real.lt_sqrt (by norm_num)]; norm_num
    linarith
  have r2 : root3over2 < 1 := by
    unfold root3over2
    have : Real.sqrt 3 < 2 := by
      rw [Real.sqrt_lt' (by norm_num)]; norm_num
    linarith
  have hor : orient (edgeTriangle (t, 0) (1, 0) 0) (edgeTriangle (t, 0) (1, 0) 1) (edgeTriangle (t, 0) (1, 0) 2) =
      root3over2 * (1 - t) ^ 2 := by
    simp only [orient, edgeTriangle, Matrix.cons_val_zero, Matrix.cons_val_one, Matrix.cons_val]
    ring
  rw [hor]
  have z2y : (edgeTriangle (t, 0) (1, 0) 2).2 = root3over2 * (1 - t) := by simp [edgeTriangle]; ring
  have z2x : (edgeTriangle (t, 0) (1, 0) 2).1 - 1 = -((1 - t) / 2) := by simp [edgeTriangle]; ring
  have z1 : edgeTriangle (t, 0) (1, 0) 1 = (1, 0) := rfl
  have z0 : edgeTriangle (t, 0) (1, 0) 0 = (t, 0) := rfl
  have hr : root3over2 ≠ 0 := by linarith
  have h1t : (1 - t) ≠ 0 := by linarith
  have q1 : (1 : ℝ) / 10 ^ 12 < 1 / 10 := by norm_num
  have q2 : root3over2 * (1 - t) * (-1 / (root3over2 * (1 - t) ^ 2)) = -(1 / (1 - t)) := by field_simp
  have q3 : -((1 - t) / 2) * (-1 / (root3over2 * (1 - t) ^ 2)) = 1 / (2 * root3over2 * (1 - t)) := by field_simp
  have q4 : 1 ≤ 1 / (1 - t) := by rw [le_div_iff₀ (by linarith)]; linarith
  have q5 : 1 / 10 ≤ 1 / (2 * root3over2 * (1 - t)) := by
    rw [div_le_div_iff₀ (by norm_num) (by nlinarith)]
    nlinarith
  rw [z0, z1, ellP_tiny]
  · simp only [z2y, sub_zero, mul_zero, sub_zero, q2]
    have : 0 < 1 / (1 - t) * t := by positivity
    linarith
  · rw [abs_of_pos t0]; unfold tol; exact t1
  · rw [z2y, sub_zero, abs_of_pos (by nlinarith)]; unfold tol; nlinarith
  · rw [z2x, abs_neg, abs_of_pos (by linarith)]; unfold tol; linarith
  · rw [z2y, sub_zero, q2, abs_neg, abs_of_pos (by linarith)]; unfold tol; linarith
  · rw [z2x, q3, abs_of_pos (by linarith)]; unfold tol; linarith

end EdgeSpaceG
end PFEM
