import Verif.Model.Piecewise
import Mathlib.Algebra.Order.Ring.Rat
import Mathlib.Algebra.Field.Rat
import Mathlib.Algebra.BigOperators.Group.List.Basic

/-!
Property theorem C16: piecewise polynomials on the edges of a cell.

The full statement is false: the write position is never advanced, so the values of all edges are written on top of
each other at the start of the result (`C16_overwrites`, `C16_tail_zero`, `C16_witness`).  It holds for a single edge
(`C16_single_edge_partial`).
-/

set_option linter.unusedSectionVars false

namespace PFEM
namespace Piecewise

variable {K : Type} [Field K] [LinearOrder K]

theorem evalLoop_ok (polys : List (Poly K)) (i : ℕ) (edges : List (List (K × K)))
    (h : i + edges.length ≤ polys.length) :
    ∃ vs, evalLoop polys i edges = .ok vs ∧ vs.length = edges.length ∧
      ∀ k e p, edges[k]? = some e → polys[i + k]? = some p →
        vs[k]? = some (e.map fun z => Poly.eval p z.1 z.2) := by
  induction edges generalizing i with
  | nil => exact ⟨[], rfl, rfl, by simp⟩
  | cons e es ih =>
    simp only [List.length_cons] at h
    obtain ⟨vs, e1, e2, e3⟩ := ih (i + 1) (by omega)
    have hp : pyGet polys i = .ok polys[i] := by
      simp [pyGet, List.getElem?_eq_getElem (by omega : i < polys.length)]
    refine ⟨(e.map fun z => Poly.eval polys[i] z.1 z.2) :: vs, ?_, by simp [e2], ?_⟩
    · unfold evalLoop
      simp only [hp, e1, bind, Except.bind]
    · intro k e' p hk hpk
      cases k with
      | zero =>
        simp only [List.getElem?_cons_zero, Option.some.injEq] at hk ⊢
        subst hk
        rw [Nat.add_zero, List.getElem?_eq_getElem (by omega), Option.some.injEq] at hpk
        rw [hpk]
      | succ k =>
        simp only [List.getElem?_cons_succ] at hk ⊢
        exact e3 k e' p hk (by rw [← hpk]; congr 1; omega)

theorem evalLoop_lengths (polys : List (Poly K)) (i : ℕ) (edges : List (List (K × K))) (vs : List (List K))
    (h : evalLoop polys i edges = .ok vs) : vs.map List.length = edges.map List.length := by
  induction edges generalizing i vs with
  | nil => simp [evalLoop] at h; subst h; rfl
  | cons e es ih =>
    unfold evalLoop at h
    cases hp : pyGet polys i with
    | error _ => simp [hp, bind, Except.bind] at h
    | ok p =>
      cases hr : evalLoop polys (i + 1) es with
      | error _ => simp [hp, hr, bind, Except.bind] at h
      | ok r =>
        simp only [hp, hr, bind, Except.bind, Except.ok.injEq] at h
        subst h
        simp [ih (i + 1) r hr]

theorem fill_length (vs : List (List K)) (vals : List K) (h : ∀ v ∈ vs, v.length ≤ vals.length) :
    (fill vs vals).length = vals.length := by
  induction vs generalizing vals with
  | nil => rfl
  | cons v vs ih =>
    have hv := h v (by simp)
    have hl : (v ++ vals.drop v.length).length = vals.length := by simp; omega
    unfold fill
    rw [ih _ (fun w hw => by rw [hl]; exact h w (by simp [hw])), hl]

theorem fill_beyond (vs : List (List K)) (vals : List K) (t : ℕ) (h : ∀ v ∈ vs, v.length ≤ t) :
    (fill vs vals)[t]? = vals[t]? := by
  induction vs generalizing vals with
  | nil => rfl
  | cons v vs ih =>
    have hv := h v (by simp)
    unfold fill
    rw [ih _ (fun w hw => h w (by simp [hw])), List.getElem?_append_right hv, List.getElem?_drop]
    congr 1; omega

theorem fill_last (vs : List (List K)) (v : List K) (vals : List K) (t : ℕ) (ht : t < v.length) :
    (fill (vs ++ [v]) vals)[t]? = v[t]? := by
  induction vs generalizing vals with
  | nil => simp [fill, List.getElem?_append_left ht]
  | cons w ws ih => simp only [List.cons_append, fill]; exact ih _

end Piecewise

variable {K : Type} [Field K] [LinearOrder K]

/-- C16: the number of edges must match the declared number of polynomials. -/
theorem C16_mismatch (pw : Piecewise K) (edges : List (List (K × K))) (h : (edges.length : ℤ) ≠ pw.numPolys) :
    pw.evalOnEdges edges = .error .polynomialError := by
  unfold Piecewise.evalOnEdges; rw [if_pos h]

/-- C16: the constructor rejects a negative identifier and a number of polynomials below 1, and nothing else. -/
theorem C16_constructor (n idx : ℤ) (polys : Option (List (Poly K))) :
    (Piecewise.init n polys idx = .error .valueError ↔ idx < 0 ∨ n < 1) ∧
    (0 ≤ idx → 1 ≤ n → ∃ pw, Piecewise.init n polys idx = .ok pw ∧ pw.idx = idx ∧ pw.numPolys = n) := by
  unfold Piecewise.init
  constructor
  · split_ifs with h1 h2 <;> simp_all
  · intro h1 h2
    rw [if_neg (by omega), if_neg (by omega)]
    exact ⟨_, rfl, rfl, rfl⟩

/-- C16 for one edge: the result is the list of values of the polynomial at the points of the edge.  Missing from the
full statement: two or more edges, for which it is false. -/
theorem C16_single_edge_partial (pw : Piecewise K) (e : List (K × K)) (p : Poly K) (hn : pw.numPolys = 1)
    (hp : pw.polys[0]? = some p) : pw.evalOnEdges [e] = .ok (e.map fun z => Poly.eval p z.1 z.2) := by
  unfold Piecewise.evalOnEdges
  simp [hn, Piecewise.evalLoop, pyGet, hp, bind, Except.bind, Piecewise.fill]

/-- C16: what the code really returns at the start of the result: the values on the *last* edge, whatever the
polynomials on the other edges are. -/
theorem C16_overwrites (pw : Piecewise K) (edges : List (List (K × K))) (e : List (K × K)) (p : Poly K)
    (hn : pw.numPolys = edges.length + 1) (hl : pw.polys.length = edges.length + 1)
    (hp : pw.polys[edges.length]? = some p) :
    ∃ vals, pw.evalOnEdges (edges ++ [e]) = .ok vals ∧ vals.length = ((edges ++ [e]).map List.length).sum ∧
      ∀ (t : ℕ) (z : K × K), e[t]? = some z → vals[t]? = some (Poly.eval p z.1 z.2) := by
  obtain ⟨vs, h1, h2, h3⟩ := Piecewise.evalLoop_ok pw.polys 0 (edges ++ [e]) (by simp [hl])
  have hlast := h3 edges.length e p (by simp) (by simpa using hp)
  have hlen := Piecewise.evalLoop_lengths _ _ _ _ h1
  refine ⟨Piecewise.fill vs (List.replicate ((edges ++ [e]).map List.length).sum 0), ?_, ?_, ?_⟩
  · unfold Piecewise.evalOnEdges
    rw [if_neg (by simp [hn]), h1]
    rfl
  · rw [Piecewise.fill_length]
    · simp
    · intro v hv
      rw [List.length_replicate, ← hlen]
      exact List.single_le_sum (by simp) _ (List.mem_map_of_mem hv)
  · intro t z hz
    obtain ⟨ws, w, rfl⟩ : ∃ ws w, vs = ws ++ [w] := by
      have : vs ≠ [] := by
        intro h; rw [h] at h2; simp at h2
      exact ⟨vs.dropLast, vs.getLast this, (List.dropLast_concat_getLast this).symm⟩
    have hw : w = e.map fun z => Poly.eval p z.1 z.2 := by
      simp only [List.length_append, List.length_singleton] at h2
      have : ws.length = edges.length := by omega
      rw [← this] at hlast
      simpa using hlast
    have ht : t < e.length := (List.getElem?_eq_some_iff.1 hz).1
    rw [Piecewise.fill_last _ _ _ _ (by rw [hw]; simpa using ht), hw, List.getElem?_map, hz]
    rfl

/-- C16: every position of the result beyond the longest edge is zero, whatever the polynomials are. -/
theorem C16_tail_zero (pw : Piecewise K) (edges : List (List (K × K))) (vals : List K)
    (h : pw.evalOnEdges edges = .ok vals) (t : ℕ) (ht : ∀ e ∈ edges, e.length ≤ t)
    (hs : t < (edges.map List.length).sum) : vals[t]? = some 0 := by
  unfold Piecewise.evalOnEdges at h
  split at h
  · simp at h
  · cases hv : Piecewise.evalLoop pw.polys 0 edges with
    | error _ => simp [hv, bind, Except.bind] at h
    | ok vs =>
      simp only [hv, bind, Except.bind, Except.ok.injEq] at h
      subst h
      rw [Piecewise.fill_beyond, List.getElem?_replicate, if_pos hs]
      intro v hv'
      have hm : v.length ∈ edges.map List.length := by
        rw [← Piecewise.evalLoop_lengths _ _ _ _ hv]; exact List.mem_map_of_mem hv'
      obtain ⟨e, he, hel⟩ := List.mem_map.1 hm
      rw [← hel]; exact ht e he

/-- C16: witness that the full statement fails: the constants 1 and 2 on two edges of two points give 2, 2, 0, 0. -/
theorem C16_witness : ∃ (pw : Piecewise ℚ) (edges : List (List (ℚ × ℚ))),
    Piecewise.init 2 (some [[⟨⟨0, 0⟩, 1⟩], [⟨⟨0, 0⟩, 2⟩]]) 0 = .ok pw ∧ edges.map List.length = [2, 2] ∧
    pw.evalOnEdges edges = .ok [2, 2, 0, 0] :=
  ⟨⟨0, 2, [[⟨⟨0, 0⟩, 1⟩], [⟨⟨0, 0⟩, 2⟩]]⟩, [[(0, 0), (1, 0)], [(1, 0), (1, 1)]], rfl, rfl, by decide +kernel⟩

example : ∃ (pw : Piecewise ℚ), pw.numPolys = 1 ∧ pw.polys[0]? = some [⟨⟨1, 1⟩, 3⟩] ∧
    pw.evalOnEdges [[(1, 2), (3, 4)]] = .ok [6, 36] :=
  ⟨⟨0, 1, [[⟨⟨1, 1⟩, 3⟩]]⟩, rfl, rfl, by decide +kernel⟩

end PFEM
