import Verif.Lemmas.Heap
import Verif.Props.PolyValue

/-!
Property theorems C11 (in-place addition) and C12 (operators leave their operands alone), about the object-level
model of `Verif/Model/Heap.lean`.

Both properties fail for the code as it stands:
* C11: `p += p` never ends for a nonzero polynomial (`C11_alias_diverges`);
* C12: `-m` changes the monomial `m` itself, and with it every polynomial that shares the object
  (`C12_neg_changes_operand`, `C12_neg_witness`).
The `_partial` theorems prove the rest: C11 for two different objects, C12 for all operators except `Monomial.__neg__`.
-/

set_option linter.unusedSectionVars false

namespace PFEM
open Heap

variable {K : Type} [Field K] [LinearOrder K] [IsStrictOrderedRing K]

/-- All objects that polynomials refer to exist. -/
def WellFormed (h : Heap K) : Prop := ∀ i < h.nextP, ∀ r ∈ h.poly i, r < h.next

/-! ### C11 -/

/-- C11 (negation): `p += p` does not terminate: for every nonempty polynomial object without near-zero terms no number
of steps suffices. -/
theorem C11_alias_diverges (h : Heap K) (i : ℕ) (hne : h.poly i ≠ [])
    (hz : ∀ r ∈ h.poly i, 1 / 10 ^ 12 ≤ |(h.mono r).coef|) (fuel : ℕ) : h.polyIadd fuel i i = none := by
  have : iaddLoop i i fuel 0 h = none :=
    iaddLoop_same i fuel 0 h (List.length_pos_iff.2 hne) fun r hr => by
      simpa [Mono.isZero, tol] using hz r hr
  simp [polyIadd, this]

/-- C11 (partial): for two different objects `p += q` terminates after at most `len(q.monos) + 1` steps of its loop.
It leaves `q`, every other polynomial and every monomial object unchanged, and the new value of `p` at any point is
`p(x,y) + q(x,y)` up to 1e-12 per monomial. -/
theorem C11_iadd_partial (h : Heap K) (wf : WellFormed h) (i j : ℕ) (hi : i < h.nextP) (hj : j < h.nextP)
    (hij : i ≠ j) (fuel : ℕ) (hf : (h.poly j).length < fuel) :
    ∃ h', h.polyIadd fuel i j = some h' ∧ (∀ r < h.next, h'.mono r = h.mono r) ∧
      (∀ k < h.nextP, k ≠ i → h'.val k = h.val k) ∧
      ∀ x y B, Poly.MonoBound (h.val i) x y B → Poly.MonoBound (h.val j) x y B →
        |Poly.eval (h'.val i) x y - (Poly.eval (h.val i) x y + Poly.eval (h.val j) x y)| ≤
          (((h.val i).length + (h.val j).length : ℕ) : K) * (1 / 10 ^ 12) * B := by
  obtain ⟨h', e, hv, _, _, _, hm, hp⟩ := polyIadd_distinct fuel h wf i j hi hj hij hf
  refine ⟨h', e, hm, ?_, ?_⟩
  · intro k hk hki
    unfold Heap.val
    rw [hp k hki]
    exact List.map_congr_left fun r hr => hm r (wf k hk r hr)
  · intro x y B h1 h2
    rw [hv]
    exact C05_iadd_error _ _ x y B h1 h2

/-! ### C12 -/

/-- C12 (a), results: every polynomial operator, run on objects that may share monomials, creates a new object whose
value is that of the value-level operator applied to the operand values. -/
theorem C12_results (h : Heap K) (wf : WellFormed h) (i j : ℕ) (c : K) (hi : i < h.nextP) (hj : j < h.nextP) :
    (h.polyAdd i j).1.val (h.polyAdd i j).2 = Poly.add (h.val i) (h.val j) ∧
    (h.polySmul i c).1.val (h.polySmul i c).2 = Poly.smul (h.val i) c ∧
    (h.polySub i j).1.val (h.polySub i j).2 = Poly.sub (h.val i) (h.val j) ∧
    (h.polyCopy i).1.val (h.polyCopy i).2 = Poly.copy (h.val i) ∧
    (∃ res, h.polyMul i j = .ok res ∧ Poly.mul (h.val i) (h.val j) = .ok (res.1.val res.2)) ∧
    (∃ res, h.polyAddScalar i c = .ok res ∧ Poly.addScalar (h.val i) c = .ok (res.1.val res.2)) := by
  refine ⟨(polyAdd_makes h i j (wf i hi) (wf j hj)).val, (polySmul_makes h wf i c hi).val, ?_,
    (polyCopy_makes h wf i hi).val, ?_, ?_⟩
  · have m1 := polySmul_makes h wf j (-1) hj
    have wf1 := m1.wf wf
    have hi' : i < (h.polySmul j (-1)).1.nextP := by rw [m1.fresh.2]; omega
    have m2 := polyAdd_makes (h.polySmul j (-1)).1 i (h.polySmul j (-1)).2 (wf1 i hi') m1.vl
    have := m2.val
    rw [m1.val, m1.val_old wf i hi] at this
    exact this
  · obtain ⟨res, p, h1, h2, m⟩ := polyMul_makes h wf i j hi hj
    exact ⟨res, h1, by rw [m.val]; exact h2⟩
  · obtain ⟨res, p, h1, h2, m⟩ := polyAddScalar_makes h wf i c hi
    exact ⟨res, h1, by rw [m.val]; exact h2⟩

/-- The command assigns to polynomial object `i` (in-place addition). -/
def Heap.Cmd.Targets (i : ℕ) : Cmd K → Prop
  | .iadd j _ => j = i
  | _ => False

/-- The command is a negation of a monomial object. -/
def Heap.Cmd.IsMonoNeg : Cmd K → Prop
  | .monoNeg _ => True
  | _ => False

/-- what one command other than `-m` preserves -/
theorem step_frame (fuel : ℕ) (h h' : Heap K) (wf : WellFormed h) (c : Cmd K) (hc : ¬ c.IsMonoNeg)
    (he : c.exists h = true) (hr : h.run fuel c = some h') :
    WellFormed h' ∧ h.next ≤ h'.next ∧ h.nextP ≤ h'.nextP ∧ (∀ r < h.next, h'.mono r = h.mono r) ∧
      ∀ i < h.nextP, ¬ c.Targets i → (h'.poly i).Perm (h.poly i) := by
  have mono : ∀ m : Mono K, some (h.newMono m).1 = some h' → WellFormed h' ∧ h.next ≤ h'.next ∧
      h.nextP ≤ h'.nextP ∧ (∀ r < h.next, h'.mono r = h.mono r) ∧
      ∀ i < h.nextP, ¬ c.Targets i → (h'.poly i).Perm (h.poly i) := by
    intro m hm
    cases hm
    have e := newMono_ext h m
    exact ⟨fun i hi r hr => lt_of_lt_of_le (wf i hi r hr) e.next, e.next, le_refl _, e.mono,
      fun i _ _ => List.Perm.refl _⟩
  have makes : ∀ (res : Heap K × ℕ) (p : Poly K), Makes h res p → res.1 = h' → WellFormed h' ∧ h.next ≤ h'.next ∧
      h.nextP ≤ h'.nextP ∧ (∀ r < h.next, h'.mono r = h.mono r) ∧
      ∀ i < h.nextP, ¬ c.Targets i → (h'.poly i).Perm (h.poly i) := by
    intro res p m hm
    subst hm
    refine ⟨m.wf wf, m.next, by rw [m.fresh.2]; omega, m.mono, fun i hi _ => ?_⟩
    rw [m.poly i hi]
  cases c with
  | monoNeg r => exact absurd trivial hc
  | monoAdd r q =>
    simp only [run, monoAdd] at hr
    cases hm : (h.mono r).add (h.mono q) with
    | error e => simp [hm, bind, Except.bind] at hr
    | ok m => simp only [hm, bind, Except.bind] at hr; exact mono m hr
  | monoMul r q =>
    simp only [run, monoMul] at hr
    cases hm : (h.mono r).mul (h.mono q) with
    | error e => simp [hm, bind, Except.bind] at hr
    | ok m => simp only [hm, bind, Except.bind] at hr; exact mono m hr
  | monoSmul r c => exact mono _ hr
  | monoCopy r => exact mono _ hr
  | copy i =>
    simp only [Cmd.exists, decide_eq_true_eq] at he
    exact makes _ _ (polyCopy_makes h wf i he) (by simpa [run] using hr)
  | add i j =>
    simp only [Cmd.exists, Bool.and_eq_true, decide_eq_true_eq] at he
    exact makes _ _ (polyAdd_makes h i j (wf i he.1) (wf j he.2)) (by simpa [run] using hr)
  | addScalar i c =>
    simp only [Cmd.exists, decide_eq_true_eq] at he
    obtain ⟨res, p, h1, h2, m⟩ := polyAddScalar_makes h wf i c he
    exact makes _ _ m (by simpa [run, h1] using hr)
  | mul i j =>
    simp only [Cmd.exists, Bool.and_eq_true, decide_eq_true_eq] at he
    obtain ⟨res, p, h1, h2, m⟩ := polyMul_makes h wf i j he.1 he.2
    exact makes _ _ m (by simpa [run, h1] using hr)
  | smul i c =>
    simp only [Cmd.exists, decide_eq_true_eq] at he
    exact makes _ _ (polySmul_makes h wf i c he) (by simpa [run] using hr)
  | sub i j =>
    simp only [Cmd.exists, Bool.and_eq_true, decide_eq_true_eq] at he
    have m1 := polySmul_makes h wf j (-1) he.2
    have wf1 := m1.wf wf
    have hi' : i < (h.polySmul j (-1)).1.nextP := by rw [m1.fresh.2]; omega
    have m2 := polyAdd_makes (h.polySmul j (-1)).1 i (h.polySmul j (-1)).2 (wf1 i hi') m1.vl
    simp only [run, polySub, Option.some.injEq] at hr
    subst hr
    refine ⟨m2.wf wf1, m1.next.trans m2.next, by rw [m2.fresh.2, m1.fresh.2]; omega, ?_, fun k hk _ => ?_⟩
    · intro r hr
      rw [m2.mono r (lt_of_lt_of_le hr m1.next), m1.mono r hr]
    · rw [m2.poly k (by rw [m1.fresh.2]; omega), m1.poly k hk]
  | iadd i j =>
    simp only [Cmd.exists, Bool.and_eq_true, decide_eq_true_eq] at he
    simp only [run] at hr
    by_cases hij : i = j
    · -- an aliased addition that ends leaves everything but object `i` alone as well
      subst hij
      have key : ∀ (fuel k : ℕ) (g g' : Heap K), g.mono = h.mono → g.next = h.next → g.nextP = h.nextP →
          (∀ n, n ≠ i → g.poly n = h.poly n) → (∀ r ∈ g.poly i, r < h.next) → iaddLoop i i fuel k g = some g' →
          g'.mono = h.mono ∧ g'.next = h.next ∧ g'.nextP = h.nextP ∧ (∀ n, n ≠ i → g'.poly n = h.poly n) ∧
            (∀ r ∈ g'.poly i, r < h.next) := by
        intro fuel
        induction fuel with
        | zero => intro k g g' _ _ _ _ _ h6; simp [iaddLoop] at h6
        | succ fuel ih =>
          intro k g g' h1 h2 h3 h4 h5 h6
          unfold iaddLoop at h6
          cases hg : (g.poly i)[k]? with
          | none => simp only [hg, Option.some.injEq] at h6; subst h6; exact ⟨h1, h2, h3, h4, h5⟩
          | some r =>
            simp only [hg] at h6
            refine ih (k + 1) { g with poly := Function.update g.poly i (g.addMonomial (g.poly i) r) } g' h1 h2 h3 ?_ ?_ h6
            · intro n hn; simp only [Function.update_of_ne hn]; exact h4 n hn
            · simp only [Function.update_self]
              intro q hq
              unfold addMonomial at hq
              split at hq
              · exact h5 q hq
              · rcases List.mem_append.1 hq with hq | hq
                · exact h5 q hq
                · simp only [List.mem_cons, List.not_mem_nil, or_false] at hq
                  subst hq
                  exact h5 _ (List.mem_of_getElem? hg)
      unfold polyIadd at hr
      cases hl : iaddLoop i i fuel 0 h with
      | none => simp [hl] at hr
      | some g =>
        obtain ⟨k1, k2, k3, k4, k5⟩ := key fuel 0 h g rfl rfl rfl (fun _ _ => rfl) (wf i he.1) hl
        have l2 : VL g (g.poly i) := fun r hr => by rw [k2]; exact k5 r hr
        obtain ⟨e, l3, g3⟩ := consolidate_spec g _ l2
        simp only [hl, Option.bind_eq_bind, Option.bind_some, Option.some.injEq] at hr
        subst hr
        refine ⟨?_, by rw [← k2]; exact e.next, by rw [← k3]; exact e.nextP.ge, ?_, ?_⟩
        · intro n hn r hr
          by_cases hni : n = i
          · subst hni
            simp only [Function.update_self] at hr
            exact l3 r hr
          · simp only [Function.update_of_ne hni, e.poly, k4 n hni] at hr
            have hn' : n < h.nextP := by rw [← k3, ← e.nextP]; exact hn
            exact lt_of_lt_of_le (by rw [k2]; exact wf n hn' r hr) e.next
        · intro r hr
          rw [← k1]; exact e.mono r (by rw [k2]; exact hr)
        · intro n _ ht
          have hni : n ≠ i := fun e => ht e.symm
          simp only [Function.update_of_ne hni, e.poly, k4 n hni]
          exact List.Perm.refl _
    · by_cases hf : (h.poly j).length < fuel
      · obtain ⟨h2, e, hv, hwf, hn, hnp, hm, hp⟩ := polyIadd_distinct fuel h wf i j he.1 he.2 hij hf
        rw [e] at hr
        cases hr
        refine ⟨hwf, hn, hnp.ge, hm, fun n _ ht => ?_⟩
        rw [hp n (fun e => ht e.symm)]
      · -- not enough fuel: the loop has not ended
        exfalso
        have key : ∀ (fuel k : ℕ) (g : Heap K), g.poly j = h.poly j → fuel + k ≤ (h.poly j).length →
            iaddLoop i j fuel k g = none := by
          intro fuel
          induction fuel with
          | zero => intro k g _ _; rfl
          | succ fuel ih =>
            intro k g hg hk
            unfold iaddLoop
            have hk' : k < (g.poly j).length := by rw [hg]; omega
            rw [List.getElem?_eq_getElem hk']
            exact ih (k + 1) _ (by simp only [Function.update_of_ne (Ne.symm hij)]; exact hg) (by omega)
        simp [polyIadd, key fuel 0 h rfl (by omega)] at hr
  | eq i j =>
    simp only [Cmd.exists, Bool.and_eq_true, decide_eq_true_eq] at he
    simp only [run, polyEq, Option.some.injEq] at hr
    by_cases hl : (h.poly i).length = (h.poly j).length
    · simp only [hl, ne_eq, not_true_eq_false, if_false] at hr
      subst hr
      have hs : ∀ (g : Heap K) (l : List ℕ), g.mono = h.mono → g.sort l = h.sort l := by
        intro g l hg
        have : ∀ r l, insertBack g r l = insertBack h r l := by
          intro r l
          induction l with
          | nil => rfl
          | cons q l ih => simp [insertBack, hg, ih]
        simp [sort, this]
      have hp : ∀ n, (Function.update (Function.update h.poly i (h.sort (h.poly i))) j
          (h.sort ((Function.update h.poly i (h.sort (h.poly i))) j)) n).Perm (h.poly n) := by
        intro n
        by_cases hnj : n = j
        · subst hnj
          rw [Function.update_self]
          refine (sort_perm _ _).trans ?_
          by_cases hni : n = i
          · subst hni; rw [Function.update_self]; exact sort_perm _ _
          · rw [Function.update_of_ne hni]
        · rw [Function.update_of_ne hnj]
          by_cases hni : n = i
          · subst hni; rw [Function.update_self]; exact sort_perm _ _
          · rw [Function.update_of_ne hni]
      refine ⟨?_, le_refl _, le_refl _, fun _ _ => rfl, ?_⟩
      · intro n hn r hr
        simp only at hr
        rw [(hs { h with poly := Function.update h.poly i (h.sort (h.poly i)) } _ rfl)] at hr
        exact wf n hn r ((hp n).mem_iff.1 hr)
      · intro n _ _
        rw [show sort _ _ = _ from hs { h with poly := Function.update h.poly i (h.sort (h.poly i)) } _ rfl]
        exact hp n
    · simp only [hl, ne_eq, not_false_eq_true, if_true] at hr
      subst hr
      exact ⟨wf, le_refl _, le_refl _, fun _ _ => rfl, fun _ _ _ => List.Perm.refl _⟩

/-- C12 (b), partial: in any program (any sequence of operator applications on existing, possibly shared objects) that
does not negate a monomial object, every monomial object keeps its value, and every polynomial object that is not the
target of an in-place addition keeps its terms (a comparison `==` may reorder them) and hence its value at every
point.  Missing: programs that use `-m` on a monomial, for which the claim is false. -/
theorem C12_no_mutation_partial (fuel : ℕ) (h h' : Heap K) (wf : WellFormed h) (prog : List (Cmd K))
    (hprog : ∀ c ∈ prog, ¬ c.IsMonoNeg) (hr : h.runAll fuel prog = some h') :
    (∀ r < h.next, h'.mono r = h.mono r) ∧
    ∀ i < h.nextP, (∀ c ∈ prog, ¬ c.Targets i) →
      (h'.val i).Perm (h.val i) ∧ ∀ x y, Poly.eval (h'.val i) x y = Poly.eval (h.val i) x y := by
  suffices H : WellFormed h' ∧ (∀ r < h.next, h'.mono r = h.mono r) ∧
      ∀ i < h.nextP, (∀ c ∈ prog, ¬ c.Targets i) → (h'.val i).Perm (h.val i) from
    ⟨H.2.1, fun i hi ht => ⟨H.2.2 i hi ht, fun x y => Poly.eval_perm (H.2.2 i hi ht) x y⟩⟩
  induction prog generalizing h with
  | nil =>
    simp only [runAll, Option.some.injEq] at hr
    subst hr
    exact ⟨wf, fun _ _ => rfl, fun _ _ _ => List.Perm.refl _⟩
  | cons c cs ih =>
    unfold runAll at hr
    by_cases he : c.exists h = true
    · simp only [he, if_true, Option.bind_eq_bind] at hr
      cases h1 : h.run fuel c with
      | none => simp [h1] at hr
      | some g =>
        simp only [h1, Option.bind_some] at hr
        obtain ⟨wf1, n1, p1, m1, q1⟩ := step_frame fuel h g wf c (hprog c (by simp)) he h1
        obtain ⟨wf2, m2, q2⟩ := ih g wf1 (fun c hc => hprog c (by simp [hc])) hr
        refine ⟨wf2, fun r hr => (m2 r (lt_of_lt_of_le hr n1)).trans (m1 r hr), fun i hi ht => ?_⟩
        refine (q2 i (lt_of_lt_of_le hi p1) fun c hc => ht c (by simp [hc])).trans ?_
        have hperm := (q1 i hi (ht c (by simp))).map g.mono
        refine hperm.trans ?_
        unfold Heap.val
        rw [List.map_congr_left fun r hr => m1 r (wf i hi r hr)]
    · simp [he] at hr

/-- C12 (negation): `-m` returns `None` and changes the operand, so the coefficient of the shared object flips. -/
theorem C12_neg_changes_operand (h : Heap K) (r : ℕ) (hc : (h.mono r).coef ≠ 0) :
    (h.monoNeg r).2 = none ∧ (h.monoNeg r).1.mono r ≠ h.mono r := by
  refine ⟨rfl, fun e => hc ?_⟩
  have := congrArg Mono.coef e
  simp only [monoNeg, Function.update_self] at this
  linarith

/-- A heap with polynomial objects 0 = `3x`, 1 = `5` and no others. -/
def sampleHeap : Heap ℚ where
  mono := fun r => if r = 0 then ⟨⟨1, 0⟩, 3⟩ else ⟨⟨0, 0⟩, 5⟩
  next := 2
  poly := fun i => if i = 0 then [0] else if i = 1 then [1] else []
  nextP := 2

/-- C12 (negation, witness): after `q = p0 + p1`, negating the monomial of `p0` also changes `q`. -/
theorem C12_neg_witness :
    (sampleHeap.runAll 10 [.add 0 1]).map (fun h => h.val 2) = some [⟨⟨0, 0⟩, 5⟩, ⟨⟨1, 0⟩, 3⟩] ∧
    (sampleHeap.runAll 10 [.add 0 1, .monoNeg 0]).map (fun h => h.val 2) = some [⟨⟨0, 0⟩, 5⟩, ⟨⟨1, 0⟩, -3⟩] := by
  decide +kernel

/-- The hypotheses of C11/C12 are met by `sampleHeap`; a program with sharing runs to the end; `p += p` runs out of any
fuel (here 50). -/
example : WellFormed sampleHeap ∧
    ((sampleHeap.runAll 10 [.add 0 1, .iadd 2 0, .mul 2 2, .eq 0 1]).map (fun h => h.val 2) =
      some [⟨⟨0, 0⟩, 5⟩, ⟨⟨1, 0⟩, 6⟩]) ∧
    (sampleHeap.polyIadd 50 0 0).isNone = true := by
  refine ⟨?_, by decide +kernel, by decide +kernel⟩
  intro i hi r hr
  have : i = 0 ∨ i = 1 := by simp [sampleHeap] at hi; omega
  rcases this with rfl | rfl <;> simp [sampleHeap] at hr ⊢ <;> omega

end PFEM
