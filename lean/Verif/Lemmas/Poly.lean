import Mathlib.Tactic.Linarith
import Mathlib.Tactic.Ring
import Mathlib.Tactic.NormNum
import Mathlib.Tactic.Positivity
import Mathlib.Data.List.Sort
import Mathlib.Data.List.Perm.Basic
import Mathlib.Algebra.BigOperators.Group.List.Basic
import Verif.Model.Poly
import Verif.Spec.Poly
import Verif.Lemmas.MultiIndex

set_option linter.unusedSectionVars false

namespace PFEM

instance symmIdxNe {K : Type} : Std.Symm (fun m n : Mono K => m.alpha.idx ≠ n.alpha.idx) :=
  ⟨fun _ _ h => Ne.symm h⟩

variable {K : Type} [Field K] [LinearOrder K]

section basic
omit [LinearOrder K]

theorem Poly.coeffOf_nil (a : MultiIndex) : Poly.coeffOf ([] : Poly K) a = 0 := rfl

theorem Poly.coeffOf_cons (m : Mono K) (p : Poly K) (a : MultiIndex) :
    Poly.coeffOf (m :: p) a = (if m.alpha = a then m.coef else 0) + Poly.coeffOf p a := by
  unfold Poly.coeffOf
  by_cases h : m.alpha = a <;> simp [h]

theorem Poly.coeffOf_append (p q : Poly K) (a : MultiIndex) :
    Poly.coeffOf (p ++ q) a = Poly.coeffOf p a + Poly.coeffOf q a := by
  unfold Poly.coeffOf; simp

theorem Poly.coeffOf_perm {p q : Poly K} (h : p.Perm q) (a : MultiIndex) :
    Poly.coeffOf p a = Poly.coeffOf q a := by
  unfold Poly.coeffOf
  exact ((h.filter _).map _).sum_eq

theorem Poly.coeffOf_eq_zero {p : Poly K} {a : MultiIndex}
    (h : ∀ m ∈ p, m.alpha = a → m.coef = 0) : Poly.coeffOf p a = 0 := by
  unfold Poly.coeffOf
  apply List.sum_eq_zero
  intro c hc
  simp only [List.mem_map, List.mem_filter, decide_eq_true_eq] at hc
  obtain ⟨m, ⟨hm, ha⟩, rfl⟩ := hc
  exact h m hm ha

end basic

variable [IsStrictOrderedRing K]

theorem tol_pos : 0 < tol K := by unfold tol; positivity

theorem tol_lt_one : tol K < 1 := by
  unfold tol; rw [div_lt_one (by positivity)]; norm_num

omit [IsStrictOrderedRing K] in
theorem Mono.isZero_iff (m : Mono K) : m.isZero = true ↔ |m.coef| < tol K := by
  simp [Mono.isZero]

theorem chop_zero : chop (0 : K) = 0 := by simp [chop]

omit [IsStrictOrderedRing K] in
theorem chop_of_le {c : K} (h : tol K ≤ |c|) : chop c = c := by
  simp [chop, not_lt.2 h]

omit [IsStrictOrderedRing K] in
theorem chop_of_lt {c : K} (h : |c| < tol K) : chop c = 0 := by
  simp [chop, h]

theorem abs_chop_sub_le (c : K) : |chop c - c| ≤ tol K := by
  unfold chop; split
  · rename_i h; simp [h.le]
  · simp [tol_pos.le]

omit [IsStrictOrderedRing K] in
theorem chop_ne_zero_le {c : K} (h : chop c ≠ 0) : tol K ≤ |chop c| := by
  unfold chop at *; split
  · rename_i h'; simp [h'] at h
  · rename_i h'; exact not_lt.1 h'

namespace Poly

omit [IsStrictOrderedRing K]

/-! ### remove_zeros -/

theorem removeZerosFrom_eq (i : ℕ) (p : Poly K) (h : i ≤ p.length) :
    removeZerosFrom i p = (p.take i).filter (fun m => !m.isZero) ++ p.drop i := by
  induction i generalizing p with
  | zero => simp [removeZerosFrom]
  | succ i ih =>
    have hi : i < p.length := h
    have e : p[i]? = some p[i] := List.getElem?_eq_getElem hi
    have et : p.take (i + 1) = p.take i ++ [p[i]] := by rw [List.take_append_getElem]
    have ed : p.drop i = p[i] :: p.drop (i + 1) := List.drop_eq_getElem_cons hi
    unfold removeZerosFrom
    rw [e]
    simp only
    by_cases hz : p[i].isZero = true
    · have hl : (p.take i).length = i := by simp only [List.length_take]; omega
      rw [if_pos hz, ih _ (by rw [List.length_eraseIdx_of_lt hi]; omega), et,
        List.eraseIdx_eq_take_drop_succ, List.take_append_of_le_length (by omega),
        List.drop_append_of_le_length (by omega), List.filter_append]
      have h1 : List.take i (List.take i p) = List.take i p := by simp
      have h2 : List.drop i (List.take i p) = [] := by simp
      rw [h1, h2]
      simp only [List.filter_cons, hz, List.filter_nil]
      simp
    · rw [if_neg hz, ih _ (by omega), et, ed, List.filter_append]
      simp only [List.filter_cons, hz, List.filter_nil]
      simp

theorem removeZeros_eq (p : Poly K) : removeZeros p = p.filter (fun m => !m.isZero) := by
  unfold removeZeros
  rw [removeZerosFrom_eq _ _ le_rfl]; simp

theorem addAll_eq (p : Poly K) (ms : List (Mono K)) :
    addAll p ms = p ++ ms.filter (fun m => !m.isZero) := by
  unfold addAll
  induction ms generalizing p with
  | nil => simp
  | cons m ms ih =>
    simp only [List.foldl_cons, ih, addMonomial]
    by_cases h : m.isZero = true <;> simp [h]

/-! ### collect -/

omit [LinearOrder K] in
theorem absorb_fst (m : Mono K) (l : Poly K) :
    (absorb m l).1 = ⟨m.alpha, m.coef + coeffOf l m.alpha⟩ := by
  induction l generalizing m with
  | nil => simp [absorb, coeffOf_nil]
  | cons n rest ih =>
    unfold absorb
    by_cases h : m.alpha = n.alpha
    · have h' : m.alpha.eq n.alpha = true := (MultiIndex.eq_iff _ _).2 h
      rw [if_pos h', ih]
      simp only [coeffOf_cons, h, if_true]
      rw [add_assoc]
    · have h' : ¬ (m.alpha.eq n.alpha = true) := fun e => h ((MultiIndex.eq_iff _ _).1 e)
      have h'' : ¬ (n.alpha = m.alpha) := fun e => h e.symm
      simp only [h', if_false, ih, coeffOf_cons, h'', zero_add]
      simp

/-- later monomials with the same multi-index are multiplied by zero -/
def zeroOut (a : MultiIndex) (l : Poly K) : Poly K :=
  l.map (fun n => if n.alpha = a then n.smul 0 else n)

omit [LinearOrder K] in
theorem absorb_snd (m : Mono K) (l : Poly K) : (absorb m l).2 = zeroOut m.alpha l := by
  induction l generalizing m with
  | nil => simp [absorb, zeroOut]
  | cons n rest ih =>
    unfold absorb
    by_cases h : m.alpha = n.alpha
    · have h' : m.alpha.eq n.alpha = true := (MultiIndex.eq_iff _ _).2 h
      rw [if_pos h']
      simp only [ih, zeroOut, h, List.map_cons, if_true]
    · have h' : ¬ (m.alpha.eq n.alpha = true) := fun e => h ((MultiIndex.eq_iff _ _).1 e)
      have h'' : ¬ (n.alpha = m.alpha) := fun e => h e.symm
      simp only [h', ih, zeroOut, List.map_cons, h'']
      simp

omit [LinearOrder K] in
theorem zeroOut_length (a : MultiIndex) (l : Poly K) : (zeroOut a l).length = l.length := by
  simp [zeroOut]

omit [LinearOrder K] in
theorem coeffOf_zeroOut (a b : MultiIndex) (l : Poly K) :
    coeffOf (zeroOut a l) b = if b = a then 0 else coeffOf l b := by
  induction l with
  | nil => simp [zeroOut, coeffOf_nil]
  | cons n rest ih =>
    have e : zeroOut a (n :: rest) = (if n.alpha = a then n.smul 0 else n) :: zeroOut a rest := by
      simp [zeroOut]
    rw [e, coeffOf_cons, ih, coeffOf_cons]
    by_cases h1 : n.alpha = a
    · by_cases h2 : b = a
      · simp [h1, h2, Mono.smul]
      · have h3 : ¬ a = b := fun e => h2 e.symm
        simp [h1, h2, h3, Mono.smul]
    · by_cases h2 : b = a
      · simp [h1, h2]
      · simp [h1, h2]

omit [LinearOrder K] in
theorem collect_nil : collect ([] : Poly K) = [] := rfl

omit [LinearOrder K] in
theorem collect_cons (m : Mono K) (l : Poly K) :
    collect (m :: l) = ⟨m.alpha, m.coef + coeffOf l m.alpha⟩ :: collect (zeroOut m.alpha l) := by
  unfold collect
  rw [List.length_cons, collectN, absorb_fst, absorb_snd, zeroOut_length]

omit [LinearOrder K] in
theorem coeffOf_collect (l : Poly K) (a : MultiIndex) : coeffOf (collect l) a = coeffOf l a := by
  induction hn : l.length generalizing l with
  | zero => rw [List.length_eq_zero_iff.1 hn]; rfl
  | succ n ih =>
    match l, hn with
    | m :: l, hn =>
      rw [collect_cons, coeffOf_cons, ih (zeroOut m.alpha l) (by simpa [zeroOut_length] using hn),
        coeffOf_zeroOut, coeffOf_cons]
      by_cases h : m.alpha = a
      · simp [h]
      · have h' : ¬ a = m.alpha := fun e => h e.symm
        simp [h, h']

omit [LinearOrder K] in
theorem collect_zero (l : Poly K) (a : MultiIndex) (h : ∀ m ∈ l, m.alpha = a → m.coef = 0) :
    ∀ m ∈ collect l, m.alpha = a → m.coef = 0 := by
  induction hn : l.length generalizing l with
  | zero => rw [List.length_eq_zero_iff.1 hn]; simp [collect_nil]
  | succ n ih =>
    match l, hn with
    | m :: l, hn =>
      rw [collect_cons]
      intro k hk hka
      rcases List.mem_cons.1 hk with rfl | hk
      · simp only at hka ⊢
        rw [h m (by simp) hka, hka, coeffOf_eq_zero (fun k hk => h k (by simp [hk])), add_zero]
      · refine ih (zeroOut m.alpha l) ?_ (by simpa [zeroOut_length] using hn) k hk hka
        intro j hj hja
        simp only [zeroOut, List.mem_map] at hj
        obtain ⟨i, hi, rfl⟩ := hj
        by_cases hc : i.alpha = m.alpha
        · simp [hc, Mono.smul]
        · rw [if_neg hc] at hja ⊢
          exact h i (by simp [hi]) hja

omit [LinearOrder K] in
theorem collect_alpha_mem (l : Poly K) : ∀ m ∈ collect l, ∃ n ∈ l, n.alpha = m.alpha := by
  induction hn : l.length generalizing l with
  | zero => rw [List.length_eq_zero_iff.1 hn]; simp [collect_nil]
  | succ n ih =>
    match l, hn with
    | m :: l, hn =>
      rw [collect_cons]
      intro k hk
      rcases List.mem_cons.1 hk with rfl | hk
      · exact ⟨m, by simp, rfl⟩
      · obtain ⟨j, hj, hja⟩ := ih (zeroOut m.alpha l) (by simpa [zeroOut_length] using hn) k hk
        simp only [zeroOut, List.mem_map] at hj
        obtain ⟨i, hi, rfl⟩ := hj
        refine ⟨i, by simp [hi], ?_⟩
        rw [← hja]; split <;> simp [Mono.smul]

omit [LinearOrder K] in
theorem collect_pairwise (l : Poly K) :
    (collect l).Pairwise (fun m n => m.alpha = n.alpha → n.coef = 0) := by
  induction hn : l.length generalizing l with
  | zero => rw [List.length_eq_zero_iff.1 hn]; simp [collect_nil]
  | succ n ih =>
    match l, hn with
    | m :: l, hn =>
      rw [collect_cons, List.pairwise_cons]
      refine ⟨?_, ih (zeroOut m.alpha l) (by simpa [zeroOut_length] using hn)⟩
      intro k hk hka
      refine collect_zero (zeroOut m.alpha l) m.alpha ?_ k hk hka.symm
      intro j hj hja
      simp only [zeroOut, List.mem_map] at hj
      obtain ⟨i, hi, rfl⟩ := hj
      by_cases hc : i.alpha = m.alpha
      · simp [hc, Mono.smul]
      · rw [if_neg hc] at hja
        exact absurd hja hc

omit [LinearOrder K] in
theorem collect_length (l : Poly K) : (collect l).length = l.length := by
  induction hn : l.length generalizing l with
  | zero => rw [List.length_eq_zero_iff.1 hn]; rfl
  | succ n ih =>
    match l, hn with
    | m :: l, hn =>
      rw [collect_cons, List.length_cons, ih (zeroOut m.alpha l) (by simpa [zeroOut_length] using hn)]

/-! ### sort -/

omit [Field K] [LinearOrder K] in
theorem insertBack_perm (m : Mono K) (l : Poly K) : (insertBack m l).Perm (m :: l) := by
  induction l with
  | nil => simp [insertBack]
  | cons n rest ih =>
    unfold insertBack; split
    · exact (ih.cons n).trans (List.Perm.swap m n rest)
    · exact List.Perm.refl _

omit [Field K] [LinearOrder K] in
theorem sort_perm (p : Poly K) : (sort p).Perm p := by
  unfold sort
  refine (List.reverse_perm _).trans ?_
  have : ∀ acc : Poly K, (p.foldl (fun acc m => insertBack m acc) acc).Perm (p ++ acc) := by
    induction p with
    | nil => intro acc; simp
    | cons m p ih =>
      intro acc
      simp only [List.foldl_cons]
      refine (ih _).trans ?_
      refine ((insertBack_perm m acc).append_left p).trans ?_
      exact List.perm_middle
  simpa using this []

omit [Field K] [LinearOrder K] in
theorem insertBack_sorted (m : Mono K) (l : Poly K)
    (h : l.Pairwise (fun a b => b.alpha.idx ≤ a.alpha.idx)) :
    (insertBack m l).Pairwise (fun a b => b.alpha.idx ≤ a.alpha.idx) := by
  induction l with
  | nil => simp [insertBack]
  | cons n rest ih =>
    rw [List.pairwise_cons] at h
    unfold insertBack
    by_cases hg : n.gt m = true
    · simp only [hg, if_true, List.pairwise_cons]
      refine ⟨?_, ih h.2⟩
      intro k hk
      rcases List.mem_cons.1 ((insertBack_perm m rest).subset hk) with rfl | hk
      · simp [Mono.gt] at hg; omega
      · exact h.1 k hk
    · rw [if_neg hg]
      have hle : n.alpha.idx ≤ m.alpha.idx := by simp [Mono.gt] at hg; exact hg
      rw [List.pairwise_cons]
      refine ⟨?_, List.pairwise_cons.2 h⟩
      intro k hk
      rcases List.mem_cons.1 hk with rfl | hk
      · exact hle
      · exact (h.1 k hk).trans hle

omit [Field K] [LinearOrder K] in
theorem sort_sorted (p : Poly K) : (sort p).Pairwise (fun a b => a.alpha.idx ≤ b.alpha.idx) := by
  unfold sort
  rw [List.pairwise_reverse]
  have : ∀ acc : Poly K, acc.Pairwise (fun a b => b.alpha.idx ≤ a.alpha.idx) →
      (p.foldl (fun acc m => insertBack m acc) acc).Pairwise
        (fun a b => b.alpha.idx ≤ a.alpha.idx) := by
    induction p with
    | nil => intro acc h; simpa using h
    | cons m p ih => intro acc h; exact ih _ (insertBack_sorted m acc h)
  exact this [] List.Pairwise.nil

omit [Field K] [LinearOrder K] in
theorem sort_eq_self {p : Poly K} (h : p.Pairwise (fun m n => m.alpha.idx < n.alpha.idx)) :
    sort p = p := by
  refine List.Perm.eq_of_pairwise (le := fun a b => a.alpha.idx ≤ b.alpha.idx) ?_ (sort_sorted p)
    (h.imp fun h => h.le) (sort_perm p)
  intro a b ha hb h1 h2
  have hb' : b ∈ p := hb
  have ha' : a ∈ p := (sort_perm p).subset ha
  have hi : a.alpha.idx = b.alpha.idx := le_antisymm h1 h2
  by_contra hne
  have hnd : p.Pairwise (fun m n => m.alpha.idx ≠ n.alpha.idx) := h.imp fun h => h.ne
  exact (hnd.forall ha' hb' hne) hi

/-! ### consolidate -/

variable [IsStrictOrderedRing K]

theorem consolidate_perm (p : Poly K) :
    (consolidate p).Perm ((collect p).filter (fun m => !m.isZero)) := by
  unfold consolidate; rw [removeZeros_eq]; exact sort_perm _

theorem filter_distinct {l : Poly K}
    (h : l.Pairwise (fun m n => m.alpha = n.alpha → n.coef = 0)) :
    (l.filter (fun m => !m.isZero)).Pairwise (fun m n => m.alpha.idx ≠ n.alpha.idx) := by
  have h1 := h.filter (fun m => !m.isZero)
  refine List.Pairwise.imp_of_mem ?_ h1
  intro m n _ hn hmn he
  have h0 := hmn (MultiIndex.idx_inj he)
  have := (List.mem_filter.1 hn).2
  simp [Mono.isZero, h0] at this
  exact absurd tol_pos (not_lt.2 this)

theorem consolidate_canonical (p : Poly K) : Canonical (consolidate p) := by
  constructor
  · have h1 : (consolidate p).Pairwise (fun m n => m.alpha.idx ≠ n.alpha.idx) :=
      ((consolidate_perm p).pairwise_iff (fun {_ _} h => Ne.symm h)).2 (filter_distinct (collect_pairwise p))
    have h2 : (consolidate p).Pairwise (fun m n => m.alpha.idx ≤ n.alpha.idx) := sort_sorted _
    exact (h1.and h2).imp fun h => lt_of_le_of_ne h.2 h.1
  · intro m hm
    have := (List.mem_filter.1 ((consolidate_perm p).subset hm)).2
    simpa [Mono.isZero] using this

theorem coeffOf_filter_chop {l : Poly K}
    (h : l.Pairwise (fun m n => m.alpha = n.alpha → n.coef = 0)) (a : MultiIndex) :
    coeffOf (l.filter (fun m => !m.isZero)) a = chop (coeffOf l a) := by
  induction l with
  | nil => simp [coeffOf_nil, chop_zero]
  | cons m l ih =>
    rw [List.pairwise_cons] at h
    by_cases ha : m.alpha = a
    · have h0 : coeffOf l a = 0 := coeffOf_eq_zero fun n hn hna => h.1 n hn (ha.trans hna.symm)
      have h1 := ih h.2
      rw [h0, chop_zero] at h1
      rw [coeffOf_cons, if_pos ha, h0, add_zero]
      by_cases hz : m.isZero = true
      · rw [List.filter_cons_of_neg (by simp [hz]), h1, chop_of_lt ((Mono.isZero_iff m).1 hz)]
      · rw [List.filter_cons_of_pos (by simp [hz]), coeffOf_cons, if_pos ha, h1, add_zero,
          chop_of_le (not_lt.1 fun e => hz ((Mono.isZero_iff m).2 e))]
    · rw [coeffOf_cons, if_neg ha, zero_add, ← ih h.2]
      by_cases hz : m.isZero = true
      · rw [List.filter_cons_of_neg (by simp [hz])]
      · rw [List.filter_cons_of_pos (by simp [hz]), coeffOf_cons, if_neg ha, zero_add]

/-- full description of `consolidate`: the total coefficients, with near-zero ones removed -/
theorem coeffOf_consolidate (p : Poly K) (a : MultiIndex) :
    coeffOf (consolidate p) a = chop (coeffOf p a) := by
  rw [coeffOf_perm (consolidate_perm p), coeffOf_filter_chop (collect_pairwise p), coeffOf_collect]

/-! ### canonical lists -/

omit [IsStrictOrderedRing K] in
theorem Canonical.distinct {p : Poly K} (h : Canonical p) {m n : Mono K} (hm : m ∈ p) (hn : n ∈ p)
    (he : m.alpha = n.alpha) : m = n := by
  by_contra hne
  have hnd : p.Pairwise (fun m n => m.alpha.idx ≠ n.alpha.idx) := h.1.imp fun h => h.ne
  exact (hnd.forall hm hn hne) (by rw [he])

omit [IsStrictOrderedRing K] in
theorem Canonical.tail {m : Mono K} {p : Poly K} (h : Canonical (m :: p)) : Canonical p :=
  ⟨(List.pairwise_cons.1 h.1).2, fun n hn => h.2 n (by simp [hn])⟩

omit [IsStrictOrderedRing K] in
theorem Canonical.coeffOf_mem {p : Poly K} (h : Canonical p) {m : Mono K} (hm : m ∈ p) :
    coeffOf p m.alpha = m.coef := by
  induction p with
  | nil => simp at hm
  | cons n p ih =>
    rw [coeffOf_cons]
    by_cases he : n.alpha = m.alpha
    · have hnm : n = m := h.distinct (by simp) hm he
      subst hnm
      rw [if_pos rfl, coeffOf_eq_zero, add_zero]
      intro k hk hka
      have := (List.pairwise_cons.1 h.1).1 k hk
      rw [hka] at this; omega
    · rw [if_neg he, zero_add]
      rcases List.mem_cons.1 hm with rfl | hm
      · exact absurd rfl he
      · exact ih h.tail hm

theorem Canonical.mem_iff {p : Poly K} (h : Canonical p) (m : Mono K) :
    m ∈ p ↔ coeffOf p m.alpha = m.coef ∧ m.coef ≠ 0 := by
  constructor
  · intro hm
    refine ⟨h.coeffOf_mem hm, fun h0 => ?_⟩
    have := h.2 m hm
    rw [h0, abs_zero] at this
    exact absurd tol_pos (not_lt.2 this)
  · rintro ⟨h1, h2⟩
    by_contra hm
    apply h2
    rw [← h1]
    by_cases hex : ∃ n ∈ p, n.alpha = m.alpha
    · obtain ⟨n, hn, hna⟩ := hex
      exfalso; apply hm
      have h3 := h.coeffOf_mem hn
      rw [hna, h1] at h3
      have : n = m := by cases n; cases m; simp_all
      exact this ▸ hn
    · push Not at hex
      exact coeffOf_eq_zero fun n hn hna => absurd hna (hex n hn)

theorem Canonical.clean {p : Poly K} (h : Canonical p) (a : MultiIndex) :
    coeffOf p a = 0 ∨ tol K ≤ |coeffOf p a| := by
  by_cases h0 : coeffOf p a = 0
  · exact Or.inl h0
  · right
    exact h.2 ⟨a, coeffOf p a⟩ ((h.mem_iff _).2 ⟨rfl, h0⟩)

theorem Canonical.chop_coeffOf {p : Poly K} (h : Canonical p) (a : MultiIndex) :
    chop (coeffOf p a) = coeffOf p a := by
  rcases h.clean a with h0 | h0
  · rw [h0, chop_zero]
  · exact chop_of_le h0

theorem Canonical.ext {p q : Poly K} (hp : Canonical p) (hq : Canonical q)
    (h : ∀ a, coeffOf p a = coeffOf q a) : p = q := by
  have hnp : p.Nodup := hp.1.imp fun h e => by rw [e] at h; omega
  have hnq : q.Nodup := hq.1.imp fun h e => by rw [e] at h; omega
  have hperm : p.Perm q := by
    rw [List.perm_ext_iff_of_nodup hnp hnq]
    intro m; rw [hp.mem_iff, hq.mem_iff, h]
  refine List.Perm.eq_of_pairwise (le := fun a b => a.alpha.idx < b.alpha.idx) ?_ hp.1 hq.1 hperm
  intro a b _ _ h1 h2; omega

theorem consolidate_eq_self {p : Poly K} (h : Canonical p) : consolidate p = p :=
  (consolidate_canonical p).ext h fun a => by rw [coeffOf_consolidate, h.chop_coeffOf]

theorem Canonical.filter_eq {p : Poly K} (h : Canonical p) : p.filter (fun m => !m.isZero) = p := by
  rw [List.filter_eq_self]
  intro m hm
  have := h.2 m hm
  simp [Mono.isZero, this]

theorem Canonical.nil : Canonical ([] : Poly K) := by simp [Canonical]

theorem Canonical.filter {p : Poly K} (h : Canonical p) (f : Mono K → Bool) :
    Canonical (p.filter f) :=
  ⟨h.1.filter f, fun m hm => h.2 m (List.mem_filter.1 hm).1⟩

end Poly
end PFEM
