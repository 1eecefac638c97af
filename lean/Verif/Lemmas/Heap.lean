import Verif.Model.Heap
import Verif.Lemmas.PolyPure

set_option linter.unusedSectionVars false

namespace PFEM
namespace Heap

variable {K : Type} [Field K] [LinearOrder K]

/-- `h'` extends `h` by new monomial objects only -/
structure Ext (h h' : Heap K) : Prop where
  next : h.next ≤ h'.next
  mono : ∀ r < h.next, h'.mono r = h.mono r
  poly : h'.poly = h.poly
  nextP : h'.nextP = h.nextP

/-- all references exist -/
def VL (h : Heap K) (l : List ℕ) : Prop := ∀ r ∈ l, r < h.next

/-- all polynomial objects refer to existing monomials -/
def WF (h : Heap K) : Prop := ∀ i < h.nextP, VL h (h.poly i)

theorem Ext.refl (h : Heap K) : Ext h h := ⟨le_refl _, fun _ _ => rfl, rfl, rfl⟩

theorem Ext.trans {a b c : Heap K} (h1 : Ext a b) (h2 : Ext b c) : Ext a c :=
  ⟨h1.next.trans h2.next, fun r hr => (h2.mono r (lt_of_lt_of_le hr h1.next)).trans (h1.mono r hr),
    h2.poly.trans h1.poly, h2.nextP.trans h1.nextP⟩

theorem VL.ext {h h' : Heap K} {l : List ℕ} (hl : VL h l) (e : Ext h h') : VL h' l :=
  fun r hr => lt_of_lt_of_le (hl r hr) e.next

theorem map_ext {h h' : Heap K} {l : List ℕ} (hl : VL h l) (e : Ext h h') :
    l.map h'.mono = l.map h.mono := List.map_congr_left fun r hr => e.mono r (hl r hr)

theorem newMono_ext (h : Heap K) (m : Mono K) : Ext h (h.newMono m).1 :=
  ⟨by simp [newMono], fun r hr => by simp [newMono, Function.update_of_ne hr.ne], rfl, rfl⟩

theorem newMono_get (h : Heap K) (m : Mono K) : (h.newMono m).1.mono (h.newMono m).2 = m := by
  simp [newMono]

theorem newMono_lt (h : Heap K) (m : Mono K) : (h.newMono m).2 < (h.newMono m).1.next := by
  simp [newMono]

theorem VL.cons {h : Heap K} {r : ℕ} {l : List ℕ} : VL h (r :: l) ↔ r < h.next ∧ VL h l := by
  simp [VL]

theorem absorb_spec (h : Heap K) (r : ℕ) (l : List ℕ) (hr : r < h.next) (hl : VL h l) :
    Ext h (h.absorb r l).1 ∧ (h.absorb r l).2.1 < (h.absorb r l).1.next ∧
    VL (h.absorb r l).1 (h.absorb r l).2.2 ∧
    (h.absorb r l).1.mono (h.absorb r l).2.1 = (Poly.absorb (h.mono r) (l.map h.mono)).1 ∧
    (h.absorb r l).2.2.map (h.absorb r l).1.mono = (Poly.absorb (h.mono r) (l.map h.mono)).2 := by
  induction l generalizing h r with
  | nil => exact ⟨Ext.refl h, hr, by simp [absorb, VL], rfl, rfl⟩
  | cons q l ih =>
    obtain ⟨hq, hl⟩ := VL.cons.1 hl
    unfold absorb
    simp only [List.map_cons, Poly.absorb]
    by_cases hc : (h.mono r).alpha.eq (h.mono q).alpha = true
    · simp only [hc, if_true]
      set a := h.newMono ⟨(h.mono r).alpha, (h.mono r).coef + (h.mono q).coef⟩ with ha
      have ea : Ext h a.1 := newMono_ext _ _
      have ga : a.1.mono a.2 = ⟨(h.mono r).alpha, (h.mono r).coef + (h.mono q).coef⟩ := newMono_get _ _
      have la : a.2 < a.1.next := newMono_lt _ _
      set b := a.1.monoSmul q 0 with hb
      have eb : Ext a.1 b.1 := newMono_ext _ _
      have gb : b.1.mono b.2 = (a.1.mono q).smul 0 := newMono_get _ _
      have lb : b.2 < b.1.next := newMono_lt _ _
      have eab := ea.trans eb
      obtain ⟨e, l1, l2, g1, g2⟩ := ih b.1 a.2 (lt_of_lt_of_le la eb.next) (hl.ext eab)
      rw [eb.mono _ la, ga, map_ext hl eab] at g1 g2
      refine ⟨eab.trans e, l1, ?_, g1, ?_⟩
      · rw [VL.cons]; exact ⟨lt_of_lt_of_le lb e.next, l2⟩
      · rw [List.map_cons, g2, e.mono _ lb, gb, ea.mono _ hq]
    · simp only [hc]
      obtain ⟨e, l1, l2, g1, g2⟩ := ih h r hr hl
      refine ⟨e, l1, ?_, by simpa using g1, ?_⟩
      · simp only [Bool.false_eq_true, if_false]
        rw [VL.cons]; exact ⟨lt_of_lt_of_le hq e.next, l2⟩
      · simp only [Bool.false_eq_true, if_false]
        rw [List.map_cons, g2, e.mono _ hq]

theorem collectN_spec (n : ℕ) (h : Heap K) (l : List ℕ) (hl : VL h l) :
    Ext h (collectN n h l).1 ∧ VL (collectN n h l).1 (collectN n h l).2 ∧
    (collectN n h l).2.map (collectN n h l).1.mono = Poly.collectN n (l.map h.mono) := by
  induction n generalizing h l with
  | zero => exact ⟨by cases l <;> exact Ext.refl h, by cases l <;> exact hl, by cases l <;> rfl⟩
  | succ n ih =>
    cases l with
    | nil => exact ⟨Ext.refl h, hl, rfl⟩
    | cons r l =>
      obtain ⟨hr, hl⟩ := VL.cons.1 hl
      obtain ⟨e, l1, l2, g1, g2⟩ := absorb_spec h r l hr hl
      obtain ⟨e', l', g'⟩ := ih _ _ l2
      unfold collectN
      simp only [List.map_cons, Poly.collectN]
      refine ⟨e.trans e', ?_, ?_⟩
      · rw [VL.cons]; exact ⟨lt_of_lt_of_le l1 e'.next, l'⟩
      · rw [g', g2, e'.mono _ l1, g1]

theorem removeZerosFrom_map (h : Heap K) (i : ℕ) (l : List ℕ) :
    (removeZerosFrom h i l).map h.mono = Poly.removeZerosFrom i (l.map h.mono) ∧
      ∀ r ∈ removeZerosFrom h i l, r ∈ l := by
  induction i generalizing l with
  | zero => exact ⟨rfl, fun r hr => hr⟩
  | succ i ih =>
    unfold removeZerosFrom Poly.removeZerosFrom
    rw [List.getElem?_map]
    cases hg : l[i]? with
    | none => simpa using ih l
    | some r =>
      simp only [Option.map_some]
      by_cases hz : (h.mono r).isZero = true
      · simp only [hz, if_true]
        obtain ⟨h1, h2⟩ := ih (l.eraseIdx i)
        refine ⟨by rw [h1, List.eraseIdx_map], fun q hq => List.mem_of_mem_eraseIdx (h2 q hq)⟩
      · simp only [hz]; exact ih l

theorem insertBack_map (h : Heap K) (r : ℕ) (l : List ℕ) :
    (insertBack h r l).map h.mono = Poly.insertBack (h.mono r) (l.map h.mono) := by
  induction l with
  | nil => rfl
  | cons q l ih =>
    simp only [insertBack, Poly.insertBack, List.map_cons]
    split <;> simp [ih]

theorem insertBack_perm (h : Heap K) (r : ℕ) (l : List ℕ) : (insertBack h r l).Perm (r :: l) := by
  induction l with
  | nil => exact List.Perm.refl _
  | cons q l ih =>
    unfold insertBack
    split
    · exact (ih.cons q).trans (List.Perm.swap _ _ _)
    · exact List.Perm.refl _

theorem sort_aux (h : Heap K) (l acc : List ℕ) :
    (l.foldl (fun acc r => insertBack h r acc) acc).map h.mono =
      (l.map h.mono).foldl (fun acc m => Poly.insertBack m acc) (acc.map h.mono) ∧
    (l.foldl (fun acc r => insertBack h r acc) acc).Perm (acc ++ l) := by
  induction l generalizing acc with
  | nil => simp
  | cons r l ih =>
    obtain ⟨h1, h2⟩ := ih (insertBack h r acc)
    simp only [List.foldl_cons, List.map_cons]
    refine ⟨by rw [h1, insertBack_map], h2.trans ?_⟩
    refine ((insertBack_perm h r acc).append_right l).trans ?_
    simpa using (List.perm_middle (a := r) (l₁ := acc) (l₂ := l)).symm

theorem sort_map (h : Heap K) (l : List ℕ) : (h.sort l).map h.mono = Poly.sort (l.map h.mono) := by
  unfold sort Poly.sort
  rw [List.map_reverse, (sort_aux h l []).1]; rfl

theorem sort_perm (h : Heap K) (l : List ℕ) : (h.sort l).Perm l := by
  unfold sort
  exact (List.reverse_perm _).trans (by simpa using (sort_aux h l []).2)

theorem consolidate_spec (h : Heap K) (l : List ℕ) (hl : VL h l) :
    Ext h (h.consolidate l).1 ∧ VL (h.consolidate l).1 (h.consolidate l).2 ∧
    (h.consolidate l).2.map (h.consolidate l).1.mono = Poly.consolidate (l.map h.mono) := by
  obtain ⟨e, l1, g⟩ := collectN_spec l.length h l hl
  unfold consolidate Poly.consolidate Poly.collect Poly.removeZeros
  simp only [List.length_map]
  refine ⟨e, ?_, ?_⟩
  · intro r hr
    rw [(sort_perm _ _).mem_iff] at hr
    exact l1 r ((removeZerosFrom_map _ _ _).2 r hr)
  · rw [sort_map, (removeZerosFrom_map _ _ _).1, g, ← g, List.length_map]

theorem addMonomial_map (h : Heap K) (l : List ℕ) (r : ℕ) :
    (h.addMonomial l r).map h.mono = Poly.addMonomial (l.map h.mono) (h.mono r) := by
  unfold addMonomial Poly.addMonomial
  split <;> simp

theorem addMonomial_VL {h : Heap K} {l : List ℕ} {r : ℕ} (hl : VL h l) (hr : r < h.next) :
    VL h (h.addMonomial l r) := by
  unfold addMonomial
  split
  · exact hl
  · intro q hq
    rcases List.mem_append.1 hq with hq | hq
    · exact hl q hq
    · simp at hq; exact hq ▸ hr

theorem addAll_spec (h : Heap K) (l rs : List ℕ) (hl : VL h l) (hrs : VL h rs) :
    (h.addAll l rs).map h.mono = Poly.addAll (l.map h.mono) (rs.map h.mono) ∧ VL h (h.addAll l rs) := by
  induction rs generalizing l with
  | nil => exact ⟨rfl, hl⟩
  | cons r rs ih =>
    obtain ⟨hr, hrs⟩ := VL.cons.1 hrs
    obtain ⟨h1, h2⟩ := ih (h.addMonomial l r) (addMonomial_VL hl hr) hrs
    refine ⟨?_, h2⟩
    rw [addMonomial_map] at h1
    exact h1

theorem VL_nil (h : Heap K) : VL h [] := fun _ hr => by simp at hr

/-- effect of an operator that creates one polynomial object with value `p` and leaves everything else alone -/
structure Makes (h : Heap K) (res : Heap K × ℕ) (p : Poly K) : Prop where
  next : h.next ≤ res.1.next
  mono : ∀ r < h.next, res.1.mono r = h.mono r
  poly : ∀ i < h.nextP, res.1.poly i = h.poly i
  fresh : res.2 = h.nextP ∧ res.1.nextP = h.nextP + 1
  vl : VL res.1 (res.1.poly res.2)
  val : res.1.val res.2 = p

theorem makes_newPoly {h h' : Heap K} {l : List ℕ} {p : Poly K} (e : Ext h h') (hl : VL h' l)
    (g : l.map h'.mono = p) : Makes h (h'.newPoly l) p := by
  refine ⟨e.next, e.mono, ?_, ⟨e.nextP, by simp [newPoly, e.nextP]⟩, ?_, ?_⟩
  · intro i hi
    rw [← e.nextP] at hi
    simp [newPoly, Function.update_of_ne hi.ne, e.poly]
  · simpa [newPoly, VL] using hl
  · simpa [newPoly, val] using g

theorem polyCopy_makes (h : Heap K) (wf : WF h) (i : ℕ) (hi : i < h.nextP) :
    Makes h (h.polyCopy i) (Poly.copy (h.val i)) := by
  obtain ⟨g1, l1⟩ := addAll_spec h [] (h.poly i) (VL_nil h) (wf i hi)
  obtain ⟨e, l2, g2⟩ := consolidate_spec h _ l1
  exact makes_newPoly e l2 (by rw [g2, g1]; rfl)

theorem polyAdd_makes (h : Heap K) (i j : ℕ) (hi : VL h (h.poly i)) (hj : VL h (h.poly j)) :
    Makes h (h.polyAdd i j) (Poly.add (h.val i) (h.val j)) := by
  obtain ⟨g0, l0⟩ := addAll_spec h [] (h.poly i) (VL_nil h) hi
  obtain ⟨g1, l1⟩ := addAll_spec h _ (h.poly j) l0 hj
  obtain ⟨e, l2, g2⟩ := consolidate_spec h _ l1
  exact makes_newPoly e l2 (by rw [g2, g1, g0]; rfl)

theorem polyAddScalar_makes [IsStrictOrderedRing K] (h : Heap K) (wf : WF h) (i : ℕ) (c : K) (hi : i < h.nextP) :
    ∃ res p, h.polyAddScalar i c = .ok res ∧ Poly.addScalar (h.val i) c = .ok p ∧ Makes h res p := by
  obtain ⟨g0, l0⟩ := addAll_spec h [] (h.poly i) (VL_nil h) (wf i hi)
  unfold polyAddScalar Poly.addScalar
  rw [Poly.constMono_ok]
  refine ⟨_, _, rfl, rfl, ?_⟩
  set a := h.newMono ⟨⟨0, 0⟩, c⟩ with ha
  have ea : Ext h a.1 := newMono_ext _ _
  have ga : a.1.mono a.2 = ⟨⟨0, 0⟩, c⟩ := newMono_get _ _
  have la : a.2 < a.1.next := newMono_lt _ _
  obtain ⟨e, l2, g2⟩ := consolidate_spec a.1 _ (addMonomial_VL (l0.ext ea) la)
  refine makes_newPoly (ea.trans e) l2 ?_
  rw [g2, addMonomial_map, ga, map_ext l0 ea, g0]
  rfl

theorem mulInner_spec (r : ℕ) (h : Heap K) (new l : List ℕ) (hr : r < h.next) (hn : VL h new) (hl : VL h l)
    {p : Poly K} (hp : Poly.mulInner (h.mono r) (new.map h.mono) (l.map h.mono) = .ok p) :
    ∃ a, mulInner r h new l = .ok a ∧ Ext h a.1 ∧ VL a.1 a.2 ∧ a.2.map a.1.mono = p := by
  induction l generalizing h new with
  | nil =>
    simp only [List.map_nil, Poly.mulInner, Except.ok.injEq] at hp
    exact ⟨_, rfl, Ext.refl h, hn, hp⟩
  | cons q l ih =>
    obtain ⟨hq, hl⟩ := VL.cons.1 hl
    simp only [List.map_cons, Poly.mulInner] at hp
    unfold mulInner monoMul
    cases hm : (h.mono r).mul (h.mono q) with
    | error e => simp [hm, bind, Except.bind] at hp
    | ok m =>
      simp only [hm, bind, Except.bind] at hp ⊢
      set a := h.newMono m with ha
      have ea : Ext h a.1 := newMono_ext _ _
      have ga : a.1.mono a.2 = m := newMono_get _ _
      have la : a.2 < a.1.next := newMono_lt _ _
      obtain ⟨b, hb, eb, lb, gb⟩ := ih a.1 (a.1.addMonomial new a.2) (lt_of_lt_of_le hr ea.next)
        (addMonomial_VL (hn.ext ea) la) (hl.ext ea)
        (by rw [addMonomial_map, ga, ea.mono _ hr, map_ext hn ea, map_ext hl ea]; exact hp)
      exact ⟨b, hb, ea.trans eb, lb, gb⟩

theorem mulLoop_spec (qs : List ℕ) (h : Heap K) (new l : List ℕ) (hqs : VL h qs) (hn : VL h new) (hl : VL h l)
    {p : Poly K} (hp : Poly.mulLoop (qs.map h.mono) (new.map h.mono) (l.map h.mono) = .ok p) :
    ∃ a, mulLoop qs h new l = .ok a ∧ Ext h a.1 ∧ VL a.1 a.2 ∧ a.2.map a.1.mono = p := by
  induction l generalizing h new with
  | nil =>
    simp only [List.map_nil, Poly.mulLoop, Except.ok.injEq] at hp
    exact ⟨_, rfl, Ext.refl h, hn, hp⟩
  | cons r l ih =>
    obtain ⟨hr, hl⟩ := VL.cons.1 hl
    simp only [List.map_cons, Poly.mulLoop] at hp
    cases hm : Poly.mulInner (h.mono r) (new.map h.mono) (qs.map h.mono) with
    | error e => simp [hm, bind, Except.bind] at hp
    | ok p1 =>
      simp only [hm, bind, Except.bind] at hp
      obtain ⟨a, ha, ea, la, ga⟩ := mulInner_spec r h new qs hr hn hqs hm
      obtain ⟨b, hb, eb, lb, gb⟩ := ih a.1 a.2 (hqs.ext ea) la (hl.ext ea)
        (by rw [map_ext hqs ea, map_ext hl ea, ga]; exact hp)
      refine ⟨b, ?_, ea.trans eb, lb, gb⟩
      unfold mulLoop
      simp only [ha, bind, Except.bind, hb]

theorem polyMul_makes [IsStrictOrderedRing K] (h : Heap K) (wf : WF h) (i j : ℕ) (hi : i < h.nextP)
    (hj : j < h.nextP) :
    ∃ res p, h.polyMul i j = .ok res ∧ Poly.mul (h.val i) (h.val j) = .ok p ∧ Makes h res p := by
  have h1 := Poly.mulLoop_ok (h.val j) [] (h.val i)
  obtain ⟨a, ha, ea, la, ga⟩ := mulLoop_spec (h.poly j) h [] (h.poly i) (wf j hj) (VL_nil h) (wf i hi) h1
  obtain ⟨e, l2, g2⟩ := consolidate_spec a.1 _ la
  refine ⟨_, _, ?_, ?_, makes_newPoly (ea.trans e) l2 rfl⟩
  · unfold polyMul; simp only [ha, bind, Except.bind]
  · unfold Poly.mul; rw [h1, g2, ga]; rfl

theorem smulLoop_spec (c : K) (h : Heap K) (new l : List ℕ) (hn : VL h new) (hl : VL h l) :
    Ext h (smulLoop c h new l).1 ∧ VL (smulLoop c h new l).1 (smulLoop c h new l).2 ∧
      (smulLoop c h new l).2.map (smulLoop c h new l).1.mono =
        Poly.addAll (new.map h.mono) ((l.map h.mono).map fun m => m.smul c) := by
  induction l generalizing h new with
  | nil => exact ⟨Ext.refl h, hn, rfl⟩
  | cons r l ih =>
    obtain ⟨hr, hl⟩ := VL.cons.1 hl
    unfold smulLoop
    set a := h.monoCopy r with ha
    have ea : Ext h a.1 := newMono_ext _ _
    have ga : a.1.mono a.2 = h.mono r := newMono_get _ _
    have la : a.2 < a.1.next := newMono_lt _ _
    set b := a.1.monoSmul a.2 c with hb
    have eb : Ext a.1 b.1 := newMono_ext _ _
    have gb : b.1.mono b.2 = (a.1.mono a.2).smul c := newMono_get _ _
    have lb : b.2 < b.1.next := newMono_lt _ _
    have e := ea.trans eb
    obtain ⟨e1, l1, g1⟩ := ih b.1 (b.1.addMonomial new b.2) (addMonomial_VL (hn.ext e) lb) (hl.ext e)
    refine ⟨e.trans e1, l1, ?_⟩
    rw [g1, addMonomial_map, gb, ga, map_ext hn e, map_ext hl e]
    rfl

theorem polySmul_makes (h : Heap K) (wf : WF h) (i : ℕ) (c : K) (hi : i < h.nextP) :
    Makes h (h.polySmul i c) (Poly.smul (h.val i) c) := by
  obtain ⟨e, l, g⟩ := smulLoop_spec c h [] (h.poly i) (VL_nil h) (wf i hi)
  exact makes_newPoly e l g

theorem Makes.wf {h : Heap K} {res : Heap K × ℕ} {p : Poly K} (m : Makes h res p) (wf : WF h) : WF res.1 := by
  intro i hi
  rw [m.fresh.2] at hi
  by_cases h1 : i < h.nextP
  · rw [m.poly i h1]
    exact fun r hr => lt_of_lt_of_le (wf i h1 r hr) m.next
  · have : i = res.2 := by rw [m.fresh.1]; omega
    rw [this]; exact m.vl

theorem Makes.val_old {h : Heap K} {res : Heap K × ℕ} {p : Poly K} (m : Makes h res p) (wf : WF h) (i : ℕ)
    (hi : i < h.nextP) : res.1.val i = h.val i := by
  unfold Heap.val
  rw [m.poly i hi]
  exact List.map_congr_left fun r hr => m.mono r (wf i hi r hr)

theorem addAll_congr {h h' : Heap K} (e : h'.mono = h.mono) (l rs : List ℕ) : h'.addAll l rs = h.addAll l rs := by
  have : h'.addMonomial = h.addMonomial := by funext l r; simp [addMonomial, e]
  simp [addAll, this]

theorem iaddLoop_distinct (i j fuel k : ℕ) (h : Heap K) (hij : i ≠ j) (hf : (h.poly j).length - k < fuel) :
    iaddLoop i j fuel k h =
      some { h with poly := Function.update h.poly i (h.addAll (h.poly i) ((h.poly j).drop k)) } := by
  induction fuel generalizing k h with
  | zero => omega
  | succ fuel ih =>
    unfold iaddLoop
    cases hg : (h.poly j)[k]? with
    | none =>
      have hk : (h.poly j).length ≤ k := by rwa [List.getElem?_eq_none_iff] at hg
      have : (h.poly j).drop k = [] := List.drop_of_length_le hk
      rw [this]
      simp [addAll]
    | some r =>
      obtain ⟨hk, hr⟩ := List.getElem?_eq_some_iff.1 hg
      have e : Function.update h.poly i (h.addMonomial (h.poly i) r) j = h.poly j :=
        Function.update_of_ne hij.symm _ _
      simp only
      rw [ih]
      · simp only [e]
        rw [List.drop_eq_getElem_cons hk, hr]
        simp only [Function.update_self, Function.update_idem]
        rfl
      · simp only [e]; omega

theorem polyIadd_distinct (fuel : ℕ) (h : Heap K) (wf : WF h) (i j : ℕ) (hi : i < h.nextP) (hj : j < h.nextP)
    (hij : i ≠ j) (hf : (h.poly j).length < fuel) :
    ∃ h', h.polyIadd fuel i j = some h' ∧ h'.val i = Poly.iadd (h.val i) (h.val j) ∧ WF h' ∧
      h.next ≤ h'.next ∧ h'.nextP = h.nextP ∧ (∀ r < h.next, h'.mono r = h.mono r) ∧
      ∀ k, k ≠ i → h'.poly k = h.poly k := by
  have h1 := iaddLoop_distinct i j fuel 0 h hij (by omega)
  rw [List.drop_zero] at h1
  obtain ⟨g0, l0⟩ := addAll_spec h (h.poly i) (h.poly j) (wf i hi) (wf j hj)
  set h2 : Heap K := { h with poly := Function.update h.poly i (h.addAll (h.poly i) (h.poly j)) } with hh2
  have e2 : h2.poly i = h.addAll (h.poly i) (h.poly j) := by simp [hh2]
  have l2 : VL h2 (h2.poly i) := by rw [e2]; exact l0
  obtain ⟨e, l3, g3⟩ := consolidate_spec h2 _ l2
  refine ⟨{ (h2.consolidate (h2.poly i)).1 with
      poly := Function.update (h2.consolidate (h2.poly i)).1.poly i (h2.consolidate (h2.poly i)).2 },
    ?_, ?_, ?_, e.next, e.nextP, e.mono, ?_⟩
  · unfold polyIadd; rw [h1]; rfl
  · simp only [val, Function.update_self]
    rw [g3, e2]
    change Poly.consolidate ((h.addAll (h.poly i) (h.poly j)).map h.mono) = _
    rw [g0]; rfl
  · intro k hk
    by_cases hki : k = i
    · subst hki; simp only [Function.update_self]; exact l3
    · simp only [Function.update_of_ne hki]
      rw [e.poly]
      simp only [hh2, Function.update_of_ne hki]
      intro r hr
      exact lt_of_lt_of_le (wf k (by rw [e.nextP] at hk; exact hk) r hr) e.next
  · intro k hki
    simp only [Function.update_of_ne hki]
    rw [e.poly]
    simp only [hh2, Function.update_of_ne hki]

theorem iaddLoop_same (i fuel k : ℕ) (h : Heap K) (hk : k < (h.poly i).length)
    (hz : ∀ r ∈ h.poly i, (h.mono r).isZero = false) : iaddLoop i i fuel k h = none := by
  induction fuel generalizing k h with
  | zero => rfl
  | succ fuel ih =>
    unfold iaddLoop
    rw [List.getElem?_eq_getElem hk]
    simp only
    have hr := hz _ (List.getElem_mem hk)
    have ea : h.addMonomial (h.poly i) (h.poly i)[k] = h.poly i ++ [(h.poly i)[k]] := by
      simp [addMonomial, hr]
    rw [ea]
    apply ih
    · simp only [Function.update_self, List.length_append, List.length_cons, List.length_nil]; omega
    · intro r hr'
      simp only [Function.update_self, List.mem_append, List.mem_cons, List.not_mem_nil, or_false] at hr'
      rcases hr' with hr' | rfl
      · exact hz r hr'
      · exact hr

end Heap
end PFEM
