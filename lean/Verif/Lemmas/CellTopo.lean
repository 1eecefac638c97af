import Mathlib.Dynamics.PeriodicPts.Lemmas
import Mathlib.Data.List.NodupEquivFin
import Mathlib.Data.Fintype.Pigeonhole
import Mathlib.Algebra.BigOperators.Group.List.Basic
import Verif.Model.CellTopo

/-!
Helper lemmas about the decomposition of a cell boundary: the loops follow the cycles of a permutation.
-/

set_option linter.unusedSectionVars false

namespace PFEM
namespace CellTopo

/-- `c` is a closed chain for the successor map `f` -/
def Cyc (f : ℕ → ℕ) (c : List ℕ) : Prop :=
  c ≠ [] ∧ ∀ i (hi : i < c.length), c[(i + 1) % c.length]'(Nat.mod_lt _ (by omega)) = f c[i]

/-- `f` permutes `0, …, n-1` -/
structure PermOn (f : ℕ → ℕ) (n : ℕ) : Prop where
  maps : ∀ x < n, f x < n
  inj : ∀ x < n, ∀ y < n, f x = f y → x = y

theorem PermOn.iter_lt {f : ℕ → ℕ} {n : ℕ} (h : PermOn f n) {x : ℕ} (hx : x < n) (i : ℕ) : f^[i] x < n := by
  induction i with
  | zero => exact hx
  | succ i ih => rw [Function.iterate_succ_apply']; exact h.maps _ ih

theorem PermOn.iter_cancel {f : ℕ → ℕ} {n : ℕ} (h : PermOn f n) {x y : ℕ} (hx : x < n) (hy : y < n) (i : ℕ)
    (e : f^[i] x = f^[i] y) : x = y := by
  induction i with
  | zero => exact e
  | succ i ih =>
    rw [Function.iterate_succ_apply', Function.iterate_succ_apply'] at e
    exact ih (h.inj _ (h.iter_lt hx i) _ (h.iter_lt hy i) e)

theorem PermOn.periodic {f : ℕ → ℕ} {n : ℕ} (h : PermOn f n) {s : ℕ} (hs : s < n) : s ∈ Function.periodicPts f := by
  let g : Fin (n + 1) → Fin n := fun i => ⟨f^[i.1] s, h.iter_lt hs i.1⟩
  obtain ⟨a, b, hab, e⟩ := Fintype.exists_ne_map_eq_of_card_lt g (by simp)
  have e' : f^[a.1] s = f^[b.1] s := congrArg Fin.val e
  have key : ∀ a b : ℕ, a < b → f^[a] s = f^[b] s → s ∈ Function.periodicPts f := by
    intro a b hlt e
    refine ⟨b - a, by omega, ?_⟩
    have : b = a + (b - a) := by omega
    rw [this, Function.iterate_add_apply] at e
    exact (h.iter_cancel hs (h.iter_lt hs _) a e).symm
  rcases Nat.lt_or_gt_of_ne (fun h => hab (Fin.ext h)) with hlt | hlt
  · exact key _ _ hlt e'
  · exact key _ _ hlt e'.symm

/-- the cycle through `s` -/
noncomputable def cyc (f : ℕ → ℕ) (s : ℕ) : List ℕ := (List.range (Function.minimalPeriod f s)).map (f^[·] s)

theorem cyc_nodup (f : ℕ → ℕ) (s : ℕ) : (cyc f s).Nodup := by
  unfold cyc
  refine List.Nodup.map_on ?_ List.nodup_range
  intro a ha b hb e
  rw [List.mem_range] at ha hb
  exact Function.iterate_injOn_Iio_minimalPeriod ha hb e

theorem cyc_Cyc {f : ℕ → ℕ} {s : ℕ} (h : s ∈ Function.periodicPts f) : Cyc f (cyc f s) := by
  have hp := Function.minimalPeriod_pos_of_mem_periodicPts h
  refine ⟨?_, ?_⟩
  · unfold cyc
    simp only [ne_eq, List.map_eq_nil_iff, List.range_eq_nil]
    omega
  · intro i hi
    have hl : (cyc f s).length = Function.minimalPeriod f s := by simp [cyc]
    simp only [cyc, List.getElem_map, List.getElem_range, List.length_map, List.length_range]
    rw [Function.iterate_mod_minimalPeriod_eq, Function.iterate_succ_apply']

theorem cyc_lt {f : ℕ → ℕ} {n : ℕ} (h : PermOn f n) {s : ℕ} (hs : s < n) : ∀ x ∈ cyc f s, x < n := by
  intro x hx
  unfold cyc at hx
  obtain ⟨i, -, rfl⟩ := List.mem_map.1 hx
  exact h.iter_lt hs i

theorem mem_cyc_self {f : ℕ → ℕ} {s : ℕ} (h : s ∈ Function.periodicPts f) : s ∈ cyc f s := by
  have hp := Function.minimalPeriod_pos_of_mem_periodicPts h
  exact List.mem_map.2 ⟨0, List.mem_range.2 hp, rfl⟩

/-- a cycle is closed under predecessors -/
theorem cyc_back {f : ℕ → ℕ} {n : ℕ} (h : PermOn f n) {s : ℕ} (hs : s < n) (y : ℕ) (hy : y < n)
    (e : f y ∈ cyc f s) : y ∈ cyc f s := by
  have hper := h.periodic hs
  have hp := Function.minimalPeriod_pos_of_mem_periodicPts hper
  unfold cyc at e ⊢
  obtain ⟨i, hi, e⟩ := List.mem_map.1 e
  rw [List.mem_range] at hi
  cases i with
  | zero =>
    refine List.mem_map.2 ⟨Function.minimalPeriod f s - 1, List.mem_range.2 (by omega), ?_⟩
    apply h.inj _ (h.iter_lt hs _) _ hy
    show f (f^[Function.minimalPeriod f s - 1] s) = f y
    rw [← Function.iterate_succ_apply' f, Nat.succ_eq_add_one, Nat.sub_add_cancel hp, ← e]
    exact Function.iterate_minimalPeriod
  | succ i =>
    refine List.mem_map.2 ⟨i, List.mem_range.2 (by omega), ?_⟩
    rw [Function.iterate_succ_apply'] at e
    exact h.inj _ (h.iter_lt hs _) _ hy e

/-- a set closed under predecessors that misses `s` misses the cycle of `s` -/
theorem cyc_disjoint {f : ℕ → ℕ} {n : ℕ} (h : PermOn f n) {s : ℕ} (hs : s < n) (M : List ℕ)
    (hM : ∀ y < n, f y ∈ M → y ∈ M) (hsM : s ∉ M) : ∀ x ∈ cyc f s, x ∉ M := by
  intro x hx hxM
  unfold cyc at hx
  obtain ⟨i, -, rfl⟩ := List.mem_map.1 hx
  clear hx
  induction i with
  | zero => exact hsM hxM
  | succ i ih =>
    rw [Function.iterate_succ_apply'] at hxM
    exact ih (hM _ (h.iter_lt hs i) hxM)

/-- marking a list of edges -/
def markAll (m : List Bool) (l : List ℕ) : List Bool := l.foldl (fun m y => m.set y true) m

theorem markAll_length (l : List ℕ) (m : List Bool) : (markAll m l).length = m.length := by
  induction l generalizing m with
  | nil => rfl
  | cons a l ih => unfold markAll; rw [List.foldl_cons]; exact (ih _).trans (by simp)

theorem markAll_getElem? (l : List ℕ) (m : List Bool) (x : ℕ) (hx : x < m.length) :
    (markAll m l)[x]? = some true ↔ x ∈ l ∨ m[x]? = some true := by
  induction l generalizing m with
  | nil => simp [markAll]
  | cons a l ih =>
    unfold markAll
    rw [List.foldl_cons]
    have := ih (m.set a true) (by simpa using hx)
    unfold markAll at this
    rw [this, List.getElem?_set]
    by_cases h : a = x
    · subst h; simp [hx]
    · simp [h, Ne.symm h]

theorem follow_spec (inc : List ℕ) (s : ℕ) (k fuel x : ℕ) (acc : List ℕ) (marked : List Bool)
    (h1 : ∀ i < k, (fun y => inc.getD y 0)^[i] x ≠ s) (h2 : (fun y => inc.getD y 0)^[k] x = s) (hf : k < fuel) :
    follow inc s fuel x acc marked =
      some (acc ++ (List.range k).map ((fun y => inc.getD y 0)^[·] x),
        markAll marked ((List.range k).map ((fun y => inc.getD y 0)^[·] x))) := by
  induction k generalizing fuel x acc marked with
  | zero =>
    obtain ⟨f, rfl⟩ : ∃ f, fuel = f + 1 := ⟨fuel - 1, by omega⟩
    simp only [Function.iterate_zero, id_eq] at h2
    simp [follow, h2, markAll]
  | succ k ih =>
    obtain ⟨f, rfl⟩ : ∃ f, fuel = f + 1 := ⟨fuel - 1, by omega⟩
    have hx : x ≠ s := h1 0 (by omega)
    rw [follow, if_neg hx]
    rw [ih f _ _ _ (fun i hi => by
        have := h1 (i + 1) (by omega)
        rwa [Function.iterate_succ_apply] at this) (by rwa [Function.iterate_succ_apply] at h2) (by omega)]
    have hr : (List.range (k + 1)).map ((fun y => inc.getD y 0)^[·] x) =
        x :: (List.range k).map ((fun y => inc.getD y 0)^[·] (inc.getD x 0)) := by
      rw [List.range_succ_eq_map, List.map_cons, List.map_map]
      congr 1
    rw [hr]
    simp [markAll]

/-- Invariant of the outer loop. -/
theorem contourLoop_spec (inc : List ℕ) (n : ℕ) (hP : PermOn (fun y => inc.getD y 0) n) (fuel : ℕ) (marked : List Bool)
    (cs : List (List ℕ)) (hlen : marked.length = n)
    (hmark : ∀ x < n, marked[x]? = some true ↔ x ∈ cs.flatten) (hnd : cs.flatten.Nodup)
    (hlt : ∀ x ∈ cs.flatten, x < n) (hback : ∀ y < n, inc.getD y 0 ∈ cs.flatten → y ∈ cs.flatten)
    (hcyc : ∀ c ∈ cs, Cyc (fun y => inc.getD y 0) c) (hfuel : n < fuel + cs.flatten.length) :
    ∃ cs', contourLoop inc n fuel cs.flatten.length marked cs = some (.ok cs') ∧
      cs'.flatten.Perm (List.range n) ∧ ∀ c ∈ cs', Cyc (fun y => inc.getD y 0) c := by
  have hle : ∀ l : List ℕ, l.Nodup → (∀ x ∈ l, x < n) → l.length ≤ n := by
    intro l h1 h2
    have := (List.subperm_of_subset h1 (fun x hx => List.mem_range.2 (h2 x hx))).length_le
    simpa using this
  induction fuel generalizing marked cs with
  | zero =>
    exfalso
    have := hle _ hnd hlt
    omega
  | succ f ih =>
    rw [contourLoop]
    by_cases hn : cs.flatten.length < n
    · rw [if_pos hn]
      -- an unmarked edge exists
      have hex : ∃ x < n, x ∉ cs.flatten := by
        by_contra hcon
        push Not at hcon
        have : (List.range n).Subperm cs.flatten :=
          List.subperm_of_subset List.nodup_range (fun x hx => hcon x (List.mem_range.1 hx))
        have := this.length_le
        simp at this
        simp at hn
        omega
      obtain ⟨x, hx, hxm⟩ := hex
      have hs : marked.findIdx (! ·) < marked.length := by
        rw [List.findIdx_lt_length]
        have hxl : x < marked.length := by omega
        refine ⟨marked[x], List.getElem_mem hxl, ?_⟩
        have := mt (hmark x hx).1 hxm
        rw [List.getElem?_eq_getElem hxl] at this
        simpa using this
      simp only [if_pos hs]
      generalize hsd : marked.findIdx (! ·) = s at hs ⊢
      have hsn : s < n := by omega
      have hsM : s ∉ cs.flatten := by
        rw [← hmark s hsn, List.getElem?_eq_getElem hs]
        have := List.findIdx_getElem (p := (! ·)) (xs := marked) (w := by rw [hsd]; exact hs)
        simp only [hsd] at this
        simpa using this
      have hper := hP.periodic hsn
      have hp := Function.minimalPeriod_pos_of_mem_periodicPts hper
      have hcn := cyc_nodup (fun y => inc.getD y 0) s
      have hcl := cyc_lt hP hsn
      have hcd := cyc_disjoint hP hsn cs.flatten hback hsM
      have hlenc : (cyc (fun y => inc.getD y 0) s).length = Function.minimalPeriod (fun y => inc.getD y 0) s := by
        simp [cyc]
      have hnd' : (cs ++ [cyc (fun y => inc.getD y 0) s]).flatten.Nodup := by
        rw [List.flatten_append, List.nodup_append]
        refine ⟨hnd, by simpa using hcn, ?_⟩
        intro a ha b hb hab
        subst hab
        exact hcd a (by simpa using hb) ha
      have hlt' : ∀ x ∈ (cs ++ [cyc (fun y => inc.getD y 0) s]).flatten, x < n := by
        intro x hx
        rw [List.flatten_append, List.mem_append] at hx
        rcases hx with hx | hx
        · exact hlt x hx
        · exact hcl x (by simpa using hx)
      have htot := hle _ hnd' hlt'
      have hflen : (cs ++ [cyc (fun y => inc.getD y 0) s]).flatten.length =
          cs.flatten.length + (cyc (fun y => inc.getD y 0) s).length := by
        rw [List.flatten_append, List.length_append]; simp
      -- the inner loop
      have hfol := follow_spec inc s (Function.minimalPeriod (fun y => inc.getD y 0) s - 1) f (inc.getD s 0) [s]
        (marked.set s true) (by
          intro i hi e
          rw [← Function.iterate_succ_apply (fun y => inc.getD y 0) i s] at e
          have : Function.minimalPeriod (fun y => inc.getD y 0) s ≤ i + 1 :=
            Function.IsPeriodicPt.minimalPeriod_le (by omega) e
          omega) (by
          rw [← Function.iterate_succ_apply (fun y => inc.getD y 0) _ s, Nat.succ_eq_add_one, Nat.sub_add_cancel hp]
          exact Function.iterate_minimalPeriod) (by omega)
      have hr : [s] ++ (List.range (Function.minimalPeriod (fun y => inc.getD y 0) s - 1)).map
          ((fun y => inc.getD y 0)^[·] (inc.getD s 0)) = cyc (fun y => inc.getD y 0) s := by
        unfold cyc
        have : Function.minimalPeriod (fun y => inc.getD y 0) s =
            (Function.minimalPeriod (fun y => inc.getD y 0) s - 1) + 1 := by omega
        rw [this, List.range_succ_eq_map, List.map_cons, List.map_map]
        congr 1
      have hm : markAll (marked.set s true) ((List.range (Function.minimalPeriod (fun y => inc.getD y 0) s - 1)).map
          ((fun y => inc.getD y 0)^[·] (inc.getD s 0))) = markAll marked (cyc (fun y => inc.getD y 0) s) := by
        rw [← hr]; rfl
      rw [hfol, hr, hm]
      simp only
      rw [← hflen]
      refine ih _ _ ?_ ?_ hnd' hlt' ?_ ?_ ?_
      · rw [markAll_length, hlen]
      · intro y hy
        rw [markAll_getElem? _ _ _ (by omega), hmark y hy, List.flatten_append, List.mem_append]
        simp [or_comm]
      · intro y hy hy'
        rw [List.flatten_append, List.mem_append] at hy' ⊢
        rcases hy' with hy' | hy'
        · exact Or.inl (hback y hy hy')
        · right
          have := cyc_back hP hsn y hy (by simpa using hy')
          simpa using this
      · intro c hc
        rw [List.mem_append] at hc
        rcases hc with hc | hc
        · exact hcyc c hc
        · rw [List.mem_singleton] at hc
          subst hc
          exact cyc_Cyc hper
      · rw [hflen, hlenc]; omega
    · rw [if_neg hn]
      refine ⟨cs, rfl, ?_, hcyc⟩
      have h1 : cs.flatten.Subperm (List.range n) :=
        List.subperm_of_subset hnd (fun x hx => List.mem_range.2 (hlt x hx))
      exact h1.perm_of_length_le (by simp at hn ⊢; omega)

end CellTopo
end PFEM
