import Mathlib.Tactic.Linarith
import Mathlib.Tactic.Positivity
import Verif.Spec.Meshlib

/-!
Two meshes with the same edges whose vertices lie in different places have the same topology.
-/

set_option linter.unusedSectionVars false

namespace PFEM
namespace Meshlib

variable {K : Type} [Field K] [LinearOrder K] {K' : Type} [Field K'] [LinearOrder K']

/-- the vertices have the same place in the two lists -/
def Corr (V : List (PVert K)) (V' : List (PVert K')) (a : PVert K) (a' : PVert K') : Prop :=
  ∃ i : ℕ, V[i]? = some a ∧ V'[i]? = some a'

/-- corresponding vertices carry the same number, and two vertices are close exactly if they are the same -/
structure Fits (V : List (PVert K)) (V' : List (PVert K')) : Prop where
  idx : ∀ {a a'}, Corr V V' a a' → a.idx = a'.idx
  near : ∀ {a a' b b'}, Corr V V' a a' → Corr V V' b b' →
    (a.dist2 b < CellTopo.incTol K ^ 2 ↔ a'.dist2 b' < CellTopo.incTol K' ^ 2)
  loop : ∀ {a a' b b'}, Corr V V' a a' → Corr V V' b b' → (a.dist2 b < tol K ^ 2 ↔ a'.dist2 b' < tol K' ^ 2)

/-- the same edges -/
def Alike (V : List (PVert K)) (V' : List (PVert K')) (e : EdgeRec K) (e' : EdgeRec K') : Prop :=
  Corr V V' e.anchor e'.anchor ∧ Corr V V' e.endpnt e'.endpnt ∧ e.pos = e'.pos ∧ e.neg = e'.neg

theorem number_getElem? {K : Type} [Field K] [LinearOrder K] (l : List (K × K)) (k i : ℕ) :
    (Pegboard.number k l)[i]? = l[i]?.map fun p => ⟨p.1, p.2, ((k + i : ℕ) : ℤ)⟩ := by
  induction l generalizing k i with
  | nil => simp [Pegboard.number]
  | cons p l ih =>
    cases i with
    | zero => simp [Pegboard.number]
    | succ i =>
      simp only [Pegboard.number, List.getElem?_cons_succ, ih]
      congr 1
      funext q
      congr 2
      omega

theorem number_far {K : Type} [Field K] [LinearOrder K] [IsStrictOrderedRing K] {l : List (K × K)} (hl : Spread l) {a b : PVert K} {i j : ℕ}
    (ha : (Pegboard.number 0 l)[i]? = some a) (hb : (Pegboard.number 0 l)[j]? = some b) :
    (a.dist2 b < CellTopo.incTol K ^ 2 ↔ i = j) ∧ (a.dist2 b < tol K ^ 2 ↔ i = j) := by
  have htol : tol K ^ 2 ≤ CellTopo.incTol K ^ 2 := by
    unfold tol CellTopo.incTol
    norm_num
  have h0 : (0 : K) < tol K ^ 2 := by unfold tol; positivity
  rw [number_getElem?, Option.map_eq_some_iff] at ha hb
  obtain ⟨p, hp, rfl⟩ := ha
  obtain ⟨q, hq, rfl⟩ := hb
  by_cases hij : i = j
  · subst hij
    rw [hp] at hq
    cases hq
    have : PVert.dist2 (⟨p.1, p.2, ((0 + i : ℕ) : ℤ)⟩ : PVert K) ⟨p.1, p.2, ((0 + i : ℕ) : ℤ)⟩ = 0 := by simp [PVert.dist2]
    rw [this]
    exact ⟨iff_of_true (h0.trans_le htol) rfl, iff_of_true h0 rfl⟩
  · have hfar : CellTopo.incTol K ^ 2 ≤ (p.1 - q.1) ^ 2 + (p.2 - q.2) ^ 2 := by
      rw [Spread, List.pairwise_iff_getElem] at hl
      obtain ⟨hi, rfl⟩ := List.getElem?_eq_some_iff.1 hp
      obtain ⟨hj, rfl⟩ := List.getElem?_eq_some_iff.1 hq
      rcases Nat.lt_or_gt_of_ne hij with h | h
      · exact hl i j hi hj h
      · have := hl j i hj hi h
        rw [CellTopo.incTol]
        linarith
    simp only [PVert.dist2]
    exact ⟨iff_of_false (not_lt.2 hfar) hij, iff_of_false (not_lt.2 (htol.trans hfar)) hij⟩

theorem fits [IsStrictOrderedRing K] [IsStrictOrderedRing K'] {pts : List (K × K)} {pts' : List (K' × K')} (h : Spread pts)
    (h' : Spread pts') : Fits (Pegboard.number 0 pts) (Pegboard.number 0 pts') where
  idx := by
    rintro a a' ⟨i, h1, h2⟩
    rw [number_getElem?, Option.map_eq_some_iff] at h1 h2
    obtain ⟨p, -, rfl⟩ := h1
    obtain ⟨q, -, rfl⟩ := h2
    rfl
  near := by
    rintro a a' b b' ⟨i, h1, h2⟩ ⟨j, h3, h4⟩
    rw [(number_far h h1 h3).1, (number_far h' h2 h4).1]
  loop := by
    rintro a a' b b' ⟨i, h1, h2⟩ ⟨j, h3, h4⟩
    rw [(number_far h h1 h3).2, (number_far h' h2 h4).2]

variable {V : List (PVert K)} {V' : List (PVert K')}

theorem get_alike (hlen : V.length = V'.length) (i : ℕ) :
    (∃ a a', Np.get V i = .ok a ∧ Np.get V' i = .ok a' ∧ Corr V V' a a') ∨
      (Np.get V i = .error .indexError ∧ Np.get V' i = .error .indexError) := by
  unfold Np.get
  by_cases hi : i < V.length
  · have e1 := List.getElem?_eq_getElem hi
    have e2 := List.getElem?_eq_getElem (hlen ▸ hi : i < V'.length)
    rw [e1, e2]
    exact Or.inl ⟨_, _, rfl, rfl, i, e1, e2⟩
  · have e1 := List.getElem?_eq_none (not_lt.1 hi)
    have e2 := List.getElem?_eq_none (not_lt.1 (hlen ▸ hi) : V'.length ≤ i)
    rw [e1, e2]
    exact Or.inr ⟨rfl, rfl⟩

theorem edges_alike (hlen : V.length = V'.length) (args : List EdgeArgs) :
    (∃ es es', edges V args = .ok es ∧ edges V' args = .ok es' ∧
      List.Forall₂ (fun e e' => Alike V V' e.topo e'.topo ∧ e.curve = e'.curve ∧ e.quad = e'.quad ∧ e.opts = e'.opts) es es') ∨
      (edges V args = .error .indexError ∧ edges V' args = .error .indexError) := by
  induction args with
  | nil => exact Or.inl ⟨[], [], rfl, rfl, .nil⟩
  | cons e l ih =>
    simp only [edges, edge, bind, Except.bind]
    rcases get_alike hlen e.a with ⟨a, a', h1, h2, hc⟩ | ⟨h1, h2⟩
    · rw [h1, h2]
      rcases get_alike hlen e.b with ⟨b, b', h3, h4, hd⟩ | ⟨h3, h4⟩
      · rw [h3, h4]
        rcases ih with ⟨es, es', h5, h6, h7⟩ | ⟨h5, h6⟩
        · rw [h5, h6]
          exact Or.inl ⟨_, _, rfl, rfl, .cons ⟨⟨hc, hd, rfl, rfl⟩, rfl, rfl, rfl⟩ h7⟩
        · rw [h5, h6]
          exact Or.inr ⟨rfl, rfl⟩
      · rw [h3, h4]
        exact Or.inr ⟨rfl, rfl⟩
    · rw [h1, h2]
      exact Or.inr ⟨rfl, rfl⟩

/-- the two stores hold the same edges at the places in `E` -/
def AlikeOn (V : List (PVert K)) (V' : List (PVert K')) (E : List ℕ) (st : EdgeStore K) (st' : EdgeStore K') : Prop :=
  ∀ e ∈ E, Alike V V' (st e) (st' e)

theorem setIdx_alike {E : List ℕ} (l : List ℕ) (k : ℕ) {st : EdgeStore K} {st' : EdgeStore K'} (h : AlikeOn V V' E st st') :
    AlikeOn V V' E (PlanarMesh.setIdx st k l) (PlanarMesh.setIdx st' k l) := by
  induction l generalizing k st st' with
  | nil => exact h
  | cons a l ih =>
    refine ih (k + 1) fun e he => ?_
    by_cases hea : e = a
    · subst hea
      simpa [Function.update_self, Alike] using h e he
    · simpa [Function.update_of_ne hea] using h e he

theorem addEdges_alike {E : List ℕ} {st : EdgeStore K} {st' : EdgeStore K'} (h : AlikeOn V V' E st st') (l : List ℕ) (hl : ∀ e ∈ l, e ∈ E)
    (s : List ℕ × ℕ) : PlanarMesh.addEdges st l s = PlanarMesh.addEdges st' l s := by
  induction l generalizing s with
  | nil => rfl
  | cons a l ih =>
    have ha := h a (hl a (by simp))
    have e1 : PlanarMesh.addEdge st s a = PlanarMesh.addEdge st' s a := by
      simp only [PlanarMesh.addEdge, ha.2.2.1, ha.2.2.2]
    simp only [PlanarMesh.addEdges, e1, bind, Except.bind]
    split
    · rfl
    · exact ih (fun e he => hl e (by simp [he])) _

theorem addEdges_sub {st : EdgeStore K} (l : List ℕ) {s r : List ℕ × ℕ} (h : PlanarMesh.addEdges st l s = .ok r) :
    ∀ e ∈ r.1, e ∈ s.1 ∨ e ∈ l := by
  induction l generalizing s with
  | nil =>
    simp only [PlanarMesh.addEdges, Except.ok.injEq] at h
    subst h
    simp
  | cons a l ih =>
    simp only [PlanarMesh.addEdges, PlanarMesh.addEdge, bind, Except.bind] at h
    split_ifs at h with h1 h2
    · intro e he
      rcases ih h e he with h' | h' <;> simp [h']
    · intro e he
      rcases ih h e he with h' | h'
      · simp only [List.mem_append, List.mem_singleton] at h'
        rcases h' with h' | h' <;> simp [h']
      · simp [h']

theorem fold_alike {α : Type} {f g : α → ℕ → α} (l : List ℕ) (h : ∀ e ∈ l, ∀ x, f x e = g x e) (x : α) : l.foldl f x = l.foldl g x := by
  induction l generalizing x with
  | nil => rfl
  | cons a l ih =>
    simp only [List.foldl_cons, h a (by simp)]
    exact ih (fun e he => h e (by simp [he])) _

theorem isLoop_alike (hV : Fits V V') {e : EdgeRec K} {e' : EdgeRec K'} (h : Alike V V' e e') : e.isLoop = e'.isLoop := by
  simp only [EdgeRec.isLoop, hV.loop h.1 h.2.1]

theorem orients_alike {E : List ℕ} {st : EdgeStore K} {st' : EdgeStore K'} (h : AlikeOn V V' E st st') (c : ℤ) (l : List ℕ)
    (hl : ∀ e ∈ l, e ∈ E) : CellTopo.orients st c l = CellTopo.orients st' c l := by
  induction l with
  | nil => rfl
  | cons a l ih =>
    have ha := h a (hl a (by simp))
    have e1 : CellTopo.orient st c a = CellTopo.orient st' c a := by simp only [CellTopo.orient, ha.2.2.1, ha.2.2.2]
    simp only [CellTopo.orients, e1, ih fun e he => hl e (by simp [he])]

theorem startPt_alike {e : ℕ} {st : EdgeStore K} {st' : EdgeStore K'} (h : Alike V V' (st e) (st' e)) (o : ℤ) :
    (∃ a a', CellTopo.startPt st e o = .ok a ∧ CellTopo.startPt st' e o = .ok a' ∧ Corr V V' a a') ∨
      (CellTopo.startPt st e o = .error .embedding ∧ CellTopo.startPt st' e o = .error .embedding) := by
  unfold CellTopo.startPt
  split_ifs
  · exact Or.inl ⟨_, _, rfl, rfl, h.1⟩
  · exact Or.inl ⟨_, _, rfl, rfl, h.2.1⟩
  · exact Or.inr ⟨rfl, rfl⟩

theorem endPt_alike {e : ℕ} {st : EdgeStore K} {st' : EdgeStore K'} (h : Alike V V' (st e) (st' e)) (o : ℤ) :
    (∃ a a', CellTopo.endPt st e o = .ok a ∧ CellTopo.endPt st' e o = .ok a' ∧ Corr V V' a a') ∨
      (CellTopo.endPt st e o = .error .embedding ∧ CellTopo.endPt st' e o = .error .embedding) := by
  unfold CellTopo.endPt
  split_ifs
  · exact Or.inl ⟨_, _, rfl, rfl, h.2.1⟩
  · exact Or.inl ⟨_, _, rfl, rfl, h.1⟩
  · exact Or.inr ⟨rfl, rfl⟩

theorem incRow_alike (hV : Fits V V') {E : List ℕ} {st : EdgeStore K} {st' : EdgeStore K'} (h : AlikeOn V V' E st st') {a : PVert K}
    {a' : PVert K'} (ha : Corr V V' a a') (l : List (ℕ × ℤ)) (hl : ∀ q ∈ l, q.1 ∈ E) :
    CellTopo.incRow st a l = CellTopo.incRow st' a' l := by
  induction l with
  | nil => rfl
  | cons q l ih =>
    obtain ⟨e, o⟩ := q
    simp only [CellTopo.incRow, bind, Except.bind, ih fun q hq => hl q (by simp [hq])]
    rcases endPt_alike (h e (hl (e, o) (by simp))) o with ⟨b, b', h1, h2, hb⟩ | ⟨h1, h2⟩
    · rw [h1, h2]
      simp only [hV.near ha hb]
    · rw [h1, h2]

theorem incMat_alike (hV : Fits V V') {E : List ℕ} {st : EdgeStore K} {st' : EdgeStore K'} (h : AlikeOn V V' E st st')
    (all l : List (ℕ × ℤ)) (hall : ∀ q ∈ all, q.1 ∈ E) (hl : ∀ q ∈ l, q.1 ∈ E) :
    CellTopo.incMat st all l = CellTopo.incMat st' all l := by
  induction l with
  | nil => rfl
  | cons q l ih =>
    obtain ⟨e, o⟩ := q
    simp only [CellTopo.incMat, bind, Except.bind, ih fun q hq => hl q (by simp [hq])]
    rcases startPt_alike (h e (hl (e, o) (by simp))) o with ⟨b, b', h1, h2, hb⟩ | ⟨h1, h2⟩
    · rw [h1, h2]
      simp only [incRow_alike hV h hb all hall]
    · rw [h1, h2]

theorem make_alike (hV : Fits V V') {E : List ℕ} {st : EdgeStore K} {st' : EdgeStore K'} (h : AlikeOn V V' E st st') (c : ℤ)
    (l : List ℕ) (hl : ∀ e ∈ l, e ∈ E) : CellTopo.make st c l = CellTopo.make st' c l := by
  have hz : ∀ os : List ℤ, CellTopo.incidence st (l.zip os) = CellTopo.incidence st' (l.zip os) := by
    intro os
    have hm : ∀ q ∈ l.zip os, q.1 ∈ E := fun q hq => hl _ (List.of_mem_zip hq).1
    simp only [CellTopo.incidence, incMat_alike hV h _ _ hm hm]
  simp only [CellTopo.make, CellTopo.init, orients_alike h c l hl, hz]

theorem pyGetZ_mem {α : Type} {l : List α} {i : ℤ} {a : α} (h : pyGetZ l i = .ok a) : a ∈ l := by
  unfold pyGetZ at h
  split_ifs at h
  · split at h
    · next h' =>
      cases h
      exact List.mem_of_getElem? h'
    · cases h
  · split at h
    · next h' =>
      cases h
      exact List.mem_of_getElem? h'
    · cases h

theorem init_alike (hV : Fits V V') {E : List ℕ} {st : EdgeStore K} {st' : EdgeStore K'} (h : AlikeOn V V' E st st') :
    (∃ m m', PlanarMesh.init st E = .ok m ∧ PlanarMesh.init st' E = .ok m' ∧ SameTopology m m') ∨
      ∃ x, PlanarMesh.init st E = .error x ∧ PlanarMesh.init st' E = .error x := by
  simp only [PlanarMesh.init, ← addEdges_alike h E (fun _ he => he), bind, Except.bind]
  cases hr : PlanarMesh.addEdges st E ([], 0) with
  | error x => exact Or.inr ⟨x, rfl, rfl⟩
  | ok r =>
    left
    have hsub : ∀ e ∈ r.1, e ∈ E := fun e he => by simpa using addEdges_sub E hr e he
    set s1 := PlanarMesh.setIdx st 0 r.1 with hs1
    set s2 := PlanarMesh.setIdx st' 0 r.1 with hs2
    have ha : AlikeOn V V' E s1 s2 := setIdx_alike r.1 0 h
    have hc : PlanarMesh.buildCellList s1 r.1 = PlanarMesh.buildCellList s2 r.1 := by
      unfold PlanarMesh.buildCellList
      congr 1
      refine fold_alike _ (fun e he x => ?_) _
      obtain ⟨-, -, h3, h4⟩ := ha e (hsub e he)
      simp only [PlanarMesh.cellStep, h3, h4]
    have hv : PlanarMesh.buildVertList s1 r.1 = PlanarMesh.buildVertList s2 r.1 := by
      unfold PlanarMesh.buildVertList
      congr 1
      refine fold_alike _ (fun e he x => ?_) _
      have he' := ha e (hsub e he)
      simp only [PlanarMesh.vertStep, isLoop_alike hV he', hV.idx he'.1, hV.idx he'.2.1]
    have hce : ∀ c, r.1.filter (fun e => (s1 e).borders c) = r.1.filter fun e => (s2 e).borders c := by
      intro c
      refine List.filter_congr fun e he => ?_
      obtain ⟨-, -, h3, h4⟩ := ha e (hsub e he)
      simp only [EdgeRec.borders, h3, h4]
    have hgc : ∀ c, PlanarMesh.getCellEdges ⟨s1, r.1, r.2, PlanarMesh.buildVertList s1 r.1, (PlanarMesh.buildVertList s1 r.1).length,
        PlanarMesh.buildCellList s1 r.1, (PlanarMesh.buildCellList s1 r.1).length⟩ c =
        PlanarMesh.getCellEdges ⟨s2, r.1, r.2, PlanarMesh.buildVertList s2 r.1, (PlanarMesh.buildVertList s2 r.1).length,
        PlanarMesh.buildCellList s2 r.1, (PlanarMesh.buildCellList s2 r.1).length⟩ c := by
      intro c
      simp only [PlanarMesh.getCellEdges, hc, hce]
    refine ⟨⟨s1, r.1, r.2, PlanarMesh.buildVertList s1 r.1, (PlanarMesh.buildVertList s1 r.1).length,
        PlanarMesh.buildCellList s1 r.1, (PlanarMesh.buildCellList s1 r.1).length⟩,
      ⟨s2, r.1, r.2, PlanarMesh.buildVertList s2 r.1, (PlanarMesh.buildVertList s2 r.1).length,
        PlanarMesh.buildCellList s2 r.1, (PlanarMesh.buildCellList s2 r.1).length⟩, rfl, rfl, rfl, rfl, hv, congrArg List.length hv, hc, congrArg List.length hc, fun v => ?_, fun k => ?_, hgc, fun c => ?_⟩
    · simp only [PlanarMesh.vertIsOnBoundary]
      rw [Bool.eq_iff_iff, List.any_eq_true, List.any_eq_true]
      refine exists_congr fun e => and_congr_right fun he => ?_
      have he' := ha e (hsub e he)
      rw [hV.idx he'.1, hV.idx he'.2.1, he'.2.2.1, he'.2.2.2]
    · simp only [PlanarMesh.edgeIsOnBoundary, bind, Except.bind]
      cases hk : pyGetZ r.1 k with
      | error x => rfl
      | ok e =>
        have he' := ha e (hsub e (pyGetZ_mem hk))
        simp only [he'.2.2.1, he'.2.2.2]
    · simp only [PlanarMesh.getCell, hgc, bind, Except.bind]
      split
      · rfl
      · next l hl =>
        refine make_alike hV ha c l fun e he => ?_
        unfold PlanarMesh.getCellEdges at hl
        split at hl
        · cases hl
          exact hsub e (List.mem_filter.1 he).1
        · cases hl

end Meshlib
end PFEM
