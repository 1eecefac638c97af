import Mathlib.Algebra.BigOperators.Fin
import Mathlib.Algebra.BigOperators.Group.List.Basic
import Mathlib.Tactic.Ring
import Verif.Model.Solver
import Verif.Lemmas.LocalSpace

/-!
Helper lemmas about assembly.
-/

set_option linter.unusedSectionVars false

namespace PFEM
namespace Solver

open Finset

variable {K : Type} [Field K] [LinearOrder K]

theorem csr_append (val : Triplet K → K) (ts us : List (Triplet K)) (i j : ℕ) :
    csr val (ts ++ us) i j = csr val ts i j + csr val us i j := by
  simp [csr]

theorem csr_nil (val : Triplet K → K) (i j : ℕ) : csr val [] i j = 0 := rfl

theorem csr_cons (val : Triplet K → K) (t : Triplet K) (ts : List (Triplet K)) (i j : ℕ) :
    csr val (t :: ts) i j = (if t.row = i ∧ t.col = j then val t else 0) + csr val ts i j := by
  unfold csr
  by_cases h : t.row = i ∧ t.col = j
  · rw [List.filter_cons_of_pos (by simpa using h), if_pos h]; simp
  · rw [List.filter_cons_of_neg (by simpa using h), if_neg h]; simp

theorem csr_flatMap {α : Type} (val : Triplet K → K) (l : List α) (f : α → List (Triplet K)) (i j : ℕ) :
    csr val (l.flatMap f) i j = (l.map fun a => csr val (f a) i j).sum := by
  induction l with
  | nil => rfl
  | cons a l ih => rw [List.flatMap_cons, csr_append, ih]; simp

theorem csrRhs_append (ts us : List (ℕ × K)) (i : ℕ) : csrRhs (ts ++ us) i = csrRhs ts i + csrRhs us i := by
  simp [csrRhs]

theorem csrRhs_cons (t : ℕ × K) (ts : List (ℕ × K)) (i : ℕ) :
    csrRhs (t :: ts) i = (if t.1 = i then t.2 else 0) + csrRhs ts i := by
  unfold csrRhs
  by_cases h : t.1 = i
  · rw [List.filter_cons_of_pos (by simpa using h), if_pos h]; simp
  · rw [List.filter_cons_of_neg (by simpa using h), if_neg h]; simp

theorem csrRhs_flatMap {α : Type} (l : List α) (f : α → List (ℕ × K)) (i : ℕ) :
    csrRhs (l.flatMap f) i = (l.map fun a => csrRhs (f a) i).sum := by
  induction l with
  | nil => rfl
  | cons a l ih => rw [List.flatMap_cons, csrRhs_append, ih]; simp

/-- the part of a triplet that a matrix is built from, as a function of the two local functions -/
def Reads (F : WeakForm K) (a : ℕ) (val : Triplet K → K) (V : LocFun K → LocFun K → K) : Prop :=
  ∀ v w r c, val ⟨r, c, F.eval (F.h1 a v w) (F.l2 a v w), F.h1 a v w, F.l2 a v w⟩ = V v w

/-- value of the form for positions `r`, `q` of a basis: the earlier function is the first argument -/
def formAt (V : LocFun K → LocFun K → K) (fs : List (LocFun K)) (r q : Fin fs.length) : K :=
  if r ≤ q then V fs[r] fs[q] else V fs[q] fs[r]

theorem csr_row (F : WeakForm K) (a : ℕ) (val : Triplet K → K) (V : LocFun K → LocFun K → K) (h : Reads F a val V)
    (v : LocFun K) (ws : List (LocFun K)) (i j : ℕ) :
    csr val (ws.flatMap fun w => matrixValues F a v w true) i j =
      ∑ q : Fin ws.length, ((if v.glob = i ∧ ws[q].glob = j then V v ws[q] else 0) +
        (if ws[q].glob = i ∧ v.glob = j then V v ws[q] else 0)) := by
  induction ws with
  | nil => rfl
  | cons w ws ih =>
    rw [List.flatMap_cons, csr_append, ih]
    simp only [List.length_cons, Fin.sum_univ_succ, Fin.getElem_fin, Fin.val_zero, List.getElem_cons_zero, Fin.val_succ,
      List.getElem_cons_succ]
    congr 1
    simp only [matrixValues, if_true, csr_cons, csr_nil, add_zero]
    rw [h, h]
    rfl

theorem csr_cell (F : WeakForm K) (a : ℕ) (val : Triplet K → K) (V : LocFun K → LocFun K → K) (h : Reads F a val V)
    (fs : List (LocFun K)) (i j : ℕ) :
    csr val (cellTriplets F a fs) i j =
      ∑ r : Fin fs.length, ∑ q : Fin fs.length, if fs[r].glob = i ∧ fs[q].glob = j then formAt V fs r q else 0 := by
  induction fs with
  | nil => rfl
  | cons v vs ih =>
    rw [cellTriplets, csr_append, csr_append, csr_row F a val V h, ih]
    simp only [List.length_cons, Fin.sum_univ_succ]
    have e0 : ∀ r q : Fin vs.length, formAt V (v :: vs) r.succ q.succ = formAt V vs r q := by
      intro r q
      simp [formAt]
    have e1 : ∀ q : Fin vs.length, formAt V (v :: vs) 0 q.succ = V v vs[q] := by
      intro q; simp [formAt]
    have e2 : ∀ q : Fin vs.length, formAt V (v :: vs) q.succ 0 = V v vs[q] := by
      intro q; simp [formAt]
    have e3 : formAt V (v :: vs) 0 0 = V v v := by simp [formAt]
    simp only [e0, e1, e2, e3, Fin.getElem_fin, Fin.val_zero, List.getElem_cons_zero, Fin.val_succ,
      List.getElem_cons_succ]
    simp only [matrixValues, Bool.false_eq_true, if_false, csr_cons, csr_nil, add_zero]
    rw [h, Finset.sum_add_distrib, Finset.sum_add_distrib]
    ring

theorem formAt_symm (V : LocFun K → LocFun K → K) (fs : List (LocFun K)) (r q : Fin fs.length) :
    formAt V fs r q = formAt V fs q r := by
  unfold formAt
  rcases lt_trichotomy r q with h | h | h
  · rw [if_pos h.le, if_neg (by exact not_le.2 h)]
  · rw [h]
  · rw [if_neg (by exact not_le.2 h), if_pos h.le]

theorem csr_cell_symm (F : WeakForm K) (a : ℕ) (val : Triplet K → K) (V : LocFun K → LocFun K → K) (h : Reads F a val V)
    (fs : List (LocFun K)) (i j : ℕ) : csr val (cellTriplets F a fs) i j = csr val (cellTriplets F a fs) j i := by
  rw [csr_cell F a val V h, csr_cell F a val V h, Finset.sum_comm]
  refine Finset.sum_congr rfl fun r _ => Finset.sum_congr rfl fun q _ => ?_
  rw [formAt_symm]
  simp only [and_comm]

theorem csrRhs_cell (F : WeakForm K) (a : ℕ) (fs : List (LocFun K)) (i : ℕ) :
    csrRhs (cellRhs F a fs) i = (fs.map fun v => if v.glob = i then F.rhs a v else 0).sum := by
  induction fs with
  | nil => rfl
  | cons v vs ih =>
    have : cellRhs F a (v :: vs) = (v.glob, F.rhs a v) :: cellRhs F a vs := rfl
    rw [this, csrRhs_cons, ih]; simp

/-- the numbers of the boundary functions among the keys -/
def bset (keys : List GlobalKey) (i : ℕ) : Prop := ∃ key ∈ keys, key.onBoundary = some true ∧ key.globIdx.getD 0 = i

instance (keys : List GlobalKey) (i : ℕ) : Decidable (bset keys i) := by unfold bset; infer_instance

/-- effect of the boundary condition on a triplet -/
def bcT (B : ℕ → Prop) [DecidablePred B] (t : Triplet K) : Triplet K :=
  if B t.row then { t with a := if t.col = t.row then 1 else 0 } else t

/-- effect of the boundary condition on an entry of the right-hand side -/
def bcR (B : ℕ → Prop) [DecidablePred B] (r : ℕ × K) : ℕ × K := if B r.1 then (r.1, 0) else r

theorem bcFold (keys : List GlobalKey) (ts : List (Triplet K)) (rhs : List (ℕ × K)) :
    keys.foldl bcStep (ts, rhs) = (ts.map (bcT (bset keys)), rhs.map (bcR (bset keys))) := by
  induction keys generalizing ts rhs with
  | nil =>
    have h : ∀ i, ¬ bset [] i := by intro i; simp [bset]
    have e1 : (bcT (bset []) : Triplet K → Triplet K) = id := funext fun t => by simp [bcT, h]
    have e2 : (bcR (bset []) : ℕ × K → ℕ × K) = id := funext fun t => by simp [bcR, h]
    rw [e1, e2]; simp
  | cons key keys ih =>
    rw [List.foldl_cons, bcStep]
    by_cases hb : key.onBoundary = some true
    · rw [if_pos hb, ih, zeroRow, zeroRhs, List.map_map, List.map_map]
      have hset : ∀ i, bset (key :: keys) i ↔ key.globIdx.getD 0 = i ∨ bset keys i := by
        intro i; simp [bset, hb]
      congr 1
      · apply List.map_congr_left
        intro t _
        simp only [Function.comp, bcT, hset]
        by_cases h1 : t.row = key.globIdx.getD 0
        · by_cases h2 : t.col = key.globIdx.getD 0
          · simp [h1, h2]
          · simp only [h1, h2, if_true, if_false, true_or]
            split <;> simp
        · have h1' : ¬ key.globIdx.getD 0 = t.row := fun h => h1 h.symm
          simp [h1, h1']
      · apply List.map_congr_left
        intro r _
        simp only [Function.comp, bcR, hset]
        by_cases h1 : r.1 = key.globIdx.getD 0
        · simp only [h1, if_true, true_or]
          split <;> simp
        · have h1' : ¬ key.globIdx.getD 0 = r.1 := fun h => h1 h.symm
          simp [h1, h1']
    · rw [if_neg hb, ih]
      have hset : ∀ i, bset (key :: keys) i ↔ bset keys i := by
        intro i; simp [bset, hb]
      simp [bcT, bcR, hset]

theorem imposeBc_eq (s : GlobFunSp K) (ts : List (Triplet K)) (rhs : List (ℕ × K)) :
    imposeBc s (ts, rhs) =
      (ts.map (bcT (bset ((List.range s.mesh.numCells).flatMap fun a => s.cellDofs.getD a []))),
       rhs.map (bcR (bset ((List.range s.mesh.numCells).flatMap fun a => s.cellDofs.getD a [])))) := by
  rw [imposeBc, ← bcFold, List.foldl_flatMap]

theorem bcT_row (B : ℕ → Prop) [DecidablePred B] (t : Triplet K) : (bcT B t).row = t.row ∧ (bcT B t).col = t.col ∧
    (bcT B t).h1 = t.h1 ∧ (bcT B t).l2 = t.l2 := by
  unfold bcT; split <;> simp

theorem bcR_fst (B : ℕ → Prop) [DecidablePred B] (r : ℕ × K) : (bcR B r).1 = r.1 := by
  unfold bcR; split <;> simp

/-- matrices read from columns that the boundary condition does not touch -/
theorem csr_bc (val : Triplet K → K) (B : ℕ → Prop) [DecidablePred B] (h : ∀ t : Triplet K, val (bcT B t) = val t)
    (ts : List (Triplet K)) (i j : ℕ) : csr val (ts.map (bcT B)) i j = csr val ts i j := by
  induction ts with
  | nil => rfl
  | cons t ts ih =>
    obtain ⟨h1, h2, -, -⟩ := bcT_row B t
    rw [List.map_cons, csr_cons, csr_cons, ih, h1, h2, h]

theorem csr_bc_free (B : ℕ → Prop) [DecidablePred B] (ts : List (Triplet K)) (i j : ℕ) (hi : ¬ B i) :
    csr Triplet.a (ts.map (bcT B)) i j = csr Triplet.a ts i j := by
  induction ts with
  | nil => rfl
  | cons t ts ih =>
    obtain ⟨h1, h2, -, -⟩ := bcT_row B t
    rw [List.map_cons, csr_cons, csr_cons, ih, h1, h2]
    congr 1
    by_cases hr : t.row = i
    · have : ¬ B t.row := by rw [hr]; exact hi
      rw [bcT, if_neg this]
    · simp [hr]

theorem csr_bc_row (B : ℕ → Prop) [DecidablePred B] (ts : List (Triplet K)) (i j : ℕ) (hi : B i) :
    csr Triplet.a (ts.map (bcT B)) i j =
      if j = i then ((ts.filter fun t => decide (t.row = i ∧ t.col = i)).length : K) else 0 := by
  induction ts with
  | nil => simp [csr]
  | cons t ts ih =>
    obtain ⟨h1, h2, -, -⟩ := bcT_row B t
    rw [List.map_cons, csr_cons, ih, h1, h2]
    by_cases hij : j = i
    · subst hij
      rw [if_pos rfl, if_pos rfl]
      by_cases hr : t.row = j ∧ t.col = j
      · rw [List.filter_cons_of_pos (by simpa using hr), if_pos hr, List.length_cons, bcT, if_pos (by rw [hr.1]; exact hi)]
        simp [hr.1, hr.2]; ring
      · rw [List.filter_cons_of_neg (by simpa using hr), if_neg hr, zero_add]
    · rw [if_neg hij, if_neg hij, add_zero]
      split
      · rename_i hr
        rw [bcT, if_pos (by rw [hr.1]; exact hi)]
        have : ¬ t.col = t.row := by rw [hr.1, hr.2]; exact hij
        simp [this]
      · rfl

theorem csrRhs_bc (B : ℕ → Prop) [DecidablePred B] (rhs : List (ℕ × K)) (i : ℕ) :
    csrRhs (rhs.map (bcR B)) i = if B i then 0 else csrRhs rhs i := by
  induction rhs with
  | nil => simp [csrRhs]
  | cons r rs ih =>
    rw [List.map_cons, csrRhs_cons, csrRhs_cons, ih, bcR_fst]
    by_cases hr : r.1 = i
    · by_cases hB : B i
      · simp [hr, hB, bcR]
      · simp [hr, hB, bcR]
    · simp [hr]

/-- what an assembled solver consists of, in terms of the loop over the cells -/
theorem assemble_spec (ord : List ℤ → List ℤ) (perm : CellTopo → List ℕ) (F : WeakForm K) (interior : Bool)
    (s : GlobFunSp K) (soln : Option (List K)) (R : Solver K) (h : assemble ord perm F interior s soln = .ok R) :
    ∃ acc, cellLoop ord perm F interior (List.range s.mesh.numCells) ⟨s, [], [], List.replicate s.mesh.numCells none⟩ =
        .ok acc ∧ R.space = acc.space ∧ R.numFuns = acc.space.numFuns ∧ R.locSpaces = acc.locSpaces ∧ R.soln = soln ∧
      R.triplets = acc.triplets.map (bcT (bset ((List.range acc.space.mesh.numCells).flatMap fun a =>
        acc.space.cellDofs.getD a []))) ∧
      R.rhs = acc.rhs.map (bcR (bset ((List.range acc.space.mesh.numCells).flatMap fun a =>
        acc.space.cellDofs.getD a []))) ∧
      R.globMat = csr Triplet.a R.triplets ∧ R.globRhs = csrRhs R.rhs ∧ R.stiffMat = csr Triplet.h1 R.triplets ∧
      R.massMat = csr Triplet.l2 R.triplets ∧
      (∀ t ∈ acc.triplets, t.row < R.numFuns ∧ t.col < R.numFuns) ∧ (∀ r ∈ acc.rhs, r.1 < R.numFuns) := by
  unfold assemble at h
  cases hl : cellLoop ord perm F interior (List.range s.mesh.numCells) ⟨s, [], [], List.replicate s.mesh.numCells none⟩ with
  | error x => rw [hl] at h; simp [bind, Except.bind] at h
  | ok acc =>
    rw [hl] at h
    simp only [bind, Except.bind] at h
    rw [imposeBc_eq] at h
    simp only at h
    have hchk : ∀ n l, checkIdx n l = .ok () → ∀ x ∈ l, x < n := by
      intro n l hc x hx
      unfold checkIdx at hc
      cases hm : l.max? with
      | none => rw [hm] at hc; simp at hc
      | some y =>
        rw [hm] at hc
        simp only at hc
        split at hc
        · simp at hc
        · have := (List.max?_eq_some_iff.1 hm).2 x hx
          omega
    split at h
    · simp at h
    rename_i u1 e1
    split at h
    · simp at h
    rename_i u2 e2
    split at h
    · simp at h
    rename_i u3 e3
    simp only [Except.ok.injEq] at h
    subst h
    refine ⟨acc, rfl, rfl, rfl, rfl, rfl, rfl, rfl, rfl, rfl, rfl, rfl, ?_, ?_⟩
    · intro t ht
      constructor
      · refine hchk _ _ e2 _ (List.mem_map.2 ⟨_, List.mem_map.2 ⟨t, ht, rfl⟩, ?_⟩)
        exact (bcT_row _ t).1
      · refine hchk _ _ e3 _ (List.mem_map.2 ⟨_, List.mem_map.2 ⟨t, ht, rfl⟩, ?_⟩)
        exact (bcT_row _ t).2.1
    · intro r hr
      refine hchk _ _ e1 _ (List.mem_map.2 ⟨_, List.mem_map.2 ⟨r, hr, rfl⟩, ?_⟩)
      exact bcR_fst _ r

/-- the loop only appends the triplets of the cells -/
theorem cellLoop_triplets (ord : List ℤ → List ℤ) (perm : CellTopo → List ℕ) (F : WeakForm K) (interior : Bool)
    (as : List ℕ) (acc acc' : Accum K) (h : cellLoop ord perm F interior as acc = .ok acc') :
    ∃ n, acc'.triplets = acc.triplets ++ n ∧
      ∀ (val : Triplet K → K) (V : ℕ → LocFun K → LocFun K → K), (∀ a, Reads F a val (V a)) →
        ∀ i j, csr val n i j = csr val n j i := by
  induction as generalizing acc with
  | nil =>
    simp only [cellLoop, Except.ok.injEq] at h
    subst h
    exact ⟨[], by simp, fun _ _ _ _ _ => rfl⟩
  | cons a as ih =>
    rw [cellLoop] at h
    cases hc : cellStep ord perm F interior acc a with
    | error x => rw [hc] at h; simp [bind, Except.bind] at h
    | ok acc1 =>
      rw [hc] at h
      simp only [bind, Except.bind] at h
      obtain ⟨n, h1, h2⟩ := ih acc1 h
      unfold cellStep at hc
      cases hg : pyGetZ acc.space.mesh.cellIdxList a with
      | error x => rw [hg] at hc; simp [bind, Except.bind] at hc
      | ok c =>
        rw [hg] at hc
        simp only [bind, Except.bind] at hc
        cases hb : acc.space.buildLocal ord perm c with
        | error x => rw [hb] at hc; simp at hc
        | ok r =>
          rw [hb] at hc
          simp only [Except.ok.injEq] at hc
          subst hc
          refine ⟨cellTriplets F a r.2 ++ n, by rw [h1]; simp, ?_⟩
          intro val V hV i j
          rw [csr_append, csr_append, h2 val V hV, csr_cell_symm F a val (V a) (hV a)]

end Solver

namespace Setup

variable {K : Type} [Field K] [LinearOrder K] (S : Setup K)

/-- every cell of the mesh can be built -/
def CellsOk : Prop := ∀ c ∈ S.m.cellIdxList, ∃ k, S.m.getCell c = .ok k

/-- the cell at a position -/
def cellAt (a : ℕ) : CellTopo := ((S.m.getCell (S.m.cellIdxList.getD a 0)).toOption).getD ⟨0, [], [], 0, 0⟩

/-- the local basis of the cell at a position -/
def basisAt (a : ℕ) : List (LocFun K) := S.locBasis a (S.cellAt a)

theorem cellAt_spec (hc : S.CellsOk) (a : ℕ) (ha : a < S.m.cellIdxList.length) :
    S.m.getCell S.m.cellIdxList[a] = .ok (S.cellAt a) := by
  obtain ⟨k, hk⟩ := hc _ (List.getElem_mem ha)
  rw [cellAt, List.getD_eq_getElem _ _ ha, hk]
  rfl

theorem step (hc : S.CellsOk) (F : WeakForm K) (interior : Bool) (acc : Solver.Accum K)
    (hs : GlobFunSp.SameBut S.s0 acc.space) (a : ℕ) (ha : a < S.m.cellIdxList.length) :
    Solver.cellStep S.ord S.perm F interior acc a =
      .ok ⟨{ acc.space with cellDofs := acc.space.cellDofs.modify a (· ++ (S.basisAt a).map LocFun.key) },
        acc.triplets ++ Solver.cellTriplets F a (S.basisAt a), acc.rhs ++ Solver.cellRhs F a (S.basisAt a),
        if interior then acc.locSpaces.set a (some (S.basisAt a)) else acc.locSpaces⟩ := by
  have hmesh : acc.space.mesh = S.m := by
    obtain ⟨d, -, h⟩ := hs
    rw [h]
    exact (GlobFunSp.init_spec S.m S.deg S.space S.s0 S.hs).2.1
  unfold Solver.cellStep
  have h1 : pyGetZ acc.space.mesh.cellIdxList a = .ok S.m.cellIdxList[a] := by
    rw [hmesh]; simp [pyGetZ, ha]
  rw [h1]
  simp only [bind, Except.bind]
  rw [S.build acc.space hs a _ (List.getElem?_eq_getElem ha) _ (S.cellAt_spec hc a ha)]
  rfl

theorem loop (hc : S.CellsOk) (F : WeakForm K) (interior : Bool) (as : List ℕ) (acc : Solver.Accum K)
    (hs : GlobFunSp.SameBut S.s0 acc.space) (ha : ∀ a ∈ as, a < S.m.cellIdxList.length) :
    Solver.cellLoop S.ord S.perm F interior as acc =
      .ok ⟨{ acc.space with cellDofs := (as.foldl (fun d a => d.modify a (· ++ (S.basisAt a).map LocFun.key))
                acc.space.cellDofs) },
        acc.triplets ++ as.flatMap (fun a => Solver.cellTriplets F a (S.basisAt a)),
        acc.rhs ++ as.flatMap (fun a => Solver.cellRhs F a (S.basisAt a)),
        if interior then as.foldl (fun l a => l.set a (some (S.basisAt a))) acc.locSpaces else acc.locSpaces⟩ := by
  induction as generalizing acc with
  | nil => simp [Solver.cellLoop]
  | cons a as ih =>
    rw [Solver.cellLoop, S.step hc F interior acc hs a (ha a (by simp))]
    simp only [bind, Except.bind]
    rw [ih _ _ (fun b hb => ha b (by simp [hb]))]
    · cases interior <;> simp [List.append_assoc]
    · obtain ⟨d, hd, he⟩ := hs
      rw [he]
      exact ⟨_, by simp [hd], rfl⟩

theorem foldl_modify {α : Type} (f : ℕ → α → α) (as : List ℕ) (hnd : as.Nodup) (d : List α) (b : ℕ) :
    (as.foldl (fun d a => d.modify a (f a)) d)[b]? = if b ∈ as then (d[b]?).map (f b) else d[b]? := by
  induction as generalizing d with
  | nil => simp
  | cons a as ih =>
    obtain ⟨h1, h2⟩ := List.nodup_cons.1 hnd
    rw [List.foldl_cons, ih h2]
    by_cases hb : b = a
    · subst hb
      simp [h1]
    · have hab : ¬ a = b := fun h => hb h.symm
      simp only [List.mem_cons, hb, false_or, List.getElem?_modify, if_neg hab]
      simp

theorem foldl_set {α : Type} (f : ℕ → α) (as : List ℕ) (d : List α) (b : ℕ) (hb : b < d.length) :
    (as.foldl (fun d a => d.set a (f a)) d)[b]? = if b ∈ as then some (f b) else d[b]? := by
  induction as generalizing d with
  | nil => simp
  | cons a as ih =>
    rw [List.foldl_cons, ih _ (by simpa using hb)]
    by_cases h1 : b ∈ as
    · simp [h1]
    · by_cases h2 : b = a
      · subst h2; simp [h1, hb]
      · have hab : ¬ a = b := fun h => h2 h.symm
        simp [h1, h2, hab]

/-- the keys stored for the cells are keys of functions of their cells with the right number and flag -/
def DofsOk (s : GlobFunSp K) : Prop :=
  ∀ a, ∀ key ∈ s.cellDofs.getD a [], ∃ f ∈ S.basisAt a, key = f.key

end Setup
end PFEM
