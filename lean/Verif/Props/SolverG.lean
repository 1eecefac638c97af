import Verif.Spec.SolverG
import Verif.Props.Solver
import Verif.Props.LocBasis

/-!
C82: assembly with numerical objects.
-/

namespace PFEM
namespace SolverG

open LocSpaceG Finset

theorem numberLoop_same (s : GlobFunSp ℝ) (d : List (List GlobalKey)) (a : ℕ) (fs : List Fn) :
    numberLoop { s with cellDofs := d } a fs = numberLoop s a fs := by
  induction fs with
  | nil => rfl
  | cons v vs ih => rw [numberLoop, numberLoop, ih]; rfl

theorem cellEdgeSpaces_length (s : GlobFunSp ℝ) (es : List ℕ) (bs : List (EdgeSpace ℝ)) (h : s.cellEdgeSpaces es = .ok bs) :
    bs.length = es.length := by
  induction es generalizing bs with
  | nil => cases h; rfl
  | cons e es ih =>
    rw [GlobFunSp.cellEdgeSpaces] at h
    obtain ⟨b, -, h⟩ := bind_ok h
    obtain ⟨bs', h', h⟩ := bind_ok h
    cases h
    simp [ih _ h']

/-- numbering the objects is numbering the functions they stand for -/
theorem numberLoop_stands {s : GlobFunSp ℝ} {a : ℕ} {K : CellG} {c : ℝ × ℝ} {A : ℝ} {ls : List (LocFun ℝ)} {fs fs' : List Fn}
    (h : List.Forall₂ (Fn.Stands K c A) ls fs) (hn : numberLoop s a fs = .ok fs') :
    ∃ ls', s.numberLoop a ls = .ok ls' ∧ List.Forall₂ (Fn.Stands K c A) ls' fs' := by
  induction h generalizing fs' with
  | nil => cases hn; exact ⟨[], rfl, .nil⟩
  | @cons l f ls fs h1 _ ih =>
    rw [numberLoop] at hn
    obtain ⟨i, hi, hn⟩ := bind_ok hn
    obtain ⟨key, hk, hn⟩ := bind_ok hn
    obtain ⟨b, hb, hn⟩ := bind_ok hn
    obtain ⟨rest, hr, hn⟩ := bind_ok hn
    cases hn
    obtain ⟨ls', e, hs⟩ := ih hr
    rw [h1.key] at hi hk
    refine ⟨{ l with key := { key with onBoundary := some b } } :: ls', ?_, .cons ?_ hs⟩
    · rw [GlobFunSp.numberLoop, hi, py_ok_bind, hk, py_ok_bind, hb, py_ok_bind, e, py_ok_bind]
    · exact ⟨rfl, h1.cell, h1.trace, h1.edges, h1.harmonic, h1.bubble⟩

theorem stands_keys {K : CellG} {c : ℝ × ℝ} {A : ℝ} {ls : List (LocFun ℝ)} {fs : List Fn} (h : List.Forall₂ (Fn.Stands K c A) ls fs) :
    ls.map LocFun.key = fs.map Fn.key := by
  induction h with
  | nil => rfl
  | cons a _ ih => simp [a.key, ih]

/-- `build_local_function_space` with objects does the same as without -/
theorem buildLocal_refines {S : Setup ℝ} {E : Env} (hE : E.Fits S) {s s' : GlobFunSp ℝ} (hm : s.mesh = S.m) {cell : ℤ} {K : CellG}
    {fs : List Fn} (h : buildLocal E s cell = .ok (s', K, fs)) :
    ∃ k c A ls, s.mesh.getCell cell = .ok k ∧ E.geo k (E.evalInt || E.evalGrad) = .ok K ∧ centroid K = .ok c ∧ area K = .ok A ∧
      s.buildLocal S.ord S.perm cell = .ok (s', ls) ∧ List.Forall₂ (Fn.Stands K c A) ls fs := by
  obtain ⟨ho, hp, hg⟩ := hE
  unfold buildLocal at h
  obtain ⟨ab, h1, h⟩ := bind_ok h
  obtain ⟨k, h2, h⟩ := bind_ok h
  obtain ⟨K', h3, h⟩ := bind_ok h
  obtain ⟨bs, h4, h⟩ := bind_ok h
  obtain ⟨gs, h5, h⟩ := bind_ok h
  obtain ⟨gs', h6, h⟩ := bind_ok h
  simp only [Except.ok.injEq, Prod.mk.injEq] at h
  obtain ⟨rfl, rfl, rfl⟩ := h
  rw [hp] at h4 h5
  rw [ho] at h5
  obtain ⟨hr, hlen⟩ := hg _ _ _ _ (hm ▸ h2) h3
  obtain ⟨c, A, ls, e1, e2, e3, e4⟩ := C79_refines hr hlen ((cellEdgeSpaces_length _ _ _ h4).trans hlen) h5
  obtain ⟨ls', e5, e6⟩ := numberLoop_stands e4 h6
  refine ⟨k, c, A, ls', h2, h3, e1, e2, ?_, e6⟩
  unfold GlobFunSp.buildLocal
  rw [h1, py_ok_bind, h2, py_ok_bind]
  change Bind.bind (s.cellEdgeSpaces (S.perm k)) _ = _
  simp only [Int.toNat_natCast] at e3
  rw [h4, py_ok_bind, e3, py_ok_bind, e5, py_ok_bind]
  rw [stands_keys e6]

theorem buildLocal_same (E : Env) (s : GlobFunSp ℝ) (d : List (List GlobalKey)) (cell : ℤ) (s' : GlobFunSp ℝ) (K : CellG) (fs : List Fn) :
    buildLocal E { s with cellDofs := d } cell = .ok (s', K, fs) ↔
      ∃ a, s.mesh.getAbsCellIdx cell = .ok a ∧ s' = { s with cellDofs := d.modify a (· ++ fs.map Fn.key) } ∧
        ∃ s'', buildLocal E s cell = .ok (s'', K, fs) := by
  constructor
  · intro h
    unfold buildLocal at h
    obtain ⟨ab, h1, h⟩ := bind_ok h
    obtain ⟨k, h2, h⟩ := bind_ok h
    obtain ⟨K', h3, h⟩ := bind_ok h
    obtain ⟨bs, h4, h⟩ := bind_ok h
    obtain ⟨gs, h5, h⟩ := bind_ok h
    obtain ⟨gs', h6, h⟩ := bind_ok h
    simp only [Except.ok.injEq, Prod.mk.injEq] at h
    obtain ⟨rfl, rfl, rfl⟩ := h
    rw [numberLoop_same] at h6
    refine ⟨ab, h1, rfl, { s with cellDofs := s.cellDofs.modify ab (· ++ gs'.map Fn.key) }, ?_⟩
    have h4' : s.cellEdgeSpaces (E.perm k) = .ok bs := by rw [← h4]; clear h4 h5; induction E.perm k with
      | nil => rfl
      | cons e es ih => rw [GlobFunSp.cellEdgeSpaces, GlobFunSp.cellEdgeSpaces, ih]
    unfold buildLocal
    rw [h1, py_ok_bind, h2, py_ok_bind, h3, py_ok_bind, h4', py_ok_bind, h5, py_ok_bind, h6, py_ok_bind]
  · rintro ⟨a, ha, rfl, s'', h⟩
    unfold buildLocal at h
    obtain ⟨ab, h1, h⟩ := bind_ok h
    obtain ⟨k, h2, h⟩ := bind_ok h
    obtain ⟨K', h3, h⟩ := bind_ok h
    obtain ⟨bs, h4, h⟩ := bind_ok h
    obtain ⟨gs, h5, h⟩ := bind_ok h
    obtain ⟨gs', h6, h⟩ := bind_ok h
    simp only [Except.ok.injEq, Prod.mk.injEq] at h
    obtain ⟨rfl, rfl, rfl⟩ := h
    rw [← numberLoop_same s d] at h6
    have h4' : ({ s with cellDofs := d } : GlobFunSp ℝ).cellEdgeSpaces (E.perm k) = .ok bs := by
      rw [← h4]; clear h4 h5; induction E.perm k with
      | nil => rfl
      | cons e es ih => rw [GlobFunSp.cellEdgeSpaces, GlobFunSp.cellEdgeSpaces, ih]
    rw [ha] at h1
    cases h1
    unfold buildLocal
    rw [ha, py_ok_bind, h2, py_ok_bind, h3, py_ok_bind, h4', py_ok_bind, h5, py_ok_bind, h6, py_ok_bind]

/-- the objects and values of the cell at a position, from the fresh space -/
noncomputable def atCell (S : Setup ℝ) (E : Env) (B : BilinForm) (a : ℕ) : Py (CellG × List Fn × List (Triplet ℝ) × List (ℕ × ℝ)) := do
  let c ← pyGetZ S.m.cellIdxList a
  let (_, K, fs) ← buildLocal E S.s0 c
  let (ts, rs) ← cellValues B fs
  .ok (K, fs, ts, rs)

theorem step (S : Setup ℝ) (E : Env) (B : BilinForm) (acc acc' : Accum) (hs : GlobFunSp.SameBut S.s0 acc.space) (a : ℕ) 
    (ha : a < S.m.cellIdxList.length) :
    cellStep E B acc a = .ok acc' ↔ ∃ K fs ts rs, atCell S E B a = .ok (K, fs, ts, rs) ∧
      acc' = ⟨{ acc.space with cellDofs := acc.space.cellDofs.modify a (· ++ fs.map Fn.key) }, acc.triplets ++ ts, acc.rhs ++ rs,
        if E.evalInt then acc.locSpaces.set a (some (K, fs)) else acc.locSpaces⟩ := by
  have hm := S.mesh_eq acc.space hs
  have h0 : S.s0.mesh = S.m := S.mesh_eq S.s0 ⟨_, rfl, rfl⟩
  have hget : pyGetZ S.m.cellIdxList a = .ok S.m.cellIdxList[a] := by simp [pyGetZ, ha]
  have habs : S.m.getAbsCellIdx S.m.cellIdxList[a] = .ok a := 
    (C34_abs_cell_idx S.st S.es S.m S.hm).2.1 a _ (List.getElem?_eq_getElem ha)
  obtain ⟨d, hd, he⟩ := hs
  constructor
  · intro h
    unfold cellStep at h
    rw [hm, hget, py_ok_bind] at h
    obtain ⟨⟨s', K, fs⟩, h1, h⟩ := bind_ok h
    obtain ⟨⟨ts, rs⟩, h2, h⟩ := bind_ok h
    rw [he, buildLocal_same] at h1
    obtain ⟨a', e1, rfl, s'', e2⟩ := h1
    rw [h0, habs] at e1
    cases e1
    refine ⟨K, fs, ts, rs, ?_, ?_⟩
    · rw [atCell, hget, py_ok_bind, e2, py_ok_bind]
      dsimp only
      rw [h2, py_ok_bind]
    · simp only [Except.ok.injEq] at h
      rw [← h, he]
  · rintro ⟨K, fs, ts, rs, h, rfl⟩
    rw [atCell, hget, py_ok_bind] at h
    obtain ⟨⟨s', K', fs'⟩, h1, h⟩ := bind_ok h
    obtain ⟨⟨ts', rs'⟩, h2, h⟩ := bind_ok h
    simp only [Except.ok.injEq, Prod.mk.injEq] at h
    obtain ⟨rfl, rfl, rfl, rfl⟩ := h
    unfold cellStep
    rw [hm, hget, py_ok_bind]
    have e := (buildLocal_same E S.s0 d S.m.cellIdxList[a] _ K' fs').2 ⟨a, by rw [h0]; exact habs, rfl, s', h1⟩
    rw [← he] at e
    rw [e, py_ok_bind]
    dsimp only
    rw [h2, py_ok_bind, he]

/-- the parts of the cell at a position -/
noncomputable def fnsAt (S : Setup ℝ) (E : Env) (B : BilinForm) (a : ℕ) : List Fn := ((atCell S E B a).toOption.map fun x => x.2.1).getD []

noncomputable def tsAt (S : Setup ℝ) (E : Env) (B : BilinForm) (a : ℕ) : List (Triplet ℝ) :=
  ((atCell S E B a).toOption.map fun x => x.2.2.1).getD []

noncomputable def rsAt (S : Setup ℝ) (E : Env) (B : BilinForm) (a : ℕ) : List (ℕ × ℝ) :=
  ((atCell S E B a).toOption.map fun x => x.2.2.2).getD []

noncomputable def spAt (S : Setup ℝ) (E : Env) (B : BilinForm) (a : ℕ) : Option (CellG × List Fn) :=
  (atCell S E B a).toOption.map fun x => (x.1, x.2.1)

theorem parts {S : Setup ℝ} {E : Env} {B : BilinForm} {a : ℕ} {K : CellG} {fs : List Fn} {ts : List (Triplet ℝ)} {rs : List (ℕ × ℝ)}
    (h : atCell S E B a = .ok (K, fs, ts, rs)) :
    fnsAt S E B a = fs ∧ tsAt S E B a = ts ∧ rsAt S E B a = rs ∧ spAt S E B a = some (K, fs) := by
  simp [fnsAt, tsAt, rsAt, spAt, h, Except.toOption]

theorem loop (S : Setup ℝ) (E : Env) (B : BilinForm) (as : List ℕ) (acc acc' : Accum) (hs : GlobFunSp.SameBut S.s0 acc.space)
    (ha : ∀ a ∈ as, a < S.m.cellIdxList.length) :
    cellLoop E B as acc = .ok acc' ↔ (∀ a ∈ as, ∃ x, atCell S E B a = .ok x) ∧
      acc' = ⟨{ acc.space with cellDofs := (as.foldl (fun d a => d.modify a (· ++ (fnsAt S E B a).map Fn.key)) acc.space.cellDofs) },
        acc.triplets ++ as.flatMap (tsAt S E B), acc.rhs ++ as.flatMap (rsAt S E B),
        if E.evalInt then as.foldl (fun l a => l.set a (spAt S E B a)) acc.locSpaces else acc.locSpaces⟩ := by
  induction as generalizing acc with
  | nil =>
    rw [cellLoop]
    refine ⟨fun h => ⟨by simp, ?_⟩, fun h => ?_⟩
    · cases h; simp
    · rw [h.2]; simp
  | cons a as ih =>
    rw [cellLoop]
    have hs' : ∀ (K : CellG) (fs : List Fn) (ts : List (Triplet ℝ)) (rs : List (ℕ × ℝ)), GlobFunSp.SameBut S.s0
        (⟨{ acc.space with cellDofs := acc.space.cellDofs.modify a (· ++ fs.map Fn.key) },
        acc.triplets ++ ts, acc.rhs ++ rs, if E.evalInt then acc.locSpaces.set a (some (K, fs)) else acc.locSpaces⟩ : Accum).space := by
      intro K fs ts rs
      obtain ⟨d, hd, he⟩ := hs
      refine ⟨d.modify a (· ++ fs.map Fn.key), by simpa using hd, ?_⟩
      change ({ acc.space with cellDofs := acc.space.cellDofs.modify a (· ++ fs.map Fn.key) } : GlobFunSp ℝ) = _
      rw [he]
    constructor
    · intro h
      obtain ⟨acc1, h1, h⟩ := bind_ok h
      obtain ⟨K, fs, ts, rs, e, rfl⟩ := (step S E B acc acc1 hs a (ha a (by simp))).1 h1
      obtain ⟨g1, rfl⟩ := (ih _ (hs' K fs ts rs) (fun b hb => ha b (by simp [hb]))).1 h
      obtain ⟨e1, e2, e3, e4⟩ := parts e
      refine ⟨?_, ?_⟩
      · intro b hb
        rcases List.mem_cons.1 hb with rfl | hb
        · exact ⟨_, e⟩
        · exact g1 b hb
      · rw [List.foldl_cons, List.flatMap_cons, List.flatMap_cons, List.foldl_cons, e1, e2, e3, e4]
        cases E.evalInt <;> simp [List.append_assoc]
    · rintro ⟨h, rfl⟩
      obtain ⟨⟨K, fs, ts, rs⟩, e⟩ := h a (by simp)
      obtain ⟨e1, e2, e3, e4⟩ := parts e
      rw [(step S E B acc _ hs a (ha a (by simp))).2 ⟨K, fs, ts, rs, e, rfl⟩, py_ok_bind]
      refine (ih _ (hs' K fs ts rs) (fun b hb => ha b (by simp [hb]))).2 ⟨fun b hb => h b (by simp [hb]), ?_⟩
      rw [List.foldl_cons, List.flatMap_cons, List.flatMap_cons, List.foldl_cons, e1, e2, e3, e4]
      cases E.evalInt <;> simp [List.append_assoc]

/-- the value of a computation that is known to succeed -/
def val (x : Py ℝ) : ℝ := x.toOption.getD 0

/-- the form whose local values are the values for the objects -/
noncomputable def weakOf (B : BilinForm) (o : ℕ → ℕ → LocPoisson) : WeakForm ℝ where
  diffusion := B.diffusion
  reaction := B.reaction
  h1 a v w := val ((o a v.glob).getH1 (.poisson (o a w.glob)))
  l2 a v w := val ((o a v.glob).getL2 (.poisson (o a w.glob)))
  rhs a v := val (B.evalRhs (o a v.glob))

/-- the inner products of two functions exist -/
def Products (o : ℕ → LocPoisson) (v w : LocFun ℝ) : Prop :=
  (o v.glob).getH1 (.poisson (o w.glob)) = .ok (val ((o v.glob).getH1 (.poisson (o w.glob)))) ∧
  (o v.glob).getL2 (.poisson (o w.glob)) = .ok (val ((o v.glob).getL2 (.poisson (o w.glob))))

theorem matrixValues_refines {B : BilinForm} {o : ℕ → ℕ → LocPoisson} {a : ℕ} {v w : LocFun ℝ} {f g : Fn} (h1 : f.key = v.key)
    (h2 : f.val = o a v.glob) (h3 : g.key = w.key) (h4 : g.val = o a w.glob) {sym : Bool} {ts : List (Triplet ℝ)}
    (h : matrixValues B f g sym = .ok ts) :
    ts = Solver.matrixValues (weakOf B o) a v w sym ∧ Products (o a) v w := by
  unfold matrixValues at h
  rw [h2, h4] at h
  obtain ⟨x, hx, h⟩ := bind_ok h
  obtain ⟨y, hy, h⟩ := bind_ok h
  simp only [Except.ok.injEq] at h
  have e1 : glob f = v.glob := by rw [glob, h1]; rfl
  have e2 : glob g = w.glob := by rw [glob, h3]; rfl
  subst h
  rw [e1, e2]
  refine ⟨?_, ?_⟩
  · simp [Solver.matrixValues, weakOf, WeakForm.eval, BilinForm.evalWith, val, hx, hy, Except.toOption]
  · simp [Products, val, hx, hy, Except.toOption]

theorem pairLoop_refines {B : BilinForm} {o : ℕ → ℕ → LocPoisson} {a : ℕ} {v : LocFun ℝ} {f : Fn} (h1 : f.key = v.key)
    (h2 : f.val = o a v.glob) {ls : List (LocFun ℝ)} {fs : List Fn}
    (hs : List.Forall₂ (fun l f => f.key = l.key ∧ f.val = o a l.glob) ls fs) {ts : List (Triplet ℝ)} (h : pairLoop B f fs = .ok ts) :
    ts = ls.flatMap (fun w => Solver.matrixValues (weakOf B o) a v w true) ∧ ∀ w ∈ ls, Products (o a) v w := by
  induction hs generalizing ts with
  | nil => cases h; simp
  | cons g _ ih =>
    rw [pairLoop] at h
    obtain ⟨t, ht, h⟩ := bind_ok h
    obtain ⟨ts', ht', h⟩ := bind_ok h
    cases h
    obtain ⟨e1, e2⟩ := matrixValues_refines h1 h2 g.1 g.2 ht
    obtain ⟨e3, e4⟩ := ih ht'
    exact ⟨by rw [List.flatMap_cons, ← e1, ← e3], by simpa using ⟨e2, e4⟩⟩

theorem cellValues_refines {B : BilinForm} {o : ℕ → ℕ → LocPoisson} {a : ℕ} {ls : List (LocFun ℝ)} {fs : List Fn}
    (hs : List.Forall₂ (fun l f => f.key = l.key ∧ f.val = o a l.glob) ls fs) {ts : List (Triplet ℝ)} {rs : List (ℕ × ℝ)}
    (h : cellValues B fs = .ok (ts, rs)) :
    ts = Solver.cellTriplets (weakOf B o) a ls ∧ rs = Solver.cellRhs (weakOf B o) a ls ∧ ls.Pairwise (Products (o a)) ∧
      (∀ v ∈ ls, Products (o a) v v) ∧ ∀ v ∈ ls, B.evalRhs (o a v.glob) = .ok (val (B.evalRhs (o a v.glob))) := by
  induction hs generalizing ts rs with
  | nil => cases h; simp [Solver.cellTriplets, Solver.cellRhs]
  | @cons v f ls fs g hg ih =>
    rw [cellValues] at h
    obtain ⟨r, hr, h⟩ := bind_ok h
    obtain ⟨d, hd, h⟩ := bind_ok h
    obtain ⟨t, ht, h⟩ := bind_ok h
    obtain ⟨⟨ts', rs'⟩, hc, h⟩ := bind_ok h
    simp only [Except.ok.injEq, Prod.mk.injEq] at h
    obtain ⟨rfl, rfl⟩ := h
    obtain ⟨e1, e2⟩ := matrixValues_refines g.1 g.2 g.1 g.2 hd
    obtain ⟨e3, e4⟩ := pairLoop_refines g.1 g.2 hg ht
    obtain ⟨e5, e6, e7, e8, e9⟩ := ih hc
    have eg : glob f = v.glob := by rw [glob, g.1]; rfl
    rw [g.2] at hr
    have hr' : val (B.evalRhs (o a v.glob)) = r := by simp [val, hr, Except.toOption]
    refine ⟨by rw [Solver.cellTriplets, e1, e3, e5], ?_, List.pairwise_cons.2 ⟨e4, e7⟩, by simpa using ⟨e2, e8⟩, ?_⟩
    · rw [e6, eg]
      simp [Solver.cellRhs, weakOf, hr']
    · intro w hw
      rcases List.mem_cons.1 hw with rfl | hw
      · rw [hr', hr]
      · exact e9 w hw

/-- the object with a number -/
noncomputable def objOf (fs : List Fn) (i : ℕ) : LocPoisson := ((fs.find? fun f => decide (glob f = i)).map Fn.val).getD {}

theorem objOf_eq {fs : List Fn} (hn : (fs.map glob).Nodup) {f : Fn} (hf : f ∈ fs) : objOf fs (glob f) = f.val := by
  unfold objOf
  induction fs with
  | nil => simp at hf
  | cons g gs ih =>
    rw [List.map_cons, List.nodup_cons] at hn
    rcases List.mem_cons.1 hf with rfl | hf
    · simp
    · have hne : glob g ≠ glob f := fun e => hn.1 (e ▸ List.mem_map_of_mem hf)
      rw [List.find?_cons_of_neg (by simpa using hne)]
      exact ih hn.2 hf

theorem basis_nodup (S : Setup ℝ) (hc : S.CellsOk) (a : ℕ) (ha : a < S.m.cellIdxList.length) :
    ((S.basisAt a).map LocFun.glob).Nodup := by
  have hk := S.cellAt_spec hc a ha
  obtain ⟨-, h2, -, h4⟩ := C55_keys S S.s0 ⟨_, rfl, rfl⟩ a _ (List.getElem?_eq_getElem ha) _ hk _ _
    (S.build S.s0 ⟨_, rfl, rfl⟩ a _ (List.getElem?_eq_getElem ha) _ hk)
  rw [List.Nodup, List.pairwise_map] at h2 ⊢
  refine h2.imp_of_mem ?_
  intro v w hv hw hvw e
  obtain ⟨i, -, hi, -⟩ := h4 v hv
  obtain ⟨j, -, hj, -⟩ := h4 w hw
  rw [LocFun.glob, LocFun.glob, hi, hj] at e
  exact hvw (by rw [hi, hj]; exact congrArg some e)

/-- everything about one cell -/
theorem atCell_spec {S : Setup ℝ} (hc : S.CellsOk) {E : Env} (hE : E.Fits S) {B : BilinForm} {a : ℕ} (ha : a < S.m.cellIdxList.length)
    {x : CellG × List Fn × List (Triplet ℝ) × List (ℕ × ℝ)} (h : atCell S E B a = .ok x) (o : ℕ → ℕ → LocPoisson)
    (ho : o a = objOf (fnsAt S E B a)) :
    ∃ z A, spAt S E B a = some (x.1, fnsAt S E B a) ∧ E.geo (S.cellAt a) (E.evalInt || E.evalGrad) = .ok x.1 ∧
      centroid x.1 = .ok z ∧ area x.1 = .ok A ∧ List.Forall₂ (Fn.Stands x.1 z A) (S.basisAt a) (fnsAt S E B a) ∧
      List.Forall₂ (fun l f => f.key = l.key ∧ f.val = o a l.glob) (S.basisAt a) (fnsAt S E B a) ∧
      cellValues B (fnsAt S E B a) = .ok (tsAt S E B a, rsAt S E B a) := by
  obtain ⟨K, fs, ts, rs⟩ := x
  have h0 : S.s0.mesh = S.m := S.mesh_eq S.s0 ⟨_, rfl, rfl⟩
  have hk := S.cellAt_spec hc a ha
  obtain ⟨p1, p2, p3, p4⟩ := parts h
  have hget : pyGetZ S.m.cellIdxList a = .ok S.m.cellIdxList[a] := by simp [pyGetZ, ha]
  rw [atCell, hget, py_ok_bind] at h
  obtain ⟨⟨s', K', fs'⟩, h1, h⟩ := bind_ok h
  obtain ⟨⟨ts', rs'⟩, h2, h⟩ := bind_ok h
  simp only [Except.ok.injEq, Prod.mk.injEq] at h
  obtain ⟨rfl, rfl, rfl, rfl⟩ := h
  obtain ⟨k, z, A, ls, e1, e2, e3, e4, e5, e6⟩ := buildLocal_refines hE h0 h1
  rw [h0, hk] at e1
  cases e1
  rw [S.build S.s0 ⟨_, rfl, rfl⟩ a _ (List.getElem?_eq_getElem ha) _ hk] at e5
  simp only [Except.ok.injEq, Prod.mk.injEq] at e5
  obtain ⟨-, rfl⟩ := e5
  rw [p1, p2, p3, p4]
  refine ⟨z, A, rfl, e2, e3, e4, e6, ?_, h2⟩
  rw [p1] at ho
  have hn := basis_nodup S hc a ha
  have hg : (S.basisAt a).map LocFun.glob = fs'.map glob := by
    have := congrArg (List.map fun key : GlobalKey => key.globIdx.getD 0) (stands_keys e6)
    rw [List.map_map, List.map_map] at this
    exact this
  rw [hg] at hn
  rw [ho]
  have hmem : ∀ f ∈ fs', objOf fs' (glob f) = f.val := fun f hf => objOf_eq hn hf
  change List.Forall₂ _ (S.locBasis a (S.cellAt a)) fs'
  generalize hgen : objOf fs' = ob at hmem ⊢
  generalize S.locBasis a (S.cellAt a) = ls at e6 ⊢
  clear * - e6 hmem
  induction e6 with
  | nil => exact .nil
  | cons g _ ih =>
    refine .cons ⟨g.key, ?_⟩ (ih fun f hf => hmem f (by simp [hf]))
    rw [← hmem _ (by simp), glob, g.key]; rfl

/-- the loop over the cells does the same as the abstract one -/
theorem loop_refines {S : Setup ℝ} (hc : S.CellsOk) {E : Env} (hE : E.Fits S) {B : BilinForm} {s : GlobFunSp ℝ}
    (hs : GlobFunSp.SameBut S.s0 s) (hok : ∀ a < S.m.cellIdxList.length, ∃ x, atCell S E B a = .ok x) :
    ∃ sp l l', Solver.cellLoop S.ord S.perm (weakOf B fun a => objOf (fnsAt S E B a)) E.evalInt (List.range S.m.cellIdxList.length)
        ⟨s, [], [], List.replicate S.m.cellIdxList.length none⟩ =
      .ok ⟨sp, (List.range S.m.cellIdxList.length).flatMap (tsAt S E B), (List.range S.m.cellIdxList.length).flatMap (rsAt S E B), l⟩ ∧
    cellLoop E B (List.range S.m.cellIdxList.length) ⟨s, [], [], List.replicate S.m.cellIdxList.length none⟩ =
      .ok ⟨sp, (List.range S.m.cellIdxList.length).flatMap (tsAt S E B), (List.range S.m.cellIdxList.length).flatMap (rsAt S E B), l'⟩ ∧
    l' = if E.evalInt then
        (List.range S.m.cellIdxList.length).foldl (fun l a => l.set a (spAt S E B a)) (List.replicate S.m.cellIdxList.length none)
        else List.replicate S.m.cellIdxList.length none := by
  have hr : ∀ a ∈ List.range S.m.cellIdxList.length, a < S.m.cellIdxList.length := fun a ha => List.mem_range.1 ha
  set o : ℕ → ℕ → LocPoisson := fun a => objOf (fnsAt S E B a) with ho
  have hval : ∀ a ∈ List.range S.m.cellIdxList.length, tsAt S E B a = Solver.cellTriplets (weakOf B o) a (S.basisAt a) ∧
      rsAt S E B a = Solver.cellRhs (weakOf B o) a (S.basisAt a) ∧ (fnsAt S E B a).map Fn.key = (S.basisAt a).map LocFun.key := by
    intro a ha
    obtain ⟨x, hx⟩ := hok a (hr a ha)
    obtain ⟨z, A, -, -, -, -, e1, e2, e3⟩ := atCell_spec hc hE (hr a ha) hx o rfl
    obtain ⟨f1, f2, -⟩ := cellValues_refines e2 e3
    exact ⟨f1, f2, (stands_keys e1).symm⟩
  have hloop := S.loop hc (weakOf B o) E.evalInt (List.range S.m.cellIdxList.length)
    ⟨s, [], [], List.replicate S.m.cellIdxList.length none⟩ hs hr
  have q1 : (List.range S.m.cellIdxList.length).flatMap (fun a => Solver.cellTriplets (weakOf B o) a (S.basisAt a)) =
      (List.range S.m.cellIdxList.length).flatMap (tsAt S E B) :=
    List.flatMap_congr fun a ha => (hval a ha).1.symm
  have q2 : (List.range S.m.cellIdxList.length).flatMap (fun a => Solver.cellRhs (weakOf B o) a (S.basisAt a)) =
      (List.range S.m.cellIdxList.length).flatMap (rsAt S E B) :=
    List.flatMap_congr fun a ha => (hval a ha).2.1.symm
  have q3 : (List.range S.m.cellIdxList.length).foldl (fun d a => d.modify a (· ++ (S.basisAt a).map LocFun.key)) s.cellDofs =
      (List.range S.m.cellIdxList.length).foldl (fun d a => d.modify a (· ++ (fnsAt S E B a).map Fn.key)) s.cellDofs := by
    have : ∀ (as : List ℕ) (d : List (List GlobalKey)), (∀ a ∈ as, (fnsAt S E B a).map Fn.key = (S.basisAt a).map LocFun.key) →
        as.foldl (fun d a => d.modify a (· ++ (S.basisAt a).map LocFun.key)) d =
        as.foldl (fun d a => d.modify a (· ++ (fnsAt S E B a).map Fn.key)) d := by
      intro as
      induction as with
      | nil => intro d _; rfl
      | cons a as ih => intro d hd; rw [List.foldl_cons, List.foldl_cons, hd a (by simp), ih _ fun b hb => hd b (by simp [hb])]
    exact this _ _ fun a ha => (hval a ha).2.2
  simp only [q1, q2, q3, List.nil_append] at hloop
  have h2 := (loop S E B _ ⟨s, [], [], List.replicate S.m.cellIdxList.length none⟩ _ hs hr).2 ⟨fun a ha => hok a (hr a ha), rfl⟩
  simp only [List.nil_append] at h2
  exact ⟨_, _, _, hloop, h2, rfl⟩

/-- Assembly with objects is the abstract assembly for the form whose local values are the inner products of the objects. -/
theorem assemble_refines {S : Setup ℝ} (hc : S.CellsOk) {E : Env} (hE : E.Fits S) {B : BilinForm} {s : GlobFunSp ℝ}
    (hs : GlobFunSp.SameBut S.s0 s) {soln : Option (List ℝ)} {R : State} (h : assemble E B s soln = .ok R) :
    (∀ a < S.m.cellIdxList.length, ∃ x, atCell S E B a = .ok x) ∧
    ∃ R', Solver.assemble S.ord S.perm (weakOf B fun a => objOf (fnsAt S E B a)) E.evalInt s soln = .ok R' ∧ R'.space = R.space ∧
      R'.numFuns = R.numFuns ∧ R'.globMat = R.globMat ∧ R'.globRhs = R.globRhs ∧ R'.stiffMat = R.stiffMat ∧ R'.massMat = R.massMat ∧
      R'.soln = R.soln ∧ R.locSpaces = if E.evalInt then
        (List.range S.m.cellIdxList.length).foldl (fun l a => l.set a (spAt S E B a)) (List.replicate S.m.cellIdxList.length none)
        else List.replicate S.m.cellIdxList.length none := by
  have hm := S.mesh_eq s hs
  have hnc := S.numCells_eq
  have hr : ∀ a ∈ List.range S.m.cellIdxList.length, a < S.m.cellIdxList.length := fun a ha => List.mem_range.1 ha
  unfold assemble at h
  rw [hm, hnc] at h
  obtain ⟨acc, h1, h⟩ := bind_ok h
  have hok : ∀ a < S.m.cellIdxList.length, ∃ x, atCell S E B a = .ok x := fun a ha =>
    ((loop S E B _ ⟨s, [], [], List.replicate S.m.cellIdxList.length none⟩ acc hs hr).1 h1).1 a (List.mem_range.2 ha)
  obtain ⟨sp, l, l', e1, e2, e3⟩ := loop_refines hc hE hs hok
  rw [h1] at e2
  cases e2
  refine ⟨hok, ?_⟩
  unfold Solver.assemble
  rw [hm, hnc, e1, py_ok_bind]
  dsimp only at h ⊢
  obtain ⟨u1, c1, h⟩ := bind_ok h
  obtain ⟨u2, c2, h⟩ := bind_ok h
  obtain ⟨u3, c3, h⟩ := bind_ok h
  rw [c1, py_ok_bind, c2, py_ok_bind, c3, py_ok_bind]
  cases h
  exact ⟨_, rfl, rfl, rfl, rfl, rfl, rfl, rfl, rfl, e3⟩

/-- and it succeeds if it succeeds for all cells and there is a function -/
theorem assemble_succeeds {S : Setup ℝ} (hc : S.CellsOk) {E : Env} (hE : E.Fits S) {B : BilinForm} {s : GlobFunSp ℝ} (hs : S.Hist s)
    (h0 : 0 < S.s0.numFuns) (hok : ∀ a < S.m.cellIdxList.length, ∃ x, atCell S E B a = .ok x) (soln : Option (List ℝ)) :
    ∃ R, assemble E B s soln = .ok R := by
  obtain ⟨hsame, -⟩ := S.hist_spec hc s hs
  have hm := S.mesh_eq s hsame
  have hnc := S.numCells_eq
  obtain ⟨sp, l, l', e1, e2, -⟩ := loop_refines hc hE hsame hok
  obtain ⟨R', h⟩ := (C41_succeeds S hc (weakOf B fun a => objOf (fnsAt S E B a)) E.evalInt s hs soln).1 h0
  unfold Solver.assemble at h
  rw [hm, hnc, e1, py_ok_bind] at h
  unfold assemble
  rw [hm, hnc, e2, py_ok_bind]
  dsimp only at h ⊢
  obtain ⟨u1, c1, h⟩ := bind_ok h
  obtain ⟨u2, c2, h⟩ := bind_ok h
  obtain ⟨u3, c3, h⟩ := bind_ok h
  rw [c1, py_ok_bind, c2, py_ok_bind, c3, py_ok_bind]
  exact ⟨_, rfl⟩

/-- in a list without repeated numbers a sum over pairs has one term -/
theorem pair_sum (fs : List (LocFun ℝ)) (hn : (fs.map LocFun.glob).Nodup) (G : Fin fs.length → Fin fs.length → ℝ) (r q : Fin fs.length) :
    (∑ r' : Fin fs.length, ∑ q' : Fin fs.length, if fs[r'].glob = fs[r].glob ∧ fs[q'].glob = fs[q].glob then G r' q' else 0) = G r q := by
  have inj : ∀ x y : Fin fs.length, fs[x].glob = fs[y].glob → x = y := by
    intro x y h
    have := (List.Nodup.getElem_inj_iff hn (i := x) (j := y) (hi := by simp) (hj := by simp)).1 (by simpa using h)
    exact Fin.ext this
  rw [Finset.sum_eq_single r, Finset.sum_eq_single q]
  · simp
  · intro q' _ hq
    rw [if_neg fun h => hq (inj _ _ h.2)]
  · simp
  · intro r' _ hr
    exact Finset.sum_eq_zero fun q' _ => by rw [if_neg fun h => hr (inj _ _ h.1)]
  · simp

theorem single_sum (fs : List (LocFun ℝ)) (hn : (fs.map LocFun.glob).Nodup) (G : LocFun ℝ → ℝ) (v : LocFun ℝ) (hv : v ∈ fs) :
    (fs.map fun w => if w.glob = v.glob then G w else 0).sum = G v := by
  induction fs with
  | nil => simp at hv
  | cons w ws ih =>
    rw [List.map_cons, List.nodup_cons] at hn
    rw [List.map_cons, List.sum_cons]
    rcases List.mem_cons.1 hv with rfl | hv
    · rw [if_pos rfl, List.sum_eq_zero, add_zero]
      intro x hx
      obtain ⟨w, hw, rfl⟩ := List.mem_map.1 hx
      rw [if_neg fun e : w.glob = v.glob => hn.1 (e ▸ List.mem_map_of_mem hw)]
    · rw [if_neg fun e : w.glob = v.glob => hn.1 (e ▸ List.mem_map_of_mem hv), zero_add, ih hn.2 hv]

/-- the local values by number -/
noncomputable def localValue (V : LocFun ℝ → LocFun ℝ → ℝ) (fs : List (LocFun ℝ)) (i j : ℕ) : ℝ :=
  ∑ r : Fin fs.length, ∑ q : Fin fs.length, if fs[r].glob = i ∧ fs[q].glob = j then pairValue V fs r q else 0

theorem localValue_mem (V : LocFun ℝ → LocFun ℝ → ℝ) (fs : List (LocFun ℝ)) (hn : (fs.map LocFun.glob).Nodup)
    (P : LocFun ℝ → LocFun ℝ → Prop) (hP : fs.Pairwise P) (hd : ∀ v ∈ fs, P v v) (v w : LocFun ℝ) (hv : v ∈ fs) (hw : w ∈ fs) :
    (P v w ∧ localValue V fs v.glob w.glob = V v w) ∨ (P w v ∧ localValue V fs v.glob w.glob = V w v) := by
  obtain ⟨r, hr, rfl⟩ := List.mem_iff_getElem.1 hv
  obtain ⟨q, hq, rfl⟩ := List.mem_iff_getElem.1 hw
  have e := pair_sum fs hn (pairValue V fs) ⟨r, hr⟩ ⟨q, hq⟩
  change localValue V fs fs[r].glob fs[q].glob = _ at e
  rw [e]
  unfold pairValue
  rw [List.pairwise_iff_getElem] at hP
  rcases lt_trichotomy r q with h | h | h
  · exact Or.inl ⟨hP r q hr hq h, by simp [h.le]⟩
  · subst h
    exact Or.inl ⟨hd _ (List.getElem_mem hr), by simp⟩
  · exact Or.inr ⟨hP q r hq hr h, by simp [h]⟩

theorem localValue_away (V : LocFun ℝ → LocFun ℝ → ℝ) (fs : List (LocFun ℝ)) (i j : ℕ)
    (h : ¬ ((∃ v ∈ fs, v.glob = i) ∧ ∃ w ∈ fs, w.glob = j)) : localValue V fs i j = 0 := by
  refine Finset.sum_eq_zero fun r _ => Finset.sum_eq_zero fun q _ => ?_
  rw [if_neg fun e => h ⟨⟨_, List.getElem_mem _, e.1⟩, ⟨_, List.getElem_mem _, e.2⟩⟩]

/-- the data of the cell at a position -/
noncomputable def dataAt (S : Setup ℝ) (E : Env) (B : BilinForm) (a : ℕ) : CellData where
  K := ((spAt S E B a).map Prod.fst).getD { components := [] }
  funs := S.basisAt a
  obj := objOf (fnsAt S E B a)
  H := localValue ((weakOf B fun a => objOf (fnsAt S E B a)).h1 a) (S.basisAt a)
  L := localValue ((weakOf B fun a => objOf (fnsAt S E B a)).l2 a) (S.basisAt a)
  r := fun i => ((S.basisAt a).map fun v => if v.glob = i then (weakOf B fun a => objOf (fnsAt S E B a)).rhs a v else 0).sum

theorem entries {S : Setup ℝ} (hc : S.CellsOk) {E : Env} (hE : E.Fits S) {B : BilinForm} {s : GlobFunSp ℝ} (hs : S.Hist s)
    {soln : Option (List ℝ)} {R : State} (h : assemble E B s soln = .ok R) :
    (∀ a c, S.m.cellIdxList[a]? = some c → (dataAt S E B a).Valid S E B c ∧
        R.locSpaces[a]? = some (if E.evalInt then some ((dataAt S E B a).K, fnsAt S E B a) else none) ∧
        (dataAt S E B a).funs.map (fun l => (⟨l.key, (dataAt S E B a).obj l.glob⟩ : Fn)) = fnsAt S E B a) ∧
      (∀ i j, R.stiffMat i j = ∑ a ∈ range S.m.cellIdxList.length, (dataAt S E B a).H i j) ∧
      (∀ i j, R.massMat i j = ∑ a ∈ range S.m.cellIdxList.length, (dataAt S E B a).L i j) ∧
      (∀ i j, ¬ S.BoundaryNumber i → R.globMat i j = B.diffusion * R.stiffMat i j + B.reaction * R.massMat i j) ∧
      (∀ i, ¬ S.BoundaryNumber i → R.globRhs i = ∑ a ∈ range S.m.cellIdxList.length, (dataAt S E B a).r i) ∧
      (∀ i, S.BoundaryNumber i → 0 < R.globMat i i ∧ (∀ j, j ≠ i → R.globMat i j = 0) ∧ R.globRhs i = 0) ∧
      R.numFuns = S.s0.numFuns ∧ R.soln = soln ∧ S.Hist R.space := by
  obtain ⟨hsame, -⟩ := S.hist_spec hc s hs
  obtain ⟨hok, R', h1, h2, h3, h4, h5, h6, h7, h8, h9⟩ := assemble_refines hc hE hsame h
  set o : ℕ → ℕ → LocPoisson := fun a => objOf (fnsAt S E B a) with ho
  set F := weakOf B o with hF
  obtain ⟨Bf, hB, g1, g2, g3, g4⟩ := C41_entries S hc F E.evalInt s hs soln R' h1
  obtain ⟨-, -, -, -, gn, -, -, gs⟩ := S.assembled_spec hc F E.evalInt s hs soln R' h1
  have hBf : ∀ a < S.m.cellIdxList.length, Bf a = S.basisAt a := by
    intro a ha
    obtain ⟨s', e⟩ := hB a _ (List.getElem?_eq_getElem ha)
    rw [S.build S.s0 ⟨_, rfl, rfl⟩ a _ (List.getElem?_eq_getElem ha) _ (S.cellAt_spec hc a ha)] at e
    simp only [Except.ok.injEq, Prod.mk.injEq] at e
    exact e.2.symm
  set D : ℕ → CellData := dataAt S E B with hDdef
  have hst : ∀ i j, R'.stiffMat i j = ∑ a ∈ range S.m.cellIdxList.length, (D a).H i j := by
    intro i j
    rw [g1]
    refine Finset.sum_congr rfl fun a ha => ?_
    change localValue (F.h1 a) (Bf a) i j = _
    rw [hBf a (Finset.mem_range.1 ha)]
    rfl
  have hma : ∀ i j, R'.massMat i j = ∑ a ∈ range S.m.cellIdxList.length, (D a).L i j := by
    intro i j
    rw [g2]
    refine Finset.sum_congr rfl fun a ha => ?_
    change localValue (F.l2 a) (Bf a) i j = _
    rw [hBf a (Finset.mem_range.1 ha)]
    rfl
  refine ⟨?_, fun i j => by rw [← h6, hst], fun i j => by rw [← h7, hma], ?_, ?_, ?_, ?_, ?_, ?_⟩
  · intro a c hac
    obtain ⟨ha, rfl⟩ := List.getElem?_eq_some_iff.1 hac
    obtain ⟨x, hx⟩ := hok a ha
    obtain ⟨z, A, e1, e2, e3, e4, e5, e6, e7⟩ := atCell_spec hc hE ha hx o rfl
    obtain ⟨-, -, f3, f4, f5⟩ := cellValues_refines e6 e7
    have hn := basis_nodup S hc a ha
    have hK : (D a).K = x.1 := by simp only [hDdef, dataAt, e1]; rfl
    have hfs : (S.basisAt a).map (fun l => (⟨l.key, o a l.glob⟩ : Fn)) = fnsAt S E B a := by
      generalize S.basisAt a = ls at e6
      generalize fnsAt S E B a = fs at e6
      clear * - e6
      induction e6 with
      | nil => rfl
      | cons g _ ih => rw [List.map_cons, ih, ← g.1, ← g.2]
    refine ⟨⟨⟨_, S.cellAt_spec hc a ha, by rw [hK]; exact e2⟩, ?_, ?_, ?_, ?_, ?_, ?_, ?_⟩, ?_, hfs⟩
    · exact ⟨_, S.build S.s0 ⟨_, rfl, rfl⟩ a _ hac _ (S.cellAt_spec hc a ha)⟩
    · refine ⟨z, A, by rw [hK]; exact e3, by rw [hK]; exact e4, ?_⟩
      rw [← hfs, List.forall₂_map_right_iff, List.forall₂_same] at e5
      intro l hl
      rw [hK]
      exact e5 l hl
    · intro v hv w hw
      rcases localValue_mem (F.h1 a) _ hn _ f3 f4 v w hv hw with ⟨p, e⟩ | ⟨p, e⟩
      · exact Or.inl (by rw [show (D a).H v.glob w.glob = _ from e]; exact p.1)
      · exact Or.inr (by rw [show (D a).H v.glob w.glob = _ from e]; exact p.1)
    · intro v hv w hw
      rcases localValue_mem (F.l2 a) _ hn _ f3 f4 v w hv hw with ⟨p, e⟩ | ⟨p, e⟩
      · exact Or.inl (by rw [show (D a).L v.glob w.glob = _ from e]; exact p.2)
      · exact Or.inr (by rw [show (D a).L v.glob w.glob = _ from e]; exact p.2)
    · intro v hv
      rw [show (D a).r v.glob = _ from single_sum _ hn (F.rhs a) v hv]
      exact f5 v hv
    · exact fun i j hij => ⟨localValue_away _ _ i j hij, localValue_away _ _ i j hij⟩
    · intro i hi
      refine List.sum_eq_zero fun x hx => ?_
      obtain ⟨w, hw, rfl⟩ := List.mem_map.1 hx
      rw [if_neg fun e => hi ⟨w, hw, e⟩]
    · rw [h9]
      cases E.evalInt with
      | false => simp [ha]
      | true =>
        simp only [if_true]
        rw [Setup.foldl_set (spAt S E B) _ _ _ (by simpa using ha), if_pos (List.mem_range.2 ha), e1, hK]
  · intro i j hi
    rw [← h4, ← h6, ← h7, g3 i j hi, hst, hma, Finset.mul_sum, Finset.mul_sum, ← Finset.sum_add_distrib]
    refine Finset.sum_congr rfl fun a ha => ?_
    change localValue (fun v w => F.diffusion * F.h1 a v w + F.reaction * F.l2 a v w) (Bf a) i j = _
    rw [hBf a (Finset.mem_range.1 ha)]
    simp only [hDdef, dataAt, localValue, Finset.mul_sum]
    rw [← Finset.sum_add_distrib]
    refine Finset.sum_congr rfl fun r _ => ?_
    rw [← Finset.sum_add_distrib]
    refine Finset.sum_congr rfl fun q _ => ?_
    split_ifs
    · unfold pairValue
      split_ifs <;> rfl
    · simp
  · intro i hi
    rw [← h5, g4 i hi]
    refine Finset.sum_congr rfl fun a ha => ?_
    rw [hBf a (Finset.mem_range.1 ha)]
    rfl
  · intro i hi
    rw [← h4, ← h5]
    exact C42_boundary_rows S hc F E.evalInt s hs soln R' h1 i hi
  · rw [← h3, gn]
  · rw [← h8, gs]
  · rw [← h2]
    exact .assembled hs h1

/-- C82: assembly with numerical objects.  Whatever the history of the space and whatever GMRES returns: if assembly succeeds, then stiffness and
mass matrix are the sums over the cells of the inner products of the objects that stand for the functions with the two numbers, rows and
right-hand sides of functions that are not on the boundary are those of the weak form, rows of boundary functions are multiples of unit rows with
right-hand side 0, and the local spaces that are kept consist of these objects. -/
theorem C82_entries {S : Setup ℝ} (hc : S.CellsOk) {E : Env} (hE : E.Fits S) {B : BilinForm} {s : GlobFunSp ℝ} (hs : S.Hist s)
    {soln : Option (List ℝ)} {R : State} (h : assemble E B s soln = .ok R) :
    ∃ D : ℕ → CellData, (∀ a c, S.m.cellIdxList[a]? = some c → (D a).Valid S E B c ∧
        R.locSpaces[a]? = some (if E.evalInt then some ((D a).K, (D a).funs.map fun l => ⟨l.key, (D a).obj l.glob⟩) else none)) ∧
      (∀ i j, R.stiffMat i j = ∑ a ∈ range S.m.cellIdxList.length, (D a).H i j) ∧
      (∀ i j, R.massMat i j = ∑ a ∈ range S.m.cellIdxList.length, (D a).L i j) ∧
      (∀ i j, ¬ S.BoundaryNumber i → R.globMat i j = B.diffusion * R.stiffMat i j + B.reaction * R.massMat i j) ∧
      (∀ i, ¬ S.BoundaryNumber i → R.globRhs i = ∑ a ∈ range S.m.cellIdxList.length, (D a).r i) ∧
      (∀ i, S.BoundaryNumber i → 0 < R.globMat i i ∧ (∀ j, j ≠ i → R.globMat i j = 0) ∧ R.globRhs i = 0) ∧
      R.numFuns = S.s0.numFuns ∧ R.soln = soln ∧ S.Hist R.space := by
  obtain ⟨h1, h2⟩ := entries hc hE hs h
  refine ⟨dataAt S E B, fun a c hac => ?_, h2⟩
  obtain ⟨g1, g2, g3⟩ := h1 a c hac
  exact ⟨g1, by rw [g2, g3]⟩

/-- C82: hence every solution of the assembled system has coefficient 0 for all boundary functions. -/
theorem C82_solution_vanishes {S : Setup ℝ} (hc : S.CellsOk) {E : Env} (hE : E.Fits S) {B : BilinForm} {s : GlobFunSp ℝ} (hs : S.Hist s)
    {soln : Option (List ℝ)} {R : State} (h : assemble E B s soln = .ok R) (x : ℕ → ℝ)
    (hx : ∀ i < R.numFuns, ∑ j ∈ range R.numFuns, R.globMat i j * x j = R.globRhs i) (i : ℕ) (hi : S.BoundaryNumber i) : x i = 0 := by
  obtain ⟨hsame, -⟩ := S.hist_spec hc s hs
  obtain ⟨-, R', h1, -, h3, h4, h5, -⟩ := assemble_refines hc hE hsame h
  refine C42_solution_vanishes S hc _ E.evalInt s hs soln R' h1 x ?_ i hi
  rw [h3, h4, h5]
  exact hx

end SolverG
end PFEM
