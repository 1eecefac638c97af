import Verif.Model.TraceHeap
import Verif.Props.Combo
import Verif.Props.DiscInner

/-!
Property theorems C129: trace objects and the harmonic functions made from them.
-/

namespace PFEM
open Trace (attr after)
open Nystrom Antilap

namespace TraceHeap

@[simp] theorem put_same (σ : TraceHeap) (i : ℕ) (t : Trace) : (σ.put i t).obj i = t := by simp [put]

theorem put_other (σ : TraceHeap) {i j : ℕ} (t : Trace) (h : j ≠ i) : (σ.put i t).obj j = σ.obj j := by simp [put, h]

@[simp] theorem put_next (σ : TraceHeap) (i : ℕ) (t : Trace) : (σ.put i t).next = σ.next := rfl

end TraceHeap

open TraceHeap

/-- C129: the constructor does with the trace object what the model on values says, also when it raises; no other object changes. -/
theorem C129_refines (gmres : Gmres) (i : ℕ) (nyst : Option Nystrom.Solver) (σ : TraceHeap) :
    (HarmRef.init gmres i nyst σ).2.map (HarmRef.read (HarmRef.init gmres i nyst σ).1) = LocHarm.init gmres (σ.obj i) nyst ∧
    (∀ h, (HarmRef.init gmres i nyst σ).2 = .ok h → h.trace = i) ∧
    (∀ j, j ≠ i → (HarmRef.init gmres i nyst σ).1.obj j = σ.obj j) ∧ (HarmRef.init gmres i nyst σ).1.next = σ.next := by
  cases nyst with
  | none =>
    refine ⟨rfl, ?_, fun _ _ => rfl, rfl⟩
    intro h hh
    simp only [HarmRef.init, Except.ok.injEq] at hh
    rw [← hh]
  | some s =>
    unfold HarmRef.init LocHarm.init
    simp only [bind, Except.bind]
    rcases h1 : attr (σ.obj i).values with r | v
    · simp [Except.map]
    dsimp only
    rcases h2 : wtdFromTrace s.ops.K v with r | w
    · simp [Except.map]
    dsimp only
    rcases h3 : (σ.obj i).setWtd (.one (.arr w)) with ⟨t1, r | u⟩
    · refine ⟨by simp [Except.map, after], by simp, fun j hj => put_other σ t1 hj, rfl⟩
    simp only [after, Except.map, put_same]
    unfold HarmRef.middle HarmRef.biharmonic
    simp only [bind, Except.bind]
    rcases h4 : Nystrom.conjugate gmres s v with r | ⟨c, a⟩
    · exact ⟨rfl, by simp, fun j hj => put_other σ t1 hj, rfl⟩
    dsimp only
    rcases h5 : Trace.init s.ops.K.getEdges (values := some (.one (.arr c))) with r | conj
    · exact ⟨rfl, by simp, fun j hj => put_other σ t1 hj, rfl⟩
    dsimp only
    rcases h6 : LocHarm.logLoop s a (fun t => attr t.values) s.ops.K.numHoles 0 (List.replicate s.ops.K.numPts 0) with r | lam
    · exact ⟨rfl, by simp, fun j hj => put_other σ t1 hj, rfl⟩
    dsimp only
    rcases h7 : Np.sub v lam with r | u'
    · exact ⟨rfl, by simp, fun j hj => put_other σ t1 hj, rfl⟩
    dsimp only
    rcases h8 : Trace.init s.ops.K.getEdges (values := some (.one (.arr u'))) with r | psi
    · exact ⟨rfl, by simp, fun j hj => put_other σ t1 hj, rfl⟩
    dsimp only
    rcases h9 : wtdFromTrace s.ops.K c with r | w1
    · exact ⟨rfl, by simp, fun j hj => put_other σ t1 hj, rfl⟩
    dsimp only
    rcases h10 : LocHarm.logLoop s a LocHarm.lamNormal s.ops.K.numHoles 0 w1 with r | w2
    · exact ⟨rfl, by simp, fun j hj => put_other σ t1 hj, rfl⟩
    dsimp only
    rcases h11 : t1.setWnd (.one (.arr w2)) with ⟨t2, r | u2⟩
    · exact ⟨rfl, by simp, fun j hj => by rw [put_other _ t2 hj, put_other σ t1 hj], rfl⟩
    dsimp only
    rcases h12 : Antilap.antilaplacian gmres s u' c a with r | ⟨P, Pn⟩
    · exact ⟨rfl, by simp, fun j hj => by rw [put_other _ t2 hj, put_other σ t1 hj], rfl⟩
    dsimp only
    rcases h13 : Trace.init s.ops.K.getEdges (values := some (.one (.arr P))) with r | b
    · exact ⟨rfl, by simp, fun j hj => by rw [put_other _ t2 hj, put_other σ t1 hj], rfl⟩
    dsimp only
    rcases h14 : b.setWnd (.one (.arr Pn)) with ⟨b2, r | u3⟩
    · simp only [after, Except.map]
      exact ⟨trivial, by simp, fun j hj => by rw [put_other _ t2 hj, put_other σ t1 hj], rfl⟩
    simp only [after, Except.map]
    refine ⟨by simp [HarmRef.read], fun h hh => ?_, fun j hj => by rw [put_other _ t2 hj, put_other σ t1 hj], rfl⟩
    simp only [Except.ok.injEq] at hh
    rw [← hh]

theorem computeInterior_harm {f g : LocPoisson} {b : Bool} (h : f.computeInterior b = .ok g) : g.harm = f.harm := by
  unfold LocPoisson.computeInterior at h
  obtain ⟨K, hK, h⟩ := bind_ok h
  obtain ⟨p, hp, h⟩ := bind_ok h
  obtain ⟨k, hk, h⟩ := bind_ok h
  obtain ⟨a, -, h⟩ := bind_ok h
  obtain ⟨psi, -, h⟩ := bind_ok h
  obtain ⟨psi, -, h⟩ := bind_ok h
  obtain ⟨c, -, h⟩ := bind_ok h
  obtain ⟨c, -, h⟩ := bind_ok h
  obtain ⟨x, -, h⟩ := bind_ok h
  obtain ⟨t, -, h⟩ := bind_ok h
  obtain ⟨d, -, h⟩ := bind_ok h
  split at h
  · cases h
  · obtain ⟨rows, -, h⟩ := bind_ok h
    simp only [Except.ok.injEq] at h
    rw [← h]
    cases hf : f.harm with
    | none => rw [hf] at hk; cases hk
    | some h0 => rw [hf] at hk; cases hk; rfl

/-- C129: making a local Poisson function changes no trace object of the program, whether the constructor returns or raises, and the function is
the one of the model on values. -/
theorem C129_poisson (gmres : Gmres) (nyst : Option Nystrom.Solver) (f : Poly ℝ) (tr : PoissonRef.Arg) (ei eg : Bool) (σ : TraceHeap) :
    (PoissonRef.init gmres nyst f tr ei eg σ).2.map (PoissonRef.read (PoissonRef.init gmres nyst f tr ei eg σ).1) =
      LocPoisson.init gmres nyst f (tr.read σ) ei eg ∧
    (∀ j < σ.next, (PoissonRef.init gmres nyst f tr ei eg σ).1.obj j = σ.obj j) ∧
    σ.next ≤ (PoissonRef.init gmres nyst f tr ei eg σ).1.next ∧
    ∀ F h, (PoissonRef.init gmres nyst f tr ei eg σ).2 = .ok F → F.harm = some h →
      σ.next ≤ h.trace ∧ h.trace < (PoissonRef.init gmres nyst f tr ei eg σ).1.next := by
  cases nyst with
  | none =>
    refine ⟨rfl, fun _ _ => rfl, le_rfl, ?_⟩
    intro F h hF hh
    simp only [PoissonRef.init, Except.ok.injEq] at hF
    rw [← hF] at hh
    cases hh
  | some s =>
    have key : LocPoisson.init gmres (some s) f (tr.read σ) ei eg = (do
        let (p, ht) ← PoissonRef.parts s f (tr.read σ)
        let h ← LocHarm.init gmres ht (some s)
        if ei || eg then LocPoisson.computeInterior { cell := some s.ops.K, poly := some p, harm := some h } eg
        else .ok { cell := some s.ops.K, poly := some p, harm := some h } : Py LocPoisson) := by
      simp only [LocPoisson.init, PoissonRef.parts, bind_assoc, py_ok_bind]
      rcases tr.read σ with t | v
      · rfl
      · cases v <;> rfl
    rw [key]
    unfold PoissonRef.init
    simp only [bind, Except.bind]
    rcases h1 : PoissonRef.parts s f (tr.read σ) with r | ⟨p, ht⟩
    · exact ⟨rfl, fun _ _ => rfl, le_rfl, by simp⟩
    dsimp only
    obtain ⟨q1, q2, q3, q4⟩ := C129_refines gmres σ.next (some s) (σ.alloc ht)
    have e0 : (σ.alloc ht).obj σ.next = ht := by simp [alloc, TraceHeap.put]
    have e1 : ∀ j < σ.next, (σ.alloc ht).obj j = σ.obj j := fun j hj => by simp [alloc, TraceHeap.put, hj.ne]
    rw [e0] at q1
    rcases h2 : HarmRef.init gmres σ.next (some s) (σ.alloc ht) with ⟨σ', r | h⟩
    · rw [h2] at q1 q3 q4
      rw [← q1]
      refine ⟨rfl, fun j hj => (q3 j hj.ne).trans (e1 j hj), ?_, by simp⟩
      show σ.next ≤ σ'.next
      rw [q4]
      simp [alloc]
    rw [h2] at q1 q2 q3 q4
    have a1 : ∀ j < σ.next, σ'.obj j = σ.obj j := fun j hj => (q3 j hj.ne).trans (e1 j hj)
    have a2 : σ.next ≤ σ'.next := by
      have : σ'.next = (σ.alloc ht).next := q4
      rw [this]
      simp [alloc]
    have a4 : σ.next < σ'.next := by
      have : σ'.next = (σ.alloc ht).next := q4
      rw [this]
      simp [alloc]
    have a3 := q2 h rfl
    rw [← q1]
    dsimp only [Except.map]
    by_cases hb : (ei || eg) = true
    · simp only [hb, if_true]
      rcases h3 : LocPoisson.computeInterior { cell := some s.ops.K, poly := some p, harm := some (h.read σ') } eg with r | g
      · exact ⟨rfl, a1, a2, by simp⟩
      · have hg := computeInterior_harm h3
        refine ⟨?_, a1, a2, ?_⟩
        · simp only [PoissonRef.read, Option.map_some, Except.ok.injEq]
          obtain ⟨c, q, k, v, x, y⟩ := g
          simp only at hg
          rw [hg]
        · intro F k hF hk
          simp only [Except.ok.injEq] at hF
          rw [← hF] at hk
          simp only [Option.some.injEq] at hk
          rw [← hk]
          exact ⟨a3.ge, by rw [a3]; exact a4⟩
    · simp only [hb]
      refine ⟨rfl, a1, a2, ?_⟩
      intro F k hF hk
      change Except.ok _ = _ at hF
      simp only [Except.ok.injEq] at hF
      rw [← hF] at hk
      simp only [Option.some.injEq] at hk
      rw [← hk]
      exact ⟨a3.ge, by rw [a3]; exact a4⟩

/-- one operation leaves the objects that it does not touch as they are, and forgets no object -/
theorem run_other (gmres : Gmres) (σ : TraceHeap) (op : TraceOp) :
    σ.next ≤ (op.run gmres σ).next ∧ ∀ k < σ.next, ¬ op.touches k → (op.run gmres σ).obj k = σ.obj k := by
  cases op with
  | new t => exact ⟨by simp [TraceOp.run, alloc], fun k hk _ => by simp [TraceOp.run, alloc, TraceHeap.put, hk.ne]⟩
  | method i f => exact ⟨le_rfl, fun k _ h => put_other σ _ (fun e => h e.symm)⟩
  | harmonic i s =>
    obtain ⟨-, -, h3, h4⟩ := C129_refines gmres i s σ
    exact ⟨h4.ge, fun k _ h => h3 k fun e => h e.symm⟩
  | poisson s f tr ei eg =>
    obtain ⟨-, h2, h3, -⟩ := C129_poisson gmres s f tr ei eg σ
    exact ⟨h3, fun k hk _ => h2 k hk⟩

/-- C129: a harmonic function keeps its data through every history in which no method of its trace object is called and no other harmonic function
is made from that object. -/
theorem C129_separate_partial (gmres : Gmres) (h : HarmRef) (ops : List TraceOp) (σ : TraceHeap) (hk : h.trace < σ.next)
    (ho : ∀ op ∈ ops, ¬ op.touches h.trace) : h.read (ops.foldl (TraceOp.run gmres) σ) = h.read σ := by
  have key : σ.next ≤ (ops.foldl (TraceOp.run gmres) σ).next ∧ (ops.foldl (TraceOp.run gmres) σ).obj h.trace = σ.obj h.trace := by
    induction ops generalizing σ with
    | nil => exact ⟨le_rfl, rfl⟩
    | cons op ops ih =>
      obtain ⟨r1, r2⟩ := run_other gmres σ op
      obtain ⟨i1, i2⟩ := ih (op.run gmres σ) (lt_of_lt_of_le hk r1) fun o h => ho o (by simp [h])
      exact ⟨r1.trans i1, i2.trans (r2 _ hk (ho op (by simp)))⟩
  simp only [HarmRef.read, key.2]

/-- C129: so local Poisson functions keep their data whatever is done with trace objects that were there before them. -/
theorem C129_poisson_kept (gmres : Gmres) (nyst : Option Nystrom.Solver) (f : Poly ℝ) (tr : PoissonRef.Arg) (ei eg : Bool) (σ : TraceHeap)
    (F : PoissonRef) (h : HarmRef) (hF : (PoissonRef.init gmres nyst f tr ei eg σ).2 = .ok F) (hh : F.harm = some h) (ops : List TraceOp)
    (ho : ∀ op ∈ ops, ∀ k, op.touches k → k < σ.next) :
    F.read (ops.foldl (TraceOp.run gmres) (PoissonRef.init gmres nyst f tr ei eg σ).1) = F.read (PoissonRef.init gmres nyst f tr ei eg σ).1 := by
  obtain ⟨-, -, -, h4⟩ := C129_poisson gmres nyst f tr ei eg σ
  have := C129_separate_partial gmres h ops _ (h4 F h hF hh).2 fun op hop ht => absurd (ho op hop _ ht) (not_lt.2 (h4 F h hF hh).1)
  simp only [PoissonRef.read, hh, Option.map_some, this]

theorem harmInit_trace {gmres : Gmres} {s : Nystrom.Solver} {t : Trace} (ht : t.Good) {r : LocHarm}
    (hr : LocHarm.init gmres t (some s) = .ok r) : ∃ w d, r.trace = { t with wtd := some w, wnd := some d } := by
  unfold LocHarm.init at hr
  obtain ⟨v, -, hr⟩ := bind_ok hr
  obtain ⟨w, -, hr⟩ := bind_ok hr
  obtain ⟨t1, ht1, hr⟩ := bind_ok hr
  obtain ⟨⟨c, a⟩, -, hr⟩ := bind_ok hr
  obtain ⟨conj, -, hr⟩ := bind_ok hr
  obtain ⟨lam, -, hr⟩ := bind_ok hr
  obtain ⟨u, -, hr⟩ := bind_ok hr
  obtain ⟨psi, -, hr⟩ := bind_ok hr
  obtain ⟨w2, -, hr⟩ := bind_ok hr
  obtain ⟨w3, -, hr⟩ := bind_ok hr
  obtain ⟨t2, ht2, hr⟩ := bind_ok hr
  obtain ⟨⟨P, Pn⟩, -, hr⟩ := bind_ok hr
  obtain ⟨b, -, hr⟩ := bind_ok hr
  obtain ⟨b2, -, hr⟩ := bind_ok hr
  cases hr
  obtain ⟨l1, rfl⟩ := setWtd_inv ht ht1
  have hg1 : ({ t with wtd := some w } : Trace).Good :=
    ⟨⟨ht.sampled, ht.numEdges, ht.numPts, ht.idx⟩, ht.values, ht.wnd, fun a ha => by cases ha; exact l1⟩
  obtain ⟨l2, rfl⟩ := setWnd_inv hg1 ht2
  exact ⟨w, w3, rfl⟩

/-- C129: making a harmonic function changes the caller's trace object: it gets both derivatives; values, edges and functions stay. -/
theorem C129_caller (gmres : Gmres) (i : ℕ) (s : Nystrom.Solver) (σ : TraceHeap) (ht : (σ.obj i).Good) (h : HarmRef)
    (hh : (HarmRef.init gmres i (some s) σ).2 = .ok h) :
    ∃ w d, (HarmRef.init gmres i (some s) σ).1.obj i = { σ.obj i with wtd := some w, wnd := some d } := by
  obtain ⟨q1, q2, -, -⟩ := C129_refines gmres i (some s) σ
  rw [hh] at q1
  have := harmInit_trace ht q1.symm
  simpa only [HarmRef.read, q2 h hh] using this

/-- C129: functions made from one trace object have the same trace from then on, so they have the same H1 inner products with everything. -/
theorem C129_same_object (σ : TraceHeap) (h k : HarmRef) (he : h.trace = k.trace) (o : Obj) (K : CellG) :
    (h.read σ).trace = (k.read σ).trace ∧ PFEM.h1 (.harm (h.read σ)) o K = PFEM.h1 (.harm (k.read σ)) o K ∧
    PFEM.h1 o (.harm (h.read σ)) K = PFEM.h1 o (.harm (k.read σ)) K := by
  have e : (h.read σ).trace = (k.read σ).trace := by simp [HarmRef.read, he]
  refine ⟨e, ?_, ?_⟩
  · cases o <;> simp [PFEM.h1, h1HarmHarm, h1HarmPoly, e]
  · cases o <;> simp [PFEM.h1, h1HarmHarm, h1HarmPoly, e]

/-- C129: once the values of the trace object are others than when the function was made, the object holds the data of no function at all. -/
theorem C129_lost {σ σ' : TraceHeap} {h : HarmRef} {K : CellG} {S : Set (ℝ × ℝ)} {φ : ℝ → ℝ → ℝ}
    (hh : (h.read σ).Holds K S φ) (hne : (σ'.obj h.trace).values ≠ (σ.obj h.trace).values) (φ' : ℝ → ℝ → ℝ) :
    ¬ (h.read σ').Holds K S φ' := by
  intro hh'
  obtain ⟨ψ, c, a, -, l1, -, e1, ⟨t, p1, v1⟩, -⟩ := hh.parts
  obtain ⟨ψ', c', a', -, l2, -, e2, ⟨t', p2, v2⟩, -⟩ := hh'.parts
  obtain ⟨-, g1, hS, -⟩ := hh.trace
  obtain ⟨-, g2, -, -⟩ := hh'.trace
  simp only [HarmRef.read] at l1 l2 p1 p2 g1 g2
  obtain rfl : a = a' := Option.some.inj (l1.symm.trans l2)
  obtain rfl : t = t' := Option.some.inj (p1.symm.trans p2)
  have hs : K.samplesOf ψ = K.samplesOf ψ' := Option.some.inj (v1.symm.trans v2)
  apply hne
  rw [g1, g2]
  simp only [CellG.samplesOf, Option.some.injEq, List.map_inj_left] at hs ⊢
  intro q hq
  rw [e1 _ _ (hS q hq), e2 _ _ (hS q hq), withLogs, withLogs, hs q hq]

theorem harmRef_init {gmres : Gmres} {i : ℕ} {nyst : Option Nystrom.Solver} {σ : TraceHeap} {u : LocHarm}
    (h : LocHarm.init gmres (σ.obj i) nyst = .ok u) :
    ∃ σ' r, HarmRef.init gmres i nyst σ = (σ', .ok r) ∧ r.read σ' = u ∧ r.trace = i := by
  obtain ⟨q1, q2, -, -⟩ := C129_refines gmres i nyst σ
  rw [h] at q1
  rcases e : HarmRef.init gmres i nyst σ with ⟨σ', r | r⟩
  · rw [e] at q1
    cases q1
  · rw [e] at q1 q2
    exact ⟨σ', r, rfl, Except.ok.inj q1, q2 r rfl⟩

open Polynomial in
/-- C129: on the unit disc with 32 samples, a harmonic function is made from a trace object with the values of the real part of `z`.  The values of
the object are set to those of the real part of `z²`, and a second function is made from the object.  Both are right when they are made; afterwards
the data of the first function are those of no function. -/
theorem C129_broken : ∃ (s : Nystrom.Solver) (σ σ1 σ2 : TraceHeap) (h1 h2 : HarmRef),
    init someGmres (sampledDisc 16) "direct" "jacobi" = .ok s ∧
    HarmRef.init someGmres 0 (some s) σ = (σ1, .ok h1) ∧ (h1.read σ1).Holds (sampledDisc 16) Set.univ (rePoly X 0 0) ∧
    ((σ1.obj 0).setValues (.one (.arr ((sampledDisc 16).samplesOf (rePoly (X ^ 2) 0 0))))).2 = .ok () ∧
    HarmRef.init someGmres 0 (some s)
      (σ1.put 0 ((σ1.obj 0).setValues (.one (.arr ((sampledDisc 16).samplesOf (rePoly (X ^ 2) 0 0))))).1) = (σ2, .ok h2) ∧
    (h2.read σ2).Holds (sampledDisc 16) Set.univ (rePoly (X ^ 2) 0 0) ∧ ∀ φ, ¬ (h1.read σ2).Holds (sampledDisc 16) Set.univ φ := by
  obtain ⟨hd, hc⟩ := sampledDisc_ok (n := 16) (by norm_num)
  obtain ⟨s, hs, -⟩ := C70_init someGmres hd.ready (hd.even rfl (by norm_num) (by norm_num)) hd.edges_ne hd.holes hd.apart (hd.simple one_pos)
  have hon := made_on hd.ready (v := (sampledDisc 16).samplesOf (rePoly X 0 0)) (by simp [CellG.samplesOf, hd.ready.numPts])
      (w := none) (d := none) nofun nofun
  obtain ⟨u, i1, i2, i3⟩ := C76_harmonic someGmres_exact someGmres_finds hd hc (by norm_num) (by norm_num) (by norm_num) hs X (by simp) hon rfl
  set t := Trace.made (sampledDisc 16).getEdges (some ((sampledDisc 16).samplesOf (rePoly X 0 0))) none none with ht
  obtain ⟨σ1, h1, j1, j2, j3⟩ := harmRef_init (σ := ⟨fun _ => t, 1⟩) (i := 0) i1
  have o1 : σ1.obj 0 = u.trace := by rw [← j2, HarmRef.read, j3]
  have hg := i2.trace.good
  have hl : ((sampledDisc 16).samplesOf (rePoly (X ^ 2) 0 0)).length = u.trace.sizes.sum := by
    rw [sizes_of hd.ready i2.trace.edges]
    simp [CellG.samplesOf, hd.ready.numPts]
  have e1 := (Trace.C46_set_values hg).1 _ hl
  rw [← o1] at e1
  set t2 : Trace := { σ1.obj 0 with values := some ((sampledDisc 16).samplesOf (rePoly (X ^ 2) 0 0)) } with ht2
  have hon2 : t2.On (sampledDisc 16).getEdges := by
    rw [ht2, o1]
    exact ⟨⟨⟨hg.sampled, hg.numEdges, hg.numPts, hg.idx⟩, fun a ha => by cases ha; exact hl, hg.wnd, hg.wtd⟩, i2.trace.edges, _, rfl⟩
  obtain ⟨u2, k1, -, k3⟩ := C76_harmonic someGmres_exact someGmres_finds hd hc (by norm_num) (by norm_num) (by norm_num) hs (X ^ 2) (by simp)
    hon2 rfl
  obtain ⟨σ2, h2, l1, l2, l3⟩ := harmRef_init (σ := σ1.put 0 t2) (i := 0) (by rw [put_same]; exact k1)
  rw [← j2] at i3
  rw [← l2] at k3
  refine ⟨s, _, σ1, σ2, h1, h2, hs, j1, i3, by rw [e1], by rw [e1]; exact l1, k3, C129_lost i3 ?_⟩
  have v1 := i3.trace.2.1
  have v2 := k3.trace.2.1
  simp only [HarmRef.read, j3, l3] at v1 v2
  rw [j3, v1, v2]
  intro he
  simp only [CellG.samplesOf, Option.some.injEq, List.map_inj_left] at he
  have hmem : circleSample 0 0 1 (2 * 16) 16 ∈ (sampledDisc 16).cols := by
    obtain ⟨c, e, hK, hce, -, he⟩ := hd.circle
    simp only [CellG.cols, ContourG.cols, hK, hce, List.flatMap_cons, List.flatMap_nil, List.append_nil, he]
    exact List.mem_map.2 ⟨16, by simp, rfl⟩
  have h3 := he _ hmem
  have hpi : 2 * Real.pi * (16 : ℕ) / (2 * 16 : ℕ) = Real.pi := by push_cast; ring
  simp only [rePoly, circleSample, hpi, Real.cos_pi, Real.sin_pi] at h3
  simp [pow_succ] at h3
  norm_num at h3

/-- a function on object 0, a history that works on other objects -/
example (gmres : Gmres) (s : Nystrom.Solver) (σ : TraceHeap) (hσ : σ.next = 2) (t : Trace) (f : Trace → Trace) (p : Poly ℝ) (h : HarmRef)
    (hh : h.trace = 0) :
    h.read ([.new t, .method 2 f, .harmonic 1 (some s), .poisson (some s) p (.trace 0) true true].foldl (TraceOp.run gmres) σ) = h.read σ :=
  C129_separate_partial gmres h _ σ (by omega) (by simp [TraceOp.touches, hh])

/-- `x² / 2` from a trace object on the unit disc; afterwards the program does with that object what it likes -/
example : ∃ (s : Nystrom.Solver) (σ : TraceHeap) (F : PoissonRef),
    (PoissonRef.init someGmres (some s) onePoly (.trace 0) false false σ).2 = .ok F ∧
    (F.read (PoissonRef.init someGmres (some s) onePoly (.trace 0) false false σ).1).Holds (sampledDisc 16) Set.univ halfX2.eval ∧
    ∀ g : Trace → Trace,
      (F.read ([.method 0 g, .harmonic 0 (some s), .method 0 g].foldl (TraceOp.run someGmres)
        (PoissonRef.init someGmres (some s) onePoly (.trace 0) false false σ).1)).Holds (sampledDisc 16) Set.univ halfX2.eval := by
  obtain ⟨hd, hc⟩ := sampledDisc_ok (n := 16) (by norm_num)
  obtain ⟨s, hs, -⟩ := C70_init someGmres hd.ready (hd.even rfl (by norm_num) (by norm_num)) hd.edges_ne hd.holes hd.apart (hd.simple one_pos)
  have hx := one_problem (u := halfX2) ⟨_, _, fun x y _ => ⟨halfX2_grad x y trivial, 1, 0, hasDerivAt_id x, hasDerivAt_const y _, by simp [one_eval]⟩⟩
  set σ : TraceHeap := ⟨fun _ => Trace.made (sampledDisc 16).getEdges (some ((sampledDisc 16).samplesOf halfX2.eval)) none none, 1⟩ with hσ
  obtain ⟨⟨G, hG⟩, hall⟩ := C77_holds someGmres_exact someGmres_finds hd hc (by norm_num) (by norm_num) (by norm_num) hs hx.canonical hx.anti
    hx.antiExact hx.solution (by simp [halfX2]) one_lattice' (by
      intro m hm n hn
      rw [onePoly, one_alP] at hm
      simp only [List.mem_cons, List.not_mem_nil, or_false] at hm
      rcases hm with rfl | rfl <;> subst hn <;> norm_num [Nat.factorial, Nat.descFactorial])
    (tr := PoissonRef.Arg.read σ (.trace 0)) ⟨rfl, by simp [CellG.samplesOf, hd.ready.numPts]⟩
  have hG2 := (hall false false G hG).1
  obtain ⟨q1, -, -, q4⟩ := C129_poisson someGmres (some s) onePoly (.trace 0) false false σ
  rw [hG] at q1
  rcases e : (PoissonRef.init someGmres (some s) onePoly (.trace 0) false false σ).2 with r | F
  · rw [e] at q1
    cases q1
  rw [e] at q1
  have q1 := Except.ok.inj q1
  obtain ⟨k, p, φ, P, hk, -⟩ := id hG2
  rw [← q1] at hG2 hk
  cases hh : F.harm with
  | none => simp [PoissonRef.read, hh] at hk
  | some h =>
    refine ⟨s, σ, F, e, hG2, fun g => ?_⟩
    rw [C129_poisson_kept someGmres (some s) onePoly (.trace 0) false false σ F h e hh _ (by simp [TraceOp.touches, hσ])]
    exact hG2

end PFEM
