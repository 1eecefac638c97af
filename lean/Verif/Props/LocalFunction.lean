import Verif.Spec.LocalFunction
import Verif.Props.PoissonInit
import Verif.Props.InnerProd

/-!
Property theorems C104, C105: the deprecated class `LocalFunction` and its successor `LocalPoissonFunction`.
-/

namespace PFEM
open Nystrom Antilap Poly

/-! ### traces: what success says -/

theorem init_arr_iff {K : CellG} (h : K.Ready) {v : List ℝ} {t : Trace} : Trace.init K.getEdges (values := some (.one (.arr v))) = .ok t ↔
    v.length = K.numPts ∧ t = Trace.made K.getEdges (some v) none none := by
  constructor
  · intro ht
    by_cases hv : v.length = K.numPts
    · rw [init_arr h hv] at ht
      cases ht
      exact ⟨hv, rfl⟩
    · have hb := Trace.good_bare (getEdges_sampled h)
      have h1 := (Trace.C46_set_values hb).2.2.2 v (by rw [getEdges_sizes h]; exact hv)
      simp only [Trace.init, Bool.false_eq_true, if_false, h1, Except.map] at ht
      cases ht
  · rintro ⟨hv, rfl⟩
    exact init_arr h hv

theorem setWnd_iff {K : CellG} (h : K.Ready) {v w d : Option (List ℝ)} {a : List ℝ} {t : Trace} :
    Trace.after ((Trace.made K.getEdges v w d).setWnd (.one (.arr a))) = .ok t ↔
      a.length = K.numPts ∧ t = Trace.made K.getEdges v (some a) d := by
  constructor
  · intro ht
    by_cases ha : a.length = K.numPts
    · rw [made_setWnd h _ _ _ ha] at ht
      cases ht
      exact ⟨ha, rfl⟩
    · have hs := made_sized h v w d
      have hn : (Trace.made K.getEdges v w d).numPts = some K.numPts := by rw [hs.numPts, made_sizes h]
      simp only [Trace.setWnd, Trace.convert, hn, Trace.attr, bind, Except.bind, ne_eq, ha, not_false_eq_true, if_true, Trace.after,
        Except.map] at ht
      cases ht
  · rintro ⟨ha, rfl⟩
    exact made_setWnd h _ _ _ ha

/-- the trace of a polynomial, made from the polynomial itself -/
theorem init_poly {K : CellG} (h : K.Ready) (f : ℝ → ℝ → ℝ) : ∃ t, Trace.init K.getEdges (funcs := some (.one (.poly f))) = .ok t ∧
    t.Sized ∧ t.edges = K.getEdges ∧ t.values = some (K.samplesOf f) := by
  have hb := Trace.good_bare (getEdges_sampled h)
  obtain ⟨t, ht, hv⟩ := Trace.C46_one_function hb (.poly f) f rfl
  have hn := hb.numEdges
  have hc := Trace.C46_functions hb (List.replicate (Trace.bare K.getEdges).numEdges (.poly f))
    (List.replicate (Trace.bare K.getEdges).numEdges f) (by simp [PyFn.run]) (by simp [hn])
  have he : (Trace.bare K.getEdges).setFuncs (.one (.poly f)) =
      (Trace.bare K.getEdges).setFuncs (.list (List.replicate (Trace.bare K.getEdges).numEdges (.poly f))) := by
    simp only [Trace.setFuncs, PyFn.isR2R, if_true]
  have e := (ht.symm.trans he).trans hc
  have e1 := congrArg Prod.fst e
  dsimp only at e1
  refine ⟨t, ?_, ?_, ?_, ?_⟩
  · simp only [Trace.init, Bool.false_eq_true, if_false, ht, Except.map]
  · rw [e1]
    exact ⟨hb.sampled, hb.numEdges, hb.numPts, hb.idx⟩
  · rw [e1]
    exact Trace.edges_bare _
  · rw [hv, Trace.edges_bare, getEdges_cols]
    rfl

/-- the polynomial part of a `LocalFunction` -/
theorem old_poly {K : CellG} (h : K.Ready) (laplacian : Poly ℝ) : ∃ t, OldFun.polynomialPart K laplacian = .ok (alP laplacian, alP (alP laplacian), t) ∧
    t.values = some (K.samplesOf (alP laplacian).eval) ∧
    t.wnd = some (K.normalOf (nz ((alP laplacian).map Mono.dx)).eval (nz ((alP laplacian).map Mono.dy)).eval) := by
  obtain ⟨t, ht, hs, he, hv⟩ := init_poly h (alP laplacian).eval
  have hw := polyNormal_ok h (grad_eq (alP laplacian))
  simp only [Poly.weightedNormal, h.getBoundaryPoints, grad_eq, py_ok_bind, Antilap.weightedNormal] at hw
  obtain ⟨nd, h1, h2⟩ := bind_ok hw
  have hz : t.sizes.sum = K.numPts := sizes_of h he
  refine ⟨{ t with wnd := some (K.normalOf (nz ((alP laplacian).map Mono.dx)).eval (nz ((alP laplacian).map Mono.dy)).eval) }, ?_, hv, rfl⟩
  simp only [OldFun.polynomialPart, antiLaplacian_ok, py_ok_bind, ht, h.getBoundaryPoints, grad_eq, h1, h2]
  rw [Trace.setWnd_arr hs (by rw [hz]; exact normal_len h _ _)]
  rfl

/-! ### the harmonic part -/

/-- the two ways to read the normal derivatives of the logarithmic terms -/
theorem logLoop_arr {s : Solver} {a r : List ℝ} : ∀ {n j : ℕ} {acc : List ℝ}, LocHarm.logLoop s a LocHarm.lamNormal n j acc = .ok r ↔
    LocHarm.logLoop s a (fun t => arr t.wnd) n j acc = .ok r
  | 0, j, acc => Iff.rfl
  | n + 1, j, acc => by
    have key : ∀ (t : Trace) (k : List ℝ → Py (List ℝ)) (k' : List ℝ → Py (List ℝ)), (∀ v, k v = .ok r ↔ k' v = .ok r) →
        ((LocHarm.lamNormal t >>= k) = .ok r ↔ (arr t.wnd >>= k') = .ok r) := by
      intro t k k' hk
      cases hw : t.wnd with
      | none =>
        have e1 : LocHarm.lamNormal t = .error .valueError := by simp only [LocHarm.lamNormal, hw]
        rw [e1, py_error_bind]
        simp only [arr, py_error_bind]
        constructor <;> intro h <;> cases h
      | some w =>
        have e1 : LocHarm.lamNormal t = .ok w := by simp only [LocHarm.lamNormal, hw]
        rw [e1, py_ok_bind]
        simp only [arr, py_ok_bind]
        exact hk w
    simp only [LocHarm.logLoop]
    cases Trace.attr s.log with
    | error e => exact Iff.rfl
    | ok g =>
      simp only [py_ok_bind]
      cases Np.get g.lam j with
      | error e => exact Iff.rfl
      | ok t =>
        simp only [py_ok_bind]
        refine key t _ _ fun v => ?_
        cases Np.get a j with
        | error e => exact Iff.rfl
        | ok x =>
          simp only [py_ok_bind]
          cases Np.add acc (Np.smul x v) with
          | error e => exact Iff.rfl
          | ok acc' =>
            simp only [py_ok_bind]
            exact logLoop_arr

theorem logLoop_length {s : Solver} {K : CellG} (hs : s.Of K) (h : K.Ready) {a : List ℝ} : ∀ (n j : ℕ) {acc r : List ℝ}, j + n ≤ (poles K).length →
    acc.length = K.numPts → LocHarm.logLoop s a (fun t => Trace.attr t.values) n j acc = .ok r → r.length = K.numPts
  | 0, _, _, _, _, hl, hr => by cases hr; exact hl
  | n + 1, j, acc, r, hj, hl, hr => by
    have h0 : K.numHoles ≠ 0 := by
      have := poles_length K
      omega
    obtain ⟨g, hg, hall⟩ := hs.term h0
    obtain ⟨t, ht, hv, -⟩ := hall j (poles K)[j] (List.getElem?_eq_getElem (by omega))
    have e1 : Np.get g.lam j = .ok t := by simp [Np.get, ht]
    simp only [LocHarm.logLoop, hg, Trace.attr, py_ok_bind, e1, hv] at hr
    obtain ⟨x, -, hr⟩ := bind_ok hr
    obtain ⟨acc', hacc, hr⟩ := bind_ok hr
    refine logLoop_length hs h n (j + 1) (by omega) ?_ hr
    rw [Np.add, bin_eq _ (by simp [Np.smul, hl, samples_len h])] at hacc
    cases hacc
    simp [Np.smul, hl, samples_len h]

/-- what the solver must answer for the harmonic part with the boundary values `v`: conjugate `c`, coefficients `a`, normal derivative `w`,
conjugable part `u`, anti-Laplacian `P` with normal derivative `W` -/
structure Answers (gmres : Gmres) (s : Solver) (K : CellG) (v c a w u P W : List ℝ) : Prop where
  conj : conjugate gmres s v = .ok (c, a)
  cl : c.length = K.numPts
  wnd : ∃ d, wtdFromTrace K c = .ok d ∧ LocHarm.logLoop s a LocHarm.lamNormal K.numHoles 0 d = .ok w
  wl : w.length = K.numPts
  psi : ∃ lam, LocHarm.logLoop s a (fun t => Trace.attr t.values) K.numHoles 0 (List.replicate K.numPts 0) = .ok lam ∧ Np.sub v lam = .ok u
  anti : antilaplacian gmres s u c a = .ok (P, W)
  Pl : P.length = K.numPts
  Wl : W.length = K.numPts

section
variable {gmres : Gmres} {s : Solver} {K : CellG} (h : K.Ready) (hne : ∀ c ∈ K.components, c.edges ≠ []) (hs : s.Of K) {v : List ℝ}
  (hv : v.length = K.numPts)
include h hne hs hv

omit hne in
theorem Answers.ul {c a w u P W : List ℝ} (A : Answers gmres s K v c a w u P W) : u.length = K.numPts := by
  obtain ⟨lam, h1, h2⟩ := A.psi
  have := logLoop_length hs h K.numHoles 0 (by rw [poles_length]; omega) (by simp) h1
  rw [Np.sub, bin_eq _ (hv.trans this.symm)] at h2
  cases h2
  simp [hv, this]

theorem harm_iff {r : LocHarm} : LocHarm.init gmres (Trace.made K.getEdges (some v) none none) (some s) = .ok r ↔
    ∃ c a w u P W t, Answers gmres s K v c a w u P W ∧ wtdFromTrace K v = .ok t ∧
      r = ⟨Trace.made K.getEdges (some v) (some w) (some t), some (Trace.made K.getEdges (some u) none none),
        some (Trace.made K.getEdges (some c) none none), some a, some (some (Trace.made K.getEdges (some P) (some W) none))⟩ := by
  have hcell := hs.cell
  obtain ⟨t, ht, htl⟩ := wtd_total h hne hv
  have ea : Trace.attr (Trace.made K.getEdges (some v) none none).values = .ok v := rfl
  constructor
  · intro hr
    simp only [LocHarm.init, hcell] at hr
    rw [ea, py_ok_bind, ht, py_ok_bind, made_setWtd h _ _ _ htl, py_ok_bind] at hr
    obtain ⟨⟨c, a⟩, hc, hr⟩ := bind_ok hr
    obtain ⟨conj, hcj, hr⟩ := bind_ok hr
    obtain ⟨lam, hlam, hr⟩ := bind_ok hr
    obtain ⟨u, hu, hr⟩ := bind_ok hr
    obtain ⟨psi, hpsi, hr⟩ := bind_ok hr
    obtain ⟨d, hd, hr⟩ := bind_ok hr
    obtain ⟨w, hw, hr⟩ := bind_ok hr
    obtain ⟨t2, ht2, hr⟩ := bind_ok hr
    obtain ⟨⟨P, W⟩, hP, hr⟩ := bind_ok hr
    obtain ⟨b, hb, hr⟩ := bind_ok hr
    obtain ⟨b2, hb2, hr⟩ := bind_ok hr
    obtain ⟨hcl, rfl⟩ := (init_arr_iff h).1 hcj
    obtain ⟨hul, rfl⟩ := (init_arr_iff h).1 hpsi
    obtain ⟨hwl, rfl⟩ := (setWnd_iff h).1 ht2
    obtain ⟨hPl, rfl⟩ := (init_arr_iff h).1 hb
    obtain ⟨hWl, rfl⟩ := (setWnd_iff h).1 hb2
    cases hr
    exact ⟨c, a, w, u, P, W, t, ⟨hc, hcl, ⟨d, hd, hw⟩, hwl, ⟨lam, hlam, hu⟩, hP, hPl, hWl⟩, ht, rfl⟩
  · rintro ⟨c, a, w, u, P, W, t', A, ht', rfl⟩
    rw [ht] at ht'
    cases ht'
    have hul := A.ul h hs hv
    obtain ⟨d, hd, hw⟩ := A.wnd
    obtain ⟨lam, hlam, hu⟩ := A.psi
    simp only [LocHarm.init, hcell]
    rw [ea, py_ok_bind, ht, py_ok_bind, made_setWtd h _ _ _ htl, py_ok_bind, A.conj, py_ok_bind]
    dsimp only
    rw [init_arr h A.cl, py_ok_bind, hlam, py_ok_bind, hu, py_ok_bind, init_arr h hul, py_ok_bind, hd, py_ok_bind, hw, py_ok_bind,
      made_setWnd h _ _ _ A.wl, py_ok_bind, A.anti, py_ok_bind]
    dsimp only
    rw [init_arr h A.Pl, py_ok_bind, made_setWnd h _ _ _ A.Wl, py_ok_bind]

end

theorem Answers.unique {gmres : Gmres} {s : Solver} {K : CellG} {v c a w u P W c' a' w' u' P' W' : List ℝ}
    (A : Answers gmres s K v c a w u P W) (B : Answers gmres s K v c' a' w' u' P' W') : c = c' ∧ a = a' ∧ w = w' ∧ u = u' ∧ P = P' ∧ W = W' := by
  obtain ⟨rfl, rfl⟩ := Prod.mk.inj (Except.ok.inj (A.conj.symm.trans B.conj))
  obtain ⟨d, h1, h2⟩ := A.wnd
  obtain ⟨d', h1', h2'⟩ := B.wnd
  cases Except.ok.inj (h1.symm.trans h1')
  cases Except.ok.inj (h2.symm.trans h2')
  obtain ⟨l, h3, h4⟩ := A.psi
  obtain ⟨l', h3', h4'⟩ := B.psi
  cases Except.ok.inj (h3.symm.trans h3')
  cases Except.ok.inj (h4.symm.trans h4')
  obtain ⟨rfl, rfl⟩ := Prod.mk.inj (Except.ok.inj (A.anti.symm.trans B.anti))
  exact ⟨rfl, rfl, rfl, rfl, rfl, rfl⟩

/-- the boundary values of the harmonic part -/
noncomputable abbrev harmValues (K : CellG) (laplacian : Poly ℝ) (v : List ℝ) : List ℝ :=
  List.zipWith (· - ·) v (K.samplesOf (alP laplacian).eval)

section
variable {gmres : Gmres} {s : Solver} (h : s.ops.K.Ready) (hne : ∀ c ∈ s.ops.K.components, c.edges ≠ []) (hs : s.Of s.ops.K)
  {laplacian : Poly ℝ} {tr : LocPoisson.TraceOr} {v : List ℝ} (hv : tr.Gives s.ops.K v)
include h hne hs hv

omit hne hs in
theorem old_iff {g : OldFun} : OldFun.init gmres s laplacian tr = .ok g ↔
    ∃ c a w u P W pt, Answers gmres s s.ops.K (harmValues s.ops.K laplacian v) c a w u P W ∧
      pt.values = some (s.ops.K.samplesOf (alP laplacian).eval) ∧
      pt.wnd = some (s.ops.K.normalOf (nz ((alP laplacian).map Mono.dx)).eval (nz ((alP laplacian).map Mono.dy)).eval) ∧
      OldFun.polynomialPart s.ops.K laplacian = .ok (alP laplacian, alP (alP laplacian), pt) ∧
      g = ⟨s, alP laplacian, alP (alP laplacian), pt, Trace.made s.ops.K.getEdges (some (harmValues s.ops.K laplacian v)) (some w) none,
        Trace.made s.ops.K.getEdges (some c) none none, a, some (Trace.made s.ops.K.getEdges (some P) (some W) none), none⟩ := by
  obtain ⟨pt, hpt, hpv, hpw⟩ := old_poly h laplacian
  have hl := Gives.length hv
  have hd : (harmValues s.ops.K laplacian v).length = s.ops.K.numPts := by simp [hl, samples_len h]
  have ev : Trace.attr pt.values = .ok (s.ops.K.samplesOf (alP laplacian).eval) := by rw [hpv]; rfl
  have e2 : ∀ a b c : Option (List ℝ), (Trace.made s.ops.K.getEdges a b c).values = a := fun _ _ _ => rfl
  have e3 : ∀ l : List ℝ, Trace.attr (some l) = .ok l := fun _ => rfl
  have hstart : OldFun.init gmres s laplacian tr = (do
      let (c, a) ← conjugate gmres s (harmValues s.ops.K laplacian v)
      let conj ← Trace.init s.ops.K.getEdges (values := some (.one (.arr c)))
      let c ← Trace.attr conj.values
      let w ← wtdFromTrace s.ops.K c
      let w ← LocHarm.logLoop s a (fun t => arr t.wnd) s.ops.K.numHoles 0 w
      let ht ← Trace.after ((Trace.made s.ops.K.getEdges (some (harmValues s.ops.K laplacian v)) none none).setWnd (.one (.arr w)))
      let b ← OldFun.biharmonic gmres s (harmValues s.ops.K laplacian v) c a
      .ok ⟨s, alP laplacian, alP (alP laplacian), pt, ht, conj, a, some b, none⟩) := by
    have key : ∀ (m : Py Trace) (t : Trace), m = .ok t → Trace.attr t.values = .ok v → ∀ k : List ℝ → Py OldFun, (do
        let t ← m
        let u ← Trace.attr t.values
        k u) = k v := by
      intro m t hm ht k
      rw [hm, py_ok_bind, ht, py_ok_bind]
    have body : ∀ k : List ℝ → Py OldFun, (match (generalizing := false) tr with
        | .trace t => .ok t
        | .value .other => .error .attributeError
        | .value v => Trace.init s.ops.K.getEdges (values := some (.one v)) : Py Trace) >>= (fun t => Trace.attr t.values >>= k) = k v := by
      intro k
      match tr, hv with
      | .trace t, hv => exact key (.ok t) t rfl (by rw [hv.1]; rfl) k
      | .value (.num c), hv => exact key _ _ (init_num h c) (by rw [show v = _ from hv]; rfl) k
      | .value (.arr a), hv => exact key _ _ (init_arr h (by rw [← hv.1]; exact hl)) (by rw [hv.1]; rfl) k
    simp only [OldFun.init, hpt, py_ok_bind, Bool.or_self, Bool.false_eq_true, if_false, if_true]
    refine (body _).trans ?_
    rw [ev, py_ok_bind, harmValues_ok h hl, py_ok_bind, init_arr h hd, py_ok_bind, e2, e3, py_ok_bind]
    rcases hc : conjugate gmres s (harmValues s.ops.K laplacian v) with e | ⟨c, a⟩
    · rfl
    rw [py_ok_bind, py_ok_bind]
    dsimp only
    rcases Trace.init s.ops.K.getEdges (values := some (.one (.arr c))) with e | conj
    · rfl
    rw [py_ok_bind, py_ok_bind]
    rcases Trace.attr conj.values with e | c'
    · rfl
    rw [py_ok_bind, py_ok_bind]
    rcases wtdFromTrace s.ops.K c' with e | w
    · rfl
    rw [py_ok_bind, py_ok_bind]
    rcases LocHarm.logLoop s a (fun t => arr t.wnd) s.ops.K.numHoles 0 w with e | w'
    · rfl
    rw [py_ok_bind, py_ok_bind]
    rcases Trace.after ((Trace.made s.ops.K.getEdges (some (harmValues s.ops.K laplacian v)) none none).setWnd (.one (.arr w'))) with e | ht
    · rfl
    rw [py_ok_bind, py_ok_bind]
    rcases OldFun.biharmonic gmres s (harmValues s.ops.K laplacian v) c' a with e | b <;> rfl
  rw [hstart]
  constructor
  · intro hg
    obtain ⟨⟨c, a⟩, hc, hg⟩ := bind_ok hg
    obtain ⟨conj, hcj, hg⟩ := bind_ok hg
    obtain ⟨hcl, rfl⟩ := (init_arr_iff h).1 hcj
    rw [e2, e3, py_ok_bind] at hg
    obtain ⟨d, hd', hg⟩ := bind_ok hg
    obtain ⟨w, hw, hg⟩ := bind_ok hg
    obtain ⟨ht, hht, hg⟩ := bind_ok hg
    obtain ⟨hwl, rfl⟩ := (setWnd_iff h).1 hht
    obtain ⟨b, hb, hg⟩ := bind_ok hg
    unfold OldFun.biharmonic at hb
    obtain ⟨psi, hpsi, hb⟩ := bind_ok hb
    obtain ⟨⟨P, W⟩, hP, hb⟩ := bind_ok hb
    obtain ⟨B, hB, hb⟩ := bind_ok hb
    obtain ⟨hPl, rfl⟩ := (init_arr_iff h).1 hB
    obtain ⟨hWl, rfl⟩ := (setWnd_iff h).1 hb
    obtain ⟨lam, hlam, hpsi⟩ := bind_ok hpsi
    cases hg
    exact ⟨c, a, w, psi, P, W, pt, ⟨hc, hcl, ⟨d, hd', logLoop_arr.2 hw⟩, hwl, ⟨lam, hlam, hpsi⟩, hP, hPl, hWl⟩, hpv, hpw, hpt, rfl⟩
  · rintro ⟨c, a, w, u, P, W, pt', A, hpv', hpw', hpt', rfl⟩
    rw [hpt] at hpt'
    cases hpt'
    obtain ⟨d, hd', hw⟩ := A.wnd
    obtain ⟨lam, hlam, hu⟩ := A.psi
    have hb : OldFun.biharmonic gmres s (harmValues s.ops.K laplacian v) c a = .ok (Trace.made s.ops.K.getEdges (some P) (some W) none) := by
      simp only [OldFun.biharmonic, OldFun.conjugablePart]
      rw [hlam, py_ok_bind, hu, py_ok_bind, A.anti, py_ok_bind]
      dsimp only
      rw [init_arr h A.Pl, py_ok_bind, made_setWnd h _ _ _ A.Wl]
    rw [A.conj, py_ok_bind]
    dsimp only
    rw [init_arr h A.cl, py_ok_bind, e2, e3, py_ok_bind, hd', py_ok_bind, logLoop_arr.1 hw, py_ok_bind, made_setWnd h _ _ _ A.wl, py_ok_bind,
      hb, py_ok_bind]

/-- what the successor does -/
theorem new_parts {ei eg : Bool} {f : LocPoisson} (hf : LocPoisson.init gmres (some s) laplacian tr ei eg = .ok f) :
    ∃ c a w u P W t, Answers gmres s s.ops.K (harmValues s.ops.K laplacian v) c a w u P W ∧ f.cell = some s.ops.K ∧
      f.poly = some (polyPart s.ops.K (alP laplacian)) ∧
      f.harm = some ⟨Trace.made s.ops.K.getEdges (some (harmValues s.ops.K laplacian v)) (some w) (some t),
        some (Trace.made s.ops.K.getEdges (some u) none none), some (Trace.made s.ops.K.getEdges (some c) none none), some a,
        some (some (Trace.made s.ops.K.getEdges (some P) (some W) none))⟩ := by
  obtain ⟨r, hr, hc, hp, hh⟩ := poissonInit_parts h rfl hv hf
  have hd : (harmValues s.ops.K laplacian v).length = s.ops.K.numPts := by simp [Gives.length hv, samples_len h]
  obtain ⟨c, a, w, u, P, W, t, A, -, rfl⟩ := (harm_iff h hne hs hd).1 hr
  exact ⟨c, a, w, u, P, W, t, A, hc, hp, hh⟩

/-- C104: both classes succeed on the same arguments and hold the same data. -/
theorem C104_same :
    (∀ ei eg f, LocPoisson.init gmres (some s) laplacian tr ei eg = .ok f → ∃ g, OldFun.init gmres s laplacian tr = .ok g ∧ g.Agrees f) ∧
    ∀ g, OldFun.init gmres s laplacian tr = .ok g → ∃ f, LocPoisson.init gmres (some s) laplacian tr false false = .ok f ∧ g.Agrees f := by
  constructor
  · intro ei eg f hf
    obtain ⟨c, a, w, u, P, W, t, A, hc, hp, hh⟩ := new_parts h hne hs hv hf
    obtain ⟨pt, hpt, hpv, hpw⟩ := old_poly h laplacian
    refine ⟨_, (old_iff h hv).2 ⟨c, a, w, u, P, W, pt, A, hpv, hpw, hpt, rfl⟩, hc, ⟨_, _, hp, rfl, rfl, rfl, ?_, ?_⟩,
      ⟨_, _, _, _, hh, rfl, rfl, rfl, rfl, rfl, rfl, rfl, rfl, rfl⟩⟩
    · rw [hpv]; rfl
    · rw [hpw]; rfl
  · intro g hg
    obtain ⟨c, a, w, u, P, W, pt, A, hpv, hpw, hpt, rfl⟩ := (old_iff h hv).1 hg
    have hd : (harmValues s.ops.K laplacian v).length = s.ops.K.numPts := by simp [Gives.length hv, samples_len h]
    obtain ⟨t, ht, -⟩ := wtd_total h hne hd
    have hr := (harm_iff (gmres := gmres) h hne hs hd).2 ⟨c, a, w, u, P, W, t, A, ht, rfl⟩
    refine ⟨{ cell := some s.ops.K, poly := some (polyPart s.ops.K (alP laplacian)), harm := some ⟨Trace.made s.ops.K.getEdges
        (some (harmValues s.ops.K laplacian v)) (some w) (some t), some (Trace.made s.ops.K.getEdges (some u) none none),
        some (Trace.made s.ops.K.getEdges (some c) none none), some a, some (some (Trace.made s.ops.K.getEdges (some P) (some W) none))⟩ }, ?_, rfl,
      ⟨_, _, rfl, rfl, rfl, rfl, ?_, ?_⟩, ⟨_, _, _, _, rfl, rfl, rfl, rfl, rfl, rfl, rfl, rfl, rfl, rfl⟩⟩
    · rw [poissonInit_eq gmres h rfl laplacian hv, hr, py_ok_bind]
      rfl
    · rw [hpv]; rfl
    · rw [hpw]; rfl

end

/-! ### inner products -/

/-- the arrays of a `LocalFunction` -/
structure OldArrays (g : OldFun) (K : CellG) (P : Poly ℝ) (v n V N : List ℝ) : Prop where
  cell : g.nyst.ops.K = K
  poly : g.poly = P
  pv : g.polyTrace.values = some (K.samplesOf P.eval)
  hv : g.harm.values = some v
  hn : g.harm.wnd = some n
  hB : ∃ B, g.biharm = some B ∧ B.values = some V ∧ B.wnd = some N

theorem pair_bind {α : Type} {K : CellG} (h : K.Ready) (hne : ∀ c ∈ K.components, c.edges ≠ []) {u v : List ℝ} (hu : u.length = K.numPts)
    (hv : v.length = K.numPts) (k : ℝ → Py α) : (Np.mul u v >>= fun m => K.integratePreweighted m >>= k) = k (pair K u v) := by
  have h1 := pair_ok h hne hu hv
  rw [Np.mul, bin_eq _ (hu.trans hv.symm), py_ok_bind] at h1 ⊢
  rw [h1, py_ok_bind]

theorem old_h1 {K : CellG} (h : K.Ready) (hne : ∀ c ∈ K.components, c.edges ≠ []) {g g' : OldFun} {P P' : Poly ℝ}
    {v n V N v' n' V' N' : List ℝ} (a : OldArrays g K P v n V N) (b : OldArrays g' K P' v' n' V' N')
    (hn : n.length = K.numPts) (hv' : v'.length = K.numPts) (hn' : n'.length = K.numPts) : g.getH1 (.fn g') = (do
      let I ← h1PolyPoly (polyPart K P) (polyPart K P') K
      .ok (I + pair K n (K.samplesOf P'.eval) + pair K (K.samplesOf P.eval) n' + pair K n v')) := by
  simp only [OldFun.getH1, a.cell, a.poly, b.poly, a.pv, b.pv, a.hn, b.hn, b.hv, grad_eq, arr, Trace.attr, py_ok_bind, h1PolyPoly, polyPart]
  rcases Poly.mul (nz (P.map Mono.dx)) (nz (P'.map Mono.dx)) with e | m1
  · rfl
  simp only [py_ok_bind]
  rcases Poly.mul (nz (P.map Mono.dy)) (nz (P'.map Mono.dy)) with e | m2
  · rfl
  simp only [py_ok_bind]
  rcases integratePoly (m1.add m2) K with e | I
  · rfl
  simp only [py_ok_bind, pair_bind h hne hn (samples_len h _), pair_bind h hne (samples_len h _) hn', pair_bind h hne hn hv']

theorem old_mixed {K : CellG} (h : K.Ready) (hne : ∀ c ∈ K.components, c.edges ≠ []) {t : Trace} {v n : List ℝ} (ev : t.values = some v)
    (en : t.wnd = some n) (hv : v.length = K.numPts) (hn : n.length = K.numPts) (q : Poly ℝ) (x : ℝ) :
    OldFun.l2Mixed K t q x = .ok (x + pair K v (K.normalOf (nz ((alP q).map Mono.dx)).eval (nz ((alP q).map Mono.dy)).eval) -
      pair K n (K.samplesOf (alP q).eval)) := by
  simp only [OldFun.l2Mixed, antiLaplacian_ok, py_ok_bind, onBoundary_ok h, polyNormal_ok h (grad_eq _), ev, en, arr, Trace.attr]
  rw [pair_bind h hne hv (normal_len h _ _), pair_bind h hne hn (samples_len h _)]

theorem old_l2 {K : CellG} (h : K.Ready) (hne : ∀ c ∈ K.components, c.edges ≠ []) {g g' : OldFun} {P P' : Poly ℝ}
    {v n V N v' n' V' N' : List ℝ} (a : OldArrays g K P v n V N) (b : OldArrays g' K P' v' n' V' N') (hv : v.length = K.numPts)
    (hn : n.length = K.numPts) (hV : V.length = K.numPts) (hN : N.length = K.numPts) (hv' : v'.length = K.numPts) (hn' : n'.length = K.numPts) :
    g.getL2 (.fn g') = (do
      let I ← l2PolyPoly (polyPart K P) (polyPart K P') K
      .ok (I + pair K v (K.normalOf (nz ((alP P').map Mono.dx)).eval (nz ((alP P').map Mono.dy)).eval) - pair K n (K.samplesOf (alP P').eval) +
        pair K v' (K.normalOf (nz ((alP P).map Mono.dx)).eval (nz ((alP P).map Mono.dy)).eval) - pair K n' (K.samplesOf (alP P).eval) +
        pair K N v' - pair K V n')) := by
  obtain ⟨B, e1, e2, e3⟩ := a.hB
  obtain ⟨B', e1', -, -⟩ := b.hB
  simp only [OldFun.getL2, a.cell, a.poly, b.poly, e1, e1', e2, e3, b.hn, b.hv, h.getBoundaryPoints, arr, Trace.attr, py_ok_bind, l2PolyPoly,
    polyPart]
  rcases Poly.mul P P' with e | m
  · rfl
  simp only [py_ok_bind]
  rcases integratePoly m K with e | I
  · rfl
  simp only [py_ok_bind, old_mixed h hne a.hv a.hn hv hn, old_mixed h hne b.hv b.hn hv' hn', pair_bind h hne hN hv', pair_bind h hne hV hn']

theorem old_arrays {gmres : Gmres} {s : Solver} (h : s.ops.K.Ready) {laplacian : Poly ℝ} {tr : LocPoisson.TraceOr} {v : List ℝ}
    (hv : tr.Gives s.ops.K v) {g : OldFun} (hg : OldFun.init gmres s laplacian tr = .ok g) {c a w u P W : List ℝ}
    (A : Answers gmres s s.ops.K (harmValues s.ops.K laplacian v) c a w u P W) :
    OldArrays g s.ops.K (alP laplacian) (harmValues s.ops.K laplacian v) w P W := by
  obtain ⟨_, _, _, _, _, _, pt, B, hpv, -, -, rfl⟩ := (old_iff h hv).1 hg
  obtain ⟨rfl, rfl, rfl, rfl, rfl, rfl⟩ := A.unique B
  exact ⟨rfl, rfl, hpv, rfl, rfl, ⟨_, rfl, rfl, rfl⟩⟩

section
variable {gmres : Gmres} {s : Solver} (h : s.ops.K.Ready) (hne : ∀ c ∈ s.ops.K.components, c.edges ≠ []) (hs : s.Of s.ops.K)
  {laplacian laplacian' : Poly ℝ} {tr tr' : LocPoisson.TraceOr} {v v' : List ℝ} (hv : tr.Gives s.ops.K v) (hv' : tr'.Gives s.ops.K v')
include h hne hs hv hv'

/-- C104: both classes give the same inner products. -/
theorem C104_inner {ei eg ei' eg' : Bool} {f f' : LocPoisson} {g g' : OldFun} (hf : LocPoisson.init gmres (some s) laplacian tr ei eg = .ok f)
    (hf' : LocPoisson.init gmres (some s) laplacian' tr' ei' eg' = .ok f') (hg : OldFun.init gmres s laplacian tr = .ok g)
    (hg' : OldFun.init gmres s laplacian' tr' = .ok g') :
    g.getH1 (.fn g') = f.getH1 (.poisson f') ∧ g.getL2 (.fn g') = f.getL2 (.poisson f') := by
  have hd : (harmValues s.ops.K laplacian v).length = s.ops.K.numPts := by simp [Gives.length hv, samples_len h]
  have hd' : (harmValues s.ops.K laplacian' v').length = s.ops.K.numPts := by simp [Gives.length hv', samples_len h]
  obtain ⟨c, a, w, u, P, W, t, A, fc, fp, fh⟩ := new_parts h hne hs hv hf
  obtain ⟨c', a', w', u', P', W', t', A', -, fp', fh'⟩ := new_parts h hne hs hv' hf'
  have O := old_arrays h hv hg A
  have O' := old_arrays h hv' hg' A'
  have oa := old_h1 h hne O O' A.wl hd' A'.wl
  have ob := old_l2 h hne O O' hd A.wl A.Pl A.Wl hd' A'.wl
  have HA : HarmArrays s.ops.K ⟨Trace.made s.ops.K.getEdges (some (harmValues s.ops.K laplacian v)) (some w) (some t),
      some (Trace.made s.ops.K.getEdges (some u) none none), some (Trace.made s.ops.K.getEdges (some c) none none), some a,
      some (some (Trace.made s.ops.K.getEdges (some P) (some W) none))⟩ _ _ _ _ :=
    ⟨rfl, rfl, ⟨_, rfl, rfl, rfl⟩, hd, A.wl, A.Pl, A.Wl⟩
  have HB : HarmArrays s.ops.K ⟨Trace.made s.ops.K.getEdges (some (harmValues s.ops.K laplacian' v')) (some w') (some t'),
      some (Trace.made s.ops.K.getEdges (some u') none none), some (Trace.made s.ops.K.getEdges (some c') none none), some a',
      some (some (Trace.made s.ops.K.getEdges (some P') (some W') none))⟩ _ _ _ _ :=
    ⟨rfl, rfl, ⟨_, rfl, rfl, rfl⟩, hd', A'.wl, A'.Pl, A'.Wl⟩
  have PA : PolyArrays s.ops.K (polyPart s.ops.K (alP laplacian)) _ _ _ _ _ :=
    ⟨⟨_, rfl, rfl⟩, ⟨_, rfl, rfl, rfl⟩, rfl, rfl, samples_len h _, samples_len h _, normal_len h _ _⟩
  have PB : PolyArrays s.ops.K (polyPart s.ops.K (alP laplacian')) _ _ _ _ _ :=
    ⟨⟨_, rfl, rfl⟩, ⟨_, rfl, rfl, rfl⟩, rfl, rfl, samples_len h _, samples_len h _, normal_len h _ _⟩
  have a1 := h1hh_ok h hne HA HB
  have a2 := h1hp_ok h hne HA PB
  have a3 := h1hp_ok h hne HB PA
  have b1 := l2hh_ok h hne HA HB
  have b2 := l2hp_ok h hne HA PB
  have b3 := l2hp_ok h hne HB PA
  rw [oa, ob]
  simp only [LocPoisson.getH1, LocPoisson.getL2, fc, fp, fh, fp', fh', Trace.attr, py_ok_bind, PFEM.h1, PFEM.l2, a1, a2, a3, b1, b2, b3]
  constructor
  · rcases h1PolyPoly (polyPart s.ops.K (alP laplacian)) (polyPart s.ops.K (alP laplacian')) s.ops.K with e | I
    · rfl
    simp only [py_ok_bind]
    rw [pair_comm _ (s.ops.K.samplesOf (alP laplacian).eval)]
    congr 1
    ring
  · rcases l2PolyPoly (polyPart s.ops.K (alP laplacian)) (polyPart s.ops.K (alP laplacian')) s.ops.K with e | I
    · rfl
    simp only [py_ok_bind]
    congr 1
    ring

end

/-- C104: the boundary values of a `LocalFunction`, sum of those of its two parts, are the given ones, whatever the solver does. -/
theorem C104_trace {gmres : Gmres} {s : Solver} (h : s.ops.K.Ready) {laplacian : Poly ℝ} {tr : LocPoisson.TraceOr} {v : List ℝ}
    (hv : tr.Gives s.ops.K v) {g : OldFun} (hg : OldFun.init gmres s laplacian tr = .ok g) :
    ∃ p q, g.harm.values = some p ∧ g.polyTrace.values = some q ∧ Np.add p q = .ok v := by
  obtain ⟨_, _, _, _, _, _, pt, -, hpv, -, -, rfl⟩ := (old_iff h hv).1 hg
  exact ⟨_, _, rfl, hpv, add_back (by rw [Gives.length hv, samples_len h])⟩

/-- C104: both classes refuse an array that does not have one value per sampled point. -/
theorem C104_refused (gmres : Gmres) {s : Solver} (h : s.ops.K.Ready) (laplacian : Poly ℝ) {a : List ℝ} (ha : a.length ≠ s.ops.K.numPts)
    (l2 ints grads : Bool) : OldFun.init gmres s laplacian (.value (.arr a)) l2 ints grads = .error .valueError ∧
    LocPoisson.init gmres (some s) laplacian (.value (.arr a)) ints grads = .error .valueError := by
  refine ⟨?_, C75_refused gmres h laplacian ha ints grads⟩
  have hb := Trace.good_bare (getEdges_sampled h)
  have h1 := (Trace.C46_set_values hb).2.2.2 a (by rw [getEdges_sizes h]; exact ha)
  have h2 : Trace.init s.ops.K.getEdges (values := some (.one (.arr a))) = .error .valueError := by
    simp only [Trace.init, Bool.false_eq_true, if_false, h1, Except.map]
  obtain ⟨pt, hpt, -⟩ := old_poly h laplacian
  simp only [OldFun.init, hpt, py_ok_bind, h2, py_error_bind]

/-- C104: inner products with anything but a `LocalFunction` raise `TypeError`. -/
theorem C104_other (g : OldFun) : g.getH1 .other = .error .typeError ∧ g.getL2 .other = .error .typeError := ⟨rfl, rfl⟩

/-- the steps of the constructor before the data for the `L2` inner product -/
theorem old_steps {gmres : Gmres} {s : Solver} {laplacian : Poly ℝ} {tr : LocPoisson.TraceOr} : ∃ m : Py (OldFun × List ℝ × List ℝ × List ℝ),
    (∀ f v c a, m = .ok (f, v, c, a) → f.biharm = none) ∧ ∀ l2 ints grads, OldFun.init gmres s laplacian tr l2 ints grads = (do
      let (f, v, c, a) ← m
      let f ← (if l2 then do
          let b ← OldFun.biharmonic gmres s v c a
          .ok { f with biharm := some b }
        else .ok f : Py OldFun)
      if ints || grads then f.computeInterior grads else .ok f) := by
  refine ⟨do
      let (P, Q, pt) ← OldFun.polynomialPart s.ops.K laplacian
      let t ← (match tr with
        | .trace t => .ok t
        | .value .other => .error .attributeError
        | .value v => Trace.init s.ops.K.getEdges (values := some (.one v)) : Py Trace)
      let u ← Trace.attr t.values
      let p ← Trace.attr pt.values
      let d ← Np.sub u p
      let ht ← Trace.init s.ops.K.getEdges (values := some (.one (.arr d)))
      let v ← Trace.attr ht.values
      let (c, a) ← conjugate gmres s v
      let conj ← Trace.init s.ops.K.getEdges (values := some (.one (.arr c)))
      let c ← Trace.attr conj.values
      let w ← wtdFromTrace s.ops.K c
      let w ← LocHarm.logLoop s a (fun t => arr t.wnd) s.ops.K.numHoles 0 w
      let ht ← Trace.after (ht.setWnd (.one (.arr w)))
      .ok ({ nyst := s, poly := P, polyAnti := Q, polyTrace := pt, harm := ht, conj := conj, logCoef := a }, v, c, a), ?_, ?_⟩
  · intro f v c a hf
    obtain ⟨⟨P, Q, pt⟩, -, hf⟩ := bind_ok hf
    obtain ⟨t, -, hf⟩ := bind_ok hf
    obtain ⟨u, -, hf⟩ := bind_ok hf
    obtain ⟨p, -, hf⟩ := bind_ok hf
    obtain ⟨d, -, hf⟩ := bind_ok hf
    obtain ⟨ht, -, hf⟩ := bind_ok hf
    obtain ⟨v, -, hf⟩ := bind_ok hf
    obtain ⟨⟨c, a⟩, -, hf⟩ := bind_ok hf
    obtain ⟨conj, -, hf⟩ := bind_ok hf
    obtain ⟨c', -, hf⟩ := bind_ok hf
    obtain ⟨w, -, hf⟩ := bind_ok hf
    obtain ⟨w', -, hf⟩ := bind_ok hf
    obtain ⟨ht', -, hf⟩ := bind_ok hf
    cases hf
    rfl
  · intro l2 ints grads
    simp only [OldFun.init, bind_assoc]
    rfl

/-- C104: the option `compute_for_l2_inner_prod` decides only about the data of the `L2` inner product. -/
theorem C104_without {gmres : Gmres} {s : Solver} {laplacian : Poly ℝ} {tr : LocPoisson.TraceOr} {g : OldFun}
    (hg : OldFun.init gmres s laplacian tr true = .ok g) :
    OldFun.init gmres s laplacian tr false = .ok { g with biharm := none } := by
  obtain ⟨m, hm, he⟩ := old_steps (gmres := gmres) (s := s) (laplacian := laplacian) (tr := tr)
  rw [he] at hg ⊢
  obtain ⟨⟨f, v, c, a⟩, h1, hg⟩ := bind_ok hg
  have := hm _ _ _ _ h1
  rw [h1, py_ok_bind]
  simp only [Bool.false_eq_true, if_false, if_true, py_ok_bind, Bool.or_self] at hg ⊢
  obtain ⟨f', h2, hg⟩ := bind_ok hg
  obtain ⟨b, -, h2⟩ := bind_ok h2
  cases h2
  cases hg
  congr 1
  rw [← this]

/-- C105 is violated: no object with interior values can be made; the constructor never returns if they are asked for. -/
theorem C105_violated_interior {gmres : Gmres} {s : Solver} {laplacian : Poly ℝ} {tr : LocPoisson.TraceOr} :
    (∀ l2 ints grads, ints = true ∨ grads = true → ∀ g, OldFun.init gmres s laplacian tr l2 ints grads ≠ .ok g) ∧
    (∀ g, OldFun.init gmres s laplacian tr = .ok g → (∀ ints grads, ints = true ∨ grads = true →
      OldFun.init gmres s laplacian tr true ints grads = .error .attributeError) ∧ ∀ grad, g.computeInterior grad = .error .attributeError) := by
  obtain ⟨m, hm, he⟩ := old_steps (gmres := gmres) (s := s) (laplacian := laplacian) (tr := tr)
  have hor : ∀ {ints grads : Bool}, ints = true ∨ grads = true → (ints || grads) = true := by
    intro a b h; simpa using h
  constructor
  · intro l2 ints grads hi g hg
    rw [he] at hg
    obtain ⟨⟨f, v, c, a⟩, -, hg⟩ := bind_ok hg
    obtain ⟨f', -, hg⟩ := bind_ok hg
    rw [if_pos (hor hi)] at hg
    cases hg
  · intro g hg
    refine ⟨fun ints grads hi => ?_, fun _ => rfl⟩
    rw [he] at hg ⊢
    obtain ⟨⟨f, v, c, a⟩, h1, hg⟩ := bind_ok hg
    obtain ⟨f', h2, -⟩ := bind_ok hg
    rw [h1, py_ok_bind]
    dsimp only at h2 ⊢
    rw [h2, py_ok_bind, if_pos (hor hi)]
    rfl

/-- C105 is violated: an `L2` inner product without the data for it raises `AttributeError`, not the announced `ValueError`. -/
theorem C105_violated_l2 {gmres : Gmres} {s : Solver} {laplacian : Poly ℝ} {tr : LocPoisson.TraceOr} {ints grads : Bool} {g : OldFun}
    (hg : OldFun.init gmres s laplacian tr false ints grads = .ok g) (g' : OldFun) : g.getL2 (.fn g') = .error .attributeError := by
  obtain ⟨m, hm, he⟩ := old_steps (gmres := gmres) (s := s) (laplacian := laplacian) (tr := tr)
  rw [he] at hg
  obtain ⟨⟨f, v, c, a⟩, h1, hg⟩ := bind_ok hg
  have hn := hm _ _ _ _ h1
  simp only [Bool.false_eq_true, if_false, py_ok_bind] at hg
  have : g.biharm = none := by
    split_ifs at hg
    · cases hg
    · cases hg
      exact hn
  simp only [OldFun.getL2, this, Trace.attr, py_error_bind]

/-! ### an example: `Δu = 1` with the boundary values `5/4` on the disc -/

theorem disc_of : discSolver.Of discSolver.ops.K := ⟨rfl, fun h => absurd rfl h⟩

theorem disc_old : ∃ g, OldFun.init zeroGmres discSolver onePoly (.value (.num (5 / 4))) = .ok g := by
  obtain ⟨f, hf, -, -⟩ := disc_quarter
  obtain ⟨g, hg, -⟩ := (C104_same (s := discSolver) disc_ready.1 (fun c hc => (disc_ready.2 c hc).1) disc_of (tr := .value (.num (5 / 4)))
    (v := List.replicate 4 (5 / 4)) rfl).1 _ _ f hf
  exact ⟨g, hg⟩

example : ∃ f g, LocPoisson.init zeroGmres (some discSolver) onePoly (.value (.num (5 / 4))) false false = .ok f ∧
    OldFun.init zeroGmres discSolver onePoly (.value (.num (5 / 4))) = .ok g ∧ g.getH1 (.fn g) = f.getH1 (.poisson f) ∧
    g.getL2 (.fn g) = f.getL2 (.poisson f) := by
  obtain ⟨f, hf, -, -⟩ := disc_quarter
  obtain ⟨g, hg⟩ := disc_old
  exact ⟨f, g, hf, hg, C104_inner (s := discSolver) disc_ready.1 (fun c hc => (disc_ready.2 c hc).1) disc_of (tr := .value (.num (5 / 4)))
    (tr' := .value (.num (5 / 4))) (v := List.replicate 4 (5 / 4)) (v' := List.replicate 4 (5 / 4)) rfl rfl hf hf hg hg⟩

example : ∃ g, OldFun.init zeroGmres discSolver onePoly (.value (.num (5 / 4))) false = .ok g ∧ g.getL2 (.fn g) = .error .attributeError ∧
    OldFun.init zeroGmres discSolver onePoly (.value (.num (5 / 4))) true true false = .error .attributeError := by
  obtain ⟨g, hg⟩ := disc_old
  have h1 := C104_without hg
  exact ⟨_, h1, C105_violated_l2 h1 _, (C105_violated_interior.2 g hg).1 _ _ (Or.inl rfl)⟩

example : OldFun.init zeroGmres discSolver onePoly (.value (.arr [1, 2, 3])) true false false = .error .valueError :=
  (C104_refused zeroGmres (s := discSolver) disc_ready.1 onePoly (a := [1, 2, 3]) (show (3 : ℕ) ≠ 4 by decide) _ _ _).1

end PFEM
