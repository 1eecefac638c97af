import Verif.Props.LogTerms

/-!
Property theorems C69: the linear systems for harmonic conjugates.
-/

namespace PFEM
open Nystrom

/-- the vector `u - ∑ j, a j * v j` -/
noncomputable def minus (u a : List ℝ) (vs : List (List ℝ)) : List ℝ :=
  (List.range u.length).map fun i => vec u i - ∑ j ∈ Finset.range vs.length, vec a j * vec (vs.getD j []) i

theorem minus_length (u a : List ℝ) (vs : List (List ℝ)) : (minus u a vs).length = u.length := by simp [minus]

theorem vec_minus (u a : List ℝ) (vs : List (List ℝ)) {i : ℕ} (hi : i < u.length) :
    vec (minus u a vs) i = vec u i - ∑ j ∈ Finset.range vs.length, vec a j * vec (vs.getD j []) i := vec_range _ hi

/-- entry `i` of the single layer operator -/
noncomputable def singleAt (o : Ops) (u : List ℝ) (i : ℕ) : ℝ := ∑ j ∈ Finset.range o.K.numPts, o.S.at' i j * vec u j

/-- the integral of a product with the derivative of a logarithmic term -/
theorem dot_prod {K : CellG} (h : K.Ready) {u w : List ℝ} (hu : u.length = K.numPts) (hw : w.length = K.numPts) :
    dot (List.zipWith (· * ·) u w) (steps K) = ∑ i ∈ Finset.range K.numPts, vec u i * vec w i * vec (steps K) i := by
  rw [dot_vec (n := K.numPts) (by simp [hu, hw]) (by rw [steps_length, h.numPts])]
  exact Finset.sum_congr rfl fun i hi => by
    rw [vec_zipWith _ (hu.trans hw.symm) (by rw [hu]; exact Finset.mem_range.1 hi)]

theorem vec_append_left {u v : List ℝ} {i : ℕ} (hi : i < u.length) : vec (u ++ v) i = vec u i := by
  simp [vec, List.getD_eq_getElem?_getD, List.getElem?_append_left hi]

theorem getD_map_poles {K : CellG} (f : Vert → List ℝ) {j : ℕ} {p : Vert} (hp : (poles K)[j]? = some p) :
    ((poles K).map f).getD j [] = f p := by simp [List.getD_eq_getElem?_getD, hp]

theorem vec_map_poles {K : CellG} (f : Vert → ℝ) {j : ℕ} {p : Vert} (hp : (poles K)[j]? = some p) :
    vec ((poles K).map f) j = f p := by simp [vec, List.getD_eq_getElem?_getD, hp]

/-- what the augmented operator does -/
theorem augmented_eq {K : CellG} (h : K.Ready) (hev : K.Even) (hne : ∀ c ∈ K.components, c.edges ≠ []) (hc : Corners K) {o : Ops}
    (ho : build K = .ok o) {psi a : List ℝ} (hpsi : psi.length = K.numPts) (ha : a.length = K.numHoles) :
    ∃ y z d, augmented o (logTermsOf o) (psi ++ a) = .ok (y ++ z) ∧ y.length = K.numPts ∧ z.length = K.numHoles ∧
      o.double psi = .ok d ∧ d.length = K.numPts ∧
      (∀ i < K.numPts, vec y i = vec d i + dot psi (cellWeights K) -
        ∑ j ∈ Finset.range K.numHoles, vec a j * singleAt o (((poles K).map (lamT K)).getD j []) i) ∧
      ∀ (i : ℕ) (p : Vert), (poles K)[i]? = some p → vec z i = -dot (List.zipWith (· * ·) psi (lamT K p)) (steps K) +
        ∑ j ∈ Finset.range K.numHoles, vec a j *
          dot (List.zipWith (· * ·) (((poles K).map fun q => K.samplesOf (logDist q)).getD j []) (lamN K p)) (steps K) := by
  obtain ⟨d, hd, hdl, -⟩ := C50_formula h hc ho hpsi
  have hI := cell_integrate h hne (hpsi.trans h.numPts)
  have hst := st_ok h hne (poles K) hpsi
  obtain ⟨rfl, -⟩ := build_shape h ho
  have hT : (logTermsOf o).T1.mulVec a = .ok ((List.range o.K.numPts).map fun i =>
      ∑ j ∈ Finset.range o.K.numHoles, (logTermsOf o).T1.at' i j * vec a j) := mulVec_ok ha
  have hS : (logTermsOf o).Sn.mulVec a = .ok ((List.range o.K.numHoles).map fun i =>
      ∑ j ∈ Finset.range o.K.numHoles, (logTermsOf o).Sn.at' i j * vec a j) := mulVec_ok ha
  have hlam : (logTermsOf o).lam = (poles o.K).map (lamOf o.K) := rfl
  refine ⟨List.zipWith (· - ·) (d.map (· + dot psi (cellWeights o.K))) ((List.range o.K.numPts).map fun i =>
      ∑ j ∈ Finset.range o.K.numHoles, (logTermsOf o).T1.at' i j * vec a j),
    List.zipWith (· + ·) (((poles o.K).map fun p => dot (List.zipWith (· * ·) psi (lamT o.K p)) (steps o.K)).map (- ·))
      ((List.range o.K.numHoles).map fun i => ∑ j ∈ Finset.range o.K.numHoles, (logTermsOf o).Sn.at' i j * vec a j),
    d, ?_, ?_, ?_, hd, hdl, ?_, ?_⟩
  · simp only [augmented, call, List.length_append, hpsi, ha, ne_eq, not_true_eq_false, if_false]
    rw [List.take_left' hpsi, List.drop_left' hpsi, hd]
    simp only [py_ok_bind, hI, hT, hlam, hst, hS]
    rw [bin_eq _ (by simp [hdl])]
    simp only [py_ok_bind]
    rw [bin_eq _ (by simp [poles_length])]
    simp only [py_ok_bind]
  · simp [hdl]
  · simp [poles_length]
  · intro i hi
    rw [vec_zipWith _ (by simp [hdl]) (by simpa [hdl] using hi), vec_map _ (by rw [hdl]; exact hi), vec_range _ hi]
    congr 1
    refine Finset.sum_congr rfl fun j hj => ?_
    rw [mul_comm]
    congr 1
    have hj : j < (poles o.K).length := by rw [poles_length]; exact Finset.mem_range.1 hj
    have hp := List.getElem?_eq_getElem hj
    simp only [logTermsOf]
    rw [getD_map_poles _ hp, getD_map_poles _ hp, vec_range _ hi]
    rfl
  · intro i p hp
    have hi : i < o.K.numHoles := by rw [← poles_length]; exact (List.getElem?_eq_some_iff.1 hp).1
    rw [vec_zipWith _ (by simp [poles_length]) (by simpa [poles_length] using hi), vec_map _ (by simpa [poles_length] using hi),
      vec_map_poles _ hp, vec_range _ hi]
    congr 1
    refine Finset.sum_congr rfl fun j hj => ?_
    rw [mul_comm]
    congr 1
    have hj : j < (poles o.K).length := by rw [poles_length]; exact Finset.mem_range.1 hj
    have hq := List.getElem?_eq_getElem hj
    simp only [logTermsOf]
    rw [getD_map_poles _ hq, getD_map_poles _ hq, vec_map_poles _ hp]

theorem singleAt_minus {o : Ops} {u a : List ℝ} (vs : List (List ℝ)) (hu : u.length = o.K.numPts) (i : ℕ) :
    singleAt o ((minus u a vs).map (- ·)) i = -singleAt o u i + ∑ j ∈ Finset.range vs.length, vec a j * singleAt o (vs.getD j []) i := by
  unfold singleAt
  simp only [Finset.mul_sum]
  rw [Finset.sum_comm, ← Finset.sum_neg_distrib, ← Finset.sum_add_distrib]
  refine Finset.sum_congr rfl fun k hk => ?_
  have hk := Finset.mem_range.1 hk
  rw [vec_map _ (by rw [minus_length, hu]; exact hk), vec_minus _ _ _ (by rw [hu]; exact hk)]
  rw [neg_sub, mul_sub, Finset.mul_sum, sub_eq_neg_add]
  congr 1
  exact Finset.sum_congr rfl fun j _ => by ring

theorem dot_minus {K : CellG} (h : K.Ready) {u a w : List ℝ} {vs : List (List ℝ)} (hu : u.length = K.numPts)
    (hw : w.length = K.numPts) (hv : ∀ j < vs.length, (vs.getD j []).length = K.numPts) :
    dot (List.zipWith (· * ·) (minus u a vs) w) (steps K) = dot (List.zipWith (· * ·) u w) (steps K) -
      ∑ j ∈ Finset.range vs.length, vec a j * dot (List.zipWith (· * ·) (vs.getD j []) w) (steps K) := by
  rw [dot_prod h (by rw [minus_length, hu]) hw, dot_prod h hu hw]
  have : ∀ j ∈ Finset.range vs.length, vec a j * dot (List.zipWith (· * ·) (vs.getD j []) w) (steps K) =
      ∑ i ∈ Finset.range K.numPts, vec a j * (vec (vs.getD j []) i * vec w i * vec (steps K) i) := fun j hj => by
    rw [dot_prod h (hv j (Finset.mem_range.1 hj)) hw, Finset.mul_sum]
  rw [Finset.sum_congr rfl this, Finset.sum_comm, ← Finset.sum_sub_distrib]
  refine Finset.sum_congr rfl fun i hi => ?_
  rw [vec_minus _ _ _ (by rw [hu]; exact Finset.mem_range.1 hi), sub_mul, sub_mul, Finset.sum_mul, Finset.sum_mul]
  congr 1
  exact Finset.sum_congr rfl fun j _ => by ring

/-- the data of the logarithmic terms -/
def Nystrom.LogTerms.vals (g : LogTerms) : List (List ℝ) := g.lam.map fun t => t.values.getD []
/-- their weighted tangential derivatives -/
def Nystrom.LogTerms.tangs (g : LogTerms) : List (List ℝ) := g.lam.map fun t => t.wtd.getD []

theorem vals_eq (o : Ops) : (logTermsOf o).vals = (poles o.K).map fun q => o.K.samplesOf (logDist q) := by
  simp only [LogTerms.vals, logTermsOf, List.map_map]; rfl
theorem tangs_eq (o : Ops) : (logTermsOf o).tangs = (poles o.K).map (lamT o.K) := by
  simp only [LogTerms.tangs, logTermsOf, List.map_map]; rfl

/-- The two conditions on `ψ̂` and the coefficients `a`, for boundary data `φ` with weighted tangential derivative `t`.  With
`ψ = φ - ∑ aⱼ λⱼ`: the discrete Neumann problem `½ψ̂ + Kψ̂ + ∫ψ̂ = -S(∂ψ/∂t)`, and `∫ ψ ∂λᵢ/∂n + ∫ ψ̂ ∂λᵢ/∂t = 0` for every hole. -/
def Conjugates (o : Ops) (g : LogTerms) (phi t psiHat a : List ℝ) : Prop :=
  (∃ d I, o.double psiHat = .ok d ∧ o.K.integrate psiHat = .ok I ∧
    o.single ((minus t a g.tangs).map (- ·)) = .ok (d.map (· + I))) ∧
  ∀ (i : ℕ) (l : Trace), g.lam[i]? = some l → ∃ n w I J, l.wnd = some n ∧ l.wtd = some w ∧
    o.K.integratePreweighted (List.zipWith (· * ·) (minus phi a g.vals) n) = .ok I ∧
    o.K.integratePreweighted (List.zipWith (· * ·) psiHat w) = .ok J ∧ I + J = 0

theorem append_eq_iff {u v u' v' : List ℝ} (h : u.length = u'.length) : u ++ v = u' ++ v' ↔ u = u' ∧ v = v' :=
  ⟨fun hh => List.append_inj hh h, fun hh => by rw [hh.1, hh.2]⟩

/-- C69: the augmented linear system is exactly the pair of conditions: `(ψ̂, a)` solves it with the right-hand side that
`get_harmonic_conjugate` builds if and only if both conditions hold. -/
theorem C69_system {K : CellG} (h : K.Ready) (hev : K.Even) (hne : ∀ c ∈ K.components, c.edges ≠ []) (hh : K.Holes) (hc : Corners K)
    {o : Ops} (ho : build K = .ok o) {g : LogTerms} (hg : logTerms o = .ok g) {phi t : List ℝ} (hphi : phi.length = K.numPts)
    (ht : t.length = K.numPts) {psiHat a : List ℝ} (hpsi : psiHat.length = K.numPts) (ha : a.length = K.components.length - 1) :
    ∃ b1 b2, o.single (t.map (- ·)) = .ok b1 ∧ sn K g.lam phi = .ok b2 ∧
      (augmented o g (psiHat ++ a) = .ok (b1 ++ b2) ↔ Conjugates o g phi t psiHat a) := by
  rw [logTerms_eq h hev hne hh ho] at hg
  cases hg
  obtain ⟨y, z, d, hA, hyl, hzl, hd, hdl, hy, hz⟩ := augmented_eq h hev hne hc ho hpsi ha
  have hsi := fun {u : List ℝ} => single_ok h hev ho (u := u)
  obtain ⟨hK, -⟩ := build_shape h ho
  subst hK
  have hI := cell_integrate h hne (hpsi.trans h.numPts)
  refine ⟨_, _, hsi (by simp [ht]), sn_ok h hne (poles o.K) hphi, ?_⟩
  rw [hA]
  have hlT : (logTermsOf o).tangs.length = o.K.numHoles := by rw [tangs_eq, List.length_map, poles_length]
  have hlV : (logTermsOf o).vals.length = o.K.numHoles := by rw [vals_eq, List.length_map, poles_length]
  have e0 : (Except.ok (y ++ z) : Py (List ℝ)) = .ok ((List.range o.K.numPts).map (fun i =>
        ∑ j ∈ Finset.range o.K.numPts, o.S.at' i j * vec (t.map (- ·)) j) ++
        (poles o.K).map fun p => dot (List.zipWith (· * ·) phi (lamN o.K p)) (steps o.K)) ↔
      y = (List.range o.K.numPts).map (fun i => singleAt o (t.map (- ·)) i) ∧
      z = (poles o.K).map fun p => dot (List.zipWith (· * ·) phi (lamN o.K p)) (steps o.K) := by
    rw [Except.ok.injEq, append_eq_iff (by simp [hyl])]
    rfl
  rw [e0]
  refine and_congr ?_ ?_
  · have hL := hsi (u := (minus t a (logTermsOf o).tangs).map (- ·)) (by simp [minus_length, ht])
    have key : (∀ i < o.K.numPts, vec y i = singleAt o (t.map (- ·)) i) ↔
        ∀ i < o.K.numPts, singleAt o ((minus t a (logTermsOf o).tangs).map (- ·)) i = vec d i + dot psiHat (cellWeights o.K) := by
      refine forall₂_congr fun i hi => ?_
      have hneg : singleAt o (t.map (- ·)) i = -singleAt o t i := by
        unfold singleAt
        rw [← Finset.sum_neg_distrib]
        exact Finset.sum_congr rfl fun j hj => by rw [vec_map _ (by rw [ht]; exact Finset.mem_range.1 hj)]; ring
      rw [hy i hi, singleAt_minus _ ht, hneg, hlT, tangs_eq]
      constructor <;> intro hh <;> linarith
    have l1 : y = (List.range o.K.numPts).map (fun i => singleAt o (t.map (- ·)) i) ↔
        ∀ i < o.K.numPts, vec y i = singleAt o (t.map (- ·)) i := by
      constructor
      · intro hh i hi
        rw [hh, vec_range _ hi]
      · intro hh
        exact vec_ext (by simp [hyl]) fun i hi => by rw [hyl] at hi; rw [hh i hi, vec_range _ hi]
    rw [l1, key]
    constructor
    · intro hh
      refine ⟨d, _, hd, hI, ?_⟩
      rw [hL]
      congr 1
      refine vec_ext (by simp [hdl]) fun i hi => ?_
      simp only [List.length_map, List.length_range] at hi
      rw [vec_range _ hi, vec_map _ (by rw [hdl]; exact hi)]
      exact hh i hi
    · rintro ⟨d', I, hd', hI', hS⟩ i hi
      rw [hd] at hd'
      cases hd'
      rw [hI] at hI'
      cases hI'
      rw [hL] at hS
      have := congrArg (vec · i) (Except.ok.inj hS)
      beta_reduce at this
      rw [vec_range _ hi, vec_map _ (by rw [hdl]; exact hi)] at this
      exact this
  · have key : ∀ (i : ℕ) (p : Vert), (poles o.K)[i]? = some p →
        (vec z i = dot (List.zipWith (· * ·) phi (lamN o.K p)) (steps o.K) ↔
        dot (List.zipWith (· * ·) (minus phi a (logTermsOf o).vals) (lamN o.K p)) (steps o.K) +
          dot (List.zipWith (· * ·) psiHat (lamT o.K p)) (steps o.K) = 0) := by
      intro i p hp
      rw [hz i p hp, dot_minus h hphi (lamN_len h p), hlV, vals_eq]
      · constructor <;> intro hh <;> linarith
      · intro j hj
        rw [hlV, ← poles_length] at hj
        rw [vals_eq, getD_map_poles _ (List.getElem?_eq_getElem hj), samples_len h]
    have hint : ∀ {u w : List ℝ}, u.length = o.K.numPts → w.length = o.K.numPts →
        o.K.integratePreweighted (List.zipWith (· * ·) u w) = .ok (dot (List.zipWith (· * ·) u w) (steps o.K)) := by
      intro u w hu hw
      exact cell_preweighted h hne (by rw [List.length_zipWith, hu, hw, h.numPts, Nat.min_self])
    constructor
    · intro hh i l hl
      simp only [logTermsOf, List.getElem?_map] at hl
      obtain ⟨p, hp, rfl⟩ := Option.map_eq_some_iff.1 hl
      refine ⟨lamN o.K p, lamT o.K p, _, _, rfl, rfl, hint (by rw [minus_length, hphi]) (lamN_len h p), hint hpsi (lamT_len h p), ?_⟩
      rw [← key i p hp, hh, vec_map_poles _ hp]
    · intro hh
      refine vec_ext (by simp [hzl, poles_length]) fun i hi => ?_
      have hi' : i < (poles o.K).length := by rw [poles_length, ← hzl]; exact hi
      have hp := List.getElem?_eq_getElem hi'
      obtain ⟨n, w, I, J, hn, hw, h1, h2, h3⟩ := hh i (lamOf o.K (poles o.K)[i]) (by simp [logTermsOf, hp])
      have hn' : (lamOf o.K (poles o.K)[i]).wnd = some (lamN o.K (poles o.K)[i]) := rfl
      have hw' : (lamOf o.K (poles o.K)[i]).wtd = some (lamT o.K (poles o.K)[i]) := rfl
      rw [hn'] at hn
      rw [hw'] at hw
      cases hn
      cases hw
      rw [hint (by rw [minus_length, hphi]) (lamN_len h _)] at h1
      rw [hint hpsi (lamT_len h _)] at h2
      cases h1
      cases h2
      rw [vec_map_poles _ hp, key i _ hp]
      exact h3

/-- the solver of linear systems returns only exact solutions -/
def Exact (gmres : Gmres) : Prop := ∀ A b M x, gmres A b M = .ok x → A x = .ok b

/-- the parts of a solver -/
theorem init_parts {gmres : Gmres} {K : CellG} {strategy pc : String} {s : Solver} (hs : init gmres K strategy pc = .ok s) :
    build K = .ok s.ops ∧ ((0 < K.numHoles ∧ ∃ g, s.log = some g ∧ logTerms s.ops = .ok g) ∨ (K.numHoles = 0 ∧ s.log = none)) ∧
      diagonal K s.log = .ok s.diag ∧ pc = "jacobi" ∧ s.strategy = strategy ∧ (strategy = "direct" ∨ strategy = "fft") ∧
      ((0 < K.numHoles ∧ strategy = "fft") ∧ (∃ eta, s.eta = some eta ∧ indicators K (solveNeumann gmres s.ops s.diag) = .ok eta) ∨
        ¬ (0 < K.numHoles ∧ strategy = "fft") ∧ s.eta = none) := by
  obtain ⟨o, ho, hs⟩ := bind_ok hs
  obtain ⟨g, hg, hs⟩ := bind_ok hs
  split_ifs at hs with h1 h2 h3
  · obtain ⟨D, hD, hs⟩ := bind_ok hs
    obtain ⟨eta, he, hs⟩ := bind_ok hs
    cases hs
    refine ⟨ho, ?_, hD, h1, rfl, h2, .inl ⟨h3, eta, rfl, he⟩⟩
    rw [if_pos h3.1] at hg
    obtain ⟨g', hg', hg⟩ := bind_ok hg
    cases hg
    exact .inl ⟨h3.1, g', rfl, hg'⟩
  · obtain ⟨D, hD, hs⟩ := bind_ok hs
    cases hs
    refine ⟨ho, ?_, hD, h1, rfl, h2, .inr ⟨h3, rfl⟩⟩
    by_cases h4 : 0 < K.numHoles
    · rw [if_pos h4] at hg
      obtain ⟨g', hg', hg⟩ := bind_ok hg
      cases hg
      exact .inl ⟨h4, g', rfl, hg'⟩
    · rw [if_neg h4] at hg
      cases hg
      exact .inr ⟨by omega, rfl⟩
  · obtain ⟨D, hD, hs⟩ := bind_ok hs
    cases hs

/-- C69: what `get_harmonic_conjugate` returns on a cell with holes, if the linear solver is exact. -/
theorem C69_conjugate {gmres : Gmres} (hx : Exact gmres) {K : CellG} (h : K.Ready) (hev : K.Even)
    (hne : ∀ c ∈ K.components, c.edges ≠ []) (hh : K.Holes) (hc : Corners K) (hm : 1 < K.components.length) {strategy pc : String}
    {s : Solver} (hs : init gmres K strategy pc = .ok s) {phi psiHat a : List ℝ} (hphi : phi.length = K.numPts)
    (hr : conjugate gmres s phi = .ok (psiHat, a)) :
    psiHat.length = K.numPts ∧ a.length = K.components.length - 1 ∧
      ∃ t g, wtdFromTrace K phi = .ok t ∧ s.log = some g ∧ logTerms s.ops = .ok g ∧ Conjugates s.ops g phi t psiHat a := by
  have hm' : 0 < K.numHoles := by unfold CellG.numHoles; omega
  obtain ⟨ho, hlog, -⟩ := init_parts hs
  obtain ⟨-, g, hg, hlg⟩ := hlog.resolve_right (fun hh => by omega)
  obtain ⟨hK, -⟩ := build_shape h ho
  simp only [conjugate, hK, hm'.ne', if_false, hg, Trace.attr, py_ok_bind] at hr
  obtain ⟨t, ht, hr⟩ := bind_ok hr
  obtain ⟨b1, hb1, hr⟩ := bind_ok hr
  obtain ⟨b2, hb2, hr⟩ := bind_ok hr
  obtain ⟨x, hgx, hr⟩ := bind_ok hr
  have hA := hx _ _ _ _ hgx
  have hxl : x.length = K.numPts + K.numHoles := by
    by_contra hl
    simp [augmented, call, hK, hl] at hA
  have htl : t.length = K.numPts := by
    by_contra hl
    simp [Ops.single, call, hK, hl] at hb1
  cases hr
  refine ⟨by simp [hxl], by simp [hxl, CellG.numHoles], t, g, ht, hg, hlg, ?_⟩
  obtain ⟨b1', b2', h1, h2, h3⟩ := C69_system h hev hne hh hc ho hlg hphi htl (psiHat := x.take K.numPts) (a := x.drop K.numPts)
    (by simp [hxl]) (by simp [hxl, CellG.numHoles])
  rw [hb1] at h1
  cases h1
  rw [hb2] at h2
  cases h2
  rw [← h3, List.take_append_drop]
  exact hA

/-- C69: without holes there are no coefficients, and the conjugate solves the discrete Neumann problem `½ψ̂ + Kψ̂ + ∫ψ̂ = -S(∂φ/∂t)`. -/
theorem C69_simply_connected {gmres : Gmres} (hx : Exact gmres) {K : CellG} (h : K.Ready)
    (hne : ∀ c ∈ K.components, c.edges ≠ []) (hc : Corners K) (hm : K.components.length ≤ 1) {strategy pc : String}
    {s : Solver} (hs : init gmres K strategy pc = .ok s) {phi psiHat a : List ℝ}
    (hr : conjugate gmres s phi = .ok (psiHat, a)) :
    psiHat.length = K.numPts ∧ a = [] ∧ ∃ t d I, wtdFromTrace K phi = .ok t ∧ s.ops.double psiHat = .ok d ∧
      K.integrate psiHat = .ok I ∧ s.ops.single (t.map (- ·)) = .ok (d.map (· + I)) := by
  have hm' : K.numHoles = 0 := by unfold CellG.numHoles; omega
  obtain ⟨ho, -⟩ := init_parts hs
  obtain ⟨hK, -⟩ := build_shape h ho
  simp only [conjugate, hK, hm', if_true] at hr
  obtain ⟨t, ht, hr⟩ := bind_ok hr
  obtain ⟨u, hu, hr⟩ := bind_ok hr
  cases hr
  obtain ⟨b, hb, hu⟩ := bind_ok hu
  have hA := hx _ _ _ _ hu
  have hul : psiHat.length = K.numPts := by
    by_contra hl
    simp [Ops.neumann, call, hK, hl] at hA
  obtain ⟨y, I, h1, h2, h3⟩ := C50_neumann h hne hc ho hul
  rw [h3] at hA
  cases hA
  refine ⟨hul, rfl, t, y, I, ht, h1, h2, ?_⟩
  rw [← hb]
  congr 1
  exact List.map_congr_left fun x _ => by ring

/-- C69: data of the wrong length are refused. -/
theorem C69_refused (o : Ops) (g : LogTerms) {x : List ℝ} (hx : x.length ≠ o.K.numPts + (o.K.components.length - 1)) :
    augmented o g x = .error .valueError := by
  have : ¬ x.length = o.K.numPts + o.K.numHoles := hx
  simp [augmented, call, this]

theorem ringCell_holes : ringCell.Holes := by
  intro c hc
  simp only [ringCell, List.tail_cons, List.mem_singleton] at hc
  subst hc
  refine ⟨Vert.mk' 0 0, rfl, fun s hs => ?_⟩
  have key : ∀ q ∈ ringPt, q.1 ≠ 0 ∨ q.2 ≠ 0 := by decide
  simp only [ringCell, CellG.cols, List.mem_flatMap, List.mem_cons, List.not_mem_nil, or_false] at hs
  obtain ⟨c, hc, hs⟩ := hs
  have hall : ∀ r : ℤ, r ≠ 0 → s ∈ (ringContour r).cols → (s.x, s.y) ∈ away (Vert.mk' 0 0) := by
    intro r hr hs
    simp only [ContourG.cols, List.mem_flatMap] at hs
    obtain ⟨e, he, hs⟩ := hs
    rw [(ring_cols r e he).1] at hs
    obtain ⟨q, hq, rfl⟩ := List.mem_map.1 hs
    have := key q hq
    simpa [away, ringSample, Vert.mk', hr] using this
  rcases hc with rfl | rfl
  · exact hall 2 (by norm_num) hs
  · exact hall 1 (by norm_num) hs

/-- the matrices of the ring of the examples exist -/
theorem ringCell_built : ∃ o, build ringCell = .ok o := by
  obtain ⟨h1, h2, h3, -, h4, h5⟩ := ringCell_meets
  obtain ⟨S, hS, -⟩ := C51_single h1 h2 h5
  obtain ⟨D, hD, -⟩ := C51_double h1 h4
  exact ⟨⟨ringCell, S, D, D.rowSums⟩, by simp only [build, hS, hD, bind, Except.bind]⟩

theorem ring_pairing {w : List ℝ} (hw : w.length = 16) :
    ringCell.integratePreweighted (List.zipWith (· * ·) (List.replicate 16 0) w) = .ok 0 := by
  obtain ⟨h, hev, hc, hne, -⟩ := ringCell_meets
  rw [cell_preweighted h hne (by rw [List.length_zipWith, ← h.numPts]; simp [hw, ringCell])]
  rw [dot_prod h (by simp [ringCell]) (by simpa [ringCell] using hw)]
  congr 1
  exact Finset.sum_eq_zero fun i hi => by
    rw [vec_replicate _ (by simpa [ringCell] using hi)]; ring

theorem ring_integral : ringCell.integrate (List.replicate 16 0) = .ok 0 := by
  obtain ⟨h, hev, hc, hne, -⟩ := ringCell_meets
  rw [cell_integrate h hne (by rw [← h.numPts]; simp [ringCell]),
    dot_vec (n := 16) (by simp) (by rw [cellWeights_length, ← h.numPts]; rfl)]
  congr 1
  exact Finset.sum_eq_zero fun i hi => by rw [vec_replicate _ (Finset.mem_range.1 hi)]; ring

theorem ring_single {o : Ops} (ho : build ringCell = .ok o) : o.single (List.replicate 16 0) = .ok (List.replicate 16 0) := by
  obtain ⟨h, hev, hc, hne, -⟩ := ringCell_meets
  rw [single_ok h hev ho (by simp [ringCell])]
  congr 1
  refine vec_ext (by simp [ringCell]) fun i hi => ?_
  simp only [List.length_map, List.length_range] at hi
  rw [vec_range _ hi, vec_replicate _ (by simpa [ringCell] using hi)]
  exact Finset.sum_eq_zero fun j hj => by rw [vec_replicate _ (by simpa [ringCell] using hj)]; ring

/-- the logarithmic term of a ring: its own conjugate is zero and its coefficient is one -/
example : ∃ o g l phi t, build ringCell = .ok o ∧ logTerms o = .ok g ∧ g.lam = [l] ∧ l.values = some phi ∧ l.wtd = some t ∧
    Conjugates o g phi t (List.replicate 16 0) [1] := by
  obtain ⟨o, ho⟩ := ringCell_built
  obtain ⟨h, hev, hc, hne, -⟩ := ringCell_meets
  have hg := logTerms_eq h hev hne ringCell_holes ho
  obtain ⟨hK, -⟩ := build_shape h ho
  have hps : poles o.K = [Vert.mk' 0 0] := by rw [hK]; rfl
  have hmin : ∀ u : List ℝ, u.length = 16 → minus u [1] [u] = List.replicate 16 0 := by
    intro u hu
    refine vec_ext (by simp [minus_length, hu]) fun i hi => ?_
    rw [minus_length] at hi
    rw [vec_minus _ _ _ hi, vec_replicate _ (by omega)]
    simp [vec]
  have hn16 : ringCell.numPts = 16 := rfl
  refine ⟨o, _, lamOf o.K (Vert.mk' 0 0), _, _, ho, hg, by simp [logTermsOf, hps], rfl, rfl, ?_, ?_⟩
  · refine ⟨List.replicate 16 0, 0, C50_constant h hc ho 0, ?_, ?_⟩
    · rw [hK]
      exact ring_integral
    · rw [tangs_eq, hps]
      simp only [List.map_cons, List.map_nil]
      have e := hmin (lamT o.K (Vert.mk' 0 0)) (by rw [hK, ← hn16]; exact lamT_len h _)
      have e' : minus (o.K.tangentOf (fun x y => (x - (Vert.mk' 0 0).x) / sq (Vert.mk' 0 0) x y) fun x y =>
          (y - (Vert.mk' 0 0).y) / sq (Vert.mk' 0 0) x y) [1] [lamT o.K (Vert.mk' 0 0)] = List.replicate 16 0 := e
      rw [e']
      simpa using ring_single ho
  · intro i l hl
    have : l = lamOf o.K (Vert.mk' 0 0) := by
      have := List.mem_of_getElem? hl
      simpa [logTermsOf, hps] using this
    subst this
    refine ⟨_, _, 0, 0, rfl, rfl, ?_, ?_, by norm_num⟩
    · rw [vals_eq, hps]
      simp only [List.map_cons, List.map_nil]
      rw [hmin _ (by rw [hK, ← hn16]; exact samples_len h _)]
      rw [hK]
      exact ring_pairing (lamN_len h _)
    · rw [hK]
      exact ring_pairing (lamT_len h _)

end PFEM
