import Verif.Lemmas.Calculus
import Verif.Lemmas.NystromSolve

/-!
Property theorems C67: the logarithmic terms of a cell with holes.
-/

namespace PFEM
open Nystrom
open ContourG (mapPy)

/-- the trace of the logarithmic term with pole `p` -/
noncomputable def lamOf (K : CellG) (p : Vert) : Trace :=
  Trace.made K.getEdges (some (K.samplesOf (logDist p)))
    (some (K.normalOf (fun x y => (x - p.x) / sq p x y) fun x y => (y - p.y) / sq p x y))
    (some (K.tangentOf (fun x y => (x - p.x) / sq p x y) fun x y => (y - p.y) / sq p x y))

theorem logTerm_eq {K : CellG} (h : K.Ready) {c : ContourG} {p : Vert} (hp : c.interior = some p)
    (hoff : ∀ s ∈ K.cols, (s.x, s.y) ∈ away p) :
    logTerm K (K.cols.map Sample.x) (K.cols.map Sample.y) c = .ok (lamOf K p) := by
  have hl : ∀ f : Sample → ℝ, (K.cols.map f).length = K.numPts := fun f => by rw [List.length_map, h.numPts]
  have hn2 : Np.bin (fun a b : ℝ => a ^ 2 + b ^ 2) (Np.shift (K.cols.map Sample.x) p.x) (Np.shift (K.cols.map Sample.y) p.y) =
      .ok (K.cols.map fun s => sq p s.x s.y) := by
    simp only [Np.shift, List.map_map]
    rw [bin_eq _ (by simp), List.zipWith_map, List.zipWith_self]
    rfl
  have h0 : (0 : ℝ) ∉ K.cols.map fun s => sq p s.x s.y := by
    intro hm
    obtain ⟨s, hs, h0⟩ := List.mem_map.1 hm
    exact (sq_pos (hoff s hs)).ne' h0
  have hv : (K.cols.map fun s => sq p s.x s.y).map (fun a => 0.5 * Real.log a) = K.samplesOf (logDist p) := by
    simp only [CellG.samplesOf, List.map_map]
    exact List.map_congr_left fun s _ => (logDist_eq p s.x s.y).symm
  have hg : ∀ (f : Sample → ℝ) (z : ℝ), Np.bin (· / ·) (Np.shift (K.cols.map f) z) (K.cols.map fun s => sq p s.x s.y) =
      .ok (K.cols.map fun s => (f s - z) / sq p s.x s.y) := by
    intro f z
    simp only [Np.shift, List.map_map]
    rw [bin_eq _ (by simp), List.zipWith_map, List.zipWith_self]
    rfl
  have hz : ∀ (F : Sample → ℝ × ℝ → ℝ) (a b : Sample → ℝ), List.zipWith F K.cols ((K.cols.map a).zip (K.cols.map b)) =
      K.cols.map fun s => F s (a s, b s) := by
    intro F a b
    rw [List.zip_map', List.zipWith_map_right, List.zipWith_self]
  have hm : ∀ a : Sample → ℝ, K.multiplyByDxNorm (K.cols.map a) = .ok (K.cols.map fun s => a s * s.dxNorm) := by
    intro a
    rw [h.multiplyByDxNorm (by simp), List.zipWith_map_right, List.zipWith_self]
  simp only [logTerm, hp, Trace.attr, hn2, bind, Except.bind, if_neg h0, hv, hg]
  rw [init_arr h (by simp [CellG.samplesOf, h.numPts])]
  simp only
  rw [h.dotWithNormal (by simp) (by simp), hz]
  simp only [hm]
  rw [made_setWnd h _ _ _ (hl _)]
  simp only
  rw [h.dotWithTangent (by simp) (by simp), hz]
  simp only [hm]
  rw [made_setWtd h _ _ _ (hl _)]
  rfl

theorem lamOf_trace {K : CellG} {p : Vert} (hoff : ∀ s ∈ K.cols, (s.x, s.y) ∈ away p) :
    TraceOf K (away p) (logDist p) true (lamOf K p) :=
  ⟨Trace.edges_bare _, rfl, hoff, _, _, fun _ _ h => logDist_grad h, rfl, rfl⟩

/-- the poles of the logarithmic terms -/
noncomputable def poles (K : CellG) : List Vert := K.components.tail.map fun c => c.interior.getD (Vert.mk' 0 0)

theorem poles_length (K : CellG) : (poles K).length = K.numHoles := by simp [poles, CellG.numHoles]

/-- the normal derivative of a logarithmic term -/
noncomputable def lamN (K : CellG) (p : Vert) : List ℝ :=
  K.normalOf (fun x y => (x - p.x) / sq p x y) fun x y => (y - p.y) / sq p x y
/-- the tangential derivative of a logarithmic term -/
noncomputable def lamT (K : CellG) (p : Vert) : List ℝ :=
  K.tangentOf (fun x y => (x - p.x) / sq p x y) fun x y => (y - p.y) / sq p x y

theorem samples_len {K : CellG} (h : K.Ready) (u : ℝ → ℝ → ℝ) : (K.samplesOf u).length = K.numPts := by
  simp [CellG.samplesOf, h.numPts]
theorem lamN_len {K : CellG} (h : K.Ready) (p : Vert) : (lamN K p).length = K.numPts := by simp [lamN, CellG.normalOf, h.numPts]
theorem lamT_len {K : CellG} (h : K.Ready) (p : Vert) : (lamT K p).length = K.numPts := by simp [lamT, CellG.tangentOf, h.numPts]

theorem build_single_shape {K : CellG} (h : K.Ready) (hev : K.Even) {o : Ops} (ho : build K = .ok o) :
    o.S.rows = K.numPts ∧ o.S.cols = K.numPts := by
  obtain ⟨S, hS, ho⟩ := bind_ok ho
  obtain ⟨D, -, ho⟩ := bind_ok ho
  cases ho
  have := singleMat_only h hev
  rw [hS] at this
  exact this

/-- the single layer operator -/
theorem single_ok {K : CellG} (h : K.Ready) (hev : K.Even) {o : Ops} (ho : build K = .ok o) {u : List ℝ} (hu : u.length = K.numPts) :
    o.single u = .ok ((List.range K.numPts).map fun i => ∑ j ∈ Finset.range K.numPts, o.S.at' i j * vec u j) := by
  obtain ⟨h1, h2⟩ := build_single_shape h hev ho
  obtain ⟨rfl, -⟩ := build_shape h ho
  simp only [Ops.single, call, hu, ne_eq, not_true_eq_false, if_false]
  rw [mulVec_ok (hu.trans h2.symm), h1, h2]

/-- `Sn` and `St` of data of the right length -/
theorem sn_ok {K : CellG} (h : K.Ready) (hne : ∀ c ∈ K.components, c.edges ≠ []) (ps : List Vert) {v : List ℝ} (hv : v.length = K.numPts) :
    sn K (ps.map (lamOf K)) v = .ok (ps.map fun p => dot (List.zipWith (· * ·) v (lamN K p)) (steps K)) := by
  unfold sn
  rw [mapPy_eq (g := fun t : Trace => dot (List.zipWith (· * ·) v (t.wnd.getD [])) (steps K)), List.map_map]
  · rfl
  · intro t ht
    obtain ⟨p, -, rfl⟩ := List.mem_map.1 ht
    have hl : v.length = (lamN K p).length := by rw [hv, lamN_len h]
    have hw : (lamOf K p).wnd = some (lamN K p) := rfl
    simp only [hw, arr, bind, Except.bind, Option.getD_some]
    rw [bin_eq _ hl]
    exact cell_preweighted h hne (by rw [List.length_zipWith, lamN_len h, hv, h.numPts, Nat.min_self])

theorem st_ok {K : CellG} (h : K.Ready) (hne : ∀ c ∈ K.components, c.edges ≠ []) (ps : List Vert) {v : List ℝ} (hv : v.length = K.numPts) :
    st K (ps.map (lamOf K)) v = .ok (ps.map fun p => dot (List.zipWith (· * ·) v (lamT K p)) (steps K)) := by
  unfold st
  rw [mapPy_eq (g := fun t : Trace => dot (List.zipWith (· * ·) v (t.wtd.getD [])) (steps K)), List.map_map]
  · rfl
  · intro t ht
    obtain ⟨p, -, rfl⟩ := List.mem_map.1 ht
    have hl : v.length = (lamT K p).length := by rw [hv, lamT_len h]
    have hw : (lamOf K p).wtd = some (lamT K p) := rfl
    simp only [hw, arr, bind, Except.bind, Option.getD_some]
    rw [bin_eq _ hl]
    exact cell_preweighted h hne (by rw [List.length_zipWith, lamT_len h, hv, h.numPts, Nat.min_self])

theorem ofCols_ok {n : ℕ} {cols : List (List ℝ)} (h : ∀ c ∈ cols, c.length = n) :
    Mat.ofCols n cols = .ok ⟨n, cols.length, fun i j => vec (cols.getD j []) i⟩ := by
  simp only [Mat.ofCols]
  rw [if_pos h]
  rfl

/-- the logarithmic terms in closed form -/
noncomputable def logTermsOf (o : Ops) : LogTerms where
  lam := (poles o.K).map (lamOf o.K)
  T1 := ⟨o.K.numPts, o.K.numHoles, fun i j => vec (((poles o.K).map fun p => (List.range o.K.numPts).map fun i =>
    ∑ k ∈ Finset.range o.K.numPts, o.S.at' i k * vec (lamT o.K p) k).getD j []) i⟩
  Sn := ⟨o.K.numHoles, o.K.numHoles, fun i j => vec (((poles o.K).map fun q => (poles o.K).map fun p =>
    dot (List.zipWith (· * ·) (o.K.samplesOf (logDist q)) (lamN o.K p)) (steps o.K)).getD j []) i⟩

theorem logTerms_eq {K : CellG} (h : K.Ready) (hev : K.Even) (hne : ∀ c ∈ K.components, c.edges ≠ []) (hh : K.Holes) {o : Ops}
    (ho : build K = .ok o) : logTerms o = .ok (logTermsOf o) := by
  have hsi := fun {u : List ℝ} => single_ok h hev ho (u := u)
  obtain ⟨hK, -⟩ := build_shape h ho
  subst hK
  unfold logTerms
  rw [h.getBoundaryPoints]
  simp only [py_ok_bind]
  have h1 : mapPy (logTerm o.K (o.K.cols.map Sample.x) (o.K.cols.map Sample.y)) o.K.components.tail =
      .ok ((poles o.K).map (lamOf o.K)) := by
    rw [mapPy_eq (g := fun c : ContourG => lamOf o.K (c.interior.getD (Vert.mk' 0 0)))]
    · simp only [poles, List.map_map, Function.comp_def]
    · intro c hc
      obtain ⟨p, hp, hoff⟩ := hh c hc
      rw [logTerm_eq h hp hoff, hp]
      rfl
  simp only [h1, py_ok_bind]
  have h2 : mapPy (fun t : Trace => (do
      let w ← arr t.wtd
      o.single w : Py (List ℝ))) ((poles o.K).map (lamOf o.K)) = .ok ((poles o.K).map fun p => (List.range o.K.numPts).map fun i =>
        ∑ k ∈ Finset.range o.K.numPts, o.S.at' i k * vec (lamT o.K p) k) := by
    rw [mapPy_eq (g := fun t : Trace => (List.range o.K.numPts).map fun i =>
        ∑ k ∈ Finset.range o.K.numPts, o.S.at' i k * vec (t.wtd.getD []) k), List.map_map]
    · rfl
    · intro t ht
      obtain ⟨p, -, rfl⟩ := List.mem_map.1 ht
      have hw : (lamOf o.K p).wtd = some (lamT o.K p) := rfl
      simp only [hw, arr, py_ok_bind, Option.getD_some]
      exact hsi (lamT_len h p)
  simp only [h2, py_ok_bind]
  rw [ofCols_ok (by simp)]
  simp only [py_ok_bind]
  have h3 : mapPy (fun t : Trace => (do
      let v ← Trace.attr t.values
      sn o.K ((poles o.K).map (lamOf o.K)) v : Py (List ℝ))) ((poles o.K).map (lamOf o.K)) =
      .ok ((poles o.K).map fun q => (poles o.K).map fun p =>
        dot (List.zipWith (· * ·) (o.K.samplesOf (logDist q)) (lamN o.K p)) (steps o.K)) := by
    rw [mapPy_eq (g := fun t : Trace => (poles o.K).map fun p =>
        dot (List.zipWith (· * ·) (t.values.getD []) (lamN o.K p)) (steps o.K)), List.map_map]
    · rfl
    · intro t ht
      obtain ⟨q, -, rfl⟩ := List.mem_map.1 ht
      have hq : (lamOf o.K q).values = some (o.K.samplesOf (logDist q)) := rfl
      simp only [hq, Trace.attr, py_ok_bind, Option.getD_some]
      exact sn_ok h hne _ (samples_len h _)
  simp only [h3, py_ok_bind]
  rw [ofCols_ok (by simp [poles_length])]
  simp only [py_ok_bind, logTermsOf, List.length_map, poles_length]

/-- C67: for every hole with interior point `p` there is one logarithmic term, in the order of the holes: the trace of `log|x - p|` with
its weighted normal and tangential derivatives. -/
theorem C67_terms {K : CellG} (h : K.Ready) (hev : K.Even) (hne : ∀ c ∈ K.components, c.edges ≠ []) (hh : K.Holes) {o : Ops}
    (ho : build K = .ok o) : ∃ g, logTerms o = .ok g ∧ g.lam.length = K.components.length - 1 ∧
      ∀ (j : ℕ) (c : ContourG), K.components[j + 1]? = some c → ∃ p t, c.interior = some p ∧ g.lam[j]? = some t ∧
        TraceOf K (away p) (logDist p) true t := by
  refine ⟨_, logTerms_eq h hev hne hh ho, ?_, ?_⟩
  · obtain ⟨rfl, -⟩ := build_shape h ho
    simp [logTermsOf, poles]
  · obtain ⟨rfl, -⟩ := build_shape h ho
    intro j c hc
    have hc' : o.K.components.tail[j]? = some c := by rw [List.getElem?_tail]; exact hc
    obtain ⟨p, hp, hoff⟩ := hh c (List.mem_of_getElem? hc')
    refine ⟨p, lamOf o.K p, hp, ?_, lamOf_trace hoff⟩
    simp [logTermsOf, poles, hc, hp]

/-- C67: the logarithmic terms are harmonic away from their poles. -/
theorem C67_harmonic (p : Vert) : HasLaplacian (away p) (logDist p) fun _ _ => 0 := logDist_harmonic p

/-- C67: the two matrices made from the logarithmic terms: column `j` of `T1_dlam_dt` is the single layer operator applied to the tangential
derivative of term `j`, and entry `(i, j)` of `Sn_lam` is the integral of term `j` times the normal derivative of term `i`. -/
theorem C67_matrices {K : CellG} (h : K.Ready) (hev : K.Even) (hne : ∀ c ∈ K.components, c.edges ≠ []) (hh : K.Holes) {o : Ops}
    (ho : build K = .ok o) {g : LogTerms} (hg : logTerms o = .ok g) :
    g.T1.rows = K.numPts ∧ g.T1.cols = K.components.length - 1 ∧ g.Sn.rows = K.components.length - 1 ∧
      g.Sn.cols = K.components.length - 1 ∧
    (∀ (j : ℕ) (t : Trace), g.lam[j]? = some t → ∃ w y, t.wtd = some w ∧ o.single w = .ok y ∧
      ∀ i < K.numPts, g.T1.at' i j = vec y i) ∧
    ∀ (i j : ℕ) (s t : Trace), g.lam[i]? = some s → g.lam[j]? = some t → ∃ u w I, t.values = some u ∧ s.wnd = some w ∧
      K.integratePreweighted (List.zipWith (· * ·) u w) = .ok I ∧ g.Sn.at' i j = I := by
  rw [logTerms_eq h hev hne hh ho] at hg
  cases hg
  have hsi := fun {u : List ℝ} => single_ok h hev ho (u := u)
  obtain ⟨rfl, -⟩ := build_shape h ho
  refine ⟨rfl, rfl, rfl, rfl, ?_, ?_⟩
  · intro j t ht
    simp only [logTermsOf, List.getElem?_map] at ht
    obtain ⟨p, hp, rfl⟩ := Option.map_eq_some_iff.1 ht
    refine ⟨lamT o.K p, _, rfl, hsi (lamT_len h p), fun i hi => ?_⟩
    simp [logTermsOf, List.getD_eq_getElem?_getD, hp]
  · intro i j s t hs ht
    simp only [logTermsOf, List.getElem?_map] at hs ht
    obtain ⟨p, hp, rfl⟩ := Option.map_eq_some_iff.1 hs
    obtain ⟨q, hq, rfl⟩ := Option.map_eq_some_iff.1 ht
    refine ⟨o.K.samplesOf (logDist q), lamN o.K p, _, rfl, rfl, cell_preweighted h hne ?_, ?_⟩
    · rw [List.length_zipWith, samples_len h, lamN_len h, h.numPts, Nat.min_self]
    · simp [logTermsOf, List.getD_eq_getElem?_getD, hp, hq, vec]

end PFEM
