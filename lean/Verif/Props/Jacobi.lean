import Verif.Props.Augmented
import Verif.Props.Fft

/-!
Property theorems C70: construction of the solver and its preconditioner.
-/

namespace PFEM
open Nystrom

/-- the diagonal on one edge -/
noncomputable def diagBlock (e : EdgeG) : List ℝ := e.cols.map fun s => 1 / 2 + 1 / 2 * s.curv * s.dxNorm / e.cols.length

theorem diagBlock_length (e : EdgeG) : (diagBlock e).length = e.cols.length := by simp [diagBlock]

theorem diagEdges_eq : ∀ (es : List EdgeG) (done rest : List ℝ), (∀ e ∈ es, ∃ L, e.pts = some L ∧ 2 ≤ L.length) →
    (es.map fun e => e.cols.length).sum ≤ rest.length →
    diagEdges (done ++ rest) done.length es = .ok (done ++ es.flatMap diagBlock ++ rest.drop (es.map fun e => e.cols.length).sum)
  | [], done, rest, _, _ => by simp [diagEdges]
  | e :: es, done, rest, h, hl => by
    obtain ⟨L, hL, h2⟩ := h e (by simp)
    simp only [List.map_cons, List.sum_cons] at hl
    have hc : L.dropLast = e.cols := by simp [EdgeG.cols, hL]
    have hn : e.cols.length = L.length - 1 := cols_length hL
    have hcast : ((L.length : ℝ) - 1) = e.cols.length := by
      rw [hn, Nat.cast_sub (by omega)]; simp
    have hb : (e.cols.map fun s => (0.5 : ℝ) + 0.5 * s.curv * s.dxNorm * (1 / (e.cols.length : ℝ))) = diagBlock e := by
      refine List.map_congr_left fun s _ => ?_
      rw [mul_one_div]; norm_num
    have hs := setSlice_block done rest (diagBlock e) e.cols.length (by omega) (diagBlock_length e)
    have ih := diagEdges_eq es (done ++ diagBlock e) (rest.drop e.cols.length) (fun f hf => h f (by simp [hf])) (by simp; omega)
    simp only [diagEdges, EdgeG.sampled, hL, py_ok_bind]
    rw [if_neg (by omega), hcast, hc, hb, ← hn, hs]
    simp only [py_ok_bind]
    rw [List.length_append, diagBlock_length] at ih
    rw [ih]
    simp [List.drop_drop]

theorem diagComps_eq {K : CellG} : ∀ (cs : List ContourG) (pre : List ℕ) (done rest : List ℝ), (∀ c ∈ cs, c.Ready) →
    K.startIdx = pre ++ offsets ContourG.numPts done.length cs → (cs.map ContourG.numPts).sum ≤ rest.length →
    diagComps K (done ++ rest) pre.length cs =
      .ok (done ++ cs.flatMap (fun c => c.edges.flatMap diagBlock) ++ rest.drop (cs.map ContourG.numPts).sum)
  | [], pre, done, rest, _, _, _ => by simp [diagComps]
  | c :: cs, pre, done, rest, h, hst, hl => by
    simp only [List.map_cons, List.sum_cons] at hl
    have hc := h c (by simp)
    have hn : (c.edges.map fun e => e.cols.length).sum = c.numPts := by rw [hc.numPts, ContourG.cols_len]
    have hlen : (c.edges.flatMap diagBlock).length = c.numPts := by
      rw [List.length_flatMap, ← hn]
      congr 1
      exact List.map_congr_left fun e _ => diagBlock_length e
    have h1 : Np.get K.startIdx pre.length = .ok done.length := by
      rw [hst]
      exact get_append _ _ _
    have h2 := diagEdges_eq c.edges done rest hc.sampled (by omega)
    have ih := diagComps_eq (K := K) cs (pre ++ [done.length]) (done ++ c.edges.flatMap diagBlock) (rest.drop c.numPts)
      (fun d hd => h d (by simp [hd])) (by rw [hst, List.length_append, hlen]; simp [offsets]) (by simp; omega)
    simp only [diagComps, h1, py_ok_bind, h2]
    rw [List.length_append, List.length_singleton] at ih
    rw [hn, ih]
    simp [List.drop_drop]

/-- the part of the diagonal that belongs to the samples -/
noncomputable def diagHead (K : CellG) : List ℝ := K.components.flatMap fun c => c.edges.flatMap diagBlock

theorem diagHead_length {K : CellG} (h : K.Ready) : (diagHead K).length = K.numPts := by
  rw [h.numPts, diagHead, CellG.cols, List.length_flatMap, List.length_flatMap]
  congr 1
  refine List.map_congr_left fun c _ => ?_
  rw [ContourG.cols, List.length_flatMap, List.length_flatMap]
  congr 1
  exact List.map_congr_left fun e _ => diagBlock_length e

theorem diagHead_get {K : CellG} (h : K.Ready) (P : Node K) :
    (diagHead K)[P.pos]? = some (1 / 2 + 1 / 2 * P.s.curv * P.s.dxNorm / P.e.cols.length) := by
  have h1 : (P.c.edges.flatMap diagBlock)[es P.c P.k + P.a]? = some (1 / 2 + 1 / 2 * P.s.curv * P.s.dxNorm / P.e.cols.length) := by
    have := flatMap_get diagBlock P.c.edges P.k P.a P.e (1 / 2 + 1 / 2 * P.s.curv * P.s.dxNorm / P.e.cols.length) P.he
      (by simp [diagBlock, P.hs])
    simp only [diagBlock_length] at this
    exact this
  have h2 := flatMap_get (fun c : ContourG => c.edges.flatMap diagBlock) K.components P.i _ P.c _ P.hc h1
  have h3 : K.components.map (fun c => (c.edges.flatMap diagBlock).length) = K.components.map ContourG.numPts := by
    refine List.map_congr_left fun c hc => ?_
    rw [(h.ready c hc).numPts, ContourG.cols_len, List.length_flatMap]
    congr 1
    exact List.map_congr_left fun e _ => diagBlock_length e
  rw [h3, ← add_assoc] at h2
  exact h2

theorem diagTail_eq (g : LogTerms) {n m : ℕ} (hr : g.Sn.rows = m) (hc : g.Sn.cols = m) (D : List ℝ) (hD : D.length = n) :
    ∀ k ≤ m, (List.range k).foldlM (fun D i => (do
      let g ← Trace.attr (some g)
      let v ← g.Sn.get i i
      if n + i < D.length then .ok (D.set (n + i) v) else .error .indexError : Py (List ℝ))) (D ++ List.replicate m 0) =
      .ok (D ++ ((List.range k).map fun i => g.Sn.at' i i) ++ List.replicate (m - k) 0)
  | 0, _ => by simp [pure, Except.pure]
  | k + 1, hk => by
    have ih := diagTail_eq g hr hc D hD k (by omega)
    rw [List.range_succ, List.foldlM_append, ih]
    simp only [py_ok_bind, List.foldlM_cons, List.foldlM_nil, Trace.attr, Mat.get]
    rw [if_pos (by omega)]
    simp only [py_ok_bind]
    rw [if_pos (by simp [hD]; omega)]
    simp only [py_ok_bind, pure, Except.pure]
    congr 1
    obtain ⟨j, hj⟩ : ∃ j, m - k = j + 1 := ⟨m - k - 1, by omega⟩
    rw [hj, List.replicate_succ, List.set_append_right _ _ (by simp [hD])]
    simp [hD, show m - (k + 1) = j by omega]

/-- what `_double_layer_diagonal` stores -/
theorem diagonal_eq {K : CellG} (h : K.Ready) {g : Option LogTerms}
    (hg : ∀ k, K.numHoles = k + 1 → ∃ g', g = some g' ∧ g'.Sn.rows = K.numHoles ∧ g'.Sn.cols = K.numHoles) :
    ∃ T, diagonal K g = .ok (diagHead K ++ T) ∧ T.length = K.numHoles ∧
      ∀ g', g = some g' → ∀ i < K.numHoles, vec T i = g'.Sn.at' i i := by
  have h1 := diagComps_eq (K := K) K.components [] [] (List.replicate (K.numPts + K.numHoles) 0) h.ready (by simpa using h.offsets)
    (by rw [← h.cols_len, ← h.numPts]; simp)
  simp only [List.nil_append, List.length_nil] at h1
  rw [← h.cols_len, ← h.numPts, List.drop_replicate, Nat.add_sub_cancel_left] at h1
  unfold diagonal
  rw [h1]
  simp only [py_ok_bind]
  rcases hm : K.numHoles with _ | k
  · refine ⟨[], ?_, rfl, fun g' _ i hi => by omega⟩
    simp [pure, Except.pure, diagHead]
  · obtain ⟨g', rfl, hr, hc⟩ := hg k hm
    rw [hm] at hr hc
    refine ⟨(List.range (k + 1)).map fun i => g'.Sn.at' i i, ?_, by simp, fun g'' hg' i hi => ?_⟩
    · have := diagTail_eq g' hr hc (diagHead K) (diagHead_length h) (k + 1) le_rfl
      rw [Nat.sub_self, List.replicate_zero, List.append_nil] at this
      exact this
    · cases hg'
      exact vec_range _ hi

/-- C70: a solver can be made on every cell whose samples are apart, whatever the linear solver. -/
theorem C70_init (gmres : Gmres) {K : CellG} (h : K.Ready) (hev : K.Even) (hne : ∀ c ∈ K.components, c.edges ≠ []) (hh : K.Holes)
    (hap : K.Apart) (hsi : K.Simple) : ∃ s, init gmres K "direct" "jacobi" = .ok s ∧ build K = .ok s.ops := by
  obtain ⟨S, hS, -⟩ := C51_single h hev hsi
  obtain ⟨D, hD, -⟩ := C51_double h hap
  have hb : build K = .ok ⟨K, S, D, D.rowSums⟩ := by simp only [build, hS, hD, bind, Except.bind]
  have hl := logTerms_eq h hev hne hh hb
  by_cases hm : 0 < K.numHoles
  · obtain ⟨T, hT, -⟩ := diagonal_eq h (g := some (logTermsOf ⟨K, S, D, D.rowSums⟩)) fun k hk => ⟨_, rfl, rfl, rfl⟩
    refine ⟨⟨⟨K, S, D, D.rowSums⟩, some (logTermsOf ⟨K, S, D, D.rowSums⟩), diagHead K ++ T, "direct", none⟩, ?_, hb⟩
    simp only [init, hb, py_ok_bind, if_pos hm, hl, hT]
    simp
  · obtain ⟨T, hT, -⟩ := diagonal_eq h (g := none) fun k hk => by omega
    refine ⟨⟨⟨K, S, D, D.rowSums⟩, none, diagHead K ++ T, "direct", none⟩, ?_, hb⟩
    simp only [init, hb, py_ok_bind, if_neg hm, hT]
    simp

/-- C70: only the preconditioner `jacobi` and the strategies `direct` and `fft` are accepted; the logarithmic terms are there exactly if
the cell has holes. -/
theorem C70_options {gmres : Gmres} {K : CellG} {strategy pc : String} {s : Solver} (hs : init gmres K strategy pc = .ok s) :
    pc = "jacobi" ∧ (strategy = "direct" ∨ strategy = "fft") ∧ s.strategy = strategy ∧ build K = .ok s.ops ∧
      (s.log.isSome ↔ 1 < K.components.length) ∧ (s.eta.isSome ↔ 1 < K.components.length ∧ strategy = "fft") := by
  obtain ⟨h1, h2, -, h3, h4, h5, h6⟩ := init_parts hs
  have hm : 0 < K.numHoles ↔ 1 < K.components.length := by unfold CellG.numHoles; omega
  refine ⟨h3, h5, h4, h1, ?_, ?_⟩
  · rw [← hm]
    rcases h2 with ⟨h2, g, hg, -⟩ | ⟨h2, hg⟩
    · simp [hg, h2]
    · simp [hg, h2]
  · rw [← hm]
    rcases h6 with ⟨h6, e, he, -⟩ | ⟨h6, he⟩
    · simp [he, h6]
    · simp [he, h6]

/-- C70: other names for them are refused. -/
theorem C70_refused (gmres : Gmres) (K : CellG) {strategy pc : String}
    (hbad : pc ≠ "jacobi" ∨ (strategy ≠ "direct" ∧ strategy ≠ "fft")) : ∀ s, init gmres K strategy pc ≠ .ok s := by
  intro s hs
  obtain ⟨h1, h2, -⟩ := C70_options hs
  rcases hbad with hb | hb
  · exact hb h1
  · exact h2.elim hb.1 hb.2

/-- C70: the stored diagonal.  At a sample it is `½ + ½ κ|x'|/N`; for hole `i` it is the entry `(i, i)` of `Sn_lam`. -/
theorem C70_diagonal {gmres : Gmres} {K : CellG} (h : K.Ready) (hev : K.Even) (hne : ∀ c ∈ K.components, c.edges ≠ []) (hh : K.Holes)
    {strategy pc : String} {s : Solver} (hs : init gmres K strategy pc = .ok s) :
    s.diag.length = K.numPts + (K.components.length - 1) ∧
    (∀ P : Node K, s.diag[P.pos]? = some (1 / 2 + 1 / 2 * P.s.curv * P.s.dxNorm / P.e.cols.length)) ∧
    ∀ g, s.log = some g → ∀ i < K.components.length - 1, s.diag[K.numPts + i]? = some (g.Sn.at' i i) := by
  obtain ⟨h1, h2, h3, -⟩ := init_parts hs
  have hg : ∀ g, s.log = some g → g = logTermsOf s.ops := by
    intro g hg
    rcases h2 with ⟨-, g', hg', hl⟩ | ⟨-, hg'⟩
    · rw [logTerms_eq h hev hne hh h1] at hl
      rw [hg'] at hg
      cases hg
      exact (Except.ok.inj hl).symm
    · rw [hg'] at hg
      cases hg
  obtain ⟨hK, -⟩ := build_shape h h1
  obtain ⟨T, hT, hTl, hTv⟩ := diagonal_eq h (g := s.log) fun k hk => by
    rcases h2 with ⟨-, g', hg', hl⟩ | ⟨h0, -⟩
    · exact ⟨g', hg', by rw [hg g' hg']; exact congrArg CellG.numHoles hK, by rw [hg g' hg']; exact congrArg CellG.numHoles hK⟩
    · omega
  rw [h3] at hT
  have hl := diagHead_length h
  have hpos : ∀ P : Node K, P.pos < (diagHead K).length := fun P => by
    rw [hl, h.numPts]
    exact (List.getElem?_eq_some_iff.1 ((C51_places h).1 P)).1
  have hD : s.diag = diagHead K ++ T := Except.ok.inj hT
  refine ⟨by rw [hD, List.length_append, hl, hTl]; rfl, fun P => ?_, fun g hg' i hi => ?_⟩
  · rw [hD, List.getElem?_append_left (hpos P), diagHead_get h P]
  · have hi : i < T.length := by rw [hTl]; exact hi
    rw [hD, List.getElem?_append_right (by omega), hl, Nat.add_sub_cancel_left, List.getElem?_eq_getElem hi, ← hTv g hg' i (by omega)]
    simp [vec, hi]

/-- C70: at every sample that the matrix does not skip, and at skipped ones where the weighted speed vanishes, the stored number is the
diagonal entry of `½ I + D` with `D` the double layer matrix. -/
theorem C70_jacobi {gmres : Gmres} {K : CellG} (h : K.Ready) (hev : K.Even) (hne : ∀ c ∈ K.components, c.edges ≠ []) (hh : K.Holes)
    (hap : K.Apart) {strategy pc : String} {s : Solver} (hs : init gmres K strategy pc = .ok s) (P : Node K)
    (hP : P.Skipped → P.s.dxNorm = 0) : s.diag[P.pos]? = some (1 / 2 + s.ops.D.at' P.pos P.pos) := by
  obtain ⟨hb, -⟩ := init_parts hs
  obtain ⟨D, hD, -, -, hval⟩ := C51_double h hap
  obtain ⟨S', hS', hb⟩ := bind_ok hb
  obtain ⟨D', hD', hb⟩ := bind_ok hb
  rw [hD] at hD'
  cases hD'
  have : s.ops.D = D := by rw [← Except.ok.inj hb]
  rw [(C70_diagonal h hev hne hh hs).2.1 P, this, hval P P]
  congr 2
  have h0 : sqDist P.s P.s = 0 := by simp [sqDist]
  by_cases hsk : P.Skipped
  · simp [doubleEntry, hsk, hP hsk]
  · have hsame : P.SameEdge P := ⟨rfl, rfl⟩
    simp only [doubleEntry, if_neg hsk]
    rw [if_pos ⟨hsame, by rw [h0]; norm_num⟩]
    ring

/-- C70: the preconditioner divides entry by entry by the stored diagonal, and refuses data of the wrong length. -/
theorem C70_preconditioner {n : ℕ} {D : List ℝ} (hn : n ≤ D.length) (hD : ∀ i < n, vec D i ≠ 0) :
    (∀ x : List ℝ, x.length = n → ∃ y, precond n D x = .ok y ∧ y.length = n ∧ ∀ i < n, vec D i * vec y i = vec x i) ∧
    ∀ x : List ℝ, x.length ≠ n → precond n D x = .error .valueError := by
  have hv : ∀ i < n, vec (D.take n) i = vec D i := fun i hi => by simp [vec, List.getD_eq_getElem?_getD, List.getElem?_take_of_lt hi]
  have h0 : (0 : ℝ) ∉ D.take n := by
    intro hm
    obtain ⟨i, hi, h0⟩ := List.getElem_of_mem hm
    have hi' : i < n := by rw [List.length_take] at hi; omega
    apply hD i hi'
    rw [← hv i hi', vec, List.getD_eq_getElem _ _ hi, h0]
  refine ⟨fun x hx => ⟨List.zipWith (· / ·) x (D.take n), ?_, by simp [hx, hn], fun i hi => ?_⟩, fun x hx => by simp [precond, call, hx]⟩
  · simp only [precond, call, hx, ne_eq, not_true_eq_false, if_false, if_neg h0]
    exact bin_eq _ (by simp [hx, hn])
  · rw [vec_zipWith _ (by simp [hx, hn]) (by omega), hv i hi]
    have := hD i hi
    field_simp

/-- a solver on the ring of the examples: in this example the diagonal is `½` -/
example (gmres : Gmres) : ∃ s, init gmres ringCell "direct" "jacobi" = .ok s ∧ s.log.isSome ∧ s.eta = none ∧ s.diag.length = 17 ∧
    ∀ P : Node ringCell, s.diag[P.pos]? = some (1 / 2) := by
  obtain ⟨h, hev, hc, hne, hap, hsi⟩ := ringCell_meets
  obtain ⟨s, hs, -⟩ := C70_init gmres h hev hne ringCell_holes hap hsi
  obtain ⟨h1, h2, -⟩ := C70_diagonal h hev hne ringCell_holes hs
  obtain ⟨-, -, -, -, h3, h4⟩ := C70_options hs
  refine ⟨s, hs, h3.2 (by simp [ringCell]), ?_, by rw [h1]; rfl, fun P => ?_⟩
  · have : ¬ s.eta.isSome := by rw [h4]; simp
    simpa using this
  · rw [h2 P]
    obtain ⟨-, p, -, -, -, hP⟩ := ringCell_node P
    rw [hP]
    simp [ringSample]

/-- a solver of linear systems that returns exact solutions where there are any -/
noncomputable def anySolution : Gmres := fun A b _ => open Classical in
  if hx : ∃ x, A x = .ok b then .ok hx.choose else .error .valueError

theorem anySolution_exact : Exact anySolution := by
  intro A b M x hx
  unfold anySolution at hx
  split_ifs at hx with h
  cases hx
  exact h.choose_spec

/-- with it, `get_harmonic_conjugate` answers on the ring -/
example : ∃ s psiHat a, init anySolution ringCell "direct" "jacobi" = .ok s ∧
    conjugate anySolution s (List.replicate 16 0) = .ok (psiHat, a) := by
  obtain ⟨h, hev, hc, hne, hap, hsi⟩ := ringCell_meets
  obtain ⟨s, hs, ho⟩ := C70_init anySolution h hev hne ringCell_holes hap hsi
  obtain ⟨-, hlog, -⟩ := init_parts hs
  obtain ⟨-, g, hg, hlg⟩ := hlog.resolve_right fun hh => absurd hh.1 (by simp [ringCell, CellG.numHoles])
  have hK := (build_shape h ho).1
  have ht : wtdFromTrace ringCell (List.replicate 16 0) = .ok (List.replicate 16 0) := by
    obtain ⟨vs, hv, hw⟩ := (C49_cell h hne (us := [List.replicate 8 0, List.replicate 8 0]) (by
      simp [Fits, ringCell, ContourG.cols, ringContour, EdgeG.cols, ringPt])).1
    have hd : fftDerivative (List.replicate 8 (0 : ℝ)) (2 * Real.pi * (1 : ℕ)) = .ok (List.replicate 8 0) :=
      C49_constant 8 (by norm_num) 0 _ (by simp [Real.pi_ne_zero])
    have e1 : ((List.replicate 8 (0 : ℝ)) :: [List.replicate 8 0]).flatten = List.replicate 16 0 := by simp
    rw [e1] at hw
    rw [hw]
    simp only [ringCell, List.zip_cons_cons, List.zip_nil_left] at hv
    obtain ⟨v1, hv1, v2, hv2, rfl⟩ : ∃ v1, Except.ok (List.replicate 8 (0 : ℝ)) = (Except.ok v1 : Py (List ℝ)) ∧
        ∃ v2, Except.ok (List.replicate 8 (0 : ℝ)) = (Except.ok v2 : Py (List ℝ)) ∧ vs = [v1, v2] := by
      cases hv with
      | cons a hv => cases hv with
        | cons b hv => cases hv; exact ⟨_, hd.symm.trans a, _, hd.symm.trans b, rfl⟩
    cases hv1
    cases hv2
    rw [← e1]
  have hn16 : ringCell.numPts = 16 := rfl
  obtain ⟨b1, b2, h1, h2, h3⟩ := C69_system h hev hne ringCell_holes hc ho hlg (phi := List.replicate 16 0) (t := List.replicate 16 0)
    (psiHat := List.replicate 16 0) (a := [0]) (by simp [hn16]) (by simp [hn16]) (by simp [hn16]) (by simp [ringCell])
  have hmin : ∀ vs : List (List ℝ), minus (List.replicate 16 0) [0] vs = List.replicate 16 0 := by
    intro vs
    refine vec_ext (by simp [minus_length]) fun i hi => ?_
    rw [minus_length] at hi
    have h0 : ∀ j, vec [0] j = 0 := fun j => by cases j <;> simp [vec]
    rw [vec_minus _ _ _ hi, Finset.sum_eq_zero fun j _ => by rw [h0, zero_mul], sub_zero]
  have hcon : Conjugates s.ops g (List.replicate 16 0) (List.replicate 16 0) (List.replicate 16 0) [0] := by
    rw [logTerms_eq h hev hne ringCell_holes ho] at hlg
    cases hlg
    refine ⟨⟨List.replicate 16 0, 0, C50_constant h hc ho 0, by rw [hK]; exact ring_integral, ?_⟩, fun i l hl => ?_⟩
    · rw [hmin]
      simpa using ring_single ho
    · simp only [logTermsOf, List.getElem?_map] at hl
      obtain ⟨p, hp, rfl⟩ := Option.map_eq_some_iff.1 hl
      refine ⟨_, _, 0, 0, rfl, rfl, ?_, ?_, by norm_num⟩
      · rw [hmin, hK]
        exact ring_pairing (lamN_len h p)
      · rw [hK]
        exact ring_pairing (lamT_len h p)
  have hx : ∃ x, augmented s.ops g x = .ok (b1 ++ b2) := ⟨_, h3.2 hcon⟩
  refine ⟨s, hx.choose.take 16, hx.choose.drop 16, hs, ?_⟩
  have hm : ringCell.numHoles ≠ 0 := by simp [ringCell, CellG.numHoles]
  simp only [conjugate, hK, ht, py_ok_bind, if_neg hm, hg, Trace.attr, h1, h2, anySolution, dif_pos hx]
  rfl

end PFEM
