import Verif.Lemmas.Blocks

/-!
Closed forms of the boundary methods on a sampled contour or cell.
-/

namespace PFEM

/-! ### one edge -/

theorem bin_eq {α β γ : Type} (f : α → β → γ) {a : List α} {b : List β} (h : a.length = b.length) :
    Np.bin f a b = .ok (List.zipWith f a b) := by
  unfold Np.bin; rw [if_pos h]

theorem cols_length {e : EdgeG} {L : List Sample} (h : e.pts = some L) : e.cols.length = L.length - 1 := by
  simp [EdgeG.cols, h]

theorem edge_evaluate {e : EdgeG} {L : List Sample} (h : e.pts = some L) (f : ℝ → ℝ → ℝ) :
    e.evaluateFunction f = .ok (e.cols.map fun s => f s.x s.y) := by
  simp [EdgeG.evaluateFunction, EdgeG.sampled, h, bind, Except.bind, EdgeG.cols]

theorem edge_multiply {e : EdgeG} {L : List Sample} (h : e.pts = some L) (hL : 2 ≤ L.length) {u : List ℝ}
    (hu : u.length = e.cols.length) :
    e.multiplyByDxNorm u = .ok (List.zipWith (fun s v => v * s.dxNorm) e.cols u) := by
  have hc := cols_length h
  have h1 : (u.length : ℤ) = (L.length : ℤ) - 1 := by omega
  simp only [EdgeG.multiplyByDxNorm, EdgeG.sampled, h, bind, Except.bind, if_true, h1, ne_eq, not_true_eq_false, if_false]
  rw [bin_eq _ (by simp; omega)]
  congr 1
  rw [← List.map_dropLast, show L.dropLast = e.cols by simp [EdgeG.cols, h], List.zipWith_map_right, List.zipWith_comm]

theorem edge_dotWith (v1 v2 : Sample → ℝ) {e : EdgeG} {L : List Sample} (h : e.pts = some L) (hL : 2 ≤ L.length)
    {c1 c2 : List ℝ} (h1 : c1.length = e.cols.length) (h2 : c2.length = e.cols.length) :
    EdgeG.dotWith v1 v2 e c1 c2 = .ok (List.zipWith (fun s p => p.1 * v1 s + p.2 * v2 s) e.cols (c1.zip c2)) := by
  have hc := cols_length h
  have k1 : (c1.length : ℤ) = (L.length : ℤ) - 1 := by omega
  have k2 : (c2.length : ℤ) = (L.length : ℤ) - 1 := by omega
  have hd : L.dropLast = e.cols := by simp [EdgeG.cols, h]
  simp only [EdgeG.dotWith, EdgeG.sampled, h, bind, Except.bind, if_true, k1, k2, ne_eq, not_true_eq_false, or_self, if_false, hd]
  rw [bin_eq _ (by simp; omega), bin_eq _ (by simp; omega)]
  simp only
  rw [bin_eq _ (by simp; omega)]
  congr 1
  generalize e.cols = l at *
  clear hc hd k1 k2
  induction l generalizing c1 c2 with
  | nil => simp
  | cons s l ih =>
    match c1, c2, h1, h2 with
    | a :: c1, b :: c2, h1, h2 =>
      simp only [List.map_cons, List.zipWith_cons_cons, List.zip_cons_cons]
      rw [ih (by simpa using h1) (by simpa using h2)]

/-! ### a contour -/

namespace ContourG

theorem Ready.guard {c : ContourG} (h : c.Ready) : c.guard = .ok () := by
  have : c.isParameterized = true := by
    rw [isParameterized, List.all_eq_true]
    intro e he
    obtain ⟨L, hL, -⟩ := h.sampled e he
    simp [hL]
  simp [ContourG.guard, this]

theorem cols_len (c : ContourG) : c.cols.length = (c.edges.map fun e => e.cols.length).sum := by
  simp [ContourG.cols, List.length_flatMap]

theorem Ready.offsets {c : ContourG} (h : c.Ready) : c.vertIdx = offsets (fun e => e.cols.length) 0 c.edges := by
  rw [offsets_zero, h.vertIdx]

theorem Ready.npts {c : ContourG} (h : c.Ready) {e : EdgeG} (he : e ∈ c.edges) : npts e = e.cols.length + 1 := by
  obtain ⟨L, hL, h2⟩ := h.sampled e he
  rw [cols_length hL, ContourG.npts, hL, Option.getD_some]
  omega

/-- blocks with data on a contour -/
theorem Ready.block_data {c : ContourG} (h : c.Ready) {γ : Type} (f : EdgeG → ℕ → ℕ → Py (List ℝ)) (g : Sample → γ → ℝ)
    (d : List γ) (hd : d.length = c.cols.length)
    (hf : ∀ e ∈ c.edges, ∀ j, j + e.cols.length ≤ d.length → f e j (j + e.cols.length) =
      .ok (List.zipWith g e.cols (Np.slice d j (j + e.cols.length)))) :
    Np.blockLoop f c.vertIdx 0 (List.replicate c.numPts 0) c.edges = .ok (List.zipWith g c.cols d) := by
  obtain ⟨us, hu, hw⟩ := exists_split (c.edges.map fun e => e.cols.length) d (by rw [hd, cols_len])
  rw [h.offsets, blockLoop_start f (fun e => e.cols.length) c.edges _ (by simp [h.numPts, cols_len])
    (blocks_data f (fun e => e.cols.length) (fun e u => List.zipWith g e.cols u) d c.edges [] us hu hw hf)]
  · rw [zipWith_flatten g EdgeG.cols c.edges us hw, hu]; rfl
  · clear hu hf
    generalize c.edges = l at *
    induction l generalizing us with
    | nil => simp
    | cons a l ih =>
      match us, hw with
      | u :: us, hw =>
        simp only [List.map_cons, List.cons.injEq] at hw
        simp [ih us hw.2, hw.1]

theorem Ready.evaluateFunction {c : ContourG} (h : c.Ready) (f : ℝ → ℝ → ℝ) :
    c.evaluateFunction f = .ok (c.cols.map fun s => f s.x s.y) := by
  simp only [ContourG.evaluateFunction, h.guard, bind, Except.bind]
  rw [h.offsets, blockLoop_start _ (fun e => e.cols.length) c.edges _ (by simp [h.numPts, cols_len])
    (blocks_const (fun e => e.evaluateFunction f) _ (fun e => e.cols.map fun s => f s.x s.y) c.edges 0 ?_)]
  · congr 1
    simp [ContourG.cols, List.flatMap, List.map_flatten, Function.comp_def]
  · simp [Function.comp_def]
  · intro e he
    obtain ⟨L, hL, -⟩ := h.sampled e he
    exact edge_evaluate hL f

theorem Ready.getSampledPoints {c : ContourG} (h : c.Ready) :
    c.getSampledPoints = .ok (c.cols.map Sample.x, c.cols.map Sample.y) := by
  simp only [ContourG.getSampledPoints, h.guard, bind, Except.bind, h.evaluateFunction]

theorem Ready.multiplyByDxNorm {c : ContourG} (h : c.Ready) {u : List ℝ} (hu : u.length = c.cols.length) :
    c.multiplyByDxNorm u = .ok (List.zipWith (fun s v => v * s.dxNorm) c.cols u) := by
  simp only [ContourG.multiplyByDxNorm, h.guard, bind, Except.bind, h.numPts, hu, ne_eq, not_true_eq_false, if_false]
  rw [← h.numPts]
  refine h.block_data _ _ u hu ?_
  intro e he j hj
  obtain ⟨L, hL, h2⟩ := h.sampled e he
  exact edge_multiply hL h2 (slice_length u hj)

theorem Ready.dotWithTangent {c : ContourG} (h : c.Ready) {c1 c2 : List ℝ} (h1 : c1.length = c.cols.length)
    (h2 : c2.length = c.cols.length) :
    c.dotWithTangent c1 c2 = .ok (List.zipWith (fun s p => p.1 * s.tx + p.2 * s.ty) c.cols (c1.zip c2)) := by
  simp only [ContourG.dotWithTangent, h.guard, bind, Except.bind]
  refine h.block_data _ _ (c1.zip c2) (by simp [h1, h2]) ?_
  intro e he j hj
  obtain ⟨L, hL, k2⟩ := h.sampled e he
  rw [slice_zip]
  simp only [List.length_zip] at hj
  exact edge_dotWith _ _ hL k2 (slice_length c1 (by omega)) (slice_length c2 (by omega))

theorem Ready.dotWithNormal {c : ContourG} (h : c.Ready) {c1 c2 : List ℝ} (h1 : c1.length = c.cols.length)
    (h2 : c2.length = c.cols.length) :
    c.dotWithNormal c1 c2 = .ok (List.zipWith (fun s p => p.1 * s.nx + p.2 * s.ny) c.cols (c1.zip c2)) := by
  simp only [ContourG.dotWithNormal, h.guard, bind, Except.bind]
  refine h.block_data _ _ (c1.zip c2) (by simp [h1, h2]) ?_
  intro e he j hj
  obtain ⟨L, hL, k2⟩ := h.sampled e he
  rw [slice_zip]
  simp only [List.length_zip] at hj
  exact edge_dotWith _ _ hL k2 (slice_length c1 (by omega)) (slice_length c2 (by omega))

theorem zipWith_lengths {α γ : Type} (w : α → ℕ) (g : α → List γ → List ℝ) (hg : ∀ a u, u.length = w a → (g a u).length = w a) :
    ∀ (l : List α) (us : List (List γ)), us.map List.length = l.map w →
      (List.zipWith g l us).map List.length = l.map w
  | [], us, h => by simp
  | a :: l, us, h => by
    match us, h with
    | u :: us, h =>
      simp only [List.map_cons, List.cons.injEq] at h
      simp [zipWith_lengths w g hg l us h.2, hg a u h.1]

theorem mul_sum_list (r : ℝ) (l : List ℝ) : r * l.sum = (l.map (r * ·)).sum := by
  rw [List.sum_map_mul_left]; simp

theorem sum_flatten_zipWith {α : Type} (w : α → ℕ) (hh : α → ℝ) : ∀ (l : List α) (us : List (List ℝ)),
    us.map List.length = l.map w →
    (List.zipWith (fun a u => u.map (hh a * ·)) l us).flatten.sum = (List.zipWith (fun a u => hh a * u.sum) l us).sum
  | [], us, h => by simp
  | a :: l, us, h => by
    match us, h with
    | u :: us, h =>
      simp only [List.map_cons, List.cons.injEq] at h
      simp only [List.zipWith_cons_cons, List.flatten_cons, List.sum_append, List.sum_cons, sum_flatten_zipWith w hh l us h.2]
      rw [List.sum_map_mul_left]
      simp

/-- the integral of preweighted data given in blocks -/
theorem Ready.integratePreweighted {c : ContourG} (h : c.Ready) {us : List (List ℝ)}
    (hu : us.map List.length = c.edges.map fun e => e.cols.length) :
    c.integratePreweighted us.flatten =
      .ok (List.zipWith (fun e u => 2 * Real.pi / (e.cols.length : ℝ) * u.sum) c.edges us).sum := by
  have hl : us.flatten.length = c.cols.length := by rw [List.length_flatten, hu, cols_len]
  simp only [ContourG.integratePreweighted, h.guard, bind, Except.bind, hl, h.numPts, ne_eq, not_true_eq_false, if_false]
  rw [h.offsets, blockLoop_start _ (fun e => e.cols.length) c.edges _ (by simp [cols_len])
    (blocks_data _ (fun e => e.cols.length) (fun e u => u.map (2 * Real.pi / (e.cols.length : ℝ) * ·)) us.flatten c.edges [] us
      rfl hu ?_)]
  · simp only
    rw [sum_flatten_zipWith (fun e : EdgeG => e.cols.length) (fun e : EdgeG => 2 * Real.pi / (e.cols.length : ℝ)) _ _ hu]
  · exact zipWith_lengths _ _ (by simp) _ _ hu
  · intro e he j hj
    have hn := h.npts he
    obtain ⟨L, hL, k2⟩ := h.sampled e he
    have := cols_length hL
    simp only [hn]
    rw [if_neg (by omega)]
    congr 2
    funext x
    push_cast
    rw [add_sub_cancel_right]

theorem Ready.integrate {c : ContourG} (h : c.Ready) {us : List (List ℝ)}
    (hu : us.map List.length = c.edges.map fun e => e.cols.length) :
    c.integrate us.flatten = .ok (List.zipWith (fun e u => dot u e.weights) c.edges us).sum := by
  have hl : us.flatten.length = c.cols.length := by rw [List.length_flatten, hu, cols_len]
  simp only [ContourG.integrate, h.guard, bind, Except.bind, h.multiplyByDxNorm hl]
  have hz := zipWith_flatten (fun (s : Sample) (v : ℝ) => v * s.dxNorm) EdgeG.cols c.edges us hu
  rw [ContourG.cols, ← hz, h.integratePreweighted (zipWith_lengths _ _ (by intro a u h; simp [h]) _ _ hu)]
  congr 2
  clear hl hz
  generalize c.edges = l at *
  induction l generalizing us with
  | nil => simp
  | cons a l ih =>
    match us, hu with
    | u :: us, hu =>
      simp only [List.map_cons, List.cons.injEq] at hu
      simp only [List.zipWith_cons_cons]
      rw [ih hu.2]
      congr 1
      simp only [dot, entrywise, EdgeG.weights]
      rw [mul_sum_list, List.map_zipWith, List.zipWith_map_right, List.zipWith_comm]
      congr 2
      funext x y
      ring

end ContourG

/-! ### a cell -/

namespace CellG

theorem Ready.guard {K : CellG} (h : K.Ready) : K.guard = .ok () := by
  have : K.isParameterized = true := by
    rw [isParameterized, List.all_eq_true]
    intro c hc
    have := (h.ready c hc).guard
    unfold ContourG.guard at this
    by_contra hn
    rw [if_neg hn] at this
    cases this
  simp [CellG.guard, this]

theorem Ready.offsets {K : CellG} (h : K.Ready) : K.startIdx = offsets ContourG.numPts 0 K.components := by
  rw [offsets_zero, h.startIdx]

theorem Ready.sizes {K : CellG} (h : K.Ready) : K.components.map ContourG.numPts = K.components.map fun c => c.cols.length :=
  List.map_congr_left fun c hc => (h.ready c hc).numPts

theorem Ready.cols_len {K : CellG} (h : K.Ready) : K.cols.length = (K.components.map ContourG.numPts).sum := by
  rw [h.sizes]; simp [CellG.cols, List.length_flatMap]

/-- blocks with data on a cell -/
theorem Ready.block_data {K : CellG} (h : K.Ready) {γ : Type} (f : ContourG → ℕ → ℕ → Py (List ℝ)) (g : Sample → γ → ℝ)
    (d : List γ) (hd : d.length = K.cols.length)
    (hf : ∀ c ∈ K.components, ∀ j, j + c.numPts ≤ d.length → f c j (j + c.numPts) =
      .ok (List.zipWith g c.cols (Np.slice d j (j + c.numPts)))) :
    Np.blockLoop f K.startIdx 0 (List.replicate K.numPts 0) K.components = .ok (List.zipWith g K.cols d) := by
  obtain ⟨us, hu, hw⟩ := exists_split (K.components.map ContourG.numPts) d (by rw [hd, h.cols_len])
  rw [h.offsets, blockLoop_start f ContourG.numPts K.components _ (by simp [h.numPts, h.cols_len])
    (blocks_data f ContourG.numPts (fun c u => List.zipWith g c.cols u) d K.components [] us hu hw hf)]
  · rw [zipWith_flatten g ContourG.cols K.components us (hw.trans h.sizes), hu]; rfl
  · rw [h.sizes] at hw ⊢
    exact ContourG.zipWith_lengths (fun c : ContourG => c.cols.length) _ (by intro a u h; simp [h]) _ _ hw

theorem Ready.block_const {K : CellG} (h : K.Ready) {β : Type} (z : β) (f : ContourG → Py (List β)) (g : ContourG → List β)
    (hf : ∀ c ∈ K.components, f c = .ok (g c)) (hg : ∀ c ∈ K.components, (g c).length = c.cols.length) :
    Np.blockLoop (fun c _ _ => f c) K.startIdx 0 (List.replicate K.numPts z) K.components = .ok (K.components.flatMap g) := by
  rw [h.offsets, blockLoop_start _ ContourG.numPts K.components _ (by simp [h.numPts, h.cols_len])
    (blocks_const f _ g K.components 0 hf)]
  · rfl
  · rw [h.sizes, List.map_map]
    exact List.map_congr_left hg

theorem Ready.evaluateFunction {K : CellG} (h : K.Ready) (f : ℝ → ℝ → ℝ) :
    K.evaluateFunction f = .ok (K.cols.map fun s => f s.x s.y) := by
  simp only [CellG.evaluateFunction, h.guard, bind, Except.bind]
  rw [h.block_const 0 _ (fun c => c.cols.map fun s => f s.x s.y) (fun c hc => (h.ready c hc).evaluateFunction f)
    (fun c _ => by simp)]
  congr 1
  simp [CellG.cols, List.flatMap, List.map_flatten, Function.comp_def]

theorem Ready.getBoundaryPoints {K : CellG} (h : K.Ready) :
    K.getBoundaryPoints = .ok (K.cols.map Sample.x, K.cols.map Sample.y) := by
  simp only [CellG.getBoundaryPoints, h.guard, bind, Except.bind]
  rw [h.block_const 0 _ (fun c => c.cols.map Sample.x) (fun c hc => by rw [(h.ready c hc).getSampledPoints]) (fun c _ => by simp)]
  simp only
  rw [h.block_const 0 _ (fun c => c.cols.map Sample.y) (fun c hc => by rw [(h.ready c hc).getSampledPoints]) (fun c _ => by simp)]
  simp [CellG.cols, List.flatMap, List.map_flatten, Function.comp_def]

theorem Ready.multiplyByDxNorm {K : CellG} (h : K.Ready) {u : List ℝ} (hu : u.length = K.cols.length) :
    K.multiplyByDxNorm u = .ok (List.zipWith (fun s v => v * s.dxNorm) K.cols u) := by
  simp only [CellG.multiplyByDxNorm, h.guard, bind, Except.bind, h.numPts, hu, ne_eq, not_true_eq_false, if_false]
  rw [← h.numPts]
  refine h.block_data _ _ u hu ?_
  intro c hc j hj
  exact (h.ready c hc).multiplyByDxNorm (by rw [slice_length u hj, (h.ready c hc).numPts])

theorem Ready.dotWithTangent {K : CellG} (h : K.Ready) {c1 c2 : List ℝ} (h1 : c1.length = K.cols.length)
    (h2 : c2.length = K.cols.length) :
    K.dotWithTangent c1 c2 = .ok (List.zipWith (fun s p => p.1 * s.tx + p.2 * s.ty) K.cols (c1.zip c2)) := by
  simp only [CellG.dotWithTangent, h.guard, bind, Except.bind, h.numPts, h1, h2, ne_eq, not_true_eq_false, or_self, if_false]
  rw [← h.numPts]
  refine h.block_data _ _ (c1.zip c2) (by simp [h1, h2]) ?_
  intro c hc j hj
  have hn := (h.ready c hc).numPts
  rw [slice_zip]
  simp only [List.length_zip] at hj
  exact (h.ready c hc).dotWithTangent (by rw [slice_length c1 (by omega), hn]) (by rw [slice_length c2 (by omega), hn])

theorem Ready.dotWithNormal {K : CellG} (h : K.Ready) {c1 c2 : List ℝ} (h1 : c1.length = K.cols.length)
    (h2 : c2.length = K.cols.length) :
    K.dotWithNormal c1 c2 = .ok (List.zipWith (fun s p => p.1 * s.nx + p.2 * s.ny) K.cols (c1.zip c2)) := by
  simp only [CellG.dotWithNormal, h.guard, bind, Except.bind, h.numPts, h1, h2, ne_eq, not_true_eq_false, or_self, if_false]
  rw [← h.numPts]
  refine h.block_data _ _ (c1.zip c2) (by simp [h1, h2]) ?_
  intro c hc j hj
  have hn := (h.ready c hc).numPts
  rw [slice_zip]
  simp only [List.length_zip] at hj
  exact (h.ready c hc).dotWithNormal (by rw [slice_length c1 (by omega), hn]) (by rw [slice_length c2 (by omega), hn])

/-- the integral of preweighted data given in blocks -/
theorem Ready.integratePreweighted {K : CellG} (h : K.Ready) (hne : ∀ c ∈ K.components, c.edges ≠ []) {us : List (List ℝ)}
    (hu : us.map List.length = K.components.map fun c => c.cols.length) :
    K.integratePreweighted us.flatten =
      .ok (List.zipWith (fun c u => 2 * Real.pi * (c.edges.length : ℝ) / (c.cols.length : ℝ) * u.sum) K.components us).sum := by
  have hl : us.flatten.length = K.cols.length := by rw [List.length_flatten, hu, h.cols_len, h.sizes]
  have hu' : us.map List.length = K.components.map ContourG.numPts := by rw [hu, h.sizes]
  simp only [CellG.integratePreweighted, h.guard, bind, Except.bind, hl, h.numPts, ne_eq, not_true_eq_false, if_false]
  rw [h.offsets, blockLoop_start _ ContourG.numPts K.components _ (by simp [h.cols_len])
    (blocks_data _ ContourG.numPts (fun c u => u.map (2 * Real.pi * (c.edges.length : ℝ) / (c.cols.length : ℝ) * ·)) us.flatten
      K.components [] us rfl hu' ?_)]
  · simp only
    rw [ContourG.sum_flatten_zipWith ContourG.numPts
      (fun c => 2 * Real.pi * (c.edges.length : ℝ) / (c.cols.length : ℝ)) _ _ hu']
  · exact ContourG.zipWith_lengths _ _ (by simp) _ _ hu'
  · intro c hc j hj
    have hn := (h.ready c hc).numPts
    have h0 : c.numPts ≠ 0 := by
      rw [hn, ContourG.cols_len]
      obtain ⟨e, es, he⟩ := List.exists_cons_of_ne_nil (hne c hc)
      obtain ⟨L, hL, k2⟩ := (h.ready c hc).sampled e (by simp [he])
      have := cols_length hL
      rw [he]
      simp only [List.map_cons, List.sum_cons]
      omega
    rw [if_neg h0, ← hn]

end CellG
end PFEM
