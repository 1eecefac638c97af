import Verif.Props.Boundary
import Verif.Props.EdgeQuad

/-!
Property theorems C33 (boundary data of a cell).
-/

namespace PFEM
open EdgeG

theorem swap0_perm {α : Type} {l l' : List α} {k : ℕ} (h : CellG.swap0 l k = .ok l') : l'.Perm l := by
  obtain ⟨t, ht, h⟩ := bind_ok h
  obtain ⟨u, hu, h⟩ := bind_ok h
  cases h
  unfold Np.get at ht hu
  split at ht
  · next a ha =>
    cases ht
    split at hu
    · next b hb =>
      cases hu
      obtain ⟨h0, rfl⟩ := List.getElem?_eq_some_iff.1 ha
      obtain ⟨h1, rfl⟩ := List.getElem?_eq_some_iff.1 hb
      exact List.set_set_perm h0 h1
    · cases hu
  · cases ht

theorem findInterior_fields {inside : InsideTest} {c c1 : ContourG} {fuel} (h : c.findInteriorPoint inside fuel = some (.ok c1)) :
    ∃ pt, c1 = { c with interior := pt } := by
  unfold ContourG.findInteriorPoint at h
  split at h
  · cases h
  · dsimp only at h
    split at h
    · cases h
    · cases h
    · cases h; exact ⟨_, rfl⟩

theorem sampleContours_get {inside : InsideTest} {fuel : ℕ} {d : Quad × Quad} : ∀ {l r : List ContourG},
    CellG.sampleContours inside fuel d l = some (.ok r) →
    List.Forall₂ (fun c c' => ∃ c1, c.parameterize d = .ok c1 ∧ c1.findInteriorPoint inside fuel = some (.ok c')) l r
  | [], r, h => by cases h; exact .nil
  | c :: l, r, h => by
    unfold CellG.sampleContours at h
    split at h
    · cases h
    · next c1 h1 =>
      split at h
      · cases h
      · cases h
      · next c2 h2 =>
        split at h
        · cases h
        · cases h
        · next cs h3 =>
          cases h
          exact .cons ⟨c1, h1, h2⟩ (sampleContours_get h3)

/-- all edges of a component have the same number of samples, and there is an edge -/
def Uniform (K : CellG) : Prop := ∀ c ∈ K.components, c.edges ≠ [] ∧ ∃ N : ℕ, ∀ e ∈ c.edges, e.cols.length = N

/-- After `parameterize` of a cell: up to their order, which only the search for the outer boundary changes, the components
are the given ones after `ClosedContour.parameterize`, with the same numbers of samples on all edges; the stored sizes and
start indices fit. -/
theorem C33_parameterize {n p : ℤ} {d : Quad × Quad} (hd : getQuadDict n p = .ok d) {inside : InsideTest} {fuel : ℕ}
    {K K1 : CellG} (ho : ∀ c ∈ K.components, c.edges.length = c.orients.length)
    (h : K.parameterize inside fuel d = some (.ok K1)) :
    (∃ cs, K1.components.Perm cs ∧ List.Forall₂ (fun c c' => ∃ c1, c.parameterize d = .ok c1 ∧
      c1.findInteriorPoint inside fuel = some (.ok c')) K.components cs) ∧
    (∀ c ∈ K1.components, ∀ e ∈ c.edges, e.numPts = 2 * n + 1) ∧
    (∀ c ∈ K1.components, ContourLayout c) ∧ K1.Ready ∧ ((∀ c ∈ K.components, c.edges ≠ []) → Uniform K1) := by
  unfold CellG.parameterize at h
  split at h
  · cases h
  · cases h
  · next cs hcs =>
    have hF := sampleContours_get hcs
    have hmem : ∀ c' ∈ cs, c'.Ready ∧ ContourLayout c' ∧ (∀ e ∈ c'.edges, e.numPts = 2 * n + 1) ∧
        ∃ c ∈ K.components, c'.edges.length = c.edges.length := by
      clear h hcs
      generalize K.components = l at hF ho
      induction hF with
      | nil => simp
      | @cons c c' l l' hc hl ih =>
        intro x hx
        rcases List.mem_cons.1 hx with rfl | hx
        · obtain ⟨c1, h1, h2⟩ := hc
          obtain ⟨k1, -, k3, k4, k5⟩ := parameterize_edges hd (ho c (by simp)) h1
          obtain ⟨pt, rfl⟩ := findInterior_fields h2
          exact ⟨⟨k4.sampled, k4.numPts, k4.vertIdx⟩, ⟨k5.total, k5.first, k5.last, k5.len, k5.width, k5.cover, k5.nearest⟩, k3, c, by simp, k1⟩
        · obtain ⟨k1, k2, k3, c0, hc0, k4⟩ := ih (fun c hc => ho c (by simp [hc])) x hx
          exact ⟨k1, k2, k3, c0, by simp [hc0], k4⟩
    simp only [Option.some.injEq] at h
    obtain ⟨Ka, ha, h⟩ := bind_ok h
    obtain ⟨-, -, ha⟩ := bind_ok ha
    cases ha
    obtain ⟨Kb, hb, h⟩ := bind_ok h
    obtain ⟨-, -, hb⟩ := bind_ok hb
    obtain ⟨k, -, hb⟩ := bind_ok hb
    obtain ⟨cs', hcs', hb⟩ := bind_ok hb
    cases hb
    have hp := swap0_perm hcs'
    obtain ⟨Kc, hc, h⟩ := bind_ok h
    obtain ⟨-, -, hc⟩ := bind_ok hc
    cases hc
    obtain ⟨-, -, h⟩ := bind_ok h
    obtain ⟨cl, -, h⟩ := bind_ok h
    cases h
    dsimp only at hp
    refine ⟨⟨cs, hp, hF⟩, fun c hc => (hmem c (hp.mem_iff.1 hc)).2.2.1, fun c hc => (hmem c (hp.mem_iff.1 hc)).2.1,
      ⟨fun c hc => (hmem c (hp.mem_iff.1 hc)).1, ?_, ?_⟩, ?_⟩
    · simp only [CellG.cols, List.length_flatMap]
      rw [← (hp.map ContourG.numPts).sum_eq]
      congr 1
      exact List.map_congr_left fun c hc => (hmem c (hp.mem_iff.1 hc)).1.numPts
    · rw [startLoop_eq, offsets_zero]
    · intro hne c hc
      obtain ⟨k1, -, k3, c0, hc0, k4⟩ := hmem c (hp.mem_iff.1 hc)
      refine ⟨?_, (2 * n).toNat, fun e he => ?_⟩
      · intro h0
        rw [h0] at k4
        exact hne c0 hc0 (List.eq_nil_of_length_eq_zero k4.symm)
      · obtain ⟨L, hL, hL2⟩ := k1.sampled e he
        have := k3 e he
        simp only [EdgeG.numPts, hL] at this
        rw [cols_length hL]
        omega

/-! ### layout of data -/

/-- `whole` is the concatenation of blocks, one per part; block `i` is what `f` gives for part `i` -/
def Concat {α β : Type} (f : α → Py (List β)) (parts : List α) (whole : Py (List β)) : Prop :=
  ∃ vs : List (List β), List.Forall₂ (fun a v => f a = .ok v) parts vs ∧ whole = .ok vs.flatten

theorem forall₂_map {α β : Type} {f : α → Py (List β)} {g : α → List β} : ∀ {l : List α}, (∀ a ∈ l, f a = .ok (g a)) →
    List.Forall₂ (fun a v => f a = .ok v) l (l.map g)
  | [], _ => .nil
  | a :: l, h => .cons (h a (by simp)) (forall₂_map fun b hb => h b (by simp [hb]))

theorem flatMap_cols_map {β : Type} (f : Sample → β) (l : List ContourG) :
    (l.map fun c => c.cols.map f).flatten = (l.flatMap ContourG.cols).map f := by
  simp [List.flatMap, List.map_flatten, Function.comp_def]

theorem flatMap_edge_map {β : Type} (f : Sample → β) (l : List EdgeG) :
    (l.map fun c => c.cols.map f).flatten = (l.flatMap EdgeG.cols).map f := by
  simp [List.flatMap, List.map_flatten, Function.comp_def]

/-- C33: the values of a function on the boundary of a cell are those on its components, one component after the other, and
those on a component are the values on its edges without their last samples, one edge after the other; the start index
of each component is the number of values before it. -/
theorem C33_values {K : CellG} (h : K.Ready) (f : ℝ → ℝ → ℝ) :
    Concat (fun c => ContourG.evaluateFunction c f) K.components (K.evaluateFunction f) ∧
    (∀ c ∈ K.components, Concat (fun e => EdgeG.evaluateFunction e f) c.edges (c.evaluateFunction f)) ∧
    (∀ (i : ℕ) c, K.components[i]? = some c → ∀ V v, K.evaluateFunction f = .ok V → c.evaluateFunction f = .ok v →
      ∃ s, K.startIdx[i]? = some s ∧ K.startIdx[i + 1]? = some (s + v.length) ∧
        ∀ j < v.length, V[s + j]? = v[j]?) := by
  refine ⟨⟨_, forall₂_map fun c hc => (h.ready c hc).evaluateFunction f, ?_⟩, fun c hc => ⟨_, forall₂_map (g := fun e => e.cols.map fun s => f s.x s.y) fun e he => ?_, ?_⟩, ?_⟩
  · rw [h.evaluateFunction, flatMap_cols_map]; rfl
  · obtain ⟨L, hL, -⟩ := (h.ready c hc).sampled e he
    exact edge_evaluate hL f
  · rw [(h.ready c hc).evaluateFunction, flatMap_edge_map]; rfl
  · intro i c hi V v hV hv
    rw [h.evaluateFunction] at hV
    cases hV
    have hr := h.ready c (List.mem_of_getElem? hi)
    rw [hr.evaluateFunction] at hv
    cases hv
    have hlt : i < K.components.length := by
      by_contra hge
      rw [List.getElem?_eq_none (by omega)] at hi; cases hi
    have hidx : ∀ i : ℕ, i ≤ K.components.length → K.startIdx[i]? = some (blockStart (K.components.map ContourG.numPts) i) := by
      intro i hi
      rw [h.startIdx, List.getElem?_map, List.getElem?_range (by omega)]
      rfl
    refine ⟨_, hidx i (by omega), ?_, ?_⟩
    · rw [hidx (i + 1) (by omega), blockStart_succ _ i (w := c.numPts) (by rw [List.getElem?_map, hi]; rfl), hr.numPts]
      simp
    · intro j hj
      have := flatten_get (K.components.map fun c => c.cols.map fun s => f s.x s.y) i _ (by rw [List.getElem?_map, hi]; rfl) j hj
      rw [flatMap_cols_map, List.map_map] at this
      rw [← this, h.sizes]
      simp [CellG.cols, Function.comp_def]

/-- C33: `get_boundary_points` returns the two coordinate functions on the boundary. -/
theorem C33_points {K : CellG} (h : K.Ready) : ∃ x y, K.getBoundaryPoints = .ok (x, y) ∧
    K.evaluateFunction (fun x _ => x) = .ok x ∧ K.evaluateFunction (fun _ y => y) = .ok y :=
  ⟨_, _, h.getBoundaryPoints, h.evaluateFunction _, h.evaluateFunction _⟩

theorem forall₂_zip {α β γ : Type} (f : α → List γ → Py (List β)) (g : α → List γ → List β)
    {w : α → ℕ} : ∀ {l : List α} {us : List (List γ)}, us.map List.length = l.map w →
    (∀ a ∈ l, ∀ u : List γ, u.length = w a → f a u = .ok (g a u)) →
    List.Forall₂ (fun (q : α × List γ) v => f q.1 q.2 = .ok v) (l.zip us) (List.zipWith g l us)
  | [], us, hu, _ => by simp
  | a :: l, us, hu, h => by
    match us, hu with
    | u :: us, hu =>
      simp only [List.map_cons, List.cons.injEq] at hu
      simp only [List.zip_cons_cons, List.zipWith_cons_cons]
      exact .cons (h a (by simp) u hu.1) (forall₂_zip f g hu.2 fun b hb => h b (by simp [hb]))

/-- the data `u` is given in blocks that fit the components -/
def Fits (K : CellG) {γ : Type} (us : List (List γ)) : Prop := us.map List.length = K.components.map fun c => c.cols.length

/-- the data `u` is given in blocks that fit the edges -/
def ContourG.Fits (c : ContourG) {γ : Type} (us : List (List γ)) : Prop :=
  us.map List.length = c.edges.map fun e => e.cols.length

theorem fits_length {K : CellG} {γ : Type} {us : List (List γ)} (h : Fits K us) : us.flatten.length = K.cols.length := by
  rw [List.length_flatten, h]; simp [CellG.cols, List.length_flatMap]

theorem fits_length' {c : ContourG} {γ : Type} {us : List (List γ)} (h : c.Fits us) : us.flatten.length = c.cols.length := by
  rw [List.length_flatten, h, ContourG.cols_len]

/-- C33: multiplying boundary data by the weighted speed works component by component and edge by edge; data of the wrong
length is refused. -/
theorem C33_multiply {K : CellG} (h : K.Ready) :
    (∀ us, Fits K us → Concat (fun q : ContourG × List ℝ => q.1.multiplyByDxNorm q.2) (K.components.zip us)
      (K.multiplyByDxNorm us.flatten)) ∧
    (∀ c ∈ K.components, ∀ us, c.Fits us → Concat (fun q : EdgeG × List ℝ => q.1.multiplyByDxNorm q.2) (c.edges.zip us)
      (c.multiplyByDxNorm us.flatten)) ∧
    (∀ u, u.length ≠ K.cols.length → K.multiplyByDxNorm u = .error .sizeMismatch) := by
  refine ⟨fun us hu => ?_, fun c hc us hu => ?_, fun u hu => ?_⟩
  · refine ⟨_, forall₂_zip (fun c u => ContourG.multiplyByDxNorm c u)
      (fun c u => List.zipWith (fun s v => v * s.dxNorm) c.cols u) hu
      fun c hc u hu => (h.ready c hc).multiplyByDxNorm hu, ?_⟩
    rw [h.multiplyByDxNorm (fits_length hu), zipWith_flatten _ _ _ _ hu]; rfl
  · refine ⟨_, forall₂_zip (fun e u => EdgeG.multiplyByDxNorm e u)
      (fun e u => List.zipWith (fun s v => v * s.dxNorm) e.cols u) hu fun e he u hu => ?_, ?_⟩
    · obtain ⟨L, hL, hL2⟩ := (h.ready c hc).sampled e he
      exact edge_multiply hL hL2 hu
    · rw [(h.ready c hc).multiplyByDxNorm (fits_length' hu), zipWith_flatten _ _ _ _ hu]; rfl
  · simp [CellG.multiplyByDxNorm, h.guard, bind, Except.bind, h.numPts, hu]

/-- C33: the components of a vector field along tangent and normal; the value at a sample with tangent `t` and normal `n`
is the scalar product. -/
theorem C33_dots {K : CellG} (h : K.Ready) :
    (∀ us vs : List (List ℝ), Fits K us → Fits K vs →
      Concat (fun q : ContourG × List ℝ × List ℝ => q.1.dotWithTangent q.2.1 q.2.2) (K.components.zip (us.zip vs))
        (K.dotWithTangent us.flatten vs.flatten) ∧
      Concat (fun q : ContourG × List ℝ × List ℝ => q.1.dotWithNormal q.2.1 q.2.2) (K.components.zip (us.zip vs))
        (K.dotWithNormal us.flatten vs.flatten)) ∧
    (∀ u v : List ℝ, u.length = K.cols.length → v.length = K.cols.length →
      K.dotWithTangent u v = .ok (List.zipWith (fun s (p : ℝ × ℝ) => p.1 * s.tx + p.2 * s.ty) K.cols (u.zip v)) ∧
      K.dotWithNormal u v = .ok (List.zipWith (fun s (p : ℝ × ℝ) => p.1 * s.nx + p.2 * s.ny) K.cols (u.zip v))) ∧
    (∀ u v, u.length ≠ K.cols.length ∨ v.length ≠ K.cols.length →
      K.dotWithTangent u v = .error .sizeMismatch ∧ K.dotWithNormal u v = .error .sizeMismatch) := by
  have key : ∀ (f : ContourG → List ℝ → List ℝ → Py (List ℝ)) (F : Sample → ℝ × ℝ → ℝ)
      (_ : ∀ c ∈ K.components, ∀ u v : List ℝ, u.length = c.cols.length → v.length = c.cols.length →
        f c u v = .ok (List.zipWith F c.cols (u.zip v))) (l : List ContourG) (_ : ∀ c ∈ l, c ∈ K.components)
      (us vs : List (List ℝ)) (_ : us.map List.length = l.map fun c => c.cols.length)
      (_ : vs.map List.length = l.map fun c => c.cols.length), ∃ ws,
      List.Forall₂ (fun (q : ContourG × List ℝ × List ℝ) w => f q.1 q.2.1 q.2.2 = .ok w) (l.zip (us.zip vs)) ws ∧
        ws.flatten = List.zipWith F (l.flatMap ContourG.cols) (us.flatten.zip vs.flatten) := by
    intro f F hf l
    induction l with
    | nil => intro _ us vs _ _; exact ⟨[], by simp, by simp⟩
    | cons c l ih =>
      intro hl us vs hu hv
      match us, vs, hu, hv with
      | u :: us, v :: vs, hu, hv =>
        simp only [List.map_cons, List.cons.injEq] at hu hv
        obtain ⟨ws, h1, h2⟩ := ih (fun c hc => hl c (by simp [hc])) us vs hu.2 hv.2
        refine ⟨_ :: ws, .cons (hf c (hl c (by simp)) u v hu.1 hv.1) h1, ?_⟩
        simp only [List.flatten_cons, List.flatMap_cons, h2]
        rw [List.zip_append (by rw [hu.1, hv.1]), List.zipWith_append (by simp [hu.1, hv.1])]
  refine ⟨fun us vs hu hv => ⟨?_, ?_⟩, fun u v hu hv => ⟨h.dotWithTangent hu hv, h.dotWithNormal hu hv⟩, fun u v huv => ?_⟩
  · obtain ⟨ws, h1, h2⟩ := key ContourG.dotWithTangent (fun s p => p.1 * s.tx + p.2 * s.ty)
      (fun c hc u v hu hv => (h.ready c hc).dotWithTangent hu hv) K.components (fun _ hc => hc) us vs hu hv
    exact ⟨ws, h1, by rw [h.dotWithTangent (fits_length hu) (fits_length hv), h2]; rfl⟩
  · obtain ⟨ws, h1, h2⟩ := key ContourG.dotWithNormal (fun s p => p.1 * s.nx + p.2 * s.ny)
      (fun c hc u v hu hv => (h.ready c hc).dotWithNormal hu hv) K.components (fun _ hc => hc) us vs hu hv
    exact ⟨ws, h1, by rw [h.dotWithNormal (fits_length hu) (fits_length hv), h2]; rfl⟩
  · simp [CellG.dotWithTangent, CellG.dotWithNormal, h.guard, bind, Except.bind, h.numPts, huv]

/-! ### integrals -/

theorem forall₂_sum {α : Type} {w : α → ℕ} (f : α → List ℝ → Py ℝ) (g : α → List ℝ → ℝ) :
    ∀ {l : List α} {us : List (List ℝ)}, us.map List.length = l.map w →
    (∀ a ∈ l, ∀ u : List ℝ, u.length = w a → f a u = .ok (g a u)) →
    List.Forall₂ (fun (q : α × List ℝ) v => f q.1 q.2 = .ok v) (l.zip us) (List.zipWith g l us)
  | [], us, hu, _ => by simp
  | a :: l, us, hu, h => by
    match us, hu with
    | u :: us, hu =>
      simp only [List.map_cons, List.cons.injEq] at hu
      simp only [List.zip_cons_cons, List.zipWith_cons_cons]
      exact .cons (h a (by simp) u hu.1) (forall₂_sum f g hu.2 fun b hb => h b (by simp [hb]))

theorem cols_uniform {c : ContourG} {N : ℕ} (h : ∀ e ∈ c.edges, e.cols.length = N) : c.cols.length = c.edges.length * N := by
  rw [ContourG.cols_len, List.map_congr_left h]
  simp

theorem contour_dot {c : ContourG} {N : ℕ} (hN : ∀ e ∈ c.edges, e.cols.length = N) : ∀ {us : List (List ℝ)}, c.Fits us →
    (List.zipWith (fun e u => dot u e.weights) c.edges us).sum =
      2 * Real.pi / (N : ℝ) * (List.zipWith (fun s v => v * s.dxNorm) c.cols us.flatten).sum := by
  unfold ContourG.Fits ContourG.cols
  generalize c.edges = l at *
  induction l with
  | nil => intro us _; simp
  | cons a l ih =>
    intro us hu
    match us, hu with
    | u :: us, hu =>
      simp only [List.map_cons, List.cons.injEq] at hu
      simp only [List.zipWith_cons_cons, List.sum_cons, List.flatMap_cons, List.flatten_cons]
      rw [List.zipWith_append hu.1.symm, List.sum_append, mul_add, ih (fun e he => hN e (by simp [he])) hu.2]
      congr 1
      simp only [dot, entrywise, EdgeG.weights, hN a (by simp)]
      rw [ContourG.mul_sum_list, List.map_zipWith, List.zipWith_map_right, List.zipWith_comm]
      congr 2
      funext x y
      ring

theorem contour_integrate {c : ContourG} (h : c.Ready) {N : ℕ} (hN : ∀ e ∈ c.edges, e.cols.length = N) {u : List ℝ}
    (hu : u.length = c.cols.length) :
    c.integrate u = .ok (2 * Real.pi / (N : ℝ) * (List.zipWith (fun s v => v * s.dxNorm) c.cols u).sum) := by
  obtain ⟨us, rfl, hw⟩ := exists_split (c.edges.map fun e => e.cols.length) u (by rw [hu, ContourG.cols_len])
  rw [h.integrate hw, contour_dot hN hw]

/-- C33: the integral over the boundary of a cell is the sum of the integrals over its components. -/
theorem C33_integral_components {K : CellG} (h : K.Ready) (hU : Uniform K) {us : List (List ℝ)} (hu : Fits K us) :
    ∃ Is, List.Forall₂ (fun (q : ContourG × List ℝ) I => q.1.integrate q.2 = .ok I) (K.components.zip us) Is ∧
      K.integrate us.flatten = .ok Is.sum := by
  have hf : ∀ c ∈ K.components, ∀ u : List ℝ, u.length = c.cols.length → c.integrate u =
      .ok (2 * Real.pi * (c.edges.length : ℝ) / (c.cols.length : ℝ) *
        (List.zipWith (fun s v => v * s.dxNorm) c.cols u).sum) := by
    intro c hc u hu
    obtain ⟨hne, N, hN⟩ := hU c hc
    rw [contour_integrate (h.ready c hc) hN hu, cols_uniform hN]
    congr 2
    have h1 : (c.edges.length : ℝ) ≠ 0 := by simpa using hne
    push_cast
    rw [mul_comm (c.edges.length : ℝ) (N : ℝ), mul_div_mul_right _ _ h1]
  refine ⟨_, forall₂_sum (w := fun c : ContourG => c.cols.length) ContourG.integrate _ hu hf, ?_⟩
  simp only [CellG.integrate, h.guard, bind, Except.bind, h.multiplyByDxNorm (fits_length hu)]
  have hz := zipWith_flatten (fun (s : Sample) (v : ℝ) => v * s.dxNorm) ContourG.cols K.components us hu
  rw [CellG.cols, ← hz, h.integratePreweighted (fun c hc => (hU c hc).1)
    (ContourG.zipWith_lengths _ _ (by intro a u h; simp [h]) _ _ hu)]
  congr 2
  clear hz hf
  unfold Fits at hu
  generalize K.components = l at *
  induction l generalizing us with
  | nil => simp
  | cons a l ih =>
    match us, hu with
    | u :: us, hu =>
      simp only [List.map_cons, List.cons.injEq] at hu
      simp only [List.zipWith_cons_cons, List.cons.injEq, true_and]
      exact ih hu.2

theorem trapezoid_closed {h : ℝ} : ∀ (u : List ℝ) (a b : ℝ), u.head? = some a → a = b →
    trapezoid h (u ++ [b]) = h * u.sum
  | [], a, b, hu, hab => by simp at hu
  | x :: u, a, b, hu, hab => by
    simp only [List.head?_cons, Option.some.injEq] at hu
    subst hu hab
    rw [List.cons_append, trapezoid_eq h x (u ++ [x]) (by simp)]
    simp only [List.dropLast_concat, List.sum_cons, mul_add]
    rw [List.getLast_cons (by simp), List.getLast_append_singleton, ContourG.mul_sum_list h u]
    ring

/-- `x` closes the data `u` of the block of edge `e`: the products with the speed at the two ends agree -/
def Closes (e : EdgeG) (u : List ℝ) (x : ℝ) : Prop :=
  ∃ L s0 s1 v, e.pts = some L ∧ L.head? = some s0 ∧ L.getLast? = some s1 ∧ u.head? = some v ∧ v * s0.dxNorm = x * s1.dxNorm

theorem edge_closed {e : EdgeG} {L : List Sample} (hL : e.pts = some L) (hL2 : 2 ≤ L.length) {u : List ℝ} {x : ℝ}
    (hu : u.length = e.cols.length) (hx : Closes e u x) : e.integrate (u ++ [x]) false = .ok (dot u e.weights) := by
  obtain ⟨L', s0, s1, v, h1, h2, h3, h4, h5⟩ := hx
  rw [hL, Option.some.injEq] at h1
  subst h1
  have hc := cols_length hL
  rw [integrate_eq hL hL2 (by simp; omega)]
  congr 1
  have hne : L ≠ [] := by intro h; simp [h] at hL2
  have hsplit : L = e.cols ++ [s1] := by
    have h6 := List.dropLast_append_getLast? s1 h3
    rw [← h6]; simp [EdgeG.cols, hL, h6]
  have hh : L.map Sample.dxNorm = e.cols.map Sample.dxNorm ++ [s1.dxNorm] := by
    conv_lhs => rw [hsplit]
    simp
  rw [hh, entrywise, List.zipWith_append (by simp [hu])]
  simp only [List.zipWith_cons_cons, List.zipWith_nil_left]
  rw [trapezoid_closed _ (v * s0.dxNorm) _ ?_ h5]
  · have : (L.length : ℝ) - 1 = (e.cols.length : ℝ) := by rw [hc, Nat.cast_sub (by omega)]; simp
    rw [this, ContourG.mul_sum_list, dot, entrywise, EdgeG.weights, List.map_zipWith, List.zipWith_map_right,
      List.zipWith_map_right]
    congr 2
    funext x y
    ring
  · match u, e.cols, hsplit, h4, hu with
    | a :: u, b :: cols, hsplit, h4, _ =>
      rw [hsplit] at h2
      simp only [List.cons_append, List.head?_cons, Option.some.injEq] at h2 h4
      subst h2 h4
      simp
    | [], _, _, h4, _ => simp at h4
    | a :: u, [], _, _, hu => simp at hu

/-- C33: the integral over a component is the sum of the integrals over its edges, where each edge takes the data of its block
and one more value for its last sample; that value has to fit the first one. -/
theorem C33_integral_edges {K : CellG} (h : K.Ready) {c : ContourG} (hc : c ∈ K.components) {us : List (List ℝ)} {xs : List ℝ}
    (hu : c.Fits us) (hx : xs.length = us.length)
    (hcl : ∀ (i : ℕ) e u x, c.edges[i]? = some e → us[i]? = some u → xs[i]? = some x → Closes e u x) :
    ∃ Is, List.Forall₂ (fun (q : EdgeG × List ℝ) I => q.1.integrate q.2 = .ok I)
      (c.edges.zip (List.zipWith (fun u x => u ++ [x]) us xs)) Is ∧ c.integrate us.flatten = .ok Is.sum := by
  refine ⟨_, ?_, (h.ready c hc).integrate hu⟩
  have hs := (h.ready c hc).sampled
  unfold ContourG.Fits at hu
  generalize c.edges = l at *
  induction l generalizing us xs with
  | nil => simp
  | cons a l ih =>
    match us, xs, hu, hx with
    | u :: us, x :: xs, hu, hx =>
      simp only [List.map_cons, List.cons.injEq] at hu
      simp only [List.zip_cons_cons, List.zipWith_cons_cons]
      obtain ⟨L, hL, hL2⟩ := hs a (by simp)
      refine .cons (edge_closed hL hL2 hu.1 (hcl 0 a u x (by simp) (by simp) (by simp))) ?_
      exact ih (by simpa using hx) hu.2 (fun i e v y h1 h2 h3 => hcl (i + 1) e v y (by simpa using h1) (by simpa using h2)
        (by simpa using h3)) (fun e he => hs e (by simp [he]))

/-- C33: on an edge with a Kress rule every value closes the data, since the weights vanish at both ends. -/
theorem C33_kress {n p : ℤ} {d : Quad × Quad} (hd : getQuadDict n p = .ok d) {e e1 : EdgeG} (hk : e.quadType = "kress")
    (h1 : e.parameterize d = .ok e1) {u : List ℝ} (hu : u ≠ []) (x : ℝ) : Closes e1 u x ∧ Closes e1.reverse u x := by
  obtain ⟨hn, L, hL, hlen, h0⟩ := parameterize_size hd h1
  obtain ⟨v, u, rfl⟩ := List.exists_cons_of_ne_nil hu
  have hne : L ≠ [] := by intro h; simp [h] at hlen
  obtain ⟨a, hA⟩ : ∃ a, L.head? = some a := by
    cases L with
    | nil => exact absurd rfl hne
    | cons a _ => exact ⟨a, rfl⟩
  obtain ⟨b, hb⟩ : ∃ b, L.getLast? = some b := ⟨_, List.getLast?_eq_some_getLast hne⟩
  have za := h0 hk a (Or.inl (by rw [← List.head?_eq_getElem?]; exact hA))
  have zb := h0 hk b (Or.inr (by rw [List.getLast?_eq_getElem?, hlen] at hb; simpa using hb))
  refine ⟨⟨L, a, b, v, hL, hA, hb, rfl, by rw [za, zb]; simp⟩, ?_⟩
  refine ⟨_, _, _, v, by simp only [EdgeG.reverse, hL, Option.map_some]; rfl,
    by rw [List.head?_reverse, List.getLast?_map, hb]; rfl, by rw [List.getLast?_reverse, List.head?_map, hA]; rfl, rfl, ?_⟩
  simp only [za, zb, mul_zero]

/-- the weights of the samples of a cell -/
noncomputable def cellWeights (K : CellG) : List ℝ :=
  K.components.flatMap fun c => c.cols.map fun s => 2 * Real.pi * (c.edges.length : ℝ) / (c.cols.length : ℝ) * s.dxNorm

theorem cell_integrate {K : CellG} (h : K.Ready) (hne : ∀ c ∈ K.components, c.edges ≠ []) {w : List ℝ}
    (hw : w.length = K.cols.length) : K.integrate w = .ok (dot w (cellWeights K)) := by
  obtain ⟨ws, rfl, hws⟩ := exists_split (K.components.map fun c => c.cols.length) w (by
    rw [hw]; simp [CellG.cols, List.length_flatMap])
  simp only [CellG.integrate, h.guard, bind, Except.bind, h.multiplyByDxNorm (fits_length hws)]
  have hz := zipWith_flatten (fun (s : Sample) (v : ℝ) => v * s.dxNorm) ContourG.cols K.components ws hws
  rw [CellG.cols, ← hz, h.integratePreweighted hne (ContourG.zipWith_lengths _ _ (by intro a u h; simp [h]) _ _ hws)]
  congr 1
  unfold cellWeights
  clear hz hw hne
  generalize K.components = l at *
  induction l generalizing ws with
  | nil => simp [dot, entrywise]
  | cons a l ih =>
    match ws, hws with
    | u :: us, hu =>
      simp only [List.map_cons, List.cons.injEq] at hu
      simp only [List.zipWith_cons_cons, List.sum_cons, List.flatten_cons, List.flatMap_cons, ih us hu.2, dot, entrywise]
      rw [List.zipWith_append (by simp [hu.1]), List.sum_append]
      congr 1
      rw [ContourG.mul_sum_list, List.map_zipWith, List.zipWith_map_right, List.zipWith_comm]
      congr 2
      funext x y
      ring

theorem dot_lincomb (a b : ℝ) : ∀ (u v w : List ℝ), u.length = v.length →
    dot (lincomb a b u v) w = a * dot u w + b * dot v w
  | [], [], w, _ => by simp [dot, entrywise, lincomb]
  | x :: u, y :: v, [], _ => by simp [dot, entrywise]
  | x :: u, y :: v, z :: w, h => by
    have ih := dot_lincomb a b u v w (by simpa using h)
    simp only [dot, entrywise, lincomb, List.zipWith_cons_cons, List.sum_cons] at ih ⊢
    rw [ih]; ring

/-- C33: the integral is linear; data of the wrong length is refused. -/
theorem C33_linear {K : CellG} (h : K.Ready) (hne : ∀ c ∈ K.components, c.edges ≠ []) (a b : ℝ) {u v : List ℝ} :
    (u.length = K.cols.length → v.length = K.cols.length → ∃ I J, K.integrate u = .ok I ∧ K.integrate v = .ok J ∧
      K.integrate (lincomb a b u v) = .ok (a * I + b * J)) ∧
    (u.length ≠ K.cols.length → K.integrate u = .error .sizeMismatch) := by
  constructor
  · intro hu hv
    refine ⟨_, _, cell_integrate h hne hu, cell_integrate h hne hv, ?_⟩
    rw [cell_integrate h hne (by simp [lincomb, hu, hv]), dot_lincomb _ _ _ _ _ (by rw [hu, hv])]
  · intro hu
    simp [CellG.integrate, (C33_multiply h).2.2 u hu, h.guard, bind, Except.bind]

/-- the hypotheses of the theorems above hold for a cell with one component, a sampled circle -/
example : ∃ K : CellG, K.Ready ∧ Uniform K ∧ K.components.length = 1 ∧ Fits K [List.replicate 8 (1 : ℝ)] := by
  obtain ⟨d, hd⟩ := getQuadDict_ok
  obtain ⟨e', he'⟩ := circle_parameterize (d := d) (qt := "kress") ⟨d.2, by simp [pickQuad]⟩ (Vert.mk' 1 2)
  obtain ⟨c, hc⟩ := C28_success hd (c := ⟨[unitCircle "kress" [.translate (Vert.mk' 1 2)]], [1], 0, [], [], none⟩) rfl
    (by simp only [List.mem_singleton, forall_eq]; exact ⟨e', he'⟩)
  obtain ⟨k1, -, k3, k4, -⟩ := parameterize_edges hd (by rfl) hc
  have h1 : ∀ e ∈ c.edges, e.cols.length = 8 := by
    intro e he
    obtain ⟨L, hL, hL2⟩ := k4.sampled e he
    have := k3 e he
    simp only [EdgeG.numPts, hL] at this
    rw [cols_length hL]
    omega
  have h2 : c.cols.length = 8 := by rw [cols_uniform h1, k1]; rfl
  refine ⟨{ components := [c], numPts := c.numPts, startIdx := [0, c.numPts] }, ⟨?_, ?_, ?_⟩, ?_, rfl, ?_⟩
  · simpa using k4
  · simpa [CellG.cols] using k4.numPts
  · simp [List.range_succ, blockStart]
  · intro c' hc'
    simp only [List.mem_singleton] at hc'
    subst hc'
    exact ⟨by intro h; simp [h] at k1, 8, h1⟩
  · simp [Fits, h2]

end PFEM
