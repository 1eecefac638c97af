import Verif.Props.Recover

/-!
Property theorems C52, continued: residues, the antilaplacian of a cell without holes, and examples on a disc and on an annulus.
-/

namespace PFEM
open Nystrom Antilap
open ContourG (mapPy)

/-! ### residues -/

/-- `(b, c)` is the residue at a hole with the boundary `c` that belongs to `ψ + i ψ̂`: `b + i c` is `-1 / (2 π i)` times the integral of
`(ψ + i ψ̂) dz` over the boundary of the hole in the direction of its tangents, which is clockwise. -/
def IsResidue (c : ContourG) (psi psiHat : ℝ → ℝ → ℝ) (r : ℝ × ℝ) : Prop :=
  ∃ B C, c.integrate (c.cols.map fun s => psiHat s.x s.y * s.tx + psi s.x s.y * s.ty) = .ok B ∧
    c.integrate (c.cols.map fun s => psi s.x s.y * s.tx - psiHat s.x s.y * s.ty) = .ok C ∧
    r.1 = -(B / (2 * Real.pi)) ∧ r.2 = C / (2 * Real.pi)

theorem residueLoop_ok {K : CellG} (h : K.Ready) (hU : Uniform K) (f g : Sample → ℝ) :
    ∀ (cs pre : List ContourG), K.components = pre ++ cs → ∀ n, pre.length = n + 1 →
      residueLoop K (K.cols.map f) (K.cols.map g) n cs =
        .ok (cs.map fun c => (compInt c (c.cols.map g) / (-2 * Real.pi), compInt c (c.cols.map f) / (2 * Real.pi)))
  | [], _, _, _, _ => rfl
  | c :: cs, pre, hK, n, hn => by
    have hcm : c ∈ K.components := by rw [hK]; simp
    have hnc : ∀ c ∈ K.components, c.numPts = c.cols.length := fun c hc => (h.ready c hc).numPts
    have hsum : (pre.map ContourG.numPts).sum = (pre.flatMap ContourG.cols).length := by
      rw [List.length_flatMap]
      congr 1
      exact List.map_congr_left fun c' hc' => hnc c' (by rw [hK]; simp [hc'])
    have hslice : ∀ f : Sample → ℝ, Np.slice (K.cols.map f) (pre.flatMap ContourG.cols).length
        ((pre.flatMap ContourG.cols).length + c.numPts) = c.cols.map f := by
      intro f
      rw [CellG.cols, hK, List.flatMap_append, List.flatMap_cons, List.map_append, List.map_append, hnc c hcm]
      have := slice_block ((pre.flatMap ContourG.cols).map f) (c.cols.map f) ((cs.flatMap ContourG.cols).map f)
      simpa using this
    have hg : ∀ i, i ≤ (pre ++ c :: cs).length → Np.get K.startIdx i = .ok (((pre ++ c :: cs).take i).map ContourG.numPts).sum := by
      intro i hi
      rw [h.startIdx, hK]
      rw [Np.get, List.getElem?_map, List.getElem?_range (Nat.lt_succ_of_le hi)]
      simp [blockStart]
    have g1 := hg (n + 1) (by simp; omega)
    have g2 := hg (n + 2) (by simp; omega)
    rw [← hn, List.take_left, hsum] at g1
    rw [show n + 2 = (pre ++ [c]).length by simp; omega, show pre ++ c :: cs = (pre ++ [c]) ++ cs by simp, List.take_left, List.map_append,
      List.sum_append, hsum] at g2
    simp only [List.map_cons, List.map_nil, List.sum_cons, List.sum_nil, Nat.add_zero] at g2
    rw [hn] at g1
    rw [show (pre ++ [c]).length = n + 2 by simp; omega] at g2
    have ih := residueLoop_ok h hU f g cs (pre ++ [c]) (by rw [hK]; simp) (n + 1) (by simp [hn])
    simp only [residueLoop, g1, g2, py_ok_bind, hslice, compInt_ok h hU hcm (List.length_map _), ih, List.map_cons]

/-- C52: the code finds one residue for every hole. -/
theorem C52_residues {K : CellG} (h : K.Ready) (hU : Uniform K) (psi psiHat : ℝ → ℝ → ℝ) :
    ∃ res, residues K (K.samplesOf psi) (K.samplesOf psiHat) = .ok res ∧
      List.Forall₂ (fun c r => IsResidue c psi psiHat r) K.components.tail res := by
  have key : ∃ res, residues K (K.samplesOf psi) (K.samplesOf psiHat) = .ok res ∧ res = K.components.tail.map fun c =>
      (compInt c (c.cols.map fun s => psiHat s.x s.y * s.tx + psi s.x s.y * s.ty) / (-2 * Real.pi),
        compInt c (c.cols.map fun s => psi s.x s.y * s.tx + -psiHat s.x s.y * s.ty) / (2 * Real.pi)) := by
    refine ⟨_, ?_, rfl⟩
    unfold residues CellG.samplesOf
    simp only [neg_map, tangent_map h, py_ok_bind]
    cases hK : K.components with
    | nil => rfl
    | cons c cs => exact residueLoop_ok h hU _ _ cs [c] hK 0 rfl
  obtain ⟨res, h1, rfl⟩ := key
  refine ⟨_, h1, ?_⟩
  rw [List.forall₂_map_right_iff]
  refine List.forall₂_same.2 fun c hc => ⟨_, _, compInt_ok h hU (List.mem_of_mem_tail hc) (List.length_map _),
    compInt_ok h hU (List.mem_of_mem_tail hc) (List.length_map _), ?_, ?_⟩
  · simp only [neg_mul, div_neg]
  · simp only [neg_mul, sub_eq_add_neg]

/-- C52: if the boundary of a hole is a circle about its interior point, sampled clockwise, then the residue of
`(β + i γ) / (z - ξ)` that the code finds is `(β, γ)`. -/
theorem C52_residue_circle {K : CellG} (h : K.Ready) (hU : Uniform K) {c : ContourG} (hc : c ∈ K.components) {p : Vert} {r : ℝ} (hr : 0 < r)
    (hon : ∀ s ∈ c.cols, (s.x - p.x) ^ 2 + (s.y - p.y) ^ 2 = r ^ 2) (ht : ∀ s ∈ c.cols, s.tx = (s.y - p.y) / r ∧ s.ty = -(s.x - p.x) / r)
    (hl : discLen c = 2 * Real.pi * r) (β γ : ℝ) {b d : ℝ}
    (hres : IsResidue c (fun x y => (β * (x - p.x) + γ * (y - p.y)) / ((x - p.x) ^ 2 + (y - p.y) ^ 2))
      (fun x y => (γ * (x - p.x) - β * (y - p.y)) / ((x - p.x) ^ 2 + (y - p.y) ^ 2)) (b, d)) : b = β ∧ d = γ := by
  obtain ⟨B, C, hB, hC, rfl, rfl⟩ := hres
  have hne := (hU c hc).1
  have hconst : ∀ k : ℝ, compInt c (c.cols.map fun _ => k) = k * discLen c := by
    intro k
    have : ∀ l : List Sample, (List.zipWith (fun (s : Sample) v => v * s.dxNorm) l (l.map fun _ => k)).sum =
        k * (l.map Sample.dxNorm).sum := by
      intro l
      induction l with
      | nil => simp
      | cons s l ih => rw [List.map_cons, List.zipWith_cons_cons, List.sum_cons, ih, List.map_cons, List.sum_cons]; ring
    rw [compInt, discLen, this]
    ring
  have e1 : (c.cols.map fun s => (γ * (s.x - p.x) - β * (s.y - p.y)) / ((s.x - p.x) ^ 2 + (s.y - p.y) ^ 2) * s.tx +
      (β * (s.x - p.x) + γ * (s.y - p.y)) / ((s.x - p.x) ^ 2 + (s.y - p.y) ^ 2) * s.ty) = c.cols.map fun _ => -β / r := by
    refine List.map_congr_left fun s hs => ?_
    rw [hon s hs, (ht s hs).1, (ht s hs).2]
    have := hon s hs
    field_simp
    linear_combination (-β) * this
  have e2 : (c.cols.map fun s => (β * (s.x - p.x) + γ * (s.y - p.y)) / ((s.x - p.x) ^ 2 + (s.y - p.y) ^ 2) * s.tx -
      (γ * (s.x - p.x) - β * (s.y - p.y)) / ((s.x - p.x) ^ 2 + (s.y - p.y) ^ 2) * s.ty) = c.cols.map fun _ => γ / r := by
    refine List.map_congr_left fun s hs => ?_
    rw [hon s hs, (ht s hs).1, (ht s hs).2]
    have := hon s hs
    field_simp
    linear_combination γ * this
  rw [e1, compInt_ok h hU hc (List.length_map _), hconst, hl] at hB
  rw [e2, compInt_ok h hU hc (List.length_map _), hconst, hl] at hC
  cases hB
  cases hC
  have := Real.pi_ne_zero
  constructor
  · field_simp
  · field_simp

/-! ### a cell without holes -/

theorem HasGradOn.shift {S : Set (ℝ × ℝ)} {f g1 g2 : ℝ → ℝ → ℝ} (h : HasGradOn S f g1 g2) (k : ℝ) : HasGradOn S (fun x y => f x y - k) g1 g2 :=
  fun x y hxy => ⟨(h x y hxy).1.sub_const k, (h x y hxy).2.sub_const k⟩

theorem antiderivative_along {K : CellG} (h : K.Ready) (hU : Uniform K) {c : ContourG} (hK : K.components = [c]) {f g1 g2 : ℝ → ℝ → ℝ}
    (ht : TrigAlong c f g1 g2) : ∃ k, fftAntiderivative (K.tangentOf g1 g2) (2 * Real.pi * K.getEdges.length) =
      .ok (K.samplesOf fun x y => f x y - k) := by
  have hcols : K.cols = c.cols := by simp [CellG.cols, hK]
  have hed : K.getEdges = c.edges := by simp [CellG.getEdges, hK]
  have hcm : c ∈ K.components := by rw [hK]; simp
  obtain ⟨a, b, M, hM, hs, hd⟩ := ht
  have hlen' : (2 * Real.pi * (c.edges.length : ℝ)) ≠ 0 := by
    have := (hU c hcm).1
    simpa [Real.pi_ne_zero] using this
  have hF := C49_exact_integral c.cols.length (cols_pos h hU hcm) (2 * Real.pi * c.edges.length) hlen' a b M hM
  refine ⟨if 0 < M then a 0 else 0, ?_⟩
  rw [← hd] at hF
  rw [hed, CellG.tangentOf, hcols, hF]
  have h2 := congrArg (List.map (· - (if 0 < M then a 0 else 0))) hs
  rw [CellG.samplesOf, hcols]
  simp only [samples, List.map_map, Function.comp_def] at h2
  rw [h2]
  rfl

/-- the result on a cell without holes -/
theorem simply_connected_eq {gmres : Gmres} {s : Solver} (h : s.ops.K.Ready) (hU : Uniform s.ops.K) {c : ContourG}
    (hK : s.ops.K.components = [c]) {psi psiHat rho rhoHat : ℝ → ℝ → ℝ}
    (ht : TrigAlong c rho psi fun x y => -psiHat x y) (ht' : TrigAlong c rhoHat psiHat psi) (a : List ℝ) :
    ∃ k k', antilaplacian gmres s (s.ops.K.samplesOf psi) (s.ops.K.samplesOf psiHat) a =
      fromComponents s.ops.K (s.ops.K.samplesOf fun x y => rho x y - k) (s.ops.K.samplesOf fun x y => rhoHat x y - k')
        (s.ops.K.samplesOf psi) (s.ops.K.samplesOf psiHat) := by
  obtain ⟨k, hk⟩ := antiderivative_along h hU hK ht
  obtain ⟨k', hk'⟩ := antiderivative_along h hU hK ht'
  refine ⟨k, k', ?_⟩
  have e1 : weightedTangent s.ops.K (s.ops.K.samplesOf psi) (Np.neg (s.ops.K.samplesOf psiHat)) =
      .ok (s.ops.K.tangentOf psi fun x y => -psiHat x y) := by
    unfold CellG.samplesOf
    rw [neg_map, weightedTangent_map h]
    rfl
  have e2 : weightedTangent s.ops.K (s.ops.K.samplesOf psiHat) (s.ops.K.samplesOf psi) = .ok (s.ops.K.tangentOf psiHat psi) := by
    unfold CellG.samplesOf
    rw [weightedTangent_map h]
    rfl
  unfold antilaplacian
  rw [if_pos (by simp [CellG.numHoles, hK])]
  unfold simplyConnected
  simp only [e1, e2, py_ok_bind, hk, hk']

/-- C52, a cell without holes.  `ψ`, `ψ̂` are conjugate in `S`, which contains the samples of the boundary, and have the integrals `ρ`, `ρ̂`,
which the discretization resolves.  Then the result is the values and weighted normal derivatives of a function with the Laplacian
`ψ`. -/
theorem C52_simply_connected {gmres : Gmres} {s : Solver} (h : s.ops.K.Ready) (hU : Uniform s.ops.K) {c : ContourG}
    (hK : s.ops.K.components = [c]) {S : Set (ℝ × ℝ)} {psi psiHat rho rhoHat : ℝ → ℝ → ℝ} (hc : ConjugateOn S psi psiHat)
    (hr : HasGradOn S rho psi fun x y => -psiHat x y) (hr' : HasGradOn S rhoHat psiHat psi)
    (ht : TrigAlong c rho psi fun x y => -psiHat x y) (ht' : TrigAlong c rhoHat psiHat psi) (a : List ℝ) :
    ∃ P W, antilaplacian gmres s (s.ops.K.samplesOf psi) (s.ops.K.samplesOf psiHat) a = .ok (P, W) ∧
      AntilaplacianData s.ops.K S psi P W := by
  obtain ⟨k, k', e⟩ := simply_connected_eq (gmres := gmres) h hU hK ht ht' a
  obtain ⟨P, W, h1, h2⟩ := C52_components hc (hr.shift k) (hr'.shift k') h
  exact ⟨P, W, by rw [e, h1], h2⟩

/-! ### examples: a disc and an annulus with four samples on every circle -/

/-- samples of the circle of radius `r` about the origin, at the angles `0`, `π/2`, `π`, `3π/2`; `σ` is `1` for counter-clockwise and `-1` for
clockwise -/
noncomputable def crossPt (r σ : ℝ) : List Sample :=
  [(1, 0), (0, 1), (-1, 0), (0, -1)].map fun p : ℝ × ℝ => ⟨r * p.1, σ * r * p.2, -p.2, σ * p.1, σ * p.1, p.2, r, σ / r⟩

noncomputable def crossContour (r σ : ℝ) : ContourG :=
  { edges := [{ unitCircle "trap" [] with pts := some (crossPt r σ ++ (crossPt r σ).take 1) }]
    orients := [1], numPts := 4, vertIdx := [0, 4], closest := [0, 0, 0, 0], interior := some (Vert.mk' 0 0) }

noncomputable def discCell : CellG := { components := [crossContour 1 1], numPts := 4, startIdx := [0, 4], closest := [0, 0, 0, 0] }

noncomputable def annulusCell : CellG :=
  { components := [crossContour 2 1, crossContour 1 (-1)], numPts := 8, startIdx := [0, 4, 8], closest := List.replicate 8 0 }

theorem cross_cols (r σ : ℝ) : (crossContour r σ).cols = crossPt r σ := by simp [crossContour, ContourG.cols, EdgeG.cols, crossPt]

theorem cross_ready (r σ : ℝ) : (crossContour r σ).Ready := by
  refine ⟨?_, ?_, ?_⟩
  · intro e he
    simp only [crossContour, List.mem_singleton] at he
    subst he
    exact ⟨_, rfl, by simp [crossPt]⟩
  · rw [cross_cols]; simp [crossContour, crossPt]
  · simp [crossContour, EdgeG.cols, List.range_succ, blockStart, crossPt]

theorem cross_uniform (r σ : ℝ) : (crossContour r σ).edges ≠ [] ∧ ∃ N : ℕ, ∀ e ∈ (crossContour r σ).edges, e.cols.length = N := by
  refine ⟨by simp [crossContour], 4, fun e he => ?_⟩
  simp only [crossContour, List.mem_singleton] at he
  subst he
  simp [EdgeG.cols, crossPt]

theorem disc_ready : discCell.Ready ∧ Uniform discCell := by
  refine ⟨⟨?_, ?_, ?_⟩, ?_⟩
  · intro c hc
    simp only [discCell, List.mem_singleton] at hc
    subst hc
    exact cross_ready _ _
  · simp [discCell, CellG.cols, cross_cols, crossPt]
  · simp [discCell, List.range_succ, blockStart, crossContour]
  · intro c hc
    simp only [discCell, List.mem_singleton] at hc
    subst hc
    exact cross_uniform _ _

theorem annulus_ready : annulusCell.Ready ∧ Uniform annulusCell := by
  refine ⟨⟨?_, ?_, ?_⟩, ?_⟩
  · intro c hc
    simp only [annulusCell, List.mem_cons, List.not_mem_nil, or_false] at hc
    rcases hc with rfl | rfl <;> exact cross_ready _ _
  · simp [annulusCell, CellG.cols, cross_cols, crossPt]
  · simp [annulusCell, List.range_succ, blockStart, crossContour]
  · intro c hc
    simp only [annulusCell, List.mem_cons, List.not_mem_nil, or_false] at hc
    rcases hc with rfl | rfl <;> exact cross_uniform _ _

theorem cross_trig (a b : ℕ → ℝ) (r σ : ℝ) : samples (crossContour r σ).cols.length (2 * Real.pi * (crossContour r σ).edges.length)
    (trig a b 2 (2 * Real.pi * (crossContour r σ).edges.length)) = [a 0 + a 1, a 0 + b 1, a 0 - a 1, a 0 - b 1] ∧
    samples (crossContour r σ).cols.length (2 * Real.pi * (crossContour r σ).edges.length)
    (fun t => deriv (trig a b 2 (2 * Real.pi * (crossContour r σ).edges.length)) t) = [b 1, -a 1, -b 1, a 1] := by
  have h1 : (crossContour r σ).cols.length = 4 := by rw [cross_cols]; simp [crossPt]
  have h2 : ((crossContour r σ).edges.length : ℝ) = 1 := by simp [crossContour]
  have hpi := Real.pi_ne_zero
  have c0 : ((0 : ℕ) : ℝ) * (2 * Real.pi) / ((4 : ℕ) : ℝ) = 0 := by simp
  have c1 : ((1 : ℕ) : ℝ) * (2 * Real.pi) / ((4 : ℕ) : ℝ) = Real.pi / 2 := by push_cast; ring
  have c2 : ((2 : ℕ) : ℝ) * (2 * Real.pi) / ((4 : ℕ) : ℝ) = Real.pi := by push_cast; ring
  have c3 : ((3 : ℕ) : ℝ) * (2 * Real.pi) / ((4 : ℕ) : ℝ) = Real.pi / 2 + Real.pi := by push_cast; ring
  have hd : (fun t => deriv (trig a b 2 (2 * Real.pi)) t) = trig' a b 2 (2 * Real.pi) := funext fun t => (trig_deriv a b 2 (2 * Real.pi) t).deriv
  rw [h1, h2, mul_one, hd]
  constructor
  · simp only [samples, List.range_succ, List.range_zero, List.nil_append, List.cons_append, List.map_cons, List.map_nil, c0, c1, c2, c3, trig,
      Finset.sum_range_succ, Finset.sum_range_zero]
    simp [hpi, Real.cos_add_pi, Real.sin_add_pi]
    ring_nf
    simp
  · simp only [samples, List.range_succ, List.range_zero, List.nil_append, List.cons_append, List.map_cons, List.map_nil, c0, c1, c2, c3, trig',
      Finset.sum_range_succ, Finset.sum_range_zero]
    simp [hpi, Real.cos_add_pi, Real.sin_add_pi]

/-- along such a circle the coordinates are resolved -/
theorem cross_x (r σ : ℝ) : TrigAlong (crossContour r σ) (fun x _ => x) (fun _ _ => 1) (fun _ _ => 0) := by
  refine ⟨fun k => if k = 1 then r else 0, fun _ => 0, 2, ?_, ?_, ?_⟩
  · intro k hk; rw [cross_cols]; simp [crossPt]; omega
  · rw [(cross_trig _ _ r σ).1, cross_cols]; simp [crossPt]
  · rw [(cross_trig _ _ r σ).2, cross_cols]; simp [crossPt]

theorem cross_y (r σ : ℝ) : TrigAlong (crossContour r σ) (fun _ y => y) (fun _ _ => 0) (fun _ _ => 1) := by
  refine ⟨fun _ => 0, fun k => if k = 1 then σ * r else 0, 2, ?_, ?_, ?_⟩
  · intro k hk; rw [cross_cols]; simp [crossPt]; omega
  · rw [(cross_trig _ _ r σ).1, cross_cols]; simp [crossPt]
  · rw [(cross_trig _ _ r σ).2, cross_cols]; simp [crossPt]

theorem one_conjugate (S : Set (ℝ × ℝ)) : ConjugateOn S (fun _ _ => 1) (fun _ _ => 0) :=
  ⟨fun _ _ => 0, fun _ _ => 0, fun _ _ _ => ⟨hasDerivAt_const _ _, hasDerivAt_const _ _⟩,
    fun x y _ => ⟨by simpa using hasDerivAt_const x (0 : ℝ), hasDerivAt_const _ _⟩⟩

theorem grad_x (S : Set (ℝ × ℝ)) : HasGradOn S (fun x _ => x) (fun _ _ => 1) (fun _ _ => 0) :=
  fun x y _ => ⟨hasDerivAt_id x, hasDerivAt_const y x⟩

theorem grad_y (S : Set (ℝ × ℝ)) : HasGradOn S (fun _ y => y) (fun _ _ => 0) (fun _ _ => 1) :=
  fun x y _ => ⟨hasDerivAt_const x y, hasDerivAt_id y⟩

/-- a solver for a cell, of which only the strategy and the functions `η_j` matter here -/
noncomputable def plainSolver (K : CellG) (eta : List Trace) : Solver := ⟨⟨K, Mat.zeros 0 0, Mat.zeros 0 0, []⟩, none, [], "fft", some eta⟩

/-- the disc: the constant function one -/
example (gmres : Gmres) : ∃ P W, antilaplacian gmres (plainSolver discCell []) (discCell.samplesOf fun _ _ => 1)
    (discCell.samplesOf fun _ _ => 0) [] = .ok (P, W) ∧ AntilaplacianData discCell Set.univ (fun _ _ => 1) P W :=
  C52_simply_connected (s := plainSolver discCell []) disc_ready.1 disc_ready.2 rfl (one_conjugate _)
    (by simpa using grad_x Set.univ) (grad_y _) (by simpa using cross_x 1 1) (cross_y 1 1) []

theorem cross_len (r σ : ℝ) : discLen (crossContour r σ) = 2 * Real.pi * r := by
  have h2 : ((crossContour r σ).edges.length : ℝ) = 1 := by simp [crossContour]
  rw [discLen, cross_cols, h2]
  simp [crossPt]
  ring

theorem annulus_zero {c : ContourG} (hc : c ∈ annulusCell.components) :
    c.integrate (c.cols.map fun s => s.x) = .ok 0 ∧ c.integrate (c.cols.map fun s => s.y) = .ok 0 := by
  rw [compInt_ok annulus_ready.1 annulus_ready.2 hc (List.length_map _), compInt_ok annulus_ready.1 annulus_ready.2 hc (List.length_map _)]
  simp only [annulusCell, List.mem_cons, List.not_mem_nil, or_false] at hc
  rcases hc with rfl | rfl <;> simp only [compInt, cross_cols] <;> simp [crossPt]

/-- a function that is constant on both circles -/
noncomputable def annulusEta : Trace := Trace.made annulusCell.getEdges (some [5, 5, 5, 5, 7, 7, 7, 7]) none none

theorem annulus_pair (g1 g2 : ℝ) : annulusCell.integratePreweighted
    (List.zipWith (· * ·) [5, 5, 5, 5, 7, 7, 7, 7] (annulusCell.normalOf (fun _ _ => g1) fun _ _ => g2)) = .ok 0 := by
  have hne : ∀ c ∈ annulusCell.components, c.edges ≠ [] := fun c hc => (annulus_ready.2 c hc).1
  have hcols : annulusCell.cols = crossPt 2 1 ++ crossPt 1 (-1) := by simp [annulusCell, CellG.cols, cross_cols]
  have hn : annulusCell.normalOf (fun _ _ => g1) (fun _ _ => g2) =
      [2 * g1, 2 * g2, -(2 * g1), -(2 * g2)] ++ [-g1, g2, g1, -g2] := by
    rw [CellG.normalOf, hcols]
    simp [crossPt]
    ring_nf
    simp
  rw [cell_preweighted annulus_ready.1 hne (by rw [hn, hcols]; simp [crossPt]), hn]
  congr 1
  simp [dot, entrywise, steps, annulusCell, cross_cols, crossPt]

theorem annulus_eta : ∀ e ∈ [annulusEta], ∃ ev, e.values = some ev ∧ ev.length = annulusCell.numPts := by
  intro e he
  rw [List.mem_singleton] at he
  subst he
  exact ⟨_, rfl, rfl⟩

theorem annulus_lens : ∀ c ∈ annulusCell.components, discLen c ≠ 0 := by
  intro c hc
  simp only [annulusCell, List.mem_cons, List.not_mem_nil, or_false] at hc
  rcases hc with rfl | rfl <;> rw [cross_len] <;> simp [Real.pi_ne_zero]

theorem annulus_x : Resolves annulusCell [annulusEta] (fun x _ => x) (fun _ _ => 1) (fun _ _ => 0) := by
  intro j c hc
  have h0 := (annulus_zero (List.mem_of_getElem? hc)).1
  match j, hc with
  | 0, hc =>
    cases hc
    exact ⟨cross_x _ _, fun _ => h0, fun h => absurd rfl h⟩
  | 1, hc =>
    cases hc
    exact ⟨cross_x _ _, fun h => by simp at h, fun _ => ⟨_, _, 0, rfl, rfl, annulus_pair 1 0, h0⟩⟩
  | j + 2, hc => simp [annulusCell] at hc

theorem annulus_y : Resolves annulusCell [annulusEta] (fun _ y => y) (fun _ _ => 0) (fun _ _ => 1) := by
  intro j c hc
  have h0 := (annulus_zero (List.mem_of_getElem? hc)).2
  match j, hc with
  | 0, hc =>
    cases hc
    exact ⟨cross_y _ _, fun _ => h0, fun h => absurd rfl h⟩
  | 1, hc =>
    cases hc
    exact ⟨cross_y _ _, fun h => by simp at h, fun _ => ⟨_, _, 0, rfl, rfl, annulus_pair 0 1, h0⟩⟩
  | j + 2, hc => simp [annulusCell] at hc

/-- the annulus: the coordinate `x` is recovered from its gradient -/
example (gmres : Gmres) : integrateGradient gmres (plainSolver annulusCell [annulusEta]) (annulusCell.samplesOf fun _ _ => 1)
    (annulusCell.samplesOf fun _ _ => 0) = .ok (annulusCell.samplesOf fun x _ => x) :=
  C71_exact (s := plainSolver annulusCell [annulusEta]) annulus_ready.1 annulus_ready.2 annulus_lens rfl rfl (by simp [plainSolver, annulusCell])
    annulus_eta annulus_x

/-- the real part of `1 + (2 + 3 i) / z` on the annulus -/
noncomputable def annulusPsi (x y : ℝ) : ℝ := 1 + singularPart [Vert.mk' 0 0] [(2, 3)] x y
/-- the imaginary part -/
noncomputable def annulusPsiHat (x y : ℝ) : ℝ := singularConj [Vert.mk' 0 0] [(2, 3)] x y

theorem annulus_residues : residues annulusCell (annulusCell.samplesOf annulusPsi) (annulusCell.samplesOf annulusPsiHat) = .ok [(2, 3)] := by
  obtain ⟨res, h1, h2⟩ := C52_residues annulus_ready.1 annulus_ready.2 annulusPsi annulusPsiHat
  rw [h1]
  simp only [annulusCell, List.tail_cons] at h2
  cases h2 with
  | cons h h' =>
    cases h'
    rename_i r
    have hc : crossContour 1 (-1) ∈ annulusCell.components := by simp [annulusCell]
    obtain ⟨B, C, hB, hC, e1, e2⟩ := h
    rw [compInt_ok annulus_ready.1 annulus_ready.2 hc (List.length_map _)] at hB hC
    have h2 : ((crossContour 1 (-1)).edges.length : ℝ) = 1 := by simp [crossContour]
    have hpi := Real.pi_ne_zero
    cases hB
    cases hC
    rw [compInt, cross_cols, h2] at e1 e2
    simp [crossPt, annulusPsi, annulusPsiHat, singularPart, singularConj, Vert.mk'] at e1 e2
    congr 2
    refine Prod.ext ?_ ?_
    · rw [e1]; field_simp; norm_num
    · rw [e2]; field_simp; norm_num

/-- the annulus: a function with a residue at the hole and a logarithmic term -/
example (gmres : Gmres) : ∃ P W, antilaplacian gmres (plainSolver annulusCell [annulusEta]) (annulusCell.samplesOf annulusPsi)
    (annulusCell.samplesOf annulusPsiHat) [4] = .ok (P, W) ∧
      AntilaplacianData annulusCell (away (Vert.mk' 0 0)) (fun x y => annulusPsi x y + logPart [Vert.mk' 0 0] [4] x y) P W := by
  have e1 : (fun x y => annulusPsi x y - singularPart [Vert.mk' 0 0] [(2, 3)] x y) = fun _ _ => 1 := by
    funext x y; simp [annulusPsi]
  have e2 : (fun x y => annulusPsiHat x y - singularConj [Vert.mk' 0 0] [(2, 3)] x y) = fun _ _ => 0 := by
    funext x y; simp [annulusPsiHat]
  have e3 : (fun x y => -(annulusPsiHat x y - singularConj [Vert.mk' 0 0] [(2, 3)] x y)) = fun _ _ => 0 := by
    funext x y; simp [annulusPsiHat]
  refine C52_multiply_connected (s := plainSolver annulusCell [annulusEta]) annulus_ready.1 (by simp [plainSolver, annulusCell, CellG.numHoles])
    (S := away (Vert.mk' 0 0)) ?_ (ps := [Vert.mk' 0 0]) (.cons ⟨rfl, subset_rfl⟩ .nil) ?_ annulus_residues (rho := fun x _ => x)
    (rhoHat := fun _ y => y) ?_ ?_ ?_ ?_ (by simp)
  · intro q hq
    simp only [plainSolver, annulusCell, CellG.cols, List.flatMap_cons, List.flatMap_nil, cross_cols] at hq
    simp [crossPt] at hq
    rcases hq with rfl | rfl | rfl | rfl | rfl | rfl | rfl | rfl <;> simp [away, Vert.mk']
  · obtain ⟨p, q, h1, h2⟩ := singular_conjugate (S := away (Vert.mk' 0 0)) [Vert.mk' 0 0] [(2, 3)] (by simp)
    exact ⟨p, q, fun x y hS => ⟨(h1 x y hS).1.const_add 1, (h1 x y hS).2.const_add 1⟩, h2⟩
  · rw [e1, e3]; exact grad_x _
  · rw [e1, e2]; exact grad_y _
  · rw [e1, e3]
    exact C71_exact (s := plainSolver annulusCell [annulusEta]) annulus_ready.1 annulus_ready.2 annulus_lens rfl rfl
      (by simp [plainSolver, annulusCell]) annulus_eta annulus_x
  · rw [e1, e2]
    exact C71_exact (s := plainSolver annulusCell [annulusEta]) annulus_ready.1 annulus_ready.2 annulus_lens rfl rfl
      (by simp [plainSolver, annulusCell]) annulus_eta annulus_y

end PFEM
