import Verif.Lemmas.MotionSolve
import Verif.Props.EllipseCell
import Verif.Props.AntilapCell

/-!
Property theorems C124: turning and shifting a cell.
-/

namespace PFEM
open Nystrom
open ContourG (mapPy)

/-! ### auxiliary facts -/

theorem setWtd_keeps (t : Trace) (v : TraceArg) : (t.setWtd v).1.edges = t.edges := by
  have hx : ∀ (vs : List FloatLike) (n k : ℕ) (t : Trace), (Trace.edgeLoop Trace.setWtdOnEdge vs n k t).1.edges = t.edges := by
    intro vs n
    induction n with
    | zero => exact fun _ _ => rfl
    | succ n ih =>
      intro k t
      simp only [Trace.edgeLoop]
      cases Np.get vs k with
      | error _ => rfl
      | ok v =>
        simp only
        have := Trace.setWtdOnEdge_edges t k v
        generalize t.setWtdOnEdge k v = r at this ⊢
        obtain ⟨t1, r⟩ := r
        cases r with
        | error _ => exact this
        | ok u => exact (ih _ _).trans this
  unfold Trace.setWtd
  split
  · rfl
  · exact hx _ _ _ _

theorem after_keeps {r : Trace × Py Unit} {t : Trace} (h : Trace.after r = .ok t) : r.1 = t := by
  obtain ⟨t1, r⟩ := r
  cases r with
  | error _ => cases h
  | ok u => cases h; rfl

theorem logLoop_on {K' : CellG} (s : Solver) (a : List ℝ) {get : Trace → Py (List ℝ)} (hg : ∀ es t, get (Trace.on es t) = get t) :
    ∀ (n j : ℕ) (acc : List ℝ), LocHarm.logLoop (s.on K') a get n j acc = LocHarm.logLoop s a get n j acc
  | 0, _, _ => rfl
  | n + 1, j, acc => by
    simp only [LocHarm.logLoop, logLoop_on s a hg n]
    cases s.log with
    | none => rfl
    | some g =>
      simp only [Option.map_some, Trace.attr, py_ok_bind, get_map]
      cases Np.get g.lam j with
      | error _ => rfl
      | ok t => simp only [Except.map, py_ok_bind, hg]

theorem map_ok {α β : Type} {x : Py α} {f : α → β} {b : β} (h : x.map f = .ok b) : ∃ a, x = .ok a ∧ b = f a := by
  cases x with
  | error _ => cases h
  | ok a => cases h; exact ⟨a, rfl, rfl⟩

theorem harm_on {m : Motion} {K K' : CellG} (h : K.MovedBy m K') (hr : m.r = 1) (gmres : Gmres) {s : Solver} (hs : s.ops.K = K)
    {t t' : Trace} (ht : t.MovedBy m t') {k k' : LocHarm} (hk : LocHarm.init gmres t (some s) = .ok k)
    (hk' : LocHarm.init gmres t' (some (s.on K')) = .ok k') :
    k'.trace = Trace.on t'.edges k.trace ∧ k'.psi = k.psi.map (Trace.on K'.getEdges) ∧ k'.conj = k.conj.map (Trace.on K'.getEdges) ∧
      k'.logCoef = k.logCoef := by
  subst hs
  have hts : SameSizes t.edges t'.edges := ht.edges.imp fun _ _ he => he.edgeNumPts
  have htt : t' = Trace.on t'.edges t := ht.rest
  generalize he : t'.edges = es at hts htt
  subst htt
  have hl1 : ∀ (a : List ℝ) (n j : ℕ) (acc : List ℝ), LocHarm.logLoop (s.on K') a (fun t => Trace.attr t.values) n j acc =
      LocHarm.logLoop s a (fun t => Trace.attr t.values) n j acc := fun a => logLoop_on s a fun _ _ => rfl
  have hl2 : ∀ (a : List ℝ) (n j : ℕ) (acc : List ℝ), LocHarm.logLoop (s.on K') a LocHarm.lamNormal n j acc =
      LocHarm.logLoop s a LocHarm.lamNormal n j acc := fun a => logLoop_on s a fun _ _ => rfl
  simp only [LocHarm.init, h.wtdFromTrace, conjugate_on h hr gmres rfl, Trace.init_on h.sizes, h.numHoles, h.numPts,
    hl1, hl2, Trace.setWtd_on hts, Trace.after_on] at hk hk'
  obtain ⟨v, h1, hk⟩ := bind_ok hk
  obtain ⟨v', h1', hk'⟩ := bind_ok hk'
  rw [h1] at h1'
  cases h1'
  obtain ⟨w, h2, hk⟩ := bind_ok hk
  obtain ⟨w', h2', hk'⟩ := bind_ok hk'
  rw [h2] at h2'
  cases h2'
  obtain ⟨t1, h3, hk⟩ := bind_ok hk
  obtain ⟨t1', h3', hk'⟩ := bind_ok hk'
  rw [h3] at h3'
  cases h3'
  obtain ⟨⟨c, a⟩, h4, hk⟩ := bind_ok hk
  obtain ⟨⟨c', a'⟩, h4', hk'⟩ := bind_ok hk'
  rw [h4] at h4'
  cases h4'
  obtain ⟨cj, h5, hk⟩ := bind_ok hk
  obtain ⟨cj', h5', hk'⟩ := bind_ok hk'
  rw [h5] at h5'
  cases h5'
  obtain ⟨lam, h6, hk⟩ := bind_ok hk
  obtain ⟨lam', h6', hk'⟩ := bind_ok hk'
  rw [h6] at h6'
  cases h6'
  obtain ⟨u, h7, hk⟩ := bind_ok hk
  obtain ⟨u', h7', hk'⟩ := bind_ok hk'
  rw [h7] at h7'
  cases h7'
  obtain ⟨psi, h8, hk⟩ := bind_ok hk
  obtain ⟨psi', h8', hk'⟩ := bind_ok hk'
  rw [h8] at h8'
  cases h8'
  obtain ⟨x, h9, hk⟩ := bind_ok hk
  obtain ⟨x', h9', hk'⟩ := bind_ok hk'
  rw [h9] at h9'
  cases h9'
  obtain ⟨y, h10, hk⟩ := bind_ok hk
  obtain ⟨y', h10', hk'⟩ := bind_ok hk'
  rw [h10] at h10'
  cases h10'
  have ht1 : SameSizes t1.edges es := by
    rw [← after_keeps h3, setWtd_keeps]
    exact hts
  simp only [Trace.setWnd_on ht1, Trace.after_on] at hk'
  obtain ⟨t2, h11, hk⟩ := bind_ok hk
  obtain ⟨t2', h11', hk'⟩ := bind_ok hk'
  rw [h11] at h11'
  cases h11'
  obtain ⟨⟨P, Pn⟩, -, hk⟩ := bind_ok hk
  obtain ⟨⟨P', Pn'⟩, -, hk'⟩ := bind_ok hk'
  obtain ⟨b, -, hk⟩ := bind_ok hk
  obtain ⟨b', -, hk'⟩ := bind_ok hk'
  obtain ⟨d, -, hk⟩ := bind_ok hk
  obtain ⟨d', -, hk'⟩ := bind_ok hk'
  cases hk
  cases hk'
  exact ⟨rfl, rfl, rfl, rfl⟩

theorem init_cell {K : CellG} (hK : K.Ready) {gmres : Gmres} {strategy precondType : String} {s : Solver}
    (hs : init gmres K strategy precondType = .ok s) : s.ops.K = K := by
  unfold init at hs
  obtain ⟨o, ho, hs⟩ := bind_ok hs
  have hoK := (build_shape hK ho).1
  obtain ⟨g, -, hs⟩ := bind_ok hs
  split at hs
  · obtain ⟨D, -, hs⟩ := bind_ok hs
    split at hs
    · split at hs
      · obtain ⟨eta, -, hs⟩ := bind_ok hs
        cases hs
        exact hoK
      · cases hs
        exact hoK
    · cases hs
  · cases hs

/-! ### the theorems -/

/-- C124, matrices: when a cell is turned and shifted, the single and the double layer matrix stay the same (and if one of them cannot be
built, the error is the same). -/
theorem C124_matrices {m : Motion} (hr : m.r = 1) {K K' : CellG} (h : K.MovedBy m K') :
    singleMat K' = singleMat K ∧ doubleMat K' = doubleMat K :=
  ⟨h.single hr, h.double fun c _ e _ => by rw [hr]; exact e.keeps_one⟩

/-- C124, solver: for a sampled cell that is turned and shifted together with the interior points of its holes, the solver answers every
Dirichlet problem with the same harmonic conjugate and the same logarithmic coefficients, and every Neumann problem with the same values, for
every GMRES; and if it cannot be set up, the error is the same. -/
theorem C124_solver {m : Motion} (hr : m.r = 1) {K K' : CellG} (h : K.MovedBy m K') (hK : K.Ready) (hev : K.Even)
    (hne : ∀ c ∈ K.components, c.edges ≠ []) (hh : K.Holes) (gmres : Gmres) (strategy precondType : String) :
    (∃ e, init gmres K strategy precondType = .error e ∧ init gmres K' strategy precondType = .error e) ∨
    ∃ s s', init gmres K strategy precondType = .ok s ∧ init gmres K' strategy precondType = .ok s' ∧
      (∀ v, conjugate gmres s' v = conjugate gmres s v) ∧
      ∀ w, solveNeumann gmres s'.ops s'.diag w = solveNeumann gmres s.ops s.diag w := by
  have hi := init_move h hr hK hev hne hh gmres strategy precondType
  cases hs : init gmres K strategy precondType with
  | error e => exact .inl ⟨e, rfl, by rw [hi, hs]; rfl⟩
  | ok s =>
    have hsK : s.ops.K = K := init_cell hK hs
    refine .inr ⟨s, s.on K', rfl, by rw [hi, hs]; rfl, fun v => conjugate_on h hr gmres hsK v, fun w => ?_⟩
    rw [solveNeumann_on h hr gmres hsK]

/-- C124, harmonic functions: a `LocalHarmonic` on the cell and one with the same Dirichlet data on the turned and shifted cell have the same
values, weighted normal and tangential derivatives, the same logarithmic coefficients and the same harmonic conjugates. -/
theorem C124_harmonic {m : Motion} (hr : m.r = 1) {K K' : CellG} (h : K.MovedBy m K') (hK : K.Ready) (hev : K.Even)
    (hne : ∀ c ∈ K.components, c.edges ≠ []) (hh : K.Holes) {gmres : Gmres} {strategy precondType : String} {s s' : Solver}
    (hs : init gmres K strategy precondType = .ok s) (hs' : init gmres K' strategy precondType = .ok s') {t t' : Trace}
    (ht : t.MovedBy m t') {k k' : LocHarm} (hk : LocHarm.init gmres t (some s) = .ok k) (hk' : LocHarm.init gmres t' (some s') = .ok k') :
    k'.trace.values = k.trace.values ∧ k'.trace.wnd = k.trace.wnd ∧ k'.trace.wtd = k.trace.wtd ∧ k'.logCoef = k.logCoef ∧
      (k'.psi.map Trace.values) = (k.psi.map Trace.values) ∧ (k'.conj.map Trace.values) = (k.conj.map Trace.values) := by
  rw [init_move h hr hK hev hne hh gmres, hs] at hs'
  cases hs'
  obtain ⟨h1, h2, h3, h4⟩ := harm_on h hr gmres (init_cell hK hs) ht hk hk'
  refine ⟨by rw [h1], by rw [h1], by rw [h1], h4, ?_, ?_⟩
  · rw [h2, Option.map_map]
    rfl
  · rw [h3, Option.map_map]
    rfl

/-- C124, energies: the `H¹` products of harmonic functions do not change when the cell is turned and shifted. -/
theorem C124_energy {m : Motion} (hr : m.r = 1) {K K' : CellG} (h : K.MovedBy m K') (hK : K.Ready) (hev : K.Even)
    (hne : ∀ c ∈ K.components, c.edges ≠ []) (hh : K.Holes) {gmres : Gmres} {strategy precondType : String} {s s' : Solver}
    (hs : init gmres K strategy precondType = .ok s) (hs' : init gmres K' strategy precondType = .ok s') {t t' u u' : Trace}
    (ht : t.MovedBy m t') (hu : u.MovedBy m u') {k k' l l' : LocHarm} (hk : LocHarm.init gmres t (some s) = .ok k)
    (hk' : LocHarm.init gmres t' (some s') = .ok k') (hl : LocHarm.init gmres u (some s) = .ok l)
    (hl' : LocHarm.init gmres u' (some s') = .ok l') : h1HarmHarm k' l' K' = h1HarmHarm k l K := by
  have h1 := (C124_harmonic hr h hK hev hne hh hs hs' ht hk hk').2.1
  have h2 := (C124_harmonic hr h hK hev hne hh hs hs' hu hl hl').1
  simp only [h1HarmHarm, h1, h2, h.integratePreweighted]

/-- C124, scaling: the double layer matrix stays the same also when the cell is scaled, provided that no squared distance of two samples of one
edge is moved across `1e-12`. -/
theorem C124_scaling_partial {m : Motion} {K K' : CellG} (h : K.MovedBy m K') (hk : ∀ c ∈ K.components, ∀ e ∈ c.edges, e.Keeps m.r) :
    doubleMat K' = doubleMat K := h.double hk

/-- C124, tiny cells: on the ellipse with half axes `2` and `1` the entry of the double layer matrix for the two ends of the long axis is
`-1/(8n)`; on the same ellipse ten million times smaller it is `-1/(2n)`, though the entry has no dimension. -/
theorem C124_scaling_violated {K K' : CellG} {n : ℕ} (hn : 0 < n) (h : K.IsEllipse 0 0 2 1 (2 * n))
    (h' : K'.IsEllipse 0 0 (2 / 10 ^ 7) (1 / 10 ^ 7) (2 * n)) :
    ∃ M M' : Mat, doubleMat K = .ok M ∧ doubleMat K' = .ok M' ∧ M.at' 0 n = -1 / (8 * n) ∧ M'.at' 0 n = -1 / (2 * n) := by
  obtain ⟨M, hM, -, -, hMe⟩ := C51_double h.ready h.apart
  obtain ⟨M', hM', -, -, hMe'⟩ := C51_double h'.ready h'.apart
  refine ⟨M, M', hM, hM', ?_, ?_⟩
  · obtain ⟨P, p1, p2, p3, p4, p5, -, -⟩ := h.node (show 0 < 2 * n by omega)
    obtain ⟨Q, q1, q2, q3, q4, q5, q6, q7⟩ := h.node (show n < 2 * n by omega)
    have e := hMe P Q
    rw [p4, q4] at e
    rw [e]
    have hn' : (n : ℝ) ≠ 0 := by exact_mod_cast hn.ne'
    have hθ : 2 * Real.pi * (n : ℝ) / ((2 * n : ℕ) : ℝ) = Real.pi := by push_cast; field_simp
    have hd : sqDist P.s Q.s = 16 := by
      rw [p5, q5]
      simp only [sqDist, ellipseSample, hθ]
      norm_num
    have hg : Q.s.dxNorm = 1 := by
      rw [q5]
      simp only [ellipseSample, hθ]
      norm_num
    have hnum : (P.s.x - Q.s.x) * Q.s.nx + (P.s.y - Q.s.y) * Q.s.ny = -4 := by
      rw [p5, q5]
      simp only [ellipseSample, hθ]
      norm_num
    simp only [doubleEntry, if_neg q7, q6, hd, hg, hnum]
    rw [if_neg (by norm_num)]
    push_cast
    field_simp
    norm_num
  · obtain ⟨P, p1, p2, p3, p4, p5, -, -⟩ := h'.node (show 0 < 2 * n by omega)
    obtain ⟨Q, q1, q2, q3, q4, q5, q6, q7⟩ := h'.node (show n < 2 * n by omega)
    have e := hMe' P Q
    rw [p4, q4] at e
    rw [e]
    have hn' : (n : ℝ) ≠ 0 := by exact_mod_cast hn.ne'
    have hθ : 2 * Real.pi * (n : ℝ) / ((2 * n : ℕ) : ℝ) = Real.pi := by push_cast; field_simp
    have hd : sqDist P.s Q.s = 16 / 10 ^ 14 := by
      rw [p5, q5]
      simp only [sqDist, ellipseSample, hθ]
      norm_num
    have hg : Q.s.dxNorm = 1 / 10 ^ 7 := by
      rw [q5]
      simp only [ellipseSample, hθ, Real.sin_pi, Real.cos_pi]
      rw [show ((2 : ℝ) / 10 ^ 7) ^ 2 * 0 ^ 2 + (1 / 10 ^ 7) ^ 2 * (-1) ^ 2 = (1 / 10 ^ 7) ^ 2 by norm_num]
      exact Real.sqrt_sq (by norm_num)
    have hcg : Q.s.curv = -(2 / 10 ^ 7 * (1 / 10 ^ 7)) / Q.s.dxNorm ^ 3 := by
      rw [q5]
      rfl
    have hc : Q.s.curv = -(2 / 10 ^ 7 * (1 / 10 ^ 7)) / (1 / 10 ^ 7) ^ 3 := by rw [hcg, hg]
    have hse : P.SameEdge Q := ⟨p1.trans q1.symm, p2.trans q2.symm⟩
    simp only [doubleEntry, if_neg q7, q6, hd, hg, hc]
    rw [if_pos ⟨hse, by norm_num⟩]
    push_cast
    field_simp

end PFEM
