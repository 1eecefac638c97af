import Verif.Spec.HarmInit
import Verif.Props.LocInit
import Verif.Props.Jacobi

/-!
Property theorems C74: a harmonic function made from boundary values and a solver.
-/

namespace PFEM
open Nystrom Antilap

/-! ### the solver's logarithmic terms -/

/-- C74: a solver made for a cell holds the logarithmic terms of its holes. -/
theorem C74_solver {gmres : Gmres} {K : CellG} (h : K.Ready) (hev : K.Even) (hne : ∀ c ∈ K.components, c.edges ≠ []) (hh : K.Holes)
    {strategy pc : String} {s : Solver} (hs : Nystrom.init gmres K strategy pc = .ok s) : s.Of K := by
  obtain ⟨ho, hl, -⟩ := init_parts hs
  refine ⟨(build_shape h ho).1, fun h0 => ?_⟩
  obtain ⟨-, g, hg, hlt⟩ := hl.resolve_right fun q => h0 q.1
  obtain ⟨g', hg', -, hall⟩ := C67_terms h hev hne hh ho
  rw [hlt] at hg'
  cases hg'
  exact ⟨g, hg, hall⟩

theorem HasGrad.unique {u : ℝ → ℝ → ℝ} {x y g1 g2 k1 k2 : ℝ} (h : HasGrad u x y g1 g2) (k : HasGrad u x y k1 k2) : g1 = k1 ∧ g2 = k2 :=
  ⟨h.1.unique k.1, h.2.unique k.2⟩

/-- the term of pole `j` -/
theorem Nystrom.Solver.Of.term {s : Solver} {K : CellG} (hs : s.Of K) (h0 : K.numHoles ≠ 0) : ∃ g, s.log = some g ∧
    ∀ (j : ℕ) (p : Vert), (poles K)[j]? = some p → ∃ t, g.lam[j]? = some t ∧ t.values = some (K.samplesOf (logDist p)) ∧
      t.wnd = some (lamN K p) := by
  obtain ⟨g, hg, hall⟩ := hs.log h0
  refine ⟨g, hg, fun j p hp => ?_⟩
  simp only [poles, List.getElem?_map, Option.map_eq_some_iff, List.getElem?_tail] at hp
  obtain ⟨c, hc, hcp⟩ := hp
  obtain ⟨q, t, hq, ht, -, hv, hon, g1, g2, hg1, hw, -⟩ := hall j c hc
  rw [hq] at hcp
  cases hcp
  refine ⟨t, ht, hv, ?_⟩
  rw [hw]
  congr 1
  refine List.map_congr_left fun z hz => ?_
  obtain ⟨e1, e2⟩ := (hg1 z.x z.y (hon z hz)).unique (logDist_grad (hon z hz))
  simp only [Option.getD_some]
  rw [e1, e2]

/-! ### the loops over the holes -/

theorem zipWith_twice {α β γ δ : Type} (f : γ → β → δ) (g : α → β → γ) : ∀ (l : List α) (m : List β),
    List.zipWith f (List.zipWith g l m) m = List.zipWith (fun x y => f (g x y) y) l m
  | [], _ => by simp
  | _ :: _, [] => by simp
  | a :: l, b :: m => by simp [zipWith_twice f g l m]

theorem add_smul_map {l : List Sample} {acc : List ℝ} (hl : acc.length = l.length) (r : ℝ) (f : Sample → ℝ) :
    Np.add acc (Np.smul r (l.map f)) = .ok (List.zipWith (fun x q => x + r * f q) acc l) := by
  rw [Np.add, bin_eq _ (by simp [Np.smul, hl])]
  congr 1
  simp only [Np.smul, List.map_map]
  rw [List.zipWith_map_right]
  rfl

theorem logLoop_ok {s : Solver} {K : CellG} {g : LogTerms} (hg : s.log = some g) {a : List ℝ} (ha : a.length = (poles K).length)
    {get : Trace → Py (List ℝ)} {F : Vert → Sample → ℝ}
    (hget : ∀ (j : ℕ) (p : Vert), (poles K)[j]? = some p → ∃ t, g.lam[j]? = some t ∧ get t = .ok (K.cols.map (F p))) :
    ∀ (n j : ℕ) (acc : List ℝ), j + n = (poles K).length → acc.length = K.cols.length →
      LocHarm.logLoop s a get n j acc =
        .ok (List.zipWith (fun x q => x + (List.zipWith (fun c p => c * F p q) (a.drop j) ((poles K).drop j)).sum) acc K.cols)
  | 0, j, acc, hj, hl => by
    simp only [LocHarm.logLoop]
    rw [List.drop_of_length_le (l := poles K) (by omega)]
    congr 1
    simp only [List.zipWith_nil_right, List.sum_nil, add_zero]
    refine List.ext_getElem (by simp [hl]) fun i h1 h2 => by simp
  | n + 1, j, acc, hj, hl => by
    have hjl : j < (poles K).length := by omega
    obtain ⟨t, ht, hv⟩ := hget j (poles K)[j] (List.getElem?_eq_getElem hjl)
    have hja : j < a.length := by omega
    have e1 : Np.get g.lam j = .ok t := by simp [Np.get, ht]
    have e2 : Np.get a j = .ok a[j] := by simp [Np.get, List.getElem?_eq_getElem hja]
    simp only [LocHarm.logLoop, hg, Trace.attr, py_ok_bind, e1, hv, e2, add_smul_map hl]
    rw [logLoop_ok hg ha hget n (j + 1) _ (by omega) (by simp [hl])]
    congr 1
    rw [zipWith_twice]
    congr 1
    funext x q
    rw [List.drop_eq_getElem_cons hja, List.drop_eq_getElem_cons hjl]
    simp only [List.zipWith_cons_cons, List.sum_cons]
    ring

theorem withLogs_poles (K : CellG) (a : List ℝ) (ψ : ℝ → ℝ → ℝ) (x y : ℝ) :
    withLogs K a ψ x y = ψ x y + (List.zipWith (fun c p => c * logDist p x y) a (poles K)).sum := by
  simp only [withLogs, poles, List.zipWith_map_right]

theorem logsNormal_poles (K : CellG) (a : List ℝ) (s : Sample) : logsNormal K a s =
    (List.zipWith (fun c p => c * (((s.x - p.x) / sq p s.x s.y * s.nx + (s.y - p.y) / sq p s.x s.y * s.ny) * s.dxNorm)) a (poles K)).sum := by
  simp only [logsNormal, poles, List.zipWith_map_right]
  congr 2
  funext c k
  simp only [sq]
  ring

/-- the two loops, on a cell with or without holes -/
theorem loops_ok {s : Solver} {K : CellG} (hs : s.Of K) {a : List ℝ} (ha : a.length = K.numHoles) {acc : List ℝ} (hl : acc.length = K.cols.length) :
    LocHarm.logLoop s a (fun t => Trace.attr t.values) K.numHoles 0 acc =
      .ok (List.zipWith (fun x q => x + withLogs K a (fun _ _ => 0) q.x q.y) acc K.cols) ∧
    LocHarm.logLoop s a LocHarm.lamNormal K.numHoles 0 acc = .ok (List.zipWith (fun x q => x + logsNormal K a q) acc K.cols) := by
  have hp := poles_length K
  simp only [withLogs_poles, logsNormal_poles, zero_add]
  by_cases h0 : K.numHoles = 0
  · have hpn : poles K = [] := List.length_eq_zero_iff.1 (hp.trans h0)
    have hz : List.zipWith (fun (x : ℝ) (_ : Sample) => x) acc K.cols = acc :=
      List.ext_getElem (by simp [hl]) fun i h1 h2 => by simp
    rw [h0]
    simp [LocHarm.logLoop, hpn, hz]
  · obtain ⟨g, hg, hall⟩ := hs.term h0
    constructor
    · rw [logLoop_ok hg (ha.trans hp.symm) (F := fun p q => logDist p q.x q.y) (fun j p hj => ?_) _ 0 acc (by omega) hl]
      · simp
      · obtain ⟨t, ht, hv, -⟩ := hall j p hj
        exact ⟨t, ht, by simp only [hv, Trace.attr]; rfl⟩
    · rw [logLoop_ok hg (ha.trans hp.symm)
        (F := fun p q => ((q.x - p.x) / sq p q.x q.y * q.nx + (q.y - p.y) / sq p q.x q.y * q.ny) * q.dxNorm) (fun j p hj => ?_) _ 0 acc (by omega) hl]
      · simp
      · obtain ⟨t, ht, -, hw⟩ := hall j p hj
        exact ⟨t, ht, by simp only [hw, LocHarm.lamNormal]; rfl⟩

/-! ### Fourier derivatives on a cell -/

theorem fits_blocks (ws : List ℕ) : ∀ v : List ℝ, v.length = ws.sum → ∃ us : List (List ℝ), us.map List.length = ws ∧ us.flatten = v := by
  induction ws with
  | nil => intro v hv; exact ⟨[], rfl, by simpa using (List.length_eq_zero_iff.1 (by simpa using hv)).symm⟩
  | cons w ws ih =>
    intro v hv
    obtain ⟨us, h1, h2⟩ := ih (v.drop w) (by simp only [List.length_drop, hv, List.sum_cons]; omega)
    refine ⟨v.take w :: us, ?_, by simp [h2]⟩
    simp only [List.map_cons, h1, List.length_take, hv, List.sum_cons]
    congr 1
    omega

theorem exists_fits {K : CellG} {v : List ℝ} (hv : v.length = K.cols.length) : ∃ us : List (List ℝ), Fits K us ∧ us.flatten = v := by
  obtain ⟨us, h1, h2⟩ := fits_blocks (K.components.map fun c => c.cols.length) v (by rw [hv, CellG.cols, List.length_flatMap])
  exact ⟨us, h1, h2⟩

theorem wtd_total {K : CellG} (h : K.Ready) (hne : ∀ c ∈ K.components, c.edges ≠ []) {v : List ℝ} (hv : v.length = K.numPts) :
    ∃ w, wtdFromTrace K v = .ok w ∧ w.length = K.numPts := by
  obtain ⟨us, hu, rfl⟩ := exists_fits (hv.trans h.numPts)
  obtain ⟨vs, hf, hw⟩ := (C49_cell h hne hu).1
  refine ⟨_, hw, ?_⟩
  have hl : vs.map List.length = us.map List.length := by
    have : ∀ (cs : List ContourG) (us vs : List (List ℝ)), us.map List.length = cs.map (fun c => c.cols.length) →
        (∀ c ∈ cs, c ∈ K.components) →
        List.Forall₂ (fun (q : ContourG × List ℝ) v => fftDerivative q.2 (2 * Real.pi * q.1.edges.length) = .ok v) (cs.zip us) vs →
        vs.map List.length = us.map List.length := by
      intro cs
      induction cs with
      | nil => intro us vs h1 _ h2; cases us <;> simp_all
      | cons c cs ih =>
        intro us vs h1 h2 h3
        match us, vs, h1, h3 with
        | u :: us, _ :: vs, h1, .cons h4 h5 =>
          simp only [List.map_cons, List.cons.injEq] at h1 ⊢
          refine ⟨?_, ih us vs h1.2 (fun c hc => h2 c (by simp [hc])) h5⟩
          have hc := h2 c (by simp)
          have hu0 : u ≠ [] := by
            rintro rfl
            obtain ⟨e, l, hel⟩ := List.exists_cons_of_ne_nil (hne c hc)
            obtain ⟨L, hL, hL2⟩ := (h.ready c hc).sampled e (by rw [hel]; simp)
            have := h1.1
            rw [ContourG.cols_len, hel] at this
            simp [cols_length hL] at this
            omega
          obtain ⟨d, hd, hdl, -⟩ := C49_sum u hu0 (2 * Real.pi * c.edges.length) (by simpa [Real.pi_ne_zero] using hne c hc)
          rw [hd] at h4
          cases h4
          exact hdl
    exact this _ _ _ hu (fun _ h => h) hf
  rw [hv.symm, List.length_flatten, List.length_flatten, hl]

/-- the Fourier derivative of a function that is resolved along every component -/
theorem wtd_exact {K : CellG} (h : K.Ready) (hU : Uniform K) {f g1 g2 : ℝ → ℝ → ℝ} (ht : ∀ c ∈ K.components, TrigAlong c f g1 g2) :
    wtdFromTrace K (K.samplesOf f) = .ok (K.tangentOf g1 g2) := by
  have hne : ∀ c ∈ K.components, c.edges ≠ [] := fun c hc => (hU c hc).1
  have e1 : K.samplesOf f = (K.components.map fun c => c.cols.map fun s => f s.x s.y).flatten := samples_blocks K _
  have e2 : K.tangentOf g1 g2 = (K.components.map fun c => c.cols.map fun s => (g1 s.x s.y * s.tx + g2 s.x s.y * s.ty) * s.dxNorm).flatten :=
    samples_blocks K _
  have hu : Fits K (K.components.map fun c => c.cols.map fun s => f s.x s.y) := by
    simp only [Fits, List.map_map]
    exact List.map_congr_left fun c _ => by simp
  obtain ⟨vs, hf, hw⟩ := (C49_cell h hne hu).1
  rw [e1, hw, e2]
  congr 2
  have : ∀ (cs : List ContourG) (vs : List (List ℝ)), (∀ c ∈ cs, c ∈ K.components) →
      List.Forall₂ (fun (q : ContourG × List ℝ) v => fftDerivative q.2 (2 * Real.pi * q.1.edges.length) = .ok v)
        (cs.zip (cs.map fun c => c.cols.map fun s => f s.x s.y)) vs →
      vs = cs.map fun c => c.cols.map fun s => (g1 s.x s.y * s.tx + g2 s.x s.y * s.ty) * s.dxNorm := by
    intro cs
    induction cs with
    | nil => intro vs _ h1; cases h1; rfl
    | cons c cs ih =>
      intro vs h1 h2
      simp only [List.map_cons, List.zip_cons_cons] at h2
      cases h2 with
      | cons h3 h4 =>
        have hc := h1 c (by simp)
        obtain ⟨a, b, M, hM, hs, hd⟩ := ht c hc
        have hl : (2 * Real.pi * (c.edges.length : ℝ)) ≠ 0 := by simpa [Real.pi_ne_zero] using hne c hc
        simp only at h3
        rw [hs, C49_exact _ (cols_pos h hU hc) _ hl a b M hM, ← hd] at h3
        cases h3
        rw [ih _ (fun c hc => h1 c (by simp [hc])) h4, List.map_cons]
  exact this _ _ (fun _ h => h) hf

/-! ### the constructor -/

theorem sizes_of {K : CellG} (h : K.Ready) {t : Trace} (ht : t.edges = K.getEdges) : t.sizes.sum = K.numPts := by
  have := getEdges_sizes h
  rw [Trace.sizes_bare] at this
  rw [Trace.sizes, ht]
  exact this

/-- C74: `LocalHarmonic(trace, nyst)` for any boundary values: if the solver answers with a conjugate and coefficients of the right sizes and
the anti-Laplacian is found, the object is complete.  It keeps the boundary values and stores their Fourier derivative, the conjugate, the
coefficients, the boundary values minus the logarithmic terms, as normal derivative the Fourier derivative of the conjugate plus the normal
derivatives of the logarithmic terms, and the anti-Laplacian of exactly these data. -/
theorem C74_data {gmres : Gmres} {s : Solver} {K : CellG} (h : K.Ready) (hne : ∀ c ∈ K.components, c.edges ≠ []) (hs : s.Of K) {t : Trace}
    (ht : t.On K.getEdges) {v c a : List ℝ} (hv : t.values = some v) (hc : conjugate gmres s v = .ok (c, a)) (hcl : c.length = K.numPts)
    (hal : a.length = K.numHoles) {P W : List ℝ}
    (hP : antilaplacian gmres s (List.zipWith (fun x q => x - withLogs K a (fun _ _ => 0) q.x q.y) v K.cols) c a = .ok (P, W))
    (hPl : P.length = K.numPts) (hWl : W.length = K.numPts) :
    ∃ r w d, LocHarm.init gmres t (some s) = .ok r ∧ wtdFromTrace K v = .ok w ∧ wtdFromTrace K c = .ok d ∧
      r.Full K.getEdges K.numHoles ∧ r.Built K v c a w d P W := by
  have hsz := sizes_of h ht.edges
  have hvl : v.length = K.numPts := by rw [← hsz]; exact ht.good.values v hv
  have hcell := hs.cell
  obtain ⟨w, hw, hwl⟩ := wtd_total h hne hvl
  obtain ⟨d, hd, hdl⟩ := wtd_total h hne hcl
  have hzl : (List.zipWith (fun x (q : Sample) => x - withLogs K a (fun _ _ => 0) q.x q.y) v K.cols).length = K.numPts := by
    simp [hvl, h.numPts]
  have hnl : (List.zipWith (fun x (q : Sample) => x + logsNormal K a q) d K.cols).length = K.numPts := by simp [hdl, h.numPts]
  have e1 : Trace.after (t.setWtd (.one (.arr w))) = .ok { t with wtd := some w } := by
    rw [Trace.setWtd_arr ht.good.toSized (by rw [hsz]; exact hwl)]; rfl
  have e2 : Np.sub v (List.zipWith (fun x (q : Sample) => x + withLogs K a (fun _ _ => 0) q.x q.y) (List.replicate K.numPts 0) K.cols) =
      .ok (List.zipWith (fun x q => x - withLogs K a (fun _ _ => 0) q.x q.y) v K.cols) := by
    rw [Np.sub, bin_eq _ (by simp [hvl, h.numPts])]
    congr 1
    refine List.ext_getElem (by simp [hvl, h.numPts]) fun i h1 h2 => by simp
  have hg1 : ({ t with wtd := some w } : Trace).Good :=
    ⟨⟨ht.good.sampled, ht.good.numEdges, ht.good.numPts, ht.good.idx⟩, ht.good.values, ht.good.wnd, fun a ha => by cases ha; rw [← hsz] at hwl; exact hwl⟩
  have e3 : Trace.after (({ t with wtd := some w } : Trace).setWnd (.one (.arr (List.zipWith (fun x q => x + logsNormal K a q) d K.cols)))) =
      .ok { t with wtd := some w, wnd := some (List.zipWith (fun x q => x + logsNormal K a q) d K.cols) } := by
    rw [Trace.setWnd_arr hg1.toSized (by rw [← hsz] at hnl; exact hnl)]; rfl
  have hg2 : ({ t with wtd := some w, wnd := some (List.zipWith (fun x q => x + logsNormal K a q) d K.cols) } : Trace).Good :=
    ⟨⟨ht.good.sampled, ht.good.numEdges, ht.good.numPts, ht.good.idx⟩, ht.good.values, fun a ha => by cases ha; rw [← hsz] at hnl; exact hnl,
      fun a ha => by cases ha; rw [← hsz] at hwl; exact hwl⟩
  have hI : LocHarm.init gmres t (some s) = .ok ⟨{ t with wtd := some w, wnd := some (List.zipWith (fun x q => x + logsNormal K a q) d K.cols) },
      some (Trace.made K.getEdges (some (List.zipWith (fun x q => x - withLogs K a (fun _ _ => 0) q.x q.y) v K.cols)) none none),
      some (Trace.made K.getEdges (some c) none none), some a, some (some (Trace.made K.getEdges (some P) (some W) none))⟩ := by
    have ea : Trace.attr t.values = .ok v := by rw [hv]; rfl
    have el := (loops_ok hs hal (acc := List.replicate K.numPts 0) (by simp [h.numPts])).1
    have en := (loops_ok hs hal (acc := d) (hdl.trans h.numPts)).2
    simp only [LocHarm.init, hcell]
    rw [ea, py_ok_bind, hw, py_ok_bind, e1, py_ok_bind, hc, py_ok_bind]
    dsimp only
    rw [init_arr h hcl, py_ok_bind, el, py_ok_bind, e2, py_ok_bind, init_arr h hzl, py_ok_bind, hd, py_ok_bind, en, py_ok_bind, e3, py_ok_bind,
      hP, py_ok_bind]
    dsimp only
    rw [init_arr h hPl, py_ok_bind, made_setWnd h _ _ _ hWl, py_ok_bind]
  have hn : ∀ {b : List ℝ}, (none : Option (List ℝ)) = some b → b.length = K.numPts := fun e => by cases e
  have hw' : ∀ {b : List ℝ}, some W = some b → b.length = K.numPts := fun e => by cases e; exact hWl
  refine ⟨_, w, d, hI, hw, hd, ⟨⟨⟨hg2, ht.edges, v, hv⟩, ⟨_, rfl, made_on h hzl (fun _ => hn) fun _ => hn⟩,
    ⟨_, rfl, made_on h hcl (fun _ => hn) fun _ => hn⟩, ⟨a, rfl, hal⟩, _, rfl, made_on h hPl (fun _ => hw') fun _ => hn⟩, ⟨_, rfl⟩, _, _, rfl, rfl⟩,
    ⟨hv, rfl, rfl, ⟨_, rfl, rfl⟩, ⟨_, rfl, rfl⟩, rfl, _, rfl, rfl, rfl⟩⟩

/-! ### exactness -/

/-- the gradient of a sum of logarithmic terms -/
theorem logSum_grad (ps : List Vert) (a : List ℝ) {x y : ℝ} (h : ∀ p ∈ ps, (x, y) ∈ away p) :
    HasGrad (fun x y => (List.zipWith (fun c p => c * logDist p x y) a ps).sum) x y
      (List.zipWith (fun c p => c * ((x - p.x) / sq p x y)) a ps).sum (List.zipWith (fun c p => c * ((y - p.y) / sq p x y)) a ps).sum := by
  induction ps generalizing a with
  | nil => simpa using ⟨hasDerivAt_const x (0 : ℝ), hasDerivAt_const y (0 : ℝ)⟩
  | cons p ps ih =>
    cases a with
    | nil => simpa using ⟨hasDerivAt_const x (0 : ℝ), hasDerivAt_const y (0 : ℝ)⟩
    | cons c a =>
      simp only [List.zipWith_cons_cons, List.sum_cons]
      have h1 := logDist_grad (h p (by simp))
      have h2 := ih a fun q hq => h q (by simp [hq])
      exact ⟨(h1.1.const_mul c).fun_add h2.1, (h1.2.const_mul c).fun_add h2.2⟩

theorem logsNormal_grad (K : CellG) (a : List ℝ) (s : Sample) : logsNormal K a s =
    ((List.zipWith (fun c p => c * ((s.x - p.x) / sq p s.x s.y)) a (poles K)).sum * s.nx +
      (List.zipWith (fun c p => c * ((s.y - p.y) / sq p s.x s.y)) a (poles K)).sum * s.ny) * s.dxNorm := by
  rw [logsNormal_poles]
  generalize poles K = ps
  induction ps generalizing a with
  | nil => simp
  | cons p ps ih =>
    cases a with
    | nil => simp
    | cons c a =>
      simp only [List.zipWith_cons_cons, List.sum_cons, ih]
      ring

/-- C74: when the solver finds the harmonic conjugate, the object holds the data of the harmonic function.  `φ = ψ + Σ a_j log|· - ξ_j|` in
`S`, which contains the samples and none of the poles; `ψ` has the gradient `(p, q)` and its conjugate `ψ'` the gradient `(-q, p)`; the
discretization resolves `φ` and `ψ'` along the boundary; the solver answers with the boundary values of `ψ'` and the coefficients `a`,
and the anti-Laplacian is that of `φ`.  Then the stored values, normal and tangential derivatives are those of `φ`, and so on: in particular
the normal derivative of `φ` is found from the tangential derivative of `ψ'`. -/
theorem C74_holds {gmres : Gmres} {s : Solver} {K : CellG} (h : K.Ready) (hU : Uniform K) (hN : K.Normals) (hs : s.Of K) {S : Set (ℝ × ℝ)}
    (hon : ∀ z ∈ K.cols, (z.x, z.y) ∈ S) (hpo : ∀ c ∈ K.components.tail, ∃ ξ, c.interior = some ξ ∧ S ⊆ away ξ)
    {φ ψ ψ' p q g1 g2 : ℝ → ℝ → ℝ} {a : List ℝ} (hψ : HasGradOn S ψ p q) (hψ' : HasGradOn S ψ' (fun x y => -q x y) p)
    (hφ : ∀ x y, φ x y = withLogs K a ψ x y) (hg : HasGradOn S φ g1 g2) (hal : a.length = K.numHoles) {t : Trace} (ht : t.On K.getEdges)
    (hv : t.values = some (K.samplesOf φ)) (hr : ∀ c ∈ K.components, TrigAlong c φ g1 g2)
    (hr' : ∀ c ∈ K.components, TrigAlong c ψ' (fun x y => -q x y) p) (hc : conjugate gmres s (K.samplesOf φ) = .ok (K.samplesOf ψ', a))
    {P W : List ℝ} (hP : antilaplacian gmres s (K.samplesOf ψ) (K.samplesOf ψ') a = .ok (P, W)) (hA : AntilaplacianData K S φ P W) :
    ∃ r, LocHarm.init gmres t (some s) = .ok r ∧ r.Full K.getEdges K.numHoles ∧ r.Holds K S φ := by
  have hne : ∀ c ∈ K.components, c.edges ≠ [] := fun c hc => (hU c hc).1
  have hpsi : List.zipWith (fun x (z : Sample) => x - withLogs K a (fun _ _ => 0) z.x z.y) (K.samplesOf φ) K.cols = K.samplesOf ψ := by
    simp only [CellG.samplesOf]
    rw [List.zipWith_map_left, List.zipWith_self]
    refine List.map_congr_left fun z _ => ?_
    rw [hφ]
    simp [withLogs]
  have hAl : P.length = K.numPts ∧ W.length = K.numPts := by
    obtain ⟨_, _, _, -, -, rfl, rfl⟩ := hA
    exact ⟨samples_len h _, normal_len h _ _⟩
  obtain ⟨r, w, d, hI, hw, hd, hF, hB⟩ := C74_data h hne hs ht hv hc (samples_len h _) hal (by rw [hpsi]; exact hP) hAl.1 hAl.2
  rw [wtd_exact h hU hr] at hw
  rw [wtd_exact h hU hr'] at hd
  cases hw
  cases hd
  have hpoles : ∀ ξ ∈ poles K, S ⊆ away ξ := by
    intro ξ hξ
    obtain ⟨c, hc, rfl⟩ := List.mem_map.1 hξ
    obtain ⟨ξ, h1, h2⟩ := hpo c hc
    rwa [h1]
  have hgrad : ∀ x y, (x, y) ∈ S → g1 x y = p x y + (List.zipWith (fun c ξ => c * ((x - ξ.x) / sq ξ x y)) a (poles K)).sum ∧
      g2 x y = q x y + (List.zipWith (fun c ξ => c * ((y - ξ.y) / sq ξ x y)) a (poles K)).sum := by
    intro x y hxy
    have h1 := logSum_grad (poles K) a fun ξ hξ => hpoles ξ hξ hxy
    have h2 := hψ x y hxy
    refine (hg x y hxy).unique ?_
    have e : φ = fun x y => ψ x y + (List.zipWith (fun c ξ => c * logDist ξ x y) a (poles K)).sum := by
      funext x y; rw [hφ, withLogs_poles]
    rw [e]
    exact ⟨h2.1.fun_add h1.1, h2.2.fun_add h1.2⟩
  have hwn : List.zipWith (fun x z => x + logsNormal K a z) (K.tangentOf (fun x y => -q x y) p) K.cols = K.normalOf g1 g2 := by
    simp only [CellG.tangentOf, CellG.normalOf]
    rw [List.zipWith_map_left, List.zipWith_self]
    refine List.map_congr_left fun z hz => ?_
    obtain ⟨e1, e2⟩ := hgrad _ _ (hon z hz)
    obtain ⟨n1, n2⟩ := hN z hz
    rw [logsNormal_grad, e1, e2, n1, n2]
    ring
  obtain ⟨u, hu, huv⟩ := hB.psi
  obtain ⟨b, hb, hbv, hbw⟩ := hB.biharm
  refine ⟨r, hI, hF, ⟨ψ, ψ', a, ⟨p, q, hψ, hψ'⟩, hB.logCoef, hal, fun x y _ => hφ x y, ⟨u, hu, by rw [huv, hpsi]⟩, hB.conj⟩, ?_,
    b, P, W, hb, hbv, hbw, hA⟩
  exact ⟨hF.trace.edges, hB.values, hon, g1, g2, hg, by rw [hB.wnd, hwn], by rw [hB.wtd]; rfl⟩

/-- C74, a cell without holes.  `ψ`, `ψ'` are conjugate in `S` and have the integrals `ρ`, `ρ'`; the discretization resolves all four along
the boundary; the solver finds `ψ'`.  Then the object made from the boundary values of `ψ` holds the data of `ψ`. -/
theorem C74_simply_connected {gmres : Gmres} {s : Solver} {K : CellG} (h : K.Ready) (hU : Uniform K) (hN : K.Normals) {c : ContourG}
    (hK : K.components = [c]) (hs : s.ops.K = K) {S : Set (ℝ × ℝ)} (hon : ∀ z ∈ K.cols, (z.x, z.y) ∈ S) {ψ ψ' p q ρ ρ' : ℝ → ℝ → ℝ}
    (hψ : HasGradOn S ψ p q) (hψ' : HasGradOn S ψ' (fun x y => -q x y) p) (hρ : HasGradOn S ρ ψ fun x y => -ψ' x y)
    (hρ' : HasGradOn S ρ' ψ' ψ) (hr : TrigAlong c ψ p q) (hr' : TrigAlong c ψ' (fun x y => -q x y) p)
    (ht : TrigAlong c ρ ψ fun x y => -ψ' x y) (ht' : TrigAlong c ρ' ψ' ψ) {t : Trace} (hto : t.On K.getEdges)
    (hv : t.values = some (K.samplesOf ψ)) (hc : conjugate gmres s (K.samplesOf ψ) = .ok (K.samplesOf ψ', [])) :
    ∃ r, LocHarm.init gmres t (some s) = .ok r ∧ r.Full K.getEdges K.numHoles ∧ r.Holds K S ψ := by
  have h0 : K.numHoles = 0 := by simp [CellG.numHoles, hK]
  subst hs
  obtain ⟨P, W, hP, hA⟩ := C52_simply_connected (gmres := gmres) h hU hK ⟨p, q, hψ, hψ'⟩ hρ hρ' ht ht' []
  refine C74_holds h hU hN ⟨rfl, fun hn => absurd h0 hn⟩ hon (by simp [hK]) (a := []) hψ hψ' (fun x y => by simp [withLogs]) hψ
    (by simp [h0]) hto hv ?_ ?_ hc hP hA
  · intro c' hc'
    rw [hK, List.mem_singleton] at hc'
    rwa [hc']
  · intro c' hc'
    rw [hK, List.mem_singleton] at hc'
    rwa [hc']

/-- C74: without a solver there is the trace and nothing else; the operators then raise `AttributeError`. -/
theorem C74_without_solver (gmres : Gmres) (t : Trace) : ∃ r, LocHarm.init gmres t none = .ok r ∧ r.trace = t ∧
    r.psi = none ∧ r.conj = none ∧ r.logCoef = none ∧ r.biharm = none :=
  ⟨_, rfl, rfl, rfl, rfl, rfl, rfl⟩

/-! ### an example: the constant one on the disc -/

/-- a solver for the disc with the true system shape but trivial operators -/
noncomputable def discSolver : Solver := ⟨⟨discCell, Mat.zeros 4 4, Mat.zeros 4 4, [0, 0, 0, 0]⟩, none, [1, 1, 1, 1], "direct", none⟩

open Classical in
/-- an exact solver of linear systems that only knows the zero vector -/
noncomputable def zeroGmres : Gmres := fun A b _ => if A [0, 0, 0, 0] = .ok b then .ok [0, 0, 0, 0] else .error .runtimeError

theorem zeroGmres_exact : Exact zeroGmres := by
  intro A b M x hx
  unfold zeroGmres at hx
  split_ifs at hx with h
  cases hx
  exact h

theorem cross_const (r σ k : ℝ) : TrigAlong (crossContour r σ) (fun _ _ => k) (fun _ _ => 0) fun _ _ => 0 := by
  refine ⟨fun j => if j = 0 then k else 0, fun _ => 0, 1, ?_, ?_, ?_⟩
  · intro j hj; rw [cross_cols]; simp [crossPt]; omega
  · rw [cross_cols]
    simp only [samples, trig, Finset.sum_range_succ, Finset.sum_range_zero]
    simp [crossPt, List.range_succ]
  · have e : ∀ T : ℝ, (fun t => deriv (trig (fun j => if j = 0 then k else 0) (fun _ => 0) 1 T) t) = fun _ => 0 := by
      intro T
      funext t
      rw [(trig_deriv _ _ 1 T t).deriv]
      simp [trig']
    rw [cross_cols, e]
    simp [samples, crossPt, List.range_succ]

theorem disc_normals : discCell.Normals := by
  intro s hs
  simp only [discCell, CellG.cols, List.flatMap_cons, List.flatMap_nil, List.append_nil, cross_cols, crossPt, List.mem_map] at hs
  obtain ⟨p, -, rfl⟩ := hs
  simp

theorem disc_conjugate : conjugate zeroGmres discSolver (discCell.samplesOf fun _ _ => 1) = .ok (discCell.samplesOf fun _ _ => 0, []) := by
  have h0 : discCell.numHoles = 0 := by simp [discCell, CellG.numHoles]
  have hn : discCell.numPts = 4 := rfl
  have hz : (discCell.tangentOf (fun _ _ => 0) fun _ _ => 0) = [0, 0, 0, 0] := by
    simp [CellG.tangentOf, discCell, CellG.cols, cross_cols, crossPt]
  have hz' : (discCell.samplesOf fun _ _ => 0) = [0, 0, 0, 0] := by
    simp [CellG.samplesOf, discCell, CellG.cols, cross_cols, crossPt]
  have hw : wtdFromTrace discCell (discCell.samplesOf fun _ _ => 1) = .ok [0, 0, 0, 0] := by
    rw [wtd_exact disc_ready.1 disc_ready.2 (g1 := fun _ _ => 0) (g2 := fun _ _ => 0), hz]
    intro c hc
    simp only [discCell, List.mem_singleton] at hc
    rw [hc]
    exact cross_const 1 1 1
  have hI : discCell.integrate [0, 0, 0, 0] = .ok 0 := by
    rw [cell_integrate disc_ready.1 (fun c hc => (disc_ready.2 c hc).1) (by simp [discCell, CellG.cols, cross_cols, crossPt])]
    have : ∀ l m : List ℝ, (∀ x ∈ l, x = 0) → (List.zipWith (fun x y => x * y) l m).sum = 0 := by
      intro l
      induction l with
      | nil => simp
      | cons a l ih =>
        intro m hm
        cases m with
        | nil => simp
        | cons b m => simp only [List.zipWith_cons_cons, List.sum_cons, ih m fun x hx => hm x (by simp [hx]), hm a (by simp)]; simp
    simp only [dot, entrywise]
    congr 1
    exact this _ _ (by simp)
  have hk : discSolver.ops.K = discCell := rfl
  have hs : discSolver.ops.single [0, 0, 0, 0] = .ok [0, 0, 0, 0] := by
    simp only [Ops.single, call, hn, discSolver]
    simp [Mat.mulVec, Mat.zeros, List.range_succ]
  have hA : discSolver.ops.neumann [0, 0, 0, 0] = .ok [0, 0, 0, 0] := by
    have hd : discSolver.ops.double [0, 0, 0, 0] = .ok [0, 0, 0, 0] := by
      simp only [Ops.double, call, hn, discSolver]
      simp [doubleOp, discCell, Mat.mulVec, Mat.zeros, List.range_succ, ContourG.mapPy, Np.get, Np.bin, bind, Except.bind]
    simp only [Ops.neumann, call, hk, hn, hd, py_ok_bind, hI]
    simp
  simp only [conjugate, hk, hw, py_ok_bind, h0, if_true, solveNeumann, List.map_cons, List.map_nil, mul_zero, hs, zeroGmres, hA, hz']

/-- all data of the constant one on the disc -/
theorem disc_one {t : Trace} (ht : t.On discCell.getEdges) (hv : t.values = some (discCell.samplesOf fun _ _ => 1)) :
    ∃ r, LocHarm.init zeroGmres t (some discSolver) = .ok r ∧ r.Full discCell.getEdges discCell.numHoles ∧
      r.Holds discCell Set.univ fun _ _ => 1 :=
  C74_simply_connected disc_ready.1 disc_ready.2 disc_normals rfl rfl (S := Set.univ) (fun _ _ => trivial) (ψ' := fun _ _ => 0) (p := fun _ _ => 0)
    (q := fun _ _ => 0) (ρ := fun x _ => x) (ρ' := fun _ y => y) (fun _ _ _ => ⟨hasDerivAt_const _ _, hasDerivAt_const _ _⟩)
    (fun x y _ => ⟨by simpa using hasDerivAt_const x (0 : ℝ), hasDerivAt_const _ _⟩) (by simpa using grad_x Set.univ) (grad_y _)
    (cross_const 1 1 1) (by simpa using cross_const 1 1 0) (by simpa using cross_x 1 1) (cross_y 1 1) ht hv disc_conjugate

example : ∃ t r, t.On discCell.getEdges ∧ LocHarm.init zeroGmres t (some discSolver) = .ok r ∧ r.Holds discCell Set.univ fun _ _ => 1 := by
  have ht := made_on disc_ready.1 (samples_len disc_ready.1 fun _ _ => 1) (w := none) (d := none) nofun nofun
  obtain ⟨r, h1, -, h2⟩ := disc_one ht rfl
  exact ⟨_, r, ht, h1, h2⟩

end PFEM
