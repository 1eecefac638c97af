import Verif.Props.HarmAntilap
import Verif.Props.Indicators
import Verif.Props.Augmented
import Verif.Props.Fft

/-!
Property theorems C71: recovering boundary values from tangential and normal derivatives.
-/

namespace PFEM
open Nystrom Antilap

/-- the integral over one component -/
noncomputable def compInt (c : ContourG) (u : List ℝ) : ℝ :=
  2 * Real.pi * (c.edges.length : ℝ) / (c.cols.length : ℝ) * (List.zipWith (fun (s : Sample) v => v * s.dxNorm) c.cols u).sum

theorem compInt_ok {K : CellG} (h : K.Ready) (hU : Uniform K) {c : ContourG} (hc : c ∈ K.components) {u : List ℝ}
    (hu : u.length = c.cols.length) : c.integrate u = .ok (compInt c u) := by
  obtain ⟨hne, N, hN⟩ := hU c hc
  rw [contour_integrate (h.ready c hc) hN hu, compInt, cols_uniform hN]
  congr 2
  have h1 : (c.edges.length : ℝ) ≠ 0 := by simpa using hne
  push_cast
  rw [mul_comm (c.edges.length : ℝ) (N : ℝ), mul_div_mul_right _ _ h1]

theorem compInt_shift (c : ContourG) {u : List ℝ} (hu : u.length = c.cols.length) (k : ℝ) :
    compInt c (u.map (· + k)) = compInt c u + k * discLen c := by
  have : ∀ (l : List Sample) (u : List ℝ), u.length = l.length →
      (List.zipWith (fun (s : Sample) v => v * s.dxNorm) l (u.map (· + k))).sum =
        (List.zipWith (fun (s : Sample) v => v * s.dxNorm) l u).sum + k * (l.map Sample.dxNorm).sum := by
    intro l
    induction l with
    | nil => intro u _; simp
    | cons s l ih =>
      intro u hu
      match u, hu with
      | x :: u, hu =>
        simp only [List.map_cons, List.zipWith_cons_cons, List.sum_cons, ih u (by simpa using hu)]
        ring
  rw [compInt, this _ _ hu, compInt, discLen]
  ring

/-- what the loop makes of the values on component `j` -/
noncomputable def recBlock (D : ℕ → ℝ) (j : ℕ) (c : ContourG) (v : List ℝ) : List ℝ :=
  v.map (· + (-(compInt c v / discLen c) + if j = 0 then 0 else D j / discLen c))

theorem recBlock_length (D : ℕ → ℝ) (j : ℕ) (c : ContourG) (v : List ℝ) : (recBlock D j c v).length = v.length := by simp [recBlock]

/-- the blocks of the result -/
noncomputable def recBlocks (D : ℕ → ℝ) : ℕ → List ContourG → List (List ℝ) → List (List ℝ)
  | j, c :: cs, v :: vs => recBlock D j c v :: recBlocks D (j + 1) cs vs
  | _, _, _ => []

theorem recoverStep_ok {K : CellG} (h : K.Ready) (hU : Uniform K) {c : ContourG} (hc : c ∈ K.components) {eta : List Trace}
    {wnd : List ℝ} {D : ℕ → ℝ} {j : ℕ} {done v rest : List ℝ} (hj : Np.get K.startIdx j = .ok done.length)
    (hv : v.length = c.cols.length) (hne : discLen c ≠ 0)
    (hD : j ≠ 0 → ∃ e ev, Np.get eta (j - 1) = .ok e ∧ e.values = some ev ∧ ev.length = wnd.length ∧
      K.integratePreweighted (List.zipWith (· * ·) ev wnd) = .ok (D j)) :
    recoverStep K eta wnd j c (done ++ (v ++ rest)) = .ok (done ++ (recBlock D j c v ++ rest)) := by
  have hn : c.numPts = v.length := by rw [(h.ready c hc).numPts, hv]
  obtain ⟨hce, N, hN⟩ := hU c hc
  have hone := integrate_one (h.ready c hc) hce hN
  rw [hn] at hone
  have hsl := slice_block done v rest
  have hset : ∀ v w : List ℝ, w.length = v.length →
      Np.setSlice (done ++ (v ++ rest)) done.length (done.length + v.length) w = .ok (done ++ (w ++ rest)) := by
    intro v w hw
    rw [setSlice_block done (v ++ rest) w v.length (by simp) hw]
    simp
  unfold recoverStep
  simp only [hone, hj, py_ok_bind, hn, hsl, compInt_ok h hU hc hv, if_neg hne]
  rw [hset v _ (by simp [Np.shift])]
  simp only [py_ok_bind]
  by_cases h0 : j = 0
  · rw [if_pos h0]
    congr 3
    simp only [Np.shift, recBlock, if_pos h0, add_zero]
    exact List.map_congr_left fun x _ => by ring
  · rw [if_neg h0]
    obtain ⟨e, ev, h1, h2, h3, h4⟩ := hD h0
    have hm : Np.mul ev wnd = .ok (List.zipWith (· * ·) ev wnd) := bin_eq _ h3
    simp only [h1, h2, Trace.attr, py_ok_bind, hm, h4]
    have hl : (Np.shift v (compInt c v / discLen c)).length = v.length := by simp [Np.shift]
    have hsl' := slice_block done (Np.shift v (compInt c v / discLen c)) rest
    rw [hl] at hsl'
    rw [hsl']
    have hs' := hset (Np.shift v (compInt c v / discLen c))
      ((Np.shift v (compInt c v / discLen c)).map (· + D j / discLen c)) (by simp)
    rw [hl] at hs'
    rw [hs']
    congr 3
    simp only [Np.shift, recBlock, if_neg h0, List.map_map, Function.comp_def]
    exact List.map_congr_left fun x _ => by ring

theorem recoverLoop_ok {K : CellG} (h : K.Ready) (hU : Uniform K) {eta : List Trace} {wnd : List ℝ} {D : ℕ → ℝ} :
    ∀ (cs : List ContourG) (pre : List ℕ) (done : List ℝ) (vs : List (List ℝ)),
      (∀ c ∈ cs, c ∈ K.components ∧ discLen c ≠ 0) → K.startIdx = pre ++ offsets ContourG.numPts done.length cs →
      vs.map List.length = cs.map (fun c => c.cols.length) →
      (∀ j, pre.length ≤ j → j < pre.length + cs.length → j ≠ 0 → ∃ e ev, Np.get eta (j - 1) = .ok e ∧ e.values = some ev ∧
        ev.length = wnd.length ∧ K.integratePreweighted (List.zipWith (· * ·) ev wnd) = .ok (D j)) →
      recoverLoop K eta wnd pre.length (done ++ vs.flatten) cs = .ok (done ++ (recBlocks D pre.length cs vs).flatten)
  | [], pre, done, vs, _, _, hv, _ => by
    have : vs = [] := by simpa using hv
    subst this
    simp [recoverLoop, recBlocks]
  | c :: cs, pre, done, v :: vs, hc, hi, hv, hD => by
    simp only [List.map_cons, List.cons.injEq] at hv
    have hcm := hc c (by simp)
    have hn : c.numPts = c.cols.length := (h.ready c hcm.1).numPts
    have g1 : Np.get K.startIdx pre.length = .ok done.length := by rw [hi]; exact get_append _ _ _
    have hstep := recoverStep_ok h hU hcm.1 (rest := vs.flatten) g1 hv.1 hcm.2 (hD pre.length le_rfl (by simp))
    have hl : (done ++ recBlock D pre.length c v).length = done.length + c.numPts := by
      rw [List.length_append, recBlock_length, hv.1, hn]
    have ih := recoverLoop_ok h hU cs (pre ++ [done.length]) (done ++ recBlock D pre.length c v) vs (fun c' hc' => hc c' (by simp [hc']))
      (by rw [hi, hl]; simp [offsets]) hv.2 (fun j h1 h2 => hD j (by simp at h1; omega) (by simp at h2 ⊢; omega))
    simp only [recoverLoop, List.flatten_cons, hstep, py_ok_bind]
    simp only [List.append_assoc, List.length_append, List.length_singleton] at ih
    rw [ih]
    simp [recBlocks]
  | c :: cs, pre, done, [], _, _, hv, _ => by simp at hv

theorem recBlocks_get (D : ℕ → ℝ) : ∀ (cs : List ContourG) (vs : List (List ℝ)) (n j : ℕ) (c : ContourG) (v : List ℝ),
    cs[j]? = some c → vs[j]? = some v → (recBlocks D n cs vs)[j]? = some (recBlock D (n + j) c v)
  | c' :: cs, v' :: vs, n, 0, c, v, hc, hv => by
    simp only [List.getElem?_cons_zero, Option.some.injEq] at hc hv
    subst hc hv
    simp [recBlocks]
  | c' :: cs, v' :: vs, n, j + 1, c, v, hc, hv => by
    simp only [List.getElem?_cons_succ] at hc hv
    simp only [recBlocks, List.getElem?_cons_succ, recBlocks_get D cs vs (n + 1) j c v hc hv]
    congr 2
    omega
  | [], _, _, _, _, _, hc, _ => by simp at hc
  | _ :: _, [], _, _, _, _, _, hv => by simp at hv

theorem recBlocks_lengths (D : ℕ → ℝ) : ∀ (cs : List ContourG) (vs : List (List ℝ)) (n : ℕ),
    vs.map List.length = cs.map (fun c => c.cols.length) → (recBlocks D n cs vs).map List.length = cs.map fun c => c.cols.length
  | [], [], _, _ => rfl
  | c :: cs, v :: vs, n, h => by
    simp only [List.map_cons, List.cons.injEq] at h
    simp only [recBlocks, List.map_cons, recBlock_length, h.1, recBlocks_lengths D cs vs (n + 1) h.2]
  | [], _ :: _, _, h => by simp at h
  | _ :: _, [], _, h => by simp at h

/-- C71, what the recovered trace is.  The tangential derivative is given in blocks, one for each component.  On every component the recovered
values differ by a constant from the Fourier antiderivative of the block, and their integral is zero on the outer boundary and on
the boundary of hole `j` equal to the integral of `η_j ∂ρ/∂n` over the whole boundary.  Edges and derivatives of the trace stay. -/
def Recovered (K : CellG) (eta : List Trace) (wnd : List ℝ) (us vs : List (List ℝ)) : Prop :=
  Fits K vs ∧ ∀ (j : ℕ) (c : ContourG) (u : List ℝ), K.components[j]? = some c → us[j]? = some u → ∃ v F k, vs[j]? = some v ∧
    fftAntiderivative u (2 * Real.pi * c.edges.length) = .ok F ∧ v = F.map (· + k) ∧
    (j = 0 → c.integrate v = .ok 0) ∧
    (j ≠ 0 → ∃ e ev I, eta[j - 1]? = some e ∧ e.values = some ev ∧ K.integratePreweighted (List.zipWith (· * ·) ev wnd) = .ok I ∧
      c.integrate v = .ok I)

theorem C71_recover {s : Solver} (h : s.ops.K.Ready) (hU : Uniform s.ops.K) (hlen : ∀ c ∈ s.ops.K.components, discLen c ≠ 0)
    {eta : List Trace} (he : s.eta = some eta) (hel : s.ops.K.components.length ≤ eta.length + 1)
    (hev : ∀ e ∈ eta, ∃ ev, e.values = some ev ∧ ev.length = s.ops.K.numPts) {t : Trace} (ht : t.Good)
    (hts : t.sizes.sum = s.ops.K.numPts) {wnd : List ℝ} (hw : t.wnd = some wnd) (hwl : wnd.length = s.ops.K.numPts)
    {us : List (List ℝ)} (hu : Fits s.ops.K us) (hwt : t.wtd = some us.flatten) :
    ∃ vs, recover s t = .ok { t with values := some vs.flatten } ∧ Recovered s.ops.K eta wnd us vs := by
  have hne : ∀ c ∈ s.ops.K.components, c.edges ≠ [] := fun c hc => (hU c hc).1
  obtain ⟨Fs, hF, hA⟩ := (C49_cell h hne hu).2
  have hFl : Fs.map List.length = s.ops.K.components.map fun c => c.cols.length := by
    unfold Fits at hu
    have hpos : ∀ c ∈ s.ops.K.components, ∀ u : List ℝ, u.length = c.cols.length → u ≠ [] := by
      intro c hc u hl h0
      obtain ⟨e, l, hel⟩ := List.exists_cons_of_ne_nil (hne c hc)
      obtain ⟨L, hL, hL2⟩ := (h.ready c hc).sampled e (by rw [hel]; simp)
      rw [h0, ContourG.cols_len, hel] at hl
      simp [cols_length hL] at hl
      omega
    clear hA hwt hlen h hts hwl hel hev he hU
    generalize s.ops.K.components = cs at hu hF hne hpos ⊢
    induction cs generalizing us Fs with
    | nil =>
      simp only [List.zip_nil_left] at hF
      cases hF
      rfl
    | cons c cs ih =>
      match us, hu with
      | u :: us, hu =>
        simp only [List.map_cons, List.cons.injEq] at hu
        simp only [List.zip_cons_cons] at hF
        obtain _ | ⟨h1, h2⟩ := hF
        obtain ⟨F, hF1, hF2, -⟩ := C49_antiderivative u (hpos c (by simp) u hu.1) (2 * Real.pi * c.edges.length) (by
          have := hne c (by simp)
          simpa [Real.pi_ne_zero] using this)
        rw [hF1] at h1
        cases h1
        simp only [List.map_cons, hF2, hu.1, ih (us := us) _ hu.2 h2 (fun c hc => hne c (by simp [hc]))
          (fun c hc => hpos c (by simp [hc]))]
  have hFt : Fs.flatten.length = s.ops.K.numPts := by rw [h.numPts]; exact fits_length (K := s.ops.K) hFl
  have hex : ∀ j, ∃ D : ℝ, j ≠ 0 → j < s.ops.K.components.length → ∃ e ev, Np.get eta (j - 1) = .ok e ∧ e.values = some ev ∧
      ev.length = wnd.length ∧ s.ops.K.integratePreweighted (List.zipWith (· * ·) ev wnd) = .ok D := by
    intro j
    by_cases hj : j ≠ 0 ∧ j < s.ops.K.components.length
    · have hjl : j - 1 < eta.length := by omega
      obtain ⟨ev, h1, h2⟩ := hev _ (List.getElem_mem hjl)
      exact ⟨_, fun _ _ => ⟨eta[j - 1], ev, by simp [Np.get, hjl], h1, by rw [h2, hwl], cell_preweighted h hne (by
        rw [List.length_zipWith, h2, hwl, h.numPts, Nat.min_self])⟩⟩
    · exact ⟨0, fun h1 h2 => absurd ⟨h1, h2⟩ hj⟩
  choose D hD using hex
  have hloop := recoverLoop_ok h hU (eta := eta) (wnd := wnd) (D := D) s.ops.K.components [] [] Fs (fun c hc => ⟨hc, hlen c hc⟩)
    (by rw [h.offsets]; rfl) hFl (fun j _ h2 h3 => hD j h3 (by simpa using h2))
  simp only [List.nil_append, List.length_nil] at hloop
  refine ⟨recBlocks D 0 s.ops.K.components Fs, ?_, recBlocks_lengths D _ _ 0 hFl, fun j c u hc hu' => ?_⟩
  · unfold recover
    rw [he, hw, hwt]
    simp only [hA, py_ok_bind]
    rw [(Trace.C46_set_values ht).1 Fs.flatten (by rw [hts, hFt])]
    simp only [Trace.after, Except.map, py_ok_bind, Trace.attr, hloop, hw, hwt]
  · have hjc := (List.getElem?_eq_some_iff.1 hc).1
    have hcm : c ∈ s.ops.K.components := List.mem_of_getElem? hc
    have hjF : j < Fs.length := by have := congrArg List.length hFl; simp at this; omega
    have hFj : Fs[j]? = some Fs[j] := by simp [hjF]
    have hl : Fs[j].length = c.cols.length := by
      have := congrArg (·[j]?) hFl
      simp only [List.getElem?_map, hFj, hc, Option.map_some, Option.some.injEq] at this
      exact this
    have hFok : fftAntiderivative u (2 * Real.pi * c.edges.length) = .ok Fs[j] := by
      have hz : (s.ops.K.components.zip us)[j]? = some (c, u) := by simp [List.getElem?_zip_eq_some, hc, hu']
      have hjz := (List.getElem?_eq_some_iff.1 hz).1
      have := (List.forall₂_iff_get.1 hF).2 j hjz hjF
      simp only [List.get_eq_getElem, (List.getElem?_eq_some_iff.1 hz).2] at this
      exact this
    have hg := recBlocks_get D _ _ 0 j c _ hc hFj
    rw [Nat.zero_add] at hg
    have hI : c.integrate (recBlock D j c Fs[j]) = .ok (if j = 0 then 0 else D j) := by
      rw [compInt_ok h hU hcm (by rw [recBlock_length, hl])]
      congr 1
      rw [recBlock, compInt_shift c hl]
      have := hlen c hcm
      split
      · field_simp; ring
      · field_simp; ring
    refine ⟨_, Fs[j], _, hg, hFok, rfl, fun h0 => ?_, fun h0 => ?_⟩
    · rw [hI, if_pos h0]
    · obtain ⟨e, ev, h1, h2, h3, h4⟩ := hD j h0 hjc
      refine ⟨e, ev, D j, ?_, h2, h4, ?_⟩
      · unfold Np.get at h1
        split at h1
        · cases h1; assumption
        · cases h1
      · rw [hI, if_neg h0]

/-- C71: nothing is recovered unless both derivatives are set and the solver has the functions `η_j`. -/
theorem C71_refused (s : Solver) (t : Trace) (h : s.eta = none ∨ t.wnd = none ∨ t.wtd = none) : recover s t = .error .valueError := by
  unfold recover
  rcases h with h | h | h <;> rw [h]
  · cases s.eta <;> rfl
  · cases s.eta <;> cases t.wnd <;> rfl

/-- C71: the values are determined by these conditions. -/
theorem C71_unique {K : CellG} (h : K.Ready) (hU : Uniform K) (hlen : ∀ c ∈ K.components, discLen c ≠ 0) {eta : List Trace}
    {wnd : List ℝ} {us vs xs : List (List ℝ)} (hu : Fits K us) (hv : Recovered K eta wnd us vs) (hx : Recovered K eta wnd us xs) :
    vs = xs := by
  have hl : ∀ {ys : List (List ℝ)}, Fits K ys → ys.length = K.components.length := fun {ys} hy => by
    have := congrArg List.length hy
    simpa using this
  refine List.ext_getElem (by rw [hl hv.1, hl hx.1]) fun j h1 h2 => ?_
  have hjc : j < K.components.length := by rw [← hl hv.1]; exact h1
  have hju : j < us.length := by rw [hl hu]; exact hjc
  have hc : K.components[j]? = some K.components[j] := by simp [hjc]
  have hu' : us[j]? = some us[j] := by simp [hju]
  obtain ⟨v, F, k, a1, a2, a3, a4, a5⟩ := hv.2 j _ _ hc hu'
  obtain ⟨x, F', l, b1, b2, b3, b4, b5⟩ := hx.2 j _ _ hc hu'
  have hvj : vs[j] = v := (List.getElem?_eq_some_iff.1 a1).2
  have hxj : xs[j] = x := (List.getElem?_eq_some_iff.1 b1).2
  rw [hvj, hxj]
  rw [a2] at b2
  cases b2
  have hvx : v = x.map (· + (k - l)) := by
    subst a3 b3
    rw [List.map_map]
    exact List.map_congr_left fun a _ => by simp only [Function.comp_apply]; ring
  have hxl : x.length = (K.components[j]).cols.length := by
    have := congrArg (·[j]?) hx.1
    simp only [List.getElem?_map, b1, hc, Option.map_some, Option.some.injEq] at this
    exact this
  have hcm : K.components[j] ∈ K.components := List.getElem_mem _
  have hint : compInt K.components[j] v = compInt K.components[j] x := by
    have e1 := compInt_ok h hU hcm (u := v) (by rw [hvx, List.length_map, hxl])
    have e2 := compInt_ok h hU hcm (u := x) hxl
    by_cases h0 : j = 0
    · rw [a4 h0] at e1
      rw [b4 h0] at e2
      exact (Except.ok.inj e1).symm.trans (Except.ok.inj e2)
    · obtain ⟨e, ev, I, c1, c2, c3, c4⟩ := a5 h0
      obtain ⟨e', ev', I', d1, d2, d3, d4⟩ := b5 h0
      rw [c1] at d1
      cases d1
      rw [c2] at d2
      cases d2
      rw [c3] at d3
      cases d3
      rw [c4] at e1
      rw [d4] at e2
      exact (Except.ok.inj e1).symm.trans (Except.ok.inj e2)
  rw [hvx, compInt_shift _ hxl] at hint
  have : k - l = 0 := by
    have := hlen _ hcm
    have h0 : (k - l) * discLen K.components[j] = 0 := by linarith
    exact (mul_eq_zero.1 h0).resolve_right this
  rw [hvx, this]
  simp

/-- Along the contour the function `f` has the values, and `(g1, g2)` the weighted tangential components, of a trigonometric polynomial of the
parameter and of its derivative, with frequencies below half the number of samples. -/
def TrigAlong (c : ContourG) (f g1 g2 : ℝ → ℝ → ℝ) : Prop :=
  ∃ (a b : ℕ → ℝ) (M : ℕ), (∀ k < M, 2 * k < c.cols.length) ∧
    (c.cols.map fun s => f s.x s.y) = samples c.cols.length (2 * Real.pi * c.edges.length) (trig a b M (2 * Real.pi * c.edges.length)) ∧
    (c.cols.map fun s => (g1 s.x s.y * s.tx + g2 s.x s.y * s.ty) * s.dxNorm) = samples c.cols.length (2 * Real.pi * c.edges.length)
      (fun t => deriv (trig a b M (2 * Real.pi * c.edges.length)) t)

/-- The discretization resolves the function `ρ` with gradient `(g1, g2)`: along every component it is a trigonometric polynomial in the
sense above; its integral over the outer boundary is zero; and its integral over the boundary of a hole is the integral of `η_j ∂ρ/∂n`
(Green's identity for `ρ` and the function `η_j`, whose normal derivative is one on the boundary of hole `j` and constant on the outer
boundary). -/
def Resolves (K : CellG) (eta : List Trace) (rho g1 g2 : ℝ → ℝ → ℝ) : Prop :=
  ∀ (j : ℕ) (c : ContourG), K.components[j]? = some c → TrigAlong c rho g1 g2 ∧
    (j = 0 → c.integrate (c.cols.map fun s => rho s.x s.y) = .ok 0) ∧
    (j ≠ 0 → ∃ e ev I, eta[j - 1]? = some e ∧ e.values = some ev ∧
      K.integratePreweighted (List.zipWith (· * ·) ev (K.normalOf g1 g2)) = .ok I ∧
      c.integrate (c.cols.map fun s => rho s.x s.y) = .ok I)

theorem cols_pos {K : CellG} (h : K.Ready) (hU : Uniform K) {c : ContourG} (hc : c ∈ K.components) : 0 < c.cols.length := by
  obtain ⟨e, l, hel⟩ := List.exists_cons_of_ne_nil (hU c hc).1
  obtain ⟨L, hL, hL2⟩ := (h.ready c hc).sampled e (by rw [hel]; simp)
  rw [ContourG.cols_len, hel]
  simp [cols_length hL]
  omega

theorem init_zero {K : CellG} (h : K.Ready) : Trace.init K.getEdges (values := some (.one (.num 0))) =
    .ok (Trace.made K.getEdges (some (List.replicate K.numPts 0)) none none) := by
  have hb := Trace.good_bare (getEdges_sampled h)
  have h1 := (Trace.C46_set_values hb).2.1 0
  obtain ⟨-, h2, h3⟩ := bare_data K.getEdges
  simp only [Trace.init, Bool.false_eq_true, if_false, h1, Except.map, Trace.made]
  rw [h2, h3, getEdges_sizes h]

theorem made_good {K : CellG} (h : K.Ready) {v w d : Option (List ℝ)} (hv : ∀ a, v = some a → a.length = K.numPts)
    (hw : ∀ a, w = some a → a.length = K.numPts) (hd : ∀ a, d = some a → a.length = K.numPts) :
    (Trace.made K.getEdges v w d).Good :=
  ⟨made_sized h v w d, fun a ha => by rw [made_sizes h]; exact hv a ha, fun a ha => by rw [made_sizes h]; exact hw a ha,
    fun a ha => by rw [made_sizes h]; exact hd a ha⟩

theorem samples_blocks (K : CellG) (f : Sample → ℝ) : K.cols.map f = (K.components.map fun c => c.cols.map f).flatten := by
  rw [CellG.cols, List.map_flatMap, List.flatMap_def]

/-- C71: with the Fourier strategy a resolved function is found exactly from its gradient. -/
theorem C71_exact {gmres : Gmres} {s : Solver} (h : s.ops.K.Ready) (hU : Uniform s.ops.K)
    (hlen : ∀ c ∈ s.ops.K.components, discLen c ≠ 0) (hs : s.strategy = "fft") {eta : List Trace} (he : s.eta = some eta)
    (hel : s.ops.K.components.length ≤ eta.length + 1)
    (hev : ∀ e ∈ eta, ∃ ev, e.values = some ev ∧ ev.length = s.ops.K.numPts) {rho g1 g2 : ℝ → ℝ → ℝ}
    (hr : Resolves s.ops.K eta rho g1 g2) :
    integrateGradient gmres s (s.ops.K.samplesOf g1) (s.ops.K.samplesOf g2) = .ok (s.ops.K.samplesOf rho) := by
  set K := s.ops.K with hK
  have hnl : (K.normalOf g1 g2).length = K.numPts := by simp [CellG.normalOf, h.numPts]
  have htl : (K.tangentOf g1 g2).length = K.numPts := by simp [CellG.tangentOf, h.numPts]
  set us := K.components.map fun c => c.cols.map fun s => (g1 s.x s.y * s.tx + g2 s.x s.y * s.ty) * s.dxNorm with hus
  set xs := K.components.map fun c => c.cols.map fun s => rho s.x s.y with hxs
  have hut : K.tangentOf g1 g2 = us.flatten := samples_blocks K _
  have hxt : K.samplesOf rho = xs.flatten := samples_blocks K _
  have hfu : Fits K us := by simp only [Fits, hus, List.map_map]; exact List.map_congr_left fun c _ => by simp
  have hfx : Fits K xs := by simp only [Fits, hxs, List.map_map]; exact List.map_congr_left fun c _ => by simp
  set t := Trace.made K.getEdges (some (List.replicate K.numPts 0)) (some (K.normalOf g1 g2)) (some us.flatten) with ht
  have hg : t.Good := made_good h (by rintro a ⟨⟩; simp) (by rintro a ⟨⟩; exact hnl) (by rintro a ⟨⟩; rw [← hut]; exact htl)
  obtain ⟨vs, hv1, hv2⟩ := C71_recover (s := s) h hU hlen he hel hev hg (made_sizes h _ _ _) (wnd := K.normalOf g1 g2) rfl hnl hfu rfl
  have hx2 : Recovered K eta (K.normalOf g1 g2) us xs := by
    refine ⟨hfx, fun j c u hc hu => ?_⟩
    obtain ⟨⟨a, b, M, hM, hsa, hde⟩, h0, hj⟩ := hr j c hc
    have hcm : c ∈ K.components := List.mem_of_getElem? hc
    have hpos := cols_pos h hU hcm
    have hlen' : (2 * Real.pi * (c.edges.length : ℝ)) ≠ 0 := by
      have := (hU c hcm).1
      simpa [Real.pi_ne_zero] using this
    have hF := C49_exact_integral c.cols.length hpos (2 * Real.pi * c.edges.length) hlen' a b M hM
    rw [← hde] at hF
    have hu' : u = c.cols.map fun s => (g1 s.x s.y * s.tx + g2 s.x s.y * s.ty) * s.dxNorm := by
      rw [hus, List.getElem?_map, hc] at hu
      exact (Option.some.inj hu).symm
    refine ⟨c.cols.map fun s => rho s.x s.y, _, if 0 < M then a 0 else 0, by rw [hxs, List.getElem?_map, hc]; rfl, by rw [hu']; exact hF,
      ?_, h0, hj⟩
    rw [hsa]
    simp only [samples, List.map_map, Function.comp_def, sub_add_cancel]
  have hvx := C71_unique h hU hlen hfu hv2 hx2
  have e1 : setNormal K (K.samplesOf g1) (K.samplesOf g2) (Trace.made K.getEdges (some (List.replicate K.numPts 0)) none none) =
      .ok (Trace.made K.getEdges (some (List.replicate K.numPts 0)) (some (K.normalOf g1 g2)) none) := by
    unfold setNormal CellG.samplesOf
    rw [weightedNormal_map h]
    exact made_setWnd h _ _ _ hnl
  have e2 : setTangent K (K.samplesOf g1) (K.samplesOf g2)
      (Trace.made K.getEdges (some (List.replicate K.numPts 0)) (some (K.normalOf g1 g2)) none) = .ok t := by
    unfold setTangent CellG.samplesOf
    rw [weightedTangent_map h, ht, ← hut]
    exact made_setWtd h _ _ _ htl
  unfold integrateGradient
  rw [← hK, init_zero h]
  simp only [py_ok_bind, e1, hs, if_true]
  rw [if_neg (by decide), e2]
  simp only [py_ok_bind, hv1, Trace.attr, hvx, hxt]

/-- C71: with the other strategy the values are what the solver of the Neumann problem answers for the weighted normal derivative. -/
theorem C71_direct {gmres : Gmres} (hx : Exact gmres) {s : Solver} (h : s.ops.K.Ready) (hs : s.strategy = "direct") {g1 g2 : ℝ → ℝ → ℝ}
    {v : List ℝ} (hv : integrateGradient gmres s (s.ops.K.samplesOf g1) (s.ops.K.samplesOf g2) = .ok v) :
    ∃ b, s.ops.single (s.ops.K.normalOf g1 g2) = .ok b ∧ s.ops.neumann v = .ok b := by
  set K := s.ops.K with hK
  have hnl : (K.normalOf g1 g2).length = K.numPts := by simp [CellG.normalOf, h.numPts]
  have e1 : setNormal K (K.samplesOf g1) (K.samplesOf g2) (Trace.made K.getEdges (some (List.replicate K.numPts 0)) none none) =
      .ok (Trace.made K.getEdges (some (List.replicate K.numPts 0)) (some (K.normalOf g1 g2)) none) := by
    unfold setNormal CellG.samplesOf
    rw [weightedNormal_map h]
    exact made_setWnd h _ _ _ hnl
  unfold integrateGradient at hv
  rw [← hK, init_zero h] at hv
  simp only [py_ok_bind, e1, hs, if_true] at hv
  set t := Trace.made K.getEdges (some (List.replicate K.numPts 0)) (some (K.normalOf g1 g2)) none with ht
  have hg : t.Good := made_good h (by rintro a ⟨⟩; simp) (by rintro a ⟨⟩; exact hnl) (by rintro a ⟨⟩)
  obtain ⟨t', ht', hv⟩ := bind_ok hv
  have hw : t.wnd = some (K.normalOf g1 g2) := rfl
  unfold direct at ht'
  simp only [hw] at ht'
  obtain ⟨y, hy, ht'⟩ := bind_ok ht'
  obtain ⟨b, hb, hy'⟩ := bind_ok hy
  have hA := hx _ _ _ _ hy'
  refine ⟨b, hb, ?_⟩
  by_cases hyl : y.length = t.sizes.sum
  · rw [(Trace.C46_set_values hg).1 y hyl] at ht'
    cases ht'
    cases hv
    exact hA
  · rw [(Trace.C46_set_values hg).2.2.2 y hyl] at ht'
    cases ht'

end PFEM
