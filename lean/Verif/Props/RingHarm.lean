import Verif.Props.RingNormal
import Verif.Props.RingCell
import Verif.Props.Combo

/-!
Property theorems C131, third part: on a ring a harmonic function can always be made.
-/

namespace PFEM
open Nystrom Antilap Finset Polynomial
open ContourG (mapPy)

variable {K : CellG} {x0 y0 a b : ℝ} {n : ℕ}

/-- every array is the array of samples of a function if the samples are different points -/
theorem samples_of_list : ∀ {cols : List Sample}, cols.Pairwise (fun s t => sqDist s t ≠ 0) → ∀ {u : List ℝ}, u.length = cols.length →
    ∃ f : ℝ → ℝ → ℝ, (cols.map fun s => f s.x s.y) = u
  | [], _, u, hu => ⟨fun _ _ => 0, by simpa using (List.length_eq_zero_iff.1 hu).symm⟩
  | s :: cols, hp, [], hu => by simp at hu
  | s :: cols, hp, v :: u, hu => by
    classical
    obtain ⟨h1, h2⟩ := List.pairwise_cons.1 hp
    obtain ⟨f, hf⟩ := samples_of_list h2 (u := u) (by simpa using hu)
    refine ⟨fun x y => if x = s.x ∧ y = s.y then v else f x y, ?_⟩
    rw [List.map_cons, ← hf]
    congr 1
    · simp
    · refine List.map_congr_left fun t ht => if_neg ?_
      rintro ⟨e1, e2⟩
      exact h1 t ht (by simp [sqDist, e1, e2])

theorem ring_samples {N : ℕ} (h : K.IsAnnulus x0 y0 a b N) (ha : 0 < a) (hab : a < b) {u : List ℝ} (hu : u.length = K.numPts) :
    ∃ f, K.samplesOf f = u := by
  have hb : 0 < b := ha.trans hab
  refine samples_of_list ?_ (by rw [hu, h.ready.numPts])
  rw [h.cols, List.pairwise_append]
  refine ⟨?_, ?_, ?_⟩
  · rw [List.pairwise_map]
    refine (List.pairwise_lt_range (n := N)).imp_of_mem fun {i j} hi hj hij => ?_
    have := sin_ne (List.mem_range.1 hi) (List.mem_range.1 hj) hij.ne
    rw [circle_dist]
    positivity
  · rw [List.pairwise_map]
    refine (List.pairwise_lt_range (n := N)).imp_of_mem fun {i j} hi hj hij => ?_
    have := sin_ne (List.mem_range.1 hi) (List.mem_range.1 hj) hij.ne
    rw [hole_dist]
    positivity
  · intro s hs t ht
    obtain ⟨i, -, rfl⟩ := List.mem_map.1 hs
    obtain ⟨j, -, rfl⟩ := List.mem_map.1 ht
    have := poissonDen_pos (ring_ratio ha hab).2.2 (gridPt N i + gridPt N j)
    rw [cross_dist _ _ _ hb]
    positivity

theorem ring_lens {N : ℕ} (hN : 0 < N) (h : K.IsAnnulus x0 y0 a b N) (ha : 0 < a) (hb : 0 < b) : ∀ c ∈ K.components, discLen c ≠ 0 := by
  obtain ⟨c, d, e, f, h1, h2, h3, -, -, h6, h5, -⟩ := h.circles
  have hN' : (N : ℝ) ≠ 0 := by exact_mod_cast hN.ne'
  intro c' hc'
  rw [h1] at hc'
  simp only [List.mem_cons, List.not_mem_nil, or_false] at hc'
  rcases hc' with rfl | rfl
  · have : c'.cols = (List.range N).map (circleSample x0 y0 b N) := by simp [ContourG.cols, h2, h6]
    rw [discLen, this, h2]
    simp [circleSample, Function.comp_def, hN', hb.ne', Real.pi_ne_zero]
  · have : c'.cols = (List.range N).map (holeSample x0 y0 a N) := by simp [ContourG.cols, h3, h5]
    rw [discLen, this, h3]
    simp [holeSample, Function.comp_def, hN', ha.ne', Real.pi_ne_zero]

/-- with either strategy a function is found for every gradient -/
theorem ring_gradient {gmres : Gmres} {tol : List ℝ → ℝ} (hg : ResidualWithin gmres tol) (hf : Finds gmres) (h : K.IsAnnulus x0 y0 a b (2 * n))
    (ha : 1 / 10 ^ 14 ≤ a) (hab : a < b) (h4 : 4 ≤ n) (hn : n ≤ 2 * 10 ^ 7) (hs : 4 * ringConst a b * (a / b) ^ (2 * n) ≤ 1)
    {strategy pc : String} {s : Nystrom.Solver} (hi : init gmres K strategy pc = .ok s) (g1 g2 : ℝ → ℝ → ℝ) :
    ∃ f, integrateGradient gmres s (K.samplesOf g1) (K.samplesOf g2) = .ok (K.samplesOf f) := by
  have ha0 : 0 < a := lt_of_lt_of_le (by positivity) ha
  have hb0 : 0 < b := ha0.trans hab
  obtain ⟨ho, -, -, -, hst, hor, heta⟩ := init_parts hi
  have hK := (build_shape h.ready ho).1
  have hR := h.ready
  have hnl : (K.normalOf g1 g2).length = K.numPts := by simp [CellG.normalOf, hR.numPts]
  have e1 : setNormal K (K.samplesOf g1) (K.samplesOf g2) (Trace.made K.getEdges (some (List.replicate K.numPts 0)) none none) =
      .ok (Trace.made K.getEdges (some (List.replicate K.numPts 0)) (some (K.normalOf g1 g2)) none) := by
    unfold setNormal CellG.samplesOf
    rw [weightedNormal_map hR]
    exact made_setWnd hR _ _ _ hnl
  by_cases hd : strategy = "direct"
  · obtain ⟨u, hu⟩ := C130_returns hf h ha hab h4 hn hs hi hnl
    have hul : u.length = K.numPts := by
      obtain ⟨rhs, -, hu'⟩ := bind_ok hu
      obtain ⟨y, hy, -⟩ := hg _ _ _ _ hu'
      by_contra hl
      rw [(C50_neumann_linear hR h.edges_ne (h.corners (by omega)) ho).2 u hl] at hy
      cases hy
    obtain ⟨f, hf'⟩ := ring_samples h ha0 hab hul
    refine ⟨f, ?_⟩
    set t := Trace.made K.getEdges (some (List.replicate K.numPts 0)) (some (K.normalOf g1 g2)) none with ht
    have hgd : t.Good := made_good hR (by rintro a ⟨⟩; simp) (by rintro a ⟨⟩; exact hnl) (by rintro a ⟨⟩)
    have e2 := (Trace.C46_set_values hgd).1 u (by rw [made_sizes hR]; exact hul)
    unfold integrateGradient
    rw [hK, init_zero hR]
    simp only [py_ok_bind, e1, hst, hd, if_true]
    unfold direct
    simp only [show t.wnd = some (K.normalOf g1 g2) from rfl, hu, py_ok_bind, e2, Trace.attr, hf']
    rfl
  · have hfft : strategy = "fft" := hor.resolve_left hd
    obtain ⟨-, eta, he, -⟩ := heta.resolve_right fun hh => hh.1 ⟨by rw [h.numHoles]; norm_num, hfft⟩
    rw [hfft] at hi
    obtain ⟨el, c0, outer, -, -, hall⟩ := C68_indicators hR hi he
    have hev : ∀ e ∈ eta, ∃ ev, e.values = some ev ∧ ev.length = K.numPts := by
      intro e hemem
      obtain ⟨j, hj⟩ := List.mem_iff_getElem?.1 hemem
      obtain ⟨_, _, _, _, x, -, -, -, -, -, ht⟩ := hall j e hj
      obtain ⟨q1, q2⟩ := init_arr_inv hR ht
      exact ⟨x, by rw [q2]; rfl, q1⟩
    have htl : (K.tangentOf g1 g2).length = K.numPts := by simp [CellG.tangentOf, hR.numPts]
    obtain ⟨us, hus, hut⟩ := exists_fits (K := K) (v := K.tangentOf g1 g2) (by rw [htl, hR.numPts])
    set t := Trace.made K.getEdges (some (List.replicate K.numPts 0)) (some (K.normalOf g1 g2)) (some us.flatten) with ht
    have hgd : t.Good := made_good hR (by rintro a ⟨⟩; simp) (by rintro a ⟨⟩; exact hnl) (by rintro a ⟨⟩; rw [hut]; exact htl)
    obtain ⟨vs, hv1, hv2⟩ := C71_recover (s := s) (hK ▸ hR) (hK ▸ h.uniform) (hK ▸ ring_lens (by omega) h ha0 hb0) he (by rw [hK]; omega)
      (hK ▸ hev) hgd (by rw [hK]; exact made_sizes hR _ _ _) (wnd := K.normalOf g1 g2) rfl (hK ▸ hnl) (hK ▸ hus) rfl
    have hvl : vs.flatten.length = K.numPts := by
      have := hv2.1
      rw [hK] at this
      unfold Fits at this
      rw [List.length_flatten, this, hR.numPts, CellG.cols, List.length_flatMap]
    obtain ⟨f, hf'⟩ := ring_samples h ha0 hab hvl
    refine ⟨f, ?_⟩
    have e2 : setTangent K (K.samplesOf g1) (K.samplesOf g2)
        (Trace.made K.getEdges (some (List.replicate K.numPts 0)) (some (K.normalOf g1 g2)) none) = .ok t := by
      unfold setTangent CellG.samplesOf
      rw [weightedTangent_map hR, ht, hut]
      exact made_setWtd hR _ _ _ htl
    unfold integrateGradient
    rw [hK, init_zero hR]
    simp only [py_ok_bind, e1, hst, hfft, if_true]
    rw [if_neg (by decide), e2]
    simp only [py_ok_bind, hv1, Trace.attr, hf']

theorem ring_antilap {gmres : Gmres} {tol : List ℝ → ℝ} (hg : ResidualWithin gmres tol) (hf : Finds gmres) (h : K.IsAnnulus x0 y0 a b (2 * n))
    (ha : 1 / 10 ^ 14 ≤ a) (hab : a < b) (h4 : 4 ≤ n) (hn : n ≤ 2 * 10 ^ 7) (hs : 4 * ringConst a b * (a / b) ^ (2 * n) ≤ 1)
    {strategy pc : String} {s : Nystrom.Solver} (hi : init gmres K strategy pc = .ok s) {u v : List ℝ} (hu : u.length = K.numPts)
    (hv : v.length = K.numPts) (α : ℝ) :
    ∃ P W, antilaplacian gmres s u v [α] = .ok (P, W) ∧ P.length = K.numPts ∧ W.length = K.numPts := by
  have ha0 : 0 < a := lt_of_lt_of_le (by positivity) ha
  have hb0 : 0 < b := ha0.trans hab
  have ho := (init_parts hi).1
  have hK := (build_shape h.ready ho).1
  have hR := h.ready
  obtain ⟨psi, rfl⟩ := ring_samples h ha0 hab hu
  obtain ⟨psiHat, rfl⟩ := ring_samples h ha0 hab hv
  obtain ⟨c, d, e, f, h1, -⟩ := h.circles
  have htail : K.components.tail = [d] := by rw [h1]; rfl
  obtain ⟨p, hp, hoff⟩ := h.holes ha0 hb0 d (by rw [htail]; simp)
  obtain ⟨res, hres, hF⟩ := C52_residues hR h.uniform psi psiHat
  have hrl : res.length = [p].length := by rw [← hF.length_eq, htail]; rfl
  obtain ⟨⟨β, γ⟩, rfl⟩ := List.length_eq_one_iff.1 hrl
  have hcols : mapPy (rational (K.cols.map Sample.x) (K.cols.map Sample.y)) [d] = .ok ([p].map fun p => (K.samplesOf (muF p), K.samplesOf (muHatF p))) := by
    simp only [mapPy, rational_ok hp hoff, py_ok_bind, List.map_cons, List.map_nil]
  have hneg : ∀ f : ℝ → ℝ → ℝ, Np.neg (K.samplesOf f) = K.samplesOf fun x y => -f x y := fun f => neg_map _ _
  obtain ⟨rho, hr⟩ := ring_gradient hg hf h ha hab h4 hn hs hi (fun x y => psi x y - singularPart [p] [(β, γ)] x y)
    (fun x y => -(psiHat x y - singularConj [p] [(β, γ)] x y))
  obtain ⟨rhoHat, hr'⟩ := ring_gradient hg hf h ha hab h4 hn hs hi (fun x y => psiHat x y - singularConj [p] [(β, γ)] x y)
    (fun x y => psi x y - singularPart [p] [(β, γ)] x y)
  have hnh : ¬ K.numHoles = 0 := by rw [h.numHoles]; norm_num
  have key : ∀ P0 W0 : Sample → ℝ, holeLoop K (K.cols.map Sample.x) (K.cols.map Sample.y) [(β, γ)]
      ([p].map fun p => (K.samplesOf (muF p), K.samplesOf (muHatF p))) [α] 0 (K.cols.map P0) (K.cols.map W0) [d] = _ := fun P0 W0 => by
    simp only [holeLoop, Np.get, List.map_cons, List.map_nil, List.getElem?_cons_zero, py_ok_bind]
    exact congrArg (fun r : Py (List ℝ × List ℝ) => r >>= fun q => .ok (q.1, q.2)) (holeTerms_ok hR hp hoff β γ α P0 W0)
  unfold antilaplacian multiplyConnected
  simp only [hK, if_neg hnh, hres, hR.getBoundaryPoints, htail, hcols, reduce_ok hR [p] hrl, py_ok_bind, hneg, hr, hr', fromComponents_ok hR]
  refine ⟨_, _, key _ _, ?_, ?_⟩ <;> simp [hR.numPts]

/-- C131: on a ring `LocalHarmonic(trace, nyst)` never raises an exception for such data, with either strategy, if the solver of linear systems finds
solutions that exist; the object is complete. -/
theorem C131_returns {gmres : Gmres} {tol : List ℝ → ℝ} (hg : ResidualWithin gmres tol) (hf : Finds gmres) (h : K.IsAnnulus x0 y0 a b (2 * n))
    (ha : 1 / 10 ^ 14 ≤ a) (hab : a < b) (h4 : 4 ≤ n) (hn : n ≤ 2 * 10 ^ 7) (hs : 4 * ringConst a b * (a / b) ^ (2 * n) ≤ 1)
    {strategy pc : String} {s : Nystrom.Solver} (hi : init gmres K strategy pc = .ok s) {A : ℝ} {Q R : ℂ[X]} (hQ : Q.natDegree < n)
    (hR : R.natDegree < n) {t : Trace} (ht : t.On K.getEdges) (hv : t.values = some (K.samplesOf (ringData A Q R x0 y0))) :
    ∃ u, LocHarm.init gmres t (some s) = .ok u ∧ u.Full K.getEdges K.numHoles := by
  have ha0 : 0 < a := lt_of_lt_of_le (by positivity) ha
  have hb0 : 0 < b := ha0.trans hab
  have hof : s.Of K := C74_solver h.ready (h.even rfl h4 hn) h.edges_ne (h.holes ha0 hb0) hi
  obtain ⟨⟨c, al⟩, hc⟩ := C114_returns hf h ha hab h4 hn hs hi hQ hR (A := A)
  obtain ⟨rhs, α, -, -, r3, rfl, -⟩ := C114_conjugate hg h ha hab h4 hn hs hi (d := max Q.natDegree R.natDegree) (by omega) (le_max_left _ _)
    (le_max_right _ _) hc
  have hcl : c.length = K.numPts := by
    rw [List.Forall₂.length_eq r3, CellG.samplesOf, List.length_map, h.ready.numPts]
  obtain ⟨P, W, hP, hPl, hWl⟩ := ring_antilap hg hf h ha hab h4 hn hs hi
    (u := List.zipWith (fun x (q : Sample) => x - withLogs K [α] (fun _ _ => 0) q.x q.y) (K.samplesOf (ringData A Q R x0 y0)) K.cols)
    (by simp [CellG.samplesOf, h.ready.numPts]) hcl α
  obtain ⟨r, w, d, e1, -, -, e2, -⟩ := C74_data h.ready h.edges_ne hof ht hv hc hcl (by rw [h.numHoles]; rfl) hP hPl hWl
  exact ⟨r, e1, e2⟩

end PFEM
