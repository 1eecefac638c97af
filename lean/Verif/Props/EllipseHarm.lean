import Verif.Props.EllipseConst

/-!
The data of harmonic polynomials on an ellipse: errors and bounds.
-/

namespace PFEM
open Nystrom Antilap Polynomial

/-- bounds of the entries of an array -/
def Small (C : ℝ) (u : List ℝ) : Prop := ∀ x ∈ u, |x| ≤ C

theorem Small.mono {C C' : ℝ} {u : List ℝ} (h : Small C u) (hC : C ≤ C') : Small C' u := fun x hx => (h x hx).trans hC

theorem antiderivative_zero {f F : List ℝ} {len : ℝ} (hf : ∀ x ∈ f, x = 0) (hF : fftAntiderivative f len = .ok F) : ∀ x ∈ F, x = 0 := by
  rcases eq_or_ne f [] with rfl | hne
  · rw [fftAntiderivative] at hF
    simp [Np.fft, bind, Except.bind] at hF
  have : NeZero f.length := ⟨by simpa using hne⟩
  rw [Fft.antiderivative_eq (N := f.length) rfl] at hF
  cases hF
  intro x hx
  obtain ⟨k, -, rfl⟩ := List.mem_map.1 hx
  have h0 : ∀ j : ZMod f.length, |Fft.vec f.length f j| ≤ 0 := by
    intro j
    have hj : j.val < f.length := ZMod.val_lt j
    unfold Fft.vec
    rw [List.getD_eq_getElem _ _ hj, hf _ (List.getElem_mem hj)]
    simp
  have := Fft.apply_mA_le (N := f.length) len h0 k
  rw [mul_zero] at this
  exact abs_eq_zero.1 (le_antisymm this (abs_nonneg _))

theorem within_small {ε : ℝ} {u v : List ℝ} (h : Within ε u v) (hv : ∀ x ∈ v, x = 0) : Small ε u := by
  unfold Within at h
  induction h with
  | nil => intro x hx; simp at hx
  | @cons p q l m h1 _ ih =>
    intro x hx
    rcases List.mem_cons.1 hx with rfl | hx
    · rw [hv q (by simp), sub_zero] at h1
      exact h1
    · exact ih (fun y hy => hv y (by simp [hy])) x hx

theorem small_within {ε : ℝ} : ∀ {u : List ℝ}, Small ε u → Within ε u (List.replicate u.length 0)
  | [], _ => List.Forall₂.nil
  | x :: u, h => by
    rw [List.length_cons, List.replicate_succ]
    exact List.Forall₂.cons (by simpa using h x (by simp)) (small_within fun y hy => h y (by simp [hy]))

/-- the anti-Laplacian of bounded data -/
theorem antilap_bound {gmres : Gmres} {s : Solver} (h : s.ops.K.Ready) (h0 : s.ops.K.numHoles = 0) (hne : s.ops.K.numPts ≠ 0) {X D : ℝ}
    (hb : s.ops.K.BoundedBy X D) {u v a P W : List ℝ} {B : ℝ} (hu : Small B u) (hv : Small B v) (hul : u.length = s.ops.K.numPts)
    (hvl : v.length = s.ops.K.numPts) (hP : antilaplacian gmres s u v a = .ok (P, W)) :
    Small (2 * s.ops.K.getEdges.length * X * D * B) P ∧ Small (D * (2 * s.ops.K.getEdges.length * D + X) * B) W := by
  obtain ⟨P', W', hP', -, -⟩ := antilap_total (gmres := gmres) (a := a) h hne h0 (u := List.replicate u.length 0) (v := List.replicate v.length 0)
    (by simpa using hul) (by simpa using hvl)
  obtain ⟨w1, w2⟩ := C52_stable h h0 hb (small_within hu) (small_within hv) hul hvl hP hP'
  set N := s.ops.K.numPts with hN
  obtain ⟨S, hS⟩ : ∃ S : ℕ → Sample, s.ops.K.cols = (List.range N).map S := by
    refine ⟨fun j => s.ops.K.cols.getD j ⟨0, 0, 0, 0, 0, 0, 0, 0⟩, List.ext_getElem (by simp [hN, h.numPts]) fun i h1 h2 => ?_⟩
    simp [h1]
  have hz : List.replicate N (0 : ℝ) = (List.range N).map fun _ => 0 := by simp
  rw [hul, hvl, hz] at hP'
  obtain ⟨r, r', e1, e2, rfl, rfl⟩ := antilap_range h h0 hS hP'
  have z1 : ∀ j < N, r j = 0 := fun j hj => antiderivative_zero (by simp) e1 _ (List.mem_map.2 ⟨j, by simpa using hj, rfl⟩)
  have z2 : ∀ j < N, r' j = 0 := fun j hj => antiderivative_zero (by simp) e2 _ (List.mem_map.2 ⟨j, by simpa using hj, rfl⟩)
  refine ⟨within_small w1 fun x hx => ?_, within_small w2 fun x hx => ?_⟩
  · obtain ⟨j, hj, rfl⟩ := List.mem_map.1 hx
    rw [z1 j (by simpa using hj), z2 j (by simpa using hj)]
    ring
  · obtain ⟨j, hj, rfl⟩ := List.mem_map.1 hx
    rw [z1 j (by simpa using hj), z2 j (by simpa using hj)]
    ring

theorem Within.mono {ε ε' : ℝ} {u v : List ℝ} (h : Within ε u v) (hε : ε ≤ ε') : Within ε' u v :=
  List.Forall₂.imp (fun _ _ h' => le_trans h' hε) h

theorem ellipse_small {K : CellG} {x0 y0 a b : ℝ} {N : ℕ} (h : K.IsEllipse x0 y0 a b N) {C : ℝ} {f : ℝ → ℝ → ℝ}
    (hf : ∀ t, |f (x0 + a * Real.cos t) (y0 + b * Real.sin t)| ≤ C) : Small C (K.samplesOf f) := by
  intro x hx
  rw [CellG.samplesOf, h.cols, List.map_map] at hx
  obtain ⟨j, -, rfl⟩ := List.mem_map.1 hx
  exact hf _

theorem normal_small {K : CellG} {X D : ℝ} (hb : K.BoundedBy X D) {C : ℝ} {f g : ℝ → ℝ → ℝ} (hf : Small C (K.samplesOf f))
    (hg : Small C (K.samplesOf g)) : Small (2 * C * D) (K.normalOf f g) := by
  intro x hx
  obtain ⟨z, hz, rfl⟩ := List.mem_map.1 hx
  have h1 := hf _ (List.mem_map.2 ⟨z, hz, rfl⟩)
  have h2 := hg _ (List.mem_map.2 ⟨z, hz, rfl⟩)
  refine (abs_mul_le' ((abs_add_le _ _).trans (add_le_add (abs_mul_le' h1 (hb.nx z hz)) (abs_mul_le' h2 (hb.ny z hz)))) (hb.dx z hz)).trans
    (le_of_eq (by ring))

theorem ellipse_harm {a b : ℝ} (ha : 0 < a) (hb : 0 < b) (x0 y0 : ℝ) (Q : ℂ[X]) : ∃ C : ℝ, 0 ≤ C ∧ ∀ (gmres : Gmres) (K : CellG) (n : ℕ)
    (strategy pc : String) (s : Solver) (t : Trace), Exact gmres → Finds gmres → K.IsEllipse x0 y0 a b (2 * n) →
    (2 * n : ℕ) / (4 * 10 ^ 6) ≤ min a b → 4 ≤ n → n ≤ 2 * 10 ^ 7 → 4 * flatness a b ^ (2 * n - 1) ≤ 1 - flatness a b →
    init gmres K strategy pc = .ok s → Q.natDegree + 1 < n → t.On K.getEdges → t.values = some (K.samplesOf (rePoly Q x0 y0)) →
    ∃ k n' V W φ1 φ2 Φ Φ1 Φ2, LocHarm.init gmres t (some s) = .ok k ∧ PolyLap Q.natDegree (rePoly Q x0 y0) φ1 φ2 (fun _ _ => 0) ∧
      PolyLap (Q.natDegree + 2) Φ Φ1 Φ2 (rePoly Q x0 y0) ∧ HarmArrays K k (K.samplesOf (rePoly Q x0 y0)) n' V W ∧
      Within (C * flatness a b ^ (2 * n - Q.natDegree)) n' (K.normalOf φ1 φ2) ∧
      Within (C * flatness a b ^ (2 * n - Q.natDegree)) V (K.samplesOf Φ) ∧
      Within (C * flatness a b ^ (2 * n - Q.natDegree)) W (K.normalOf Φ1 Φ2) ∧
      Small C (K.samplesOf (rePoly Q x0 y0)) ∧ Small C (K.normalOf φ1 φ2) ∧ Small C (K.samplesOf Φ) ∧ Small C (K.normalOf Φ1 Φ2) := by
  obtain ⟨C0, hC0⟩ := ellipse_conj_bounded ha hb Q
  have hm : 0 < max a b := lt_of_lt_of_le ha (le_max_left _ _)
  have hf1 := flatness_lt ha hb
  have hf0 := flatness_nonneg ha hb
  set r := flatness a b with hr
  set S := coeffSum Q (max a b) with hS
  have hS0 : 0 ≤ S := coeffSum_nonneg Q hm.le
  set S' := coeffSum (derivative Q) (max a b) with hS'
  have hS0' : 0 ≤ S' := coeffSum_nonneg _ hm.le
  set X := max |x0| |y0| + max a b with hX
  have hX0 : 0 ≤ X := add_nonneg ((abs_nonneg _).trans (le_max_left _ _)) hm.le
  set D := max a b with hD
  set e1 := 6 * S / (1 - r) ^ 2 with he1
  have he10 : 0 ≤ e1 := by positivity
  set d := Q.natDegree with hd
  have hE : ∀ N, ellErr a b N d S = e1 * r ^ (N - d) := fun N => by rw [ellErr, he1]; ring
  set B := S + |C0| with hB
  have hB0 : 0 ≤ B := by positivity
  have q1 : 0 ≤ 2 * X * D := by positivity
  have q2 : 0 ≤ D * (2 * D + X) := by positivity
  have hSB : S ≤ B := by rw [hB]; linarith [abs_nonneg C0]
  obtain ⟨C, c0, c1, c2, c3, c4, c5, c6, c7⟩ : ∃ C, 0 ≤ C ∧ d * e1 ≤ C ∧ 2 * X * D * e1 ≤ C ∧ D * (2 * D + X) * e1 ≤ C ∧ S ≤ C ∧
      2 * S' * D ≤ C ∧ 2 * X * D * B ≤ C ∧ D * (2 * D + X) * B ≤ C := by
    have u1 : 0 ≤ 2 * S' * D := by positivity
    have u2 : 0 ≤ 2 * X * D * B := by positivity
    have u3 : 0 ≤ D * (2 * D + X) * B := by positivity
    have u4 : 0 ≤ 2 * X * D * e1 := by positivity
    have u5 : 0 ≤ D * (2 * D + X) * e1 := by positivity
    have u6 : 0 ≤ (d : ℝ) * e1 := by positivity
    refine ⟨d * e1 + 2 * X * D * e1 + D * (2 * D + X) * e1 + S + 2 * S' * D + 2 * X * D * B + D * (2 * D + X) * B, ?_, ?_, ?_, ?_, ?_, ?_, ?_, ?_⟩ <;>
      linarith
  refine ⟨C, c0,
    fun gmres K n strategy pc s t hx hf h hab h4 hn hN hs hQ hto hv => ?_⟩
  obtain ⟨c, v, hc, hcj, hcw⟩ := hC0 gmres K x0 y0 n strategy pc s hx hf h hab h4 hn hN hs (by omega)
  rw [hE] at hcw
  have hr0 : 0 ≤ r ^ (2 * n - d) := by positivity
  have hbd := h.bounded ha hb
  have hlen : ∀ g : ℝ → ℝ → ℝ, (K.samplesOf g).length = K.numPts := fun g => by simp [CellG.samplesOf, h.ready.numPts]
  have hnlen : ∀ g g' : ℝ → ℝ → ℝ, (K.normalOf g g').length = K.numPts := fun g g' => by simp [CellG.normalOf, h.ready.numPts]
  have hvl : v.length = K.numPts := by rw [← hlen]; exact List.Forall₂.length_eq hcw
  obtain ⟨k, w, hk, -, kv, -, kw, kwl, hw⟩ := C106_normal hx hf h ha hb hab h4 hn hN hs Q (by omega) hto hv
  obtain ⟨ct, e, hcs, -⟩ := h.ellipse
  -- the conjugate with its constant
  set Q' : ℂ[X] := Q + Polynomial.C (⟨0, c⟩ : ℂ) with hQ'
  have hQd : Q'.natDegree = d := natDegree_add_C
  have hre : rePoly Q' x0 y0 = rePoly Q x0 y0 := by
    funext x y
    simp [rePoly, hQ']
  have him : imPoly Q' x0 y0 = fun x y => imPoly Q x0 y0 x y + c := by
    funext x y
    simp [imPoly, hQ']
  obtain ⟨R, hR, hRd⟩ := poly_integral Q'
  rw [hQd] at hRd
  obtain ⟨t3, t4⟩ := ellipse_trig h ha hb hcs R (by omega)
  have g3 := rePoly_grad Set.univ R x0 y0
  have g4 := imPoly_grad Set.univ R x0 y0
  have g1 := rePoly_grad Set.univ Q' x0 y0
  have g2 := imPoly_grad Set.univ Q' x0 y0
  have g1' := rePoly_grad Set.univ Q x0 y0
  rw [hR] at t3 t4 g3 g4
  have hK := (build_shape h.ready (init_parts hs).1).1
  subst hK
  obtain ⟨i, i', hi⟩ := simply_connected_eq (gmres := gmres) h.ready h.uniform hcs t3 t4 []
  have hconj : ConjugateOn Set.univ (rePoly Q' x0 y0) (imPoly Q' x0 y0) := ⟨_, _, g1, by simpa using g2⟩
  rw [fromComponents_ok h.ready] at hi
  have hz : List.zipWith (fun x (q : Sample) => x - withLogs s.ops.K [] (fun _ _ => 0) q.x q.y) (s.ops.K.samplesOf (rePoly Q x0 y0)) s.ops.K.cols =
      s.ops.K.samplesOf (rePoly Q x0 y0) := by
    simp [CellG.samplesOf, List.zipWith_map_left, List.zipWith_self, withLogs]
  have hne : s.ops.K.numPts ≠ 0 := by rw [h.numPts]; omega
  obtain ⟨P, W, hP, hPl, hWl⟩ := antilap_total (gmres := gmres) (a := []) h.ready hne h.numHoles (hlen (rePoly Q x0 y0)) hvl
  obtain ⟨k', _, _, hI, -, -, -, hBt⟩ := C74_data h.ready h.edges_ne ⟨rfl, fun h0 => absurd h.numHoles h0⟩ hto hv hcj hvl
    (by rw [h.numHoles]; rfl) (by rw [hz]; exact hP) hPl hWl
  rw [hk] at hI
  cases hI
  rw [hre, him] at hi
  have hre' : Within (e1 * r ^ (2 * n - d)) (s.ops.K.samplesOf (rePoly Q x0 y0)) (s.ops.K.samplesOf (rePoly Q x0 y0)) :=
    List.forall₂_same.2 fun _ _ => by simpa using mul_nonneg he10 hr0
  obtain ⟨w1, w2⟩ := C52_stable h.ready h.numHoles hbd hre' hcw (hlen _) hvl hP hi
  have s1 : Small S (s.ops.K.samplesOf (rePoly Q x0 y0)) := ellipse_small h fun θ => by
    simp only [rePoly, add_sub_cancel_left]
    exact (Complex.abs_re_le_norm _).trans (eval_norm_le Q (ellipse_norm ha hb θ))
  have s2 : Small B (s.ops.K.samplesOf fun x y => imPoly Q x0 y0 x y + c) := ellipse_small h fun θ => by
    refine (abs_add_le _ _).trans (add_le_add ?_ (hc.trans (le_abs_self _)))
    simp only [imPoly, add_sub_cancel_left]
    exact (Complex.abs_im_le_norm _).trans (eval_norm_le Q (ellipse_norm ha hb θ))
  have s3 : Small S' (s.ops.K.samplesOf (rePoly (derivative Q) x0 y0)) := ellipse_small h fun θ => by
    simp only [rePoly, add_sub_cancel_left]
    exact (Complex.abs_re_le_norm _).trans (eval_norm_le _ (ellipse_norm ha hb θ))
  have s4 : Small S' (s.ops.K.samplesOf fun x y => -imPoly (derivative Q) x0 y0 x y) := ellipse_small h fun θ => by
    simp only [imPoly, add_sub_cancel_left, abs_neg]
    exact (Complex.abs_im_le_norm _).trans (eval_norm_le _ (ellipse_norm ha hb θ))
  have s5 := normal_small hbd s3 s4
  obtain ⟨b1, b2⟩ := antilap_bound h.ready h.numHoles hne hbd (s1.mono hSB) s2 (hlen _) (hlen _) hi
  rw [h.oneEdge] at w1 w2 b1 b2
  simp only [Nat.cast_one, mul_one] at w1 w2 b1 b2
  have hlap0 : HasLaplacian Set.univ (rePoly Q x0 y0) fun _ _ => 0 := by
    have d1 := rePoly_grad Set.univ (derivative Q) x0 y0
    have d2 := imPoly_grad Set.univ (derivative Q) x0 y0
    refine ⟨_, _, fun x y _ => ⟨g1' x y trivial, _, _, (d1 x y trivial).1, (d2 x y trivial).2.fun_neg, ?_⟩⟩
    ring
  have hpQ := PolyFn.complex x0 y0 Q
  have hpR := PolyFn.complex x0 y0 R
  have hΦ : PolyFn (d + 2) (compPot (fun x y => rePoly R x0 y0 x y - i) fun x y => imPoly R x0 y0 x y - i') := by
    have q1 : PolyFn (d + 1) fun x y => rePoly R x0 y0 x y - i := (hpR.1.sub (PolyFn.const i)).mono (by simp; omega)
    have q2 : PolyFn (d + 1) fun x y => imPoly R x0 y0 x y - i' := (hpR.2.sub (PolyFn.const i')).mono (by simp; omega)
    exact (((PolyFn.x.mul q1).add' (PolyFn.y.mul q2)).smul 0.25).mono (by omega)
  have hgΦ := compPot_grad (g3.shift i) (g4.shift i')
  have hlΦ := compPot_laplacian hconj (g3.shift i) (g4.shift i')
  rw [hre, him] at hgΦ
  rw [hre] at hlΦ
  -- the error of the normal derivative
  have hn' : Within (d * (e1 * r ^ (2 * n - d))) w (s.ops.K.normalOf (rePoly (derivative Q) x0 y0) fun x y => -imPoly (derivative Q) x0 y0 x y) := by
    refine List.forall₂_iff_get.2 ⟨by rw [kwl, hnlen], fun j h1 h2 => ?_⟩
    have hj : j < s.ops.K.cols.length := by rw [← h.ready.numPts, ← kwl]; exact h1
    have := hw j s.ops.K.cols[j] w[j] _ _ (by simp) (by simp) (g1' _ _ trivial)
    simp only [List.get_eq_getElem, CellG.normalOf, List.getElem_map]
    refine this.trans (le_of_eq ?_)
    rw [he1]
    ring
  refine ⟨k, w, P, W, _, _, _, _, _, hk, hpQ.1.lap g1' hlap0, hΦ.lap hgΦ hlΦ, ⟨kv, kw, hBt.biharm, hlen _, kwl, hPl, hWl⟩, hn'.mono ?_, w1.mono ?_,
    w2.mono ?_, s1.mono c4, s5.mono c5, b1.mono c6, b2.mono c7⟩
  · rw [← mul_assoc]
    exact mul_le_mul_of_nonneg_right c1 hr0
  · rw [← mul_assoc]
    exact mul_le_mul_of_nonneg_right c2 hr0
  · rw [← mul_assoc]
    exact mul_le_mul_of_nonneg_right c3 hr0

end PFEM
