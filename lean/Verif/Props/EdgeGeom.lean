import Verif.Lemmas.EdgeSampled

/-!
Property theorems C22, C23, C24 and C25: the geometry of a sampled edge.  The specification is in `Spec/Edge.lean`.
-/

namespace PFEM
open EdgeG

/-! ### C22 -/

/-- C22 (first part): after `parameterize` and any list of transformations and reversals with positive dilation
factors, the stored arrays are exactly the samples, at the nodes of the quadrature rule, of the library curve moved by
the diary and by those transformations. -/
theorem C22_samples_partial {n p : ℤ} {d : Quad × Quad} (hd : getQuadDict n p = .ok d) {e e1 e2 : EdgeG}
    (acts : List EdgeAct) (hdi : ∀ o ∈ e.diary, o.Good) (hac : ∀ a ∈ acts, a.Good)
    (h1 : e.parameterize d = .ok e1) (h2 : e1.run acts = .ok e2) :
    ∃ (q : Quad) (γ : PCurve), pickQuad e.quadType d = .ok q ∧ γ.Smooth ∧
      (∀ t, Curve.X e.curve e.opts t = .ok (γ.x t, γ.y t)) ∧
      e2.pts = some ((acts.foldl (fun C a => a.act C) (e.diary.foldl (fun C o => o.act C)
        (γ.retime e.tBounds.1 ((e.tBounds.2 - e.tBounds.1) / (2 * Real.pi))))).samples (q.t.zip q.wgt)) := by
  obtain ⟨q, hq, h1⟩ := bind_ok h1
  obtain ⟨l, hl, h1⟩ := bind_ok h1
  obtain ⟨e', he', h1⟩ := bind_ok h1
  cases h1
  have hs := dict_sym hd hq
  obtain ⟨γ, g1, g2, g3⟩ := base_samples e.curve e.opts (baseSamples_ok hl hs.ne_nil)
  rw [g3] at hl
  cases hl
  have e3 : 0.5 * (e.tBounds.2 - e.tBounds.1) / Real.pi = (e.tBounds.2 - e.tBounds.1) / (2 * Real.pi) := by
    have := Real.pi_pos.ne'
    rw [show (0.5 : ℝ) = 1 / 2 by norm_num]; field_simp
  rw [e3] at he'
  have p1 := runDiary_pts e.diary rfl hs hdi he'
  exact ⟨q, γ, hq, g1, fun t => (g2 t).1, run_pts acts (e := { e' with quadType := q.type }) p1 hs hac h2⟩

/-- C22 (second part): if moreover the curve has no point of zero speed on the parameter interval, then there is a
smooth curve through the stored points such that at every node the stored tangent is the unit vector in the direction of
its velocity, the stored normal is the tangent turned clockwise by a right angle, and `dx_norm` is its speed times the
quadrature weight. -/
theorem C22_geometry_partial {n p : ℤ} {d : Quad × Quad} (hd : getQuadDict n p = .ok d) {e e1 e2 : EdgeG}
    (acts : List EdgeAct) (hdi : ∀ o ∈ e.diary, o.Good) (hac : ∀ a ∈ acts, a.Good)
    (h1 : e.parameterize d = .ok e1) (h2 : e1.run acts = .ok e2)
    (hb : e.tBounds.1 < e.tBounds.2) (hb0 : 0 ≤ e.tBounds.1) (hb1 : e.tBounds.2 ≤ 2 * Real.pi)
    (hn : Nondegenerate e.curve e.opts) :
    ∃ (q : Quad) (C : PCurve) (L : List Sample), pickQuad e.quadType d = .ok q ∧ C.Smooth ∧ e2.pts = some L ∧
      L.length = q.t.length ∧ L.length = q.wgt.length ∧
      ∀ (j : ℕ) (s : Sample) (t g : ℝ), L[j]? = some s → q.t[j]? = some t → q.wgt[j]? = some g →
        s.x = C.x t ∧ s.y = C.y t ∧
        s.tx ^ 2 + s.ty ^ 2 = 1 ∧ s.nx ^ 2 + s.ny ^ 2 = 1 ∧ s.nx = s.ty ∧ s.ny = -s.tx ∧
        ∃ v > 0, C.dx t = v * s.tx ∧ C.dy t = v * s.ty ∧ s.dxNorm = v * g := by
  obtain ⟨q, hq, h1⟩ := bind_ok h1
  obtain ⟨l, hl, h1⟩ := bind_ok h1
  obtain ⟨e', he', h1⟩ := bind_ok h1
  cases h1
  have hs := dict_sym hd hq
  obtain ⟨γ, g1, g2, g3⟩ := base_samples e.curve e.opts (baseSamples_ok hl hs.ne_nil)
  rw [g3] at hl
  cases hl
  have hpi := Real.pi_pos
  have r0 : (γ.retime e.tBounds.1 (0.5 * (e.tBounds.2 - e.tBounds.1) / Real.pi)).Regular := by
    intro s s0 s1
    have hdt : 0 < 0.5 * (e.tBounds.2 - e.tBounds.1) / Real.pi := by
      have : 0 < e.tBounds.2 - e.tBounds.1 := by linarith
      positivity
    have h3 : 0 ≤ 0.5 * (e.tBounds.2 - e.tBounds.1) / Real.pi * s := by positivity
    have h4 : 0.5 * (e.tBounds.2 - e.tBounds.1) / Real.pi * s ≤ e.tBounds.2 - e.tBounds.1 := by
      calc _ ≤ 0.5 * (e.tBounds.2 - e.tBounds.1) / Real.pi * (2 * Real.pi) := mul_le_mul_of_nonneg_left s1 hdt.le
        _ = _ := by rw [show (0.5 : ℝ) = 1 / 2 by norm_num]; field_simp
    have := C20_regular e.curve e.opts (0.5 * (e.tBounds.2 - e.tBounds.1) / Real.pi * s + e.tBounds.1)
      (by linarith) (by linarith) hn _ (g2 _).2.1
    simp only [PCurve.retime]
    by_contra hc
    push Not at hc
    apply this
    rw [(mul_eq_zero.1 hc.1).resolve_left hdt.ne', (mul_eq_zero.1 hc.2).resolve_left hdt.ne']
  obtain ⟨p1, s1, r1⟩ := runDiary_regular e.diary rfl hs hdi (g1.retime _ _) r0 he'
  obtain ⟨p2, s2, r2⟩ := run_regular acts (e := { e' with quadType := q.type }) p1 hs hac s1 r1 h2
  refine ⟨q, _, _, hq, s2, p2, ?_, ?_, ?_⟩
  · rw [PCurve.samples_length, List.length_zip, dict_len hd hq, min_self]
  · rw [PCurve.samples_length, List.length_zip, dict_len hd hq, min_self]
  · intro j s t g hj ht hg
    generalize (acts.foldl (fun C a => a.act C) _) = C at *
    have hz : (q.t.zip q.wgt)[j]? = some (t, g) := by rw [List.getElem?_zip_eq_some]; exact ⟨ht, hg⟩
    simp only [PCurve.samples, List.getElem?_map, hz, Option.map_some, Option.some.injEq] at hj
    subst hj
    obtain ⟨t0, t1⟩ := hs.range _ (List.mem_of_getElem? hz)
    have hv : 0 < C.dx t ^ 2 + C.dy t ^ 2 := by rcases r2 t t0 t1 with h | h <;> positivity
    have hsp : 0 < C.speed t := Real.sqrt_pos.2 hv
    have hsq : C.speed t ^ 2 = C.dx t ^ 2 + C.dy t ^ 2 := Real.sq_sqrt hv.le
    simp only [PCurve.sample]
    refine ⟨trivial, trivial, ?_, ?_, trivial, trivial, C.speed t, hsp, ?_, ?_, rfl⟩
    · rw [div_pow, div_pow, ← add_div, hsq, div_self hv.ne']
    · rw [neg_sq, div_pow, div_pow, ← add_div, hsq, add_comm, div_self hv.ne']
    · field_simp
    · field_simp

/-- the arrays with tangent, normal and curvature negated -/
def Sample.flip (s : Sample) : Sample :=
  { s with tx := -s.tx, ty := -s.ty, nx := -s.nx, ny := -s.ny, curv := -s.curv }

/-- C22: `get_sampled_points` returns the stored points in order; with `ignore_endpoint` exactly the last one is left out;
without samples it raises. -/
theorem C22_points (e : EdgeG) :
    (e.pts = none → ∀ b, e.getSampledPoints b = .error .notParameterized) ∧
    (∀ l, e.pts = some l → e.getSampledPoints false = .ok (l.map fun s => (s.x, s.y))) ∧
    (∀ l s, e.pts = some (l ++ [s]) → e.getSampledPoints true = .ok (l.map fun s => (s.x, s.y))) := by
  refine ⟨fun h b => ?_, fun l h => ?_, fun l s h => ?_⟩ <;> simp [getSampledPoints, h]

/-- C22 fails for negative dilation factors (full statement of C22: any factor): `dilate` then stores the samples of the
dilated curve with tangent, normal and curvature of the wrong sign: the tangent points against the direction in which the
points are traversed and the normal to the left of it. -/
theorem C22_negative_dilation {e : EdgeG} {C : PCurve} {l : List (ℝ × ℝ)} (h : e.pts = some (C.samples l)) (al : ℝ) (w)
    (hal : al ≤ -TOL) :
    ∃ e', e.dilate al w = .ok e' ∧
      e'.pts = some (((EdgeOp.act (.dilate al) C).samples l).map Sample.flip) := by
  have ht := TOL_pos
  have hn : al < 0 := by linarith
  have hab : |al| = -al := abs_of_neg hn
  unfold dilate
  rw [if_neg (by rw [hab]; linarith)]
  refine ⟨_, rfl, ?_⟩
  simp only [mapPts, note_pts, h, Option.map_some, PCurve.samples, List.map_map]
  congr 1
  refine List.map_congr_left fun q _ => ?_
  have hs : (C.affine ⟨al, 0, 0, al⟩ 0 0).speed q.1 = -al * C.speed q.1 := by
    unfold PCurve.speed PCurve.affine
    simp only [zero_mul, add_zero, zero_add]
    rw [show (al * C.dx q.1) ^ 2 + (al * C.dy q.1) ^ 2 = (-al) ^ 2 * (C.dx q.1 ^ 2 + C.dy q.1 ^ 2) by ring,
      Real.sqrt_mul (sq_nonneg _), Real.sqrt_sq (by linarith)]
  have h' : al ≠ 0 := hn.ne
  have key : ∀ x y : ℝ, (al * x) / (-al * y) = -(x / y) := by
    intro x y
    rw [show -al * y = al * -y by ring, mul_div_mul_left _ _ h', div_neg]
  apply PCurve.sample_ext <;> simp only [Function.comp, Sample.flip, EdgeOp.act, PCurve.sample, hs, hab] <;>
    (try simp only [PCurve.affine, zero_mul, add_zero, zero_add, key]) <;> try ring
  have e3 : al ^ 2 * al⁻¹ ^ 3 = al⁻¹ := by field_simp
  linear_combination (-(C.dy q.1 * C.ddx q.1 - C.dx q.1 * C.ddy q.1) * (C.speed q.1)⁻¹ ^ 3) * e3

/-! ### C23 -/

/-- the samples after a successful `join_points`, as one map -/
noncomputable def joinSample (a : Vert) (s0 : Sample) (th al : ℝ) (s : Sample) : Sample :=
  let s := { s with x := s.x + -s0.x, y := s.y + -s0.y }
  let s := orthSample (Mat2.rot th) s
  let s := { s with x := s.x * al, y := s.y * al, dxNorm := s.dxNorm * |al|, curv := s.curv * (1 / al) }
  { s with x := s.x + a.x, y := s.y + a.y }

theorem joinPoints_eq {e : EdgeG} {s0 : Sample} {rest : List Sample} (h : e.pts = some (s0 :: rest)) {s1 : Sample}
    (h1 : (s0 :: rest).getLast? = some s1) (a b : Vert) (w) :
    let ab := ‖b.z - a.z‖
    let xy := ‖s1.z - s0.z‖
    let th := (-Complex.arg (s1.z - s0.z) + Complex.arg (b.z - a.z)) * (180 / Real.pi)
    (ab < TOL ∨ xy < TOL ∨ ab / xy < TOL → e.joinPoints a b w = .error .edgeTransformation) ∧
    (¬ (ab < TOL ∨ xy < TOL ∨ ab / xy < TOL) → ∃ e', e.joinPoints a b w = .ok e' ∧ e'.anchor = a ∧ e'.endpnt = b ∧
      e'.pts = some ((s0 :: rest).map (joinSample a s0 th (ab / xy)))) := by
  intro ab xy th
  have hab : Real.sqrt ((a.x - b.x) ^ 2 + (a.y - b.y) ^ 2) = ab := by
    rw [show ab = ‖b.z - a.z‖ from rfl, Complex.norm_def, Complex.normSq_apply]
    congr 1; simp only [Vert.z, Complex.sub_re, Complex.sub_im]; ring
  have hxy : Real.sqrt ((s0.x - s1.x) ^ 2 + (s0.y - s1.y) ^ 2) = xy := by
    rw [show xy = ‖s1.z - s0.z‖ from rfl, Complex.norm_def, Complex.normSq_apply]
    congr 1; simp only [Sample.z, Complex.sub_re, Complex.sub_im]; ring
  have hl : (s0 :: rest).getLast (by simp) = s1 := by
    rw [List.getLast_eq_iff_getLast?_eq_some]; exact h1
  have hth : (-Complex.arg ⟨s1.x - s0.x, s1.y - s0.y⟩ + Complex.arg ⟨b.x - a.x, b.y - a.y⟩) * (180 / Real.pi) = th := rfl
  have hp : (note w (.joinPoints a b) e).pts = some (s0 :: rest) := by rw [note_pts, h]
  unfold joinPoints
  dsimp only
  rw [hp]
  dsimp only
  rw [hl, hab, hxy, hth]
  by_cases c1 : ab < TOL
  · simp [c1]
  by_cases c2 : xy < TOL
  · simp [c1, c2]
  rw [if_neg c1, if_neg c2]
  have hr : ∀ e : EdgeG, e.pts.isSome = true → e.rotate th false = .ok (mapPts (orthSample (Mat2.rot th)) e) := by
    intro e he
    simp only [rotate, note, he, if_true, orthogonal, (Mat2.isOrth_rot th).defect, Bool.false_eq_true, if_false]
    rw [if_neg (not_lt.2 TOL_pos.le)]
  rw [hr _ (by simp [translate, mapPts, note_pts, h])]
  have hpos : 0 ≤ ab / xy := by positivity
  by_cases c3 : ab / xy < TOL
  · simp only [c1, c2, c3, or_true, not_true, false_imp_iff, and_true, true_imp_iff]
    simp only [bind, Except.bind, dilate, abs_of_nonneg hpos, c3, if_true]
  · simp only [c1, c2, c3, or_self, not_false_eq_true, false_imp_iff, true_and, true_imp_iff]
    have hd : ∀ e : EdgeG, e.dilate (ab / xy) false = .ok (mapPts (fun s => { s with
        x := s.x * (ab / xy), y := s.y * (ab / xy), dxNorm := s.dxNorm * |ab / xy|,
        curv := s.curv * (1 / (ab / xy)) }) e) := by
      intro e
      simp only [dilate, abs_of_nonneg hpos, if_neg c3, note, Bool.false_eq_true, if_false]
    simp only [bind, Except.bind, hd]
    refine ⟨_, rfl, rfl, rfl, ?_⟩
    simp only [setVerts, translate, mapPts, note, Bool.false_eq_true, if_false, Option.map_map]
    have : (if w = true then { e with diary := e.diary ++ [EdgeOp.joinPoints a b] } else e).pts = some (s0 :: rest) := by
      split <;> exact h
    rw [this]
    simp only [Option.map_some, Function.comp, List.map_map]
    rfl

/-- C23: `join_points(a, b)` on a sampled edge with first point `z0` and last point `z1` raises
`EdgeTransformationError` if `a`, `b` coincide, if `z0`, `z1` coincide, or if the scale is too small (all with tolerance
1e-12).  Otherwise the point `z` goes to `a + (b - a) / (z1 - z0) * (z - z0)` (complex numbers): the first point goes to
`a`, the last to `b`, all distances are scaled by `|b - a| / |z1 - z0|`. -/
theorem C23_join {e : EdgeG} {L : List Sample} (h : e.pts = some L) {s0 s1 : Sample} (h0 : L.head? = some s0)
    (h1 : L.getLast? = some s1) (a b : Vert) (w) :
    let ab := ‖b.z - a.z‖
    let xy := ‖s1.z - s0.z‖
    (ab < TOL ∨ xy < TOL ∨ ab / xy < TOL → e.joinPoints a b w = .error .edgeTransformation) ∧
    (¬ (ab < TOL ∨ xy < TOL ∨ ab / xy < TOL) → ∃ e' L', e.joinPoints a b w = .ok e' ∧ e'.pts = some L' ∧
      e'.anchor = a ∧ e'.endpnt = b ∧ L'.length = L.length ∧
      (∀ (j : ℕ) (s s' : Sample), L[j]? = some s → L'[j]? = some s' →
        s'.z = a.z + (b.z - a.z) / (s1.z - s0.z) * (s.z - s0.z)) ∧
      (∃ s0', L'.head? = some s0' ∧ s0'.z = a.z) ∧ (∃ s1', L'.getLast? = some s1' ∧ s1'.z = b.z) ∧
      (∀ (j k : ℕ) (s s' r r' : Sample), L[j]? = some s → L'[j]? = some s' → L[k]? = some r → L'[k]? = some r' →
        ‖s'.z - r'.z‖ = ab / xy * ‖s.z - r.z‖)) := by
  cases L with
  | nil => simp at h0
  | cons s rest =>
    simp only [List.head?_cons, Option.some.injEq] at h0
    subst h0
    intro ab xy
    obtain ⟨k1, k2⟩ := joinPoints_eq h h1 a b w
    refine ⟨k1, fun hc => ?_⟩
    obtain ⟨e', r1, r2, r3, r4⟩ := k2 hc
    have c1 : 0 < ab := TOL_pos.trans_le (not_lt.1 fun h => hc (.inl h))
    have c2 : 0 < xy := TOL_pos.trans_le (not_lt.1 fun h => hc (.inr (.inl h)))
    have n2 : s1.z - s.z ≠ 0 := norm_pos_iff.1 c2
    have key : ∀ r : Sample, (joinSample a s ((-Complex.arg (s1.z - s.z) + Complex.arg (b.z - a.z)) * (180 / Real.pi))
        (ab / xy) r).z = a.z + (b.z - a.z) / (s1.z - s.z) * (r.z - s.z) := by
      intro r
      have hn : ∀ z : ℂ, ‖z‖ = Real.sqrt (z.re ^ 2 + z.im ^ 2) := by
        intro z; rw [Complex.norm_def, Complex.normSq_apply, sq, sq]
      have hab2 : 0 < (b.z - a.z).re ^ 2 + (b.z - a.z).im ^ 2 := by
        have : 0 < ‖b.z - a.z‖ := c1
        rw [hn] at this; exact Real.sqrt_pos.1 this
      have hxy2 : 0 < (s1.z - s.z).re ^ 2 + (s1.z - s.z).im ^ 2 := by
        have : 0 < ‖s1.z - s.z‖ := c2
        rw [hn] at this; exact Real.sqrt_pos.1 this
      obtain ⟨t1, t2⟩ := turn _ _ _ _ hab2 hxy2
      rw [← hn, ← hn] at t1 t2
      have e1 : (⟨(s1.z - s.z).re, (s1.z - s.z).im⟩ : ℂ) = s1.z - s.z := rfl
      have e2 : (⟨(b.z - a.z).re, (b.z - a.z).im⟩ : ℂ) = b.z - a.z := rfl
      rw [e1, e2] at t1 t2
      set th := -Complex.arg (s1.z - s.z) + Complex.arg (b.z - a.z) with hth
      have hpi := Real.pi_pos.ne'
      have hang : th * (180 / Real.pi) * Real.pi / 180 = th := by field_simp
      have hm : (b.z - a.z) / (s1.z - s.z) = ⟨ab / xy * Real.cos th, ab / xy * Real.sin th⟩ := by
        rw [t1, t2, div_eq_iff n2]
        apply Complex.ext
        · simp only [Complex.mul_re]
          field_simp
          ring
        · simp only [Complex.mul_im]
          field_simp
          ring
      rw [hm]
      apply Complex.ext
      · simp only [joinSample, orthSample, Mat2.rot, hang, Sample.z, Vert.z, Complex.add_re, Complex.mul_re,
          Complex.sub_re, Complex.sub_im]
        ring
      · simp only [joinSample, orthSample, Mat2.rot, hang, Sample.z, Vert.z, Complex.add_im, Complex.mul_im,
          Complex.sub_re, Complex.sub_im]
        ring
    have hget : ∀ (j : ℕ) (u u' : Sample), (s :: rest)[j]? = some u →
        ((s :: rest).map (joinSample a s ((-Complex.arg (s1.z - s.z) + Complex.arg (b.z - a.z)) * (180 / Real.pi))
        (ab / xy)))[j]? = some u' → u'.z = a.z + (b.z - a.z) / (s1.z - s.z) * (u.z - s.z) := by
      intro j u u' h3 h4
      rw [List.getElem?_map, h3] at h4
      simp only [Option.map_some, Option.some.injEq] at h4
      subst h4
      exact key u
    refine ⟨e', _, r1, r4, r2, r3, by simp, hget, ⟨_, by rw [List.map_cons, List.head?_cons], ?_⟩, ?_, ?_⟩
    · rw [key]; simp
    · refine ⟨_, by rw [List.getLast?_map, h1]; rfl, ?_⟩
      rw [key]
      field_simp
      ring
    · intro j k u u' v v' h3 h4 h5 h6
      rw [hget j u u' h3 h4, hget k v v' h5 h6]
      rw [add_sub_add_left_eq_sub, ← mul_sub, norm_mul, norm_div, sub_sub_sub_cancel_right]

/-- C23 before parameterization: the pair is recorded, nothing else happens; coincident points are rejected. -/
theorem C23_unsampled {e : EdgeG} (h : e.pts = none) (a b : Vert) :
    e.joinPoints a b true =
      if ‖b.z - a.z‖ < TOL then .error .edgeTransformation
      else .ok { e with diary := e.diary ++ [.joinPoints a b] } := by
  have hab : Real.sqrt ((a.x - b.x) ^ 2 + (a.y - b.y) ^ 2) = ‖b.z - a.z‖ := by
    rw [Complex.norm_def, Complex.normSq_apply]
    congr 1; simp only [Vert.z, Complex.sub_re, Complex.sub_im]; ring
  have hp : (note true (.joinPoints a b) e).pts = none := by rw [note_pts, h]
  unfold joinPoints
  dsimp only
  rw [hab, hp]
  rfl

/-! ### C24 -/

/-- C24: `reverse_orientation` reverses the points, negates tangent, normal and curvature and keeps the speeds; it does
nothing to an edge that is not parameterized, changes no other attribute, and doing it twice changes nothing. -/
theorem C24_reverse (e : EdgeG) :
    e.reverse.reverse = e ∧ { e.reverse with pts := e.pts } = e ∧ (e.pts = none → e.reverse = e) ∧
    ∀ l, e.pts = some l → ∃ l', e.reverse.pts = some l' ∧ l'.length = l.length ∧
      ∀ j < l.length, ∀ s, l[j]? = some s → ∃ s', l'[l.length - 1 - j]? = some s' ∧
        s'.x = s.x ∧ s'.y = s.y ∧ s'.tx = -s.tx ∧ s'.ty = -s.ty ∧ s'.nx = -s.nx ∧ s'.ny = -s.ny ∧
        s'.dxNorm = s.dxNorm ∧ s'.curv = -s.curv := by
  refine ⟨?_, ?_, ?_, ?_⟩
  · cases e with
    | mk a b c o q t i d p u v =>
      cases p with
      | none => rfl
      | some l =>
        simp only [EdgeG.reverse, Option.map_some, EdgeG.mk.injEq, Option.some.injEq, true_and, and_true]
        rw [← List.map_reverse, List.reverse_reverse, List.map_map]
        refine (List.map_congr_left (g := id) ?_).trans (List.map_id _)
        intro s _
        simp [Function.comp]
  · cases e; rfl
  · intro h
    cases e; simp only at h; subst h; rfl
  · intro l h
    refine ⟨_, by rw [EdgeG.reverse, h, Option.map_some], by rw [List.length_reverse, List.length_map], ?_⟩
    intro j hj s hs
    refine ⟨{ s with tx := -s.tx, ty := -s.ty, nx := -s.nx, ny := -s.ny, curv := -s.curv }, ?_, rfl, rfl, rfl, rfl, rfl,
      rfl, rfl, rfl⟩
    rw [List.getElem?_reverse (by simp only [List.length_map]; omega)]
    simp only [List.length_map]
    rw [show l.length - 1 - (l.length - 1 - j) = j by omega, List.getElem?_map, hs]
    rfl

/-! ### C25 -/

theorem pick_type {n p : ℤ} {d : Quad × Quad} (hd : getQuadDict n p = .ok d) {qt : String} {q : Quad}
    (hq : pickQuad qt d = .ok q) : q.type = qt := by
  obtain ⟨-, hd'⟩ := C21_dict n p
  obtain ⟨-, -, t1, t2⟩ := hd' d hd
  unfold pickQuad at hq
  split at hq
  · rename_i h; cases hq; rw [t1, h]
  · split at hq
    · rename_i h; cases hq; rw [t2, h]
    · cases hq

theorem ptsOf_ok {r : Py EdgeG} {x} (h : ptsOf r = .ok x) : ∃ e, r = .ok e ∧ e.pts = x := by
  cases r with
  | error y => simp [ptsOf, Except.map] at h
  | ok e => exact ⟨e, rfl, by simpa [ptsOf, Except.map] using h⟩

theorem run_ptsOf : ∀ (ops : List EdgeOp) {e e' : EdgeG}, e.pts = e'.pts →
    ptsOf (e.run (ops.map (.op · true))) = ptsOf (runDiary ops e')
  | [], e, e', h => by simp [EdgeG.run, runDiary, ptsOf, Except.map, h]
  | o :: ops, e, e', h => ptsOf_bind_congr (apply_ptsOf h o true false) fun _ _ hx => run_ptsOf ops hx

theorem run_fields : ∀ (ops : List EdgeOp) {e e' : EdgeG}, (∀ o ∈ ops, o.isJoin = false) →
    e.run (ops.map (.op · true)) = .ok e' → SameBase e e' ∧ e'.diary = e.diary ++ ops
  | [], e, e', _, h => by cases h; exact ⟨.refl _, by simp⟩
  | o :: ops, e, e', hj, h => by
    obtain ⟨e1, h1, h2⟩ := bind_ok h
    obtain ⟨a1, -, a3, -⟩ := apply_fields h1
    obtain ⟨b1, b2⟩ := run_fields ops (fun o ho => hj o (by simp [ho])) h2
    refine ⟨a1.trans b1, ?_⟩
    rw [b2, (a3 (hj o (by simp))).1]; simp

/-- an edge as it is after its creation, or after transformations other than `join_points` of a loop -/
def Replayable (e : EdgeG) : Prop := (∀ o ∈ e.diary, o.isJoin = false) ∨ ∃ a b, e.diary = [.joinPoints a b]

/-- C25 (partial; the full statement is for every history): if the diary of an edge contains no `join_points` (a loop),
or nothing but one (a new edge with two different ends), then after `parameterize` and any recorded transformations other
than `join_points`, discarding the samples and calling `parameterize` again succeeds and gives the same samples. -/
theorem C25_replay_partial {n p : ℤ} {d : Quad × Quad} (hd : getQuadDict n p = .ok d) {e e1 e2 : EdgeG}
    (hrep : Replayable e) (ops : List EdgeOp) (hj : ∀ o ∈ ops, o.isJoin = false) (h1 : e.parameterize d = .ok e1)
    (h2 : e1.run (ops.map (.op · true)) = .ok e2) :
    ∃ e3, e2.deparameterize.parameterize d = .ok e3 ∧ e3.pts = e2.pts := by
  obtain ⟨q, hq, h1⟩ := bind_ok h1
  obtain ⟨l, hl, h1⟩ := bind_ok h1
  obtain ⟨e', he', h1⟩ := bind_ok h1
  cases h1
  obtain ⟨b1, -, b3⟩ := runDiary_fields _ he' rfl
  have hdi : e'.diary = e.diary := by
    rw [b3]
    rcases hrep with h | ⟨a, b, h⟩
    · rw [List.filter_eq_nil_iff.2 (fun o ho => by simp [h o ho])]; rfl
    · simp [h, EdgeOp.isJoin]
  obtain ⟨c1, c2⟩ := run_fields ops hj h2
  have ht := pick_type hd hq
  have k1 : e2.curve = e.curve := c1.1.trans b1.1
  have k2 : e2.opts = e.opts := c1.2.trans b1.2
  have k3 : e2.tBounds = e.tBounds := c1.4.trans b1.4
  have k4 : e2.quadType = e.quadType := c1.3.trans ht
  have k5 : e2.diary = e.diary ++ ops := by rw [c2]; show e'.diary ++ ops = _; rw [hdi]
  unfold parameterize deparameterize
  simp only [k1, k2, k3, k4, k5, hq, bind, Except.bind] at hl ⊢
  rw [hl]
  dsimp only
  have key := runDiary_append e.diary ops { e with pts := some l }
  rw [he'] at key
  have k6 : ptsOf (runDiary (e.diary ++ ops) { e2 with pts := some l }) = .ok e2.pts := by
    rw [runDiary_ptsOf (e.diary ++ ops) (e := { e2 with pts := some l }) (e' := { e with pts := some l }) rfl, key]
    show ptsOf (runDiary ops e') = _
    rw [← run_ptsOf ops (e := { e' with quadType := q.type }) (e' := e') rfl, h2]
    rfl
  simp only [k1, k2, k3, k4, k5] at k6
  obtain ⟨e3, h3, h4⟩ := ptsOf_ok k6
  rw [h3]
  exact ⟨_, rfl, h4⟩

/-- C25 (partial): after one `parameterize`, whatever the history before, any further `parameterize` calls all agree. -/
theorem C25_stable_partial {n p : ℤ} {d : Quad × Quad} (hd : getQuadDict n p = .ok d) {e e1 e2 : EdgeG}
    (h1 : e.parameterize d = .ok e1) (h2 : e1.deparameterize.parameterize d = .ok e2) :
    ∃ e3, e2.deparameterize.parameterize d = .ok e3 ∧ e3.pts = e2.pts := by
  refine C25_replay_partial hd (e := e1.deparameterize) ?_ [] (by simp) h2 rfl
  obtain ⟨q, hq, h1⟩ := bind_ok h1
  obtain ⟨l, hl, h1⟩ := bind_ok h1
  obtain ⟨e', he', h1⟩ := bind_ok h1
  cases h1
  obtain ⟨b1, -, b3⟩ := runDiary_fields _ he' rfl
  unfold Replayable
  simp only [deparameterize, b3]
  cases hc : (e.diary.filter EdgeOp.isJoin).getLast? with
  | none =>
    left
    rw [List.getLast?_eq_none_iff, List.filter_eq_nil_iff] at hc
    intro o ho
    simpa using hc o ho
  | some j =>
    right
    have : j ∈ e.diary.filter EdgeOp.isJoin := List.mem_of_getLast? hc
    have := (List.mem_filter.1 this).2
    cases j with
    | joinPoints a b => exact ⟨a, b, rfl⟩
    | _ => cases this

/-- a successful `join_points` on the samples of a curve -/
theorem join_ok {e : EdgeG} {C : PCurve} {l} (h : e.pts = some (C.samples l)) (hl : SymRule l) (a b : Vert) (w)
    (h1 : TOL ≤ ‖b.z - a.z‖)
    (h2 : TOL ≤ ‖(⟨C.x (2 * Real.pi), C.y (2 * Real.pi)⟩ - ⟨C.x 0, C.y 0⟩ : ℂ)‖)
    (h3 : TOL ≤ ‖b.z - a.z‖ / ‖(⟨C.x (2 * Real.pi), C.y (2 * Real.pi)⟩ - ⟨C.x 0, C.y 0⟩ : ℂ)‖) :
    ∃ e', e.joinPoints a b w = .ok e' := by
  obtain ⟨g0, k0⟩ := hl.first
  obtain ⟨g1, k1⟩ := hl.last
  obtain ⟨-, hk⟩ := C23_join h (s0 := C.sample 0 g0) (s1 := C.sample (2 * Real.pi) g1)
    (by simp [PCurve.samples, k0]) (by simp [PCurve.samples, k1]) a b w
  obtain ⟨e', -, he', -⟩ := hk (by
    rintro (h | h | h)
    · exact absurd h1 (not_le.2 h)
    · exact absurd h2 (not_le.2 h)
    · exact absurd h3 (not_le.2 h))
  exact ⟨e', he'⟩

/-- C25 fails: a straight edge from `a` to `b` is created and reflected across the horizontal axis.  The first
`parameterize` samples the reflected edge; the second one samples the edge without the reflection. -/
theorem C25_reflection_lost {n p : ℤ} {d : Quad × Quad} (hd : getQuadDict n p = .ok d) (a b : Vert)
    (hab : TOL ≤ ‖b.z - a.z‖) (hb : b.y ≠ 0) :
    ∃ e e0 e1 e2 s1 s2, EdgeG.init a b .line {} "kress" (0, 2 * Real.pi) = .ok e ∧ e.reflectX true = .ok e0 ∧
      e0.parameterize d = .ok e1 ∧ e1.deparameterize.parameterize d = .ok e2 ∧
      e1.pts.bind List.getLast? = some s1 ∧ e2.pts.bind List.getLast? = some s2 ∧
      (s1.x, s1.y) = (b.x, -b.y) ∧ (s2.x, s2.y) = (b.x, b.y) ∧ e1.pts ≠ e2.pts := by
  have hpi := Real.pi_pos
  have hnb : a.beq b = false := by
    apply beq_far
    have : Real.sqrt ((a.x - b.x) ^ 2 + (a.y - b.y) ^ 2) = ‖b.z - a.z‖ := by
      rw [Complex.norm_def, Complex.normSq_apply]
      congr 1; simp only [Vert.z, Complex.sub_re, Complex.sub_im]; ring
    rw [this]; exact not_lt.2 hab
  set ed : EdgeG := ⟨a, b, .line, {}, "kress", (0, 2 * Real.pi), false, [.joinPoints a b], none, -1, -1⟩ with hed
  have hinit : EdgeG.init a b .line {} "kress" (0, 2 * Real.pi) = .ok ed := by
    unfold EdgeG.init
    rw [if_neg (by simp only [ge_iff_le, not_le]; positivity)]
    simp [setVerts, hnb, hed]
  set e0 : EdgeG := { ed with diary := [.joinPoints a b, .reflectX] } with he0
  have hrefl : ed.reflectX true = .ok e0 := by
    simp [EdgeG.reflectX, note, hed, he0]
  have hq : pickQuad "kress" d = .ok d.2 := by simp [pickQuad]
  have hs := dict_sym hd hq
  obtain ⟨γ, g1, g2, g3⟩ := base_samples .line {} (by trivial)
  have x0 := (g2 0).1
  have x1 := (g2 (2 * Real.pi)).1
  rw [(C20_open.1 {}).1] at x0
  rw [(C20_open.1 {}).2] at x1
  simp only [Except.ok.injEq, Prod.mk.injEq] at x0 x1
  set dt := 0.5 * (2 * Real.pi - 0) / Real.pi with hdt
  have hdt1 : dt = 1 := by rw [hdt, show (0.5 : ℝ) = 1 / 2 by norm_num]; field_simp; ring
  set C := γ.retime 0 dt with hC
  have c0 : C.x 0 = 0 ∧ C.y 0 = 0 := by
    simp only [hC, PCurve.retime, mul_zero, add_zero]; exact ⟨x0.1.symm, x0.2.symm⟩
  have c1 : C.x (2 * Real.pi) = 1 ∧ C.y (2 * Real.pi) = 0 := by
    simp only [hC, PCurve.retime, hdt1, one_mul, add_zero]; exact ⟨x1.1.symm, x1.2.symm⟩
  have hnorm : ‖(⟨C.x (2 * Real.pi), C.y (2 * Real.pi)⟩ - ⟨C.x 0, C.y 0⟩ : ℂ)‖ = 1 := by
    rw [c0.1, c0.2, c1.1, c1.2]
    rw [Complex.norm_def, Complex.normSq_apply]; simp
  have hjoin : ∀ (f : EdgeG) (w : Bool), f.pts = some (C.samples (d.2.t.zip d.2.wgt)) → ∃ f', f.joinPoints a b w = .ok f' := by
    intro f w hf
    refine join_ok hf hs a b w hab ?_ ?_
    · rw [hnorm]; exact TOL_le.trans (by norm_num)
    · rw [hnorm, div_one]; exact hab
  -- last point after the join
  have hJ : ((EdgeOp.act (.joinPoints a b) C).x (2 * Real.pi), (EdgeOp.act (.joinPoints a b) C).y (2 * Real.pi)) = (b.x, b.y) := by
    simp only [EdgeOp.act, PCurve.affine, Mat2.complex, c0.1, c0.2, c1.1, c1.2]
    simp
  obtain ⟨gl, hgl⟩ := hs.last
  have hX : Mat2.IsOrth ⟨1, 0, 0, -1⟩ := by refine ⟨?_, ?_, ?_⟩ <;> norm_num
  -- first parameterization
  obtain ⟨f1, hf1⟩ := hjoin { e0 with pts := some (C.samples (d.2.t.zip d.2.wgt)) } false rfl
  have pf1 := joinPoints_pts rfl a b false hs.first hs.last hf1
  obtain ⟨f2, hf2⟩ : ∃ f2, f1.reflectX false = .ok f2 := by
    simp only [EdgeG.reflectX, note_pts, pf1, Option.isSome_some, if_true, orthogonal, hX.defect]
    rw [if_neg (not_lt.2 TOL_pos.le)]
    exact ⟨_, rfl⟩
  have hrun1 : runDiary e0.diary { e0 with pts := some (C.samples (d.2.t.zip d.2.wgt)) } = .ok f2 := by
    show runDiary [.joinPoints a b, .reflectX] _ = _
    simp only [runDiary, EdgeG.apply, hf1, bind, Except.bind, hf2]
  have pf2 := runDiary_pts [.joinPoints a b, .reflectX] rfl hs (by simp [EdgeOp.Good]) hrun1
  have hpar1 : e0.parameterize d = .ok { f2 with quadType := d.2.type } := by
    unfold parameterize
    have : pickQuad e0.quadType d = .ok d.2 := hq
    simp only [this, bind, Except.bind]
    have : baseSamples e0.curve e0.opts e0.tBounds.1 (0.5 * (e0.tBounds.2 - e0.tBounds.1) / Real.pi)
        (d.2.t.zip d.2.wgt) = .ok (C.samples (d.2.t.zip d.2.wgt)) := g3 0 dt _
    rw [this]
    dsimp only
    rw [hrun1]
  -- second parameterization
  obtain ⟨sb, -, hdi⟩ := runDiary_fields _ hrun1 rfl
  have hdi : f2.diary = [.joinPoints a b] := by
    rw [hdi]
    show (match ([EdgeOp.joinPoints a b, .reflectX].filter EdgeOp.isJoin).getLast? with
      | some j => [j]
      | none => ({ e0 with pts := some (C.samples (d.2.t.zip d.2.wgt)) } : EdgeG).diary) = _
    simp [EdgeOp.isJoin]
  set g0 : EdgeG := { f2 with quadType := d.2.type, pts := none } with hg0
  obtain ⟨f3, hf3⟩ := hjoin { g0 with pts := some (C.samples (d.2.t.zip d.2.wgt)) } false rfl
  have pf3 := joinPoints_pts rfl a b false hs.first hs.last hf3
  have hpar2 : g0.parameterize d = .ok { f3 with quadType := d.2.type } := by
    unfold parameterize
    have : pickQuad g0.quadType d = .ok d.2 := by
      show pickQuad d.2.type d = _
      rw [pick_type hd hq]; exact hq
    simp only [this, bind, Except.bind]
    have k : baseSamples g0.curve g0.opts g0.tBounds.1 (0.5 * (g0.tBounds.2 - g0.tBounds.1) / Real.pi)
        (d.2.t.zip d.2.wgt) = .ok (C.samples (d.2.t.zip d.2.wgt)) := by
      have t1 : g0.curve = .line := sb.1
      have t2 : g0.opts = {} := sb.2
      have t3 : g0.tBounds = (0, 2 * Real.pi) := sb.4
      rw [t1, t2, t3]
      exact g3 0 dt _
    rw [k]
    dsimp only
    have : ∀ l, l = [EdgeOp.joinPoints a b] →
        runDiary l { g0 with pts := some (C.samples (d.2.t.zip d.2.wgt)) } = .ok f3 := by
      rintro l rfl
      simp only [runDiary, EdgeG.apply, bind, Except.bind]
      rw [hf3]
    have := this g0.diary hdi
    rw [this]
  have l1 : f2.pts.bind List.getLast? = some ((EdgeOp.act .reflectX (EdgeOp.act (.joinPoints a b) C)).sample (2 * Real.pi) gl) := by
    rw [pf2]
    simp [PCurve.samples, hgl]
  have l2 : f3.pts.bind List.getLast? = some ((EdgeOp.act (.joinPoints a b) C).sample (2 * Real.pi) gl) := by
    rw [pf3]
    simp [PCurve.samples, hgl]
  simp only [Prod.mk.injEq] at hJ
  have v1 : (((EdgeOp.act .reflectX (EdgeOp.act (.joinPoints a b) C)).sample (2 * Real.pi) gl).x,
      ((EdgeOp.act .reflectX (EdgeOp.act (.joinPoints a b) C)).sample (2 * Real.pi) gl).y) = (b.x, -b.y) := by
    rw [Prod.mk.injEq]
    constructor
    · show 1 * (EdgeOp.act (.joinPoints a b) C).x (2 * Real.pi) + 0 * _ + 0 = _
      rw [hJ.1]; ring
    · show 0 * _ + -1 * (EdgeOp.act (.joinPoints a b) C).y (2 * Real.pi) + 0 = _
      rw [hJ.2]; ring
  refine ⟨ed, e0, _, _, _, _, hinit, hrefl, hpar1, hpar2, l1, l2, v1, ?_, ?_⟩
  · rw [Prod.mk.injEq]; exact hJ
  · intro heq
    have heq : f2.pts = f3.pts := heq
    rw [heq, l2] at l1
    simp only [Option.some.injEq] at l1
    rw [← l1] at v1
    simp only [Prod.mk.injEq] at v1
    have : b.y = -b.y := hJ.2.symm.trans v1.2
    exact hb (by linarith)

/-! ### the hypotheses can be met -/

/-- a loop (circle, ellipse, ...) with valid options can be parameterized -/
theorem loop_ok {n p : ℤ} {d : Quad × Quad} (hd : getQuadDict n p = .ok d) (a : Vert) (c : CurveType) (o : CurveOpts)
    (ho : OptsOk c o) (tb : ℝ × ℝ) (htb : tb.1 < tb.2) :
    ∃ e e1, EdgeG.init a a c o "kress" tb = .ok e ∧ e.parameterize d = .ok e1 ∧ e.diary = [.translate a] := by
  have hb : a.beq a = true := by
    simp [Vert.beq, Vert.sub, Vert.norm, Vert.mk', tol]
  obtain ⟨γ, -, -, g3⟩ := base_samples c o ho
  have hq : pickQuad "kress" d = .ok d.2 := by simp [pickQuad]
  have h1 : EdgeG.init a a c o "kress" tb = .ok (setVerts ⟨a, a, c, o, "kress", tb, false, [], none, -1, -1⟩ a a) := by
    unfold EdgeG.init; rw [if_neg (not_le.2 htb)]
  have h2 : ∃ e1, (setVerts ⟨a, a, c, o, "kress", tb, false, [], none, -1, -1⟩ a a).parameterize d = .ok e1 := by
    simp only [parameterize, setVerts, hq, g3, bind, Except.bind, hb, if_true, runDiary, EdgeG.apply]
    exact ⟨_, rfl⟩
  obtain ⟨e1, h2⟩ := h2
  exact ⟨_, e1, h1, h2, by simp [setVerts, hb]⟩

/-- C22: an ellipse is parameterized, rotated, dilated, reflected and reversed -/
example : ∃ d e e1 e2, getQuadDict 4 2 = .ok d ∧
    EdgeG.init (Vert.mk' 1 2) (Vert.mk' 1 2) .ellipse { a := some 2, b := some 3 } "kress" (0, 2 * Real.pi) = .ok e ∧
    (∀ o ∈ e.diary, o.Good) ∧ e.parameterize d = .ok e1 ∧
    e1.run [.op (.rotate 30) true, .op (.dilate 2) true, .op .reflectX true, .reverse] = .ok e2 ∧
    Nondegenerate e.curve e.opts := by
  obtain ⟨d, hd⟩ := (C21_dict 4 2).1.2 ⟨le_rfl, le_rfl⟩
  obtain ⟨e, e1, h1, h2, h3⟩ := loop_ok hd (Vert.mk' 1 2) .ellipse { a := some 2, b := some 3 } (by simp [OptsOk])
    (0, 2 * Real.pi) (by simp only; positivity)
  have hd2 : ¬ |(2 : ℝ)| < TOL := by
    rw [abs_of_pos (by norm_num)]; exact not_lt.2 (TOL_le.trans (by norm_num))
  have hX : Mat2.IsOrth ⟨1, 0, 0, -1⟩ := by refine ⟨?_, ?_, ?_⟩ <;> norm_num
  have hz : ¬ (0 : ℝ) > TOL := not_lt.2 TOL_pos.le
  have hne : Nondegenerate e.curve e.opts := by
    unfold EdgeG.init at h1
    rw [if_neg (by simp only [ge_iff_le, not_le]; positivity)] at h1
    cases h1
    simp [setVerts, Nondegenerate]
  have hr : ∃ e2, e1.run [.op (.rotate 30) true, .op (.dilate 2) true, .op .reflectX true, .reverse] = .ok e2 := by
    have k1 : ∃ f, e1.apply (.rotate 30) true = .ok f := by
      simp only [EdgeG.apply, rotate, orthogonal, (Mat2.isOrth_rot 30).defect, hz, if_false]
      split <;> exact ⟨_, rfl⟩
    obtain ⟨f, hf⟩ := k1
    have k2 : ∃ g, f.apply (.dilate 2) true = .ok g := by
      simp only [EdgeG.apply, dilate, hd2, if_false]; exact ⟨_, rfl⟩
    obtain ⟨g, hg⟩ := k2
    have k3 : ∃ h, g.apply .reflectX true = .ok h := by
      simp only [EdgeG.apply, reflectX, orthogonal, hX.defect, hz, if_false]
      split <;> exact ⟨_, rfl⟩
    obtain ⟨h, hh⟩ := k3
    simp only [EdgeG.run, hf, hg, hh, bind, Except.bind]
    exact ⟨_, rfl⟩
  obtain ⟨e2, hr⟩ := hr
  exact ⟨d, e, e1, e2, hd, h1, by simp [h3, EdgeOp.Good], h2, hr, hne⟩

/-- C25: a concrete edge that loses its reflection -/
example : ∃ d, getQuadDict 4 2 = .ok d ∧ TOL ≤ ‖(Vert.mk' 1 1).z - (Vert.mk' 0 0).z‖ ∧ (Vert.mk' 1 1).y ≠ 0 := by
  obtain ⟨d, hd⟩ := (C21_dict 4 2).1.2 ⟨le_rfl, le_rfl⟩
  refine ⟨d, hd, ?_, by simp [Vert.mk']⟩
  have h1 : |((Vert.mk' 1 1).z - (Vert.mk' 0 0).z).re| ≤ ‖(Vert.mk' 1 1).z - (Vert.mk' 0 0).z‖ := Complex.abs_re_le_norm _
  refine le_trans ?_ h1
  simp only [Vert.z, Vert.mk', Complex.sub_re, sub_zero, abs_one]
  exact TOL_le.trans (by norm_num)

end PFEM
