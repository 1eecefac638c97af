import Verif.Model.Split
import Verif.Props.EdgeGeom

/-!
The points of an edge and the plain arrays of `transform.py` are moved by the same maps of the plane.
-/

namespace PFEM
open EdgeG

theorem Vert.z_re (v : Vert) : v.z.re = v.x := rfl
theorem Vert.z_im (v : Vert) : v.z.im = v.y := rfl

/-! ### sampled edges -/

theorem mapPts_z {e : EdgeG} {L : List Sample} (h : e.pts = some L) {f : Sample → Sample} {T : ℂ → ℂ}
    (hf : ∀ s, (f s).z = T s.z) :
    ∃ L', (mapPts f e).pts = some L' ∧ L'.map Sample.z = (L.map Sample.z).map T := by
  refine ⟨L.map f, by simp [mapPts, h], ?_⟩
  simp [List.map_map, Function.comp, hf]

theorem orthogonal_z {e e' : EdgeG} {L : List Sample} (h : e.pts = some L) {A w} (hr : e.orthogonal A w = .ok e') :
    ∃ L', e'.pts = some L' ∧ L'.map Sample.z = (L.map Sample.z).map (opMap 0 0 (.orthogonal A)) := by
  unfold EdgeG.orthogonal at hr
  split at hr
  · cases hr
  · cases hr
    exact mapPts_z (by rw [note_pts, h]) fun s => rfl

theorem orthIf_z {e e' : EdgeG} {L : List Sample} (h : e.pts = some L) {A w op}
    (hr : (if (note w op e).pts.isSome then EdgeG.orthogonal (note w op e) A false else .ok (note w op e)) = .ok e') :
    ∃ L', e'.pts = some L' ∧ L'.map Sample.z = (L.map Sample.z).map (opMap 0 0 (.orthogonal A)) := by
  rw [note_pts, h] at hr
  exact orthogonal_z (by rw [note_pts, h]) hr

theorem apply_z {e e' : EdgeG} {L : List Sample} (h : e.pts = some L) {z0 z1 : ℂ}
    (h0 : (L.map Sample.z).head? = some z0) (h1 : (L.map Sample.z).getLast? = some z1) {op w}
    (hr : e.apply op w = .ok e') :
    ∃ L', e'.pts = some L' ∧ L'.map Sample.z = (L.map Sample.z).map (opMap z0 z1 op) := by
  cases op with
  | joinPoints a b =>
    rw [List.head?_map, Option.map_eq_some_iff] at h0
    rw [List.getLast?_map, Option.map_eq_some_iff] at h1
    obtain ⟨s0, h0, rfl⟩ := h0
    obtain ⟨s1, h1, rfl⟩ := h1
    obtain ⟨k1, k2⟩ := C23_join h h0 h1 a b w
    by_cases hc : ‖b.z - a.z‖ < TOL ∨ ‖s1.z - s0.z‖ < TOL ∨ ‖b.z - a.z‖ / ‖s1.z - s0.z‖ < TOL
    · have : e.joinPoints a b w = .ok e' := hr
      rw [k1 hc] at this; cases this
    · obtain ⟨e'', L', r1, r2, -, -, r3, r4, -⟩ := k2 hc
      have : e.joinPoints a b w = .ok e' := hr
      rw [r1] at this; cases this
      refine ⟨L', r2, ?_⟩
      apply List.ext_getElem?
      intro j
      simp only [List.getElem?_map]
      by_cases hj : j < L.length
      · rw [List.getElem?_eq_getElem hj, List.getElem?_eq_getElem (by omega)]
        simp only [Option.map_some, Option.some.injEq]
        exact r4 j _ _ (List.getElem?_eq_getElem hj) (List.getElem?_eq_getElem (by omega))
      · rw [List.getElem?_eq_none (by omega), List.getElem?_eq_none (by omega)]; rfl
  | rotate th =>
    obtain ⟨L', r1, r2⟩ := orthIf_z h (op := .rotate th) hr
    refine ⟨L', r1, r2.trans (List.map_congr_left fun z _ => ?_)⟩
    apply Complex.ext
    · simp [opMap, Mat2.rot, Complex.mul_re]; ring
    · simp [opMap, Mat2.rot, Complex.mul_im]; ring
  | reflectX =>
    obtain ⟨L', r1, r2⟩ := orthIf_z h (op := .reflectX) hr
    refine ⟨L', r1, r2.trans (List.map_congr_left fun z _ => ?_)⟩
    apply Complex.ext <;> simp [opMap]
  | reflectY =>
    obtain ⟨L', r1, r2⟩ := orthIf_z h (op := .reflectY) hr
    refine ⟨L', r1, r2.trans (List.map_congr_left fun z _ => ?_)⟩
    apply Complex.ext <;> simp [opMap]
  | translate a =>
    cases hr
    exact mapPts_z (by rw [note_pts, h]) fun s => by
      apply Complex.ext <;> simp [opMap, Sample.z, Vert.z]
  | dilate al =>
    have hr : e.dilate al w = .ok e' := hr
    unfold EdgeG.dilate at hr
    split at hr
    · cases hr
    · cases hr
      exact mapPts_z (by rw [note_pts, h]) fun s => by
        apply Complex.ext <;> simp [opMap, Sample.z] <;> ring
  | orthogonal A => exact orthogonal_z h hr

theorem runDiary_z : ∀ (ops : List EdgeOp) {e e' : EdgeG} {L : List Sample} {z0 z1 : ℂ}, e.pts = some L →
    (L.map Sample.z).head? = some z0 → (L.map Sample.z).getLast? = some z1 → runDiary ops e = .ok e' →
    ∃ L', e'.pts = some L' ∧ L'.map Sample.z = (L.map Sample.z).map (opsMap ops z0 z1)
  | [], e, e', L, z0, z1, h, h0, h1, hr => by
    cases hr
    refine ⟨L, h, ?_⟩
    exact (List.map_id _).symm
  | op :: ops, e, e', L, z0, z1, h, h0, h1, hr => by
    obtain ⟨f, r1, r2⟩ := bind_ok hr
    obtain ⟨L1, p1, p2⟩ := apply_z h h0 h1 r1
    obtain ⟨L2, q1, q2⟩ := runDiary_z ops (z0 := opMap z0 z1 op z0) (z1 := opMap z0 z1 op z1) p1
      (by rw [p2, List.head?_map, h0]; rfl) (by rw [p2, List.getLast?_map, h1]; rfl) r2
    refine ⟨L2, q1, ?_⟩
    rw [q2, p2, List.map_map]
    rfl

/-! ### plain arrays -/

theorem transform_orthogonal_z {X Y : List ℂ} {A} (hr : Transform.orthogonal X A = .ok Y) :
    Y = X.map (opMap 0 0 (.orthogonal A)) := by
  unfold Transform.orthogonal at hr
  split at hr
  · cases hr
  · cases hr; rfl

theorem transform_join_z {x0 : ℂ} {rest Y : List ℂ} {z1 : ℂ} (h1 : (x0 :: rest).getLast? = some z1) (a b : Vert)
    (hr : Transform.joinPoints (x0 :: rest) a b = .ok Y) : Y = (x0 :: rest).map (opMap x0 z1 (.joinPoints a b)) := by
  have hl : (x0 :: rest).getLast (by simp) = z1 := by
    rw [List.getLast_eq_iff_getLast?_eq_some]; exact h1
  unfold Transform.joinPoints at hr
  dsimp only at hr
  split at hr
  · cases hr
  rename_i hab
  rw [hl] at hr
  split at hr
  · cases hr
  rename_i hxy
  have hn : ∀ z : ℂ, ‖z‖ = Real.sqrt (z.re ^ 2 + z.im ^ 2) := by
    intro z; rw [Complex.norm_def, Complex.normSq_apply, sq, sq]
  have e1 : (a.x - b.x) ^ 2 + (a.y - b.y) ^ 2 = (b.z - a.z).re ^ 2 + (b.z - a.z).im ^ 2 := by
    simp only [Vert.z, Complex.sub_re, Complex.sub_im]; ring
  have e2 : (x0.re - z1.re) ^ 2 + (x0.im - z1.im) ^ 2 = (z1 - x0).re ^ 2 + (z1 - x0).im ^ 2 := by
    simp only [Complex.sub_re, Complex.sub_im]; ring
  rw [e1] at hab hr
  rw [e2] at hxy hr
  have hab2 := Real.sqrt_pos.1 (TOL_pos.trans_le (not_lt.1 hab))
  have hxy2 := Real.sqrt_pos.1 (TOL_pos.trans_le (not_lt.1 hxy))
  obtain ⟨t1, t2⟩ := turn _ _ _ _ hab2 hxy2
  have n2 : z1 - x0 ≠ 0 := by
    intro h
    rw [h] at hxy2; simp at hxy2
  obtain ⟨Y1, r1, hr⟩ := bind_ok hr
  obtain ⟨Y2, r2, hr⟩ := bind_ok hr
  cases hr
  have r1 := transform_orthogonal_z r1
  unfold Transform.dilate at r2
  split at r2
  · cases r2
  cases r2
  rw [r1]
  have e3 : (⟨z1.re - x0.re, z1.im - x0.im⟩ : ℂ) = ⟨(z1 - x0).re, (z1 - x0).im⟩ := rfl
  have e4 : (⟨b.x - a.x, b.y - a.y⟩ : ℂ) = ⟨(b.z - a.z).re, (b.z - a.z).im⟩ := rfl
  rw [e3, e4]
  set th := -Complex.arg ⟨(z1 - x0).re, (z1 - x0).im⟩ + Complex.arg ⟨(b.z - a.z).re, (b.z - a.z).im⟩ with hth
  set al := Real.sqrt ((b.z - a.z).re ^ 2 + (b.z - a.z).im ^ 2) / Real.sqrt ((z1 - x0).re ^ 2 + (z1 - x0).im ^ 2)
  have hpi := Real.pi_pos.ne'
  have hang : th * (180 / Real.pi) * Real.pi / 180 = th := by field_simp
  have hm : (b.z - a.z) / (z1 - x0) = ⟨al * Real.cos th, al * Real.sin th⟩ := by
    rw [t1, t2, div_eq_iff n2]
    apply Complex.ext
    · simp only [Complex.mul_re]
      field_simp
      ring
    · simp only [Complex.mul_im]
      field_simp
      ring
  unfold Transform.translate
  simp only [List.map_map]
  refine List.map_congr_left fun z _ => ?_
  simp only [Function.comp, opMap, hm]
  apply Complex.ext
  · simp only [Mat2.rot, hang, Vert.mk', Vert.z_re, Complex.add_re, Complex.mul_re, Complex.sub_re, Complex.sub_im]
    ring
  · simp only [Mat2.rot, hang, Vert.mk', Vert.z_im, Complex.add_im, Complex.mul_im, Complex.sub_re, Complex.sub_im]
    ring

theorem transform_apply_z {X Y : List ℂ} {z0 z1 : ℂ} (h0 : X.head? = some z0) (h1 : X.getLast? = some z1) {op}
    (hr : Transform.apply X op = .ok Y) : Y = X.map (opMap z0 z1 op) := by
  cases op with
  | joinPoints a b =>
    cases X with
    | nil => simp at h0
    | cons x0 rest =>
      simp only [List.head?_cons, Option.some.injEq] at h0
      subst h0
      exact transform_join_z h1 a b hr
  | rotate th =>
    refine (transform_orthogonal_z hr).trans (List.map_congr_left fun z _ => ?_)
    apply Complex.ext
    · simp [opMap, Mat2.rot, Complex.mul_re]; ring
    · simp [opMap, Mat2.rot, Complex.mul_im]; ring
  | reflectX =>
    refine (transform_orthogonal_z hr).trans (List.map_congr_left fun z _ => ?_)
    apply Complex.ext <;> simp [opMap]
  | reflectY =>
    refine (transform_orthogonal_z hr).trans (List.map_congr_left fun z _ => ?_)
    apply Complex.ext <;> simp [opMap]
  | translate a =>
    cases hr
    refine List.map_congr_left fun z _ => ?_
    apply Complex.ext <;> simp [opMap, Vert.z]
  | dilate al =>
    have hr : Transform.dilate X al = .ok Y := hr
    unfold Transform.dilate at hr
    split at hr
    · cases hr
    · cases hr
      refine List.map_congr_left fun z _ => ?_
      apply Complex.ext <;> simp [opMap]
  | orthogonal A => exact transform_orthogonal_z hr

theorem transform_run_z : ∀ (ops : List EdgeOp) {X Y : List ℂ} {z0 z1 : ℂ}, X.head? = some z0 → X.getLast? = some z1 →
    Transform.run ops X = .ok Y → Y = X.map (opsMap ops z0 z1)
  | [], X, Y, z0, z1, h0, h1, hr => by cases hr; exact (List.map_id _).symm
  | op :: ops, X, Y, z0, z1, h0, h1, hr => by
    obtain ⟨X1, r1, r2⟩ := bind_ok hr
    have p := transform_apply_z h0 h1 r1
    have q := transform_run_z ops (z0 := opMap z0 z1 op z0) (z1 := opMap z0 z1 op z1)
      (by rw [p, List.head?_map, h0]; rfl) (by rw [p, List.getLast?_map, h1]; rfl) r2
    rw [q, p, List.map_map]
    rfl

/-! ### orientation-preserving diaries are multiplication by a complex number followed by a translation -/

theorem opMap_direct {op : EdgeOp} (h : op.Direct) (z0 z1 : ℂ) : ∃ m c : ℂ, ∀ z, opMap z0 z1 op z = m * z + c := by
  cases op with
  | joinPoints a b => exact ⟨(b.z - a.z) / (z1 - z0), a.z - (b.z - a.z) / (z1 - z0) * z0, fun z => by simp only [opMap]; ring⟩
  | rotate th => exact ⟨_, 0, fun z => by simp only [opMap, add_zero]; rfl⟩
  | reflectX => exact h.elim
  | reflectY => exact h.elim
  | translate a => exact ⟨1, a.z, fun z => by simp [opMap]⟩
  | dilate al => exact ⟨al, 0, fun z => by simp [opMap]⟩
  | orthogonal A =>
    refine ⟨⟨A.a, A.c⟩, 0, fun z => ?_⟩
    obtain ⟨h1, h2⟩ := h
    apply Complex.ext
    · simp [opMap, Complex.mul_re, h2]
    · simp [opMap, Complex.mul_im, h1]; ring

theorem opsMap_direct : ∀ (ops : List EdgeOp) (z0 z1 : ℂ), (∀ o ∈ ops, o.Direct) →
    ∃ m c : ℂ, ∀ z, opsMap ops z0 z1 z = m * z + c
  | [], z0, z1, _ => ⟨1, 0, fun z => by simp [opsMap]⟩
  | op :: ops, z0, z1, h => by
    obtain ⟨m, c, hm⟩ := opMap_direct (h op (by simp)) z0 z1
    obtain ⟨m', c', hm'⟩ := opsMap_direct ops (opMap z0 z1 op z0) (opMap z0 z1 op z1) fun o ho => h o (by simp [ho])
    exact ⟨m' * m, m' * c + c', fun z => by rw [opsMap, hm', hm]; ring⟩

end PFEM
