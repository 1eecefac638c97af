import Verif.Lemmas.EdgeDiary
import Mathlib.Data.List.GetD
import Verif.Props.Curves
import Verif.Props.Quad

/-!
The samples of an edge after transformations, reversals and diary replays.
-/

namespace PFEM
open EdgeG

/-! ### helper facts -/

theorem PCurve.Smooth.affine {C : PCurve} (h : C.Smooth) (A u v) : (C.affine A u v).Smooth := by
  intro s
  obtain ⟨h1, h2, h3, h4⟩ := h s
  exact ⟨((h1.const_mul A.a).add (h2.const_mul A.b)).add_const u, ((h1.const_mul A.c).add (h2.const_mul A.d)).add_const v,
    (h3.const_mul A.a).add (h4.const_mul A.b), (h3.const_mul A.c).add (h4.const_mul A.d)⟩

theorem hasDerivAt_flip {f : ℝ → ℝ} {f' c s : ℝ} (h : HasDerivAt f f' (c - s)) :
    HasDerivAt (fun s => f (c - s)) (-f') s := by
  have := h.comp s ((hasDerivAt_id s).const_sub c)
  exact this.congr_deriv (by ring)

theorem hasDerivAt_retime {f : ℝ → ℝ} {f' dt a s : ℝ} (h : HasDerivAt f f' (dt * s + a)) :
    HasDerivAt (fun s => f (dt * s + a)) (dt * f') s := by
  have := h.comp s (((hasDerivAt_id s).const_mul dt).add_const a)
  exact this.congr_deriv (by ring)

theorem PCurve.Smooth.reverse {C : PCurve} (h : C.Smooth) : C.reverse.Smooth := by
  intro s
  obtain ⟨h1, h2, h3, h4⟩ := h (2 * Real.pi - s)
  exact ⟨hasDerivAt_flip h1, hasDerivAt_flip h2, (hasDerivAt_flip h3).neg.congr_deriv (neg_neg _),
    (hasDerivAt_flip h4).neg.congr_deriv (neg_neg _)⟩

theorem PCurve.Smooth.retime {C : PCurve} (h : C.Smooth) (a dt) : (C.retime a dt).Smooth := by
  intro s
  obtain ⟨h1, h2, h3, h4⟩ := h (dt * s + a)
  exact ⟨hasDerivAt_retime h1, hasDerivAt_retime h2,
    ((hasDerivAt_retime h3).const_mul dt).congr_deriv (by simp only [PCurve.retime]; ring),
    ((hasDerivAt_retime h4).const_mul dt).congr_deriv (by simp only [PCurve.retime]; ring)⟩

theorem EdgeOp.act_smooth {C : PCurve} (h : C.Smooth) (op : EdgeOp) : (op.act C).Smooth := by
  cases op <;> exact h.affine _ _ _

theorem EdgeAct.act_smooth {C : PCurve} (h : C.Smooth) (op : EdgeAct) : (op.act C).Smooth := by
  cases op with
  | op o w => exact EdgeOp.act_smooth h o
  | reverse => exact h.reverse

/-- nowhere zero speed on `[0, 2 pi]` -/
def PCurve.Regular (C : PCurve) : Prop := ∀ s, 0 ≤ s → s ≤ 2 * Real.pi → C.dx s ≠ 0 ∨ C.dy s ≠ 0

theorem PCurve.Regular.affine {C : PCurve} (h : C.Regular) (A : Mat2) (u v) (hA : A.a * A.d - A.b * A.c ≠ 0) :
    (C.affine A u v).Regular := by
  intro s h0 h1
  by_contra hc
  push Not at hc
  obtain ⟨c1, c2⟩ := hc
  simp only [PCurve.affine] at c1 c2
  have e1 : (A.a * A.d - A.b * A.c) * C.dx s = 0 := by linear_combination A.d * c1 - A.b * c2
  have e2 : (A.a * A.d - A.b * A.c) * C.dy s = 0 := by linear_combination A.a * c2 - A.c * c1
  rcases h s h0 h1 with h | h
  · exact h ((mul_eq_zero.1 e1).resolve_left hA)
  · exact h ((mul_eq_zero.1 e2).resolve_left hA)

theorem Mat2.IsOrth.det_ne {A : Mat2} (h : A.IsOrth) : A.a * A.d - A.b * A.c ≠ 0 := by
  have h1 := h.1
  rcases h.det with ⟨h3, h4⟩ | ⟨h3, h4⟩ <;> rw [h3, h4] <;> rw [h4] at h1 <;> nlinarith

/-- the nodes of a rule: from 0 to 2 pi, symmetric -/
structure SymRule (l : List (ℝ × ℝ)) : Prop where
  first : ∃ g, l.head? = some (0, g)
  last : ∃ g, l.getLast? = some (2 * Real.pi, g)
  range : ∀ p ∈ l, 0 ≤ p.1 ∧ p.1 ≤ 2 * Real.pi
  symm : l.reverse = l.map fun p => (2 * Real.pi - p.1, p.2)

theorem reverse_pts {e : EdgeG} {C : PCurve} {l} (h : e.pts = some (C.samples l)) (hl : SymRule l) :
    e.reverse.pts = some (C.reverse.samples l) := by
  simp only [EdgeG.reverse, h, Option.map_some, Option.some.injEq]
  have e1 : C.reverse.samples l = (C.reverse.samples (l.map fun p => (2 * Real.pi - p.1, p.2))).reverse := by
    rw [← hl.symm]; simp [PCurve.samples]
  rw [e1]
  congr 1
  simp only [PCurve.samples, List.map_map]
  refine List.map_congr_left fun p _ => ?_
  have hs : C.reverse.speed (2 * Real.pi - p.1) = C.speed p.1 := by
    simp [PCurve.speed, PCurve.reverse]
  apply PCurve.sample_ext <;> simp only [Function.comp, PCurve.sample, hs] <;>
    simp only [PCurve.reverse, sub_sub_cancel] <;> ring

theorem apply_pts {e e' : EdgeG} {C : PCurve} {l : List (ℝ × ℝ)} (h : e.pts = some (C.samples l)) (hl : SymRule l)
    {op : EdgeOp} (hg : op.Good) {w} (hr : e.apply op w = .ok e') : e'.pts = some ((op.act C).samples l) := by
  have hX : Mat2.IsOrth ⟨1, 0, 0, -1⟩ := by refine ⟨?_, ?_, ?_⟩ <;> norm_num
  have hY : Mat2.IsOrth ⟨-1, 0, 0, 1⟩ := by refine ⟨?_, ?_, ?_⟩ <;> norm_num
  cases op with
  | joinPoints a b => exact joinPoints_pts h a b w hl.first hl.last hr
  | rotate th => exact rotate_pts h th w hr
  | reflectX =>
    simp only [apply, reflectX, note_pts, h, Option.isSome_some, if_true] at hr
    exact orthogonal_pts (by rw [note_pts, h]) hX _ hr
  | reflectY =>
    simp only [apply, reflectY, note_pts, h, Option.isSome_some, if_true] at hr
    exact orthogonal_pts (by rw [note_pts, h]) hY _ hr
  | translate a => cases hr; exact translate_pts h a w
  | dilate al => exact dilate_pts h hg w hr
  | orthogonal A => exact orthogonal_pts h hg w hr

theorem run_pts : ∀ (acts : List EdgeAct) {e e' : EdgeG} {C : PCurve} {l : List (ℝ × ℝ)},
    e.pts = some (C.samples l) → SymRule l → (∀ a ∈ acts, a.Good) → e.run acts = .ok e' →
    e'.pts = some ((acts.foldl (fun C a => a.act C) C).samples l)
  | [], e, e', C, l, h, hl, hg, hr => by cases hr; exact h
  | .op o w :: acts, e, e', C, l, h, hl, hg, hr => by
    obtain ⟨e1, h1, h2⟩ := bind_ok hr
    exact run_pts acts (apply_pts h hl (hg (.op o w) (by simp)) h1) hl (fun a ha => hg a (by simp [ha])) h2
  | .reverse :: acts, e, e', C, l, h, hl, hg, hr =>
    run_pts acts (reverse_pts h hl) hl (fun a ha => hg a (by simp [ha])) hr

theorem runDiary_pts : ∀ (ops : List EdgeOp) {e e' : EdgeG} {C : PCurve} {l : List (ℝ × ℝ)},
    e.pts = some (C.samples l) → SymRule l → (∀ a ∈ ops, a.Good) → runDiary ops e = .ok e' →
    e'.pts = some ((ops.foldl (fun C a => a.act C) C).samples l)
  | [], e, e', C, l, h, hl, hg, hr => by cases hr; exact h
  | o :: ops, e, e', C, l, h, hl, hg, hr => by
    obtain ⟨e1, h1, h2⟩ := bind_ok hr
    exact runDiary_pts ops (apply_pts h hl (hg o (by simp)) h1) hl (fun a ha => hg a (by simp [ha])) h2

/-- the rules of `get_quad_dict` are symmetric -/
theorem dict_sym {n p : ℤ} {d : Quad × Quad} (hd : getQuadDict n p = .ok d) {qt : String} {q : Quad}
    (hq : pickQuad qt d = .ok q) : SymRule (q.t.zip q.wgt) := by
  have hpi := Real.pi_pos
  obtain ⟨hok, hd'⟩ := C21_dict n p
  obtain ⟨hn, hp⟩ := hok.1 ⟨d, hd⟩
  obtain ⟨i1, i2, t1, t2⟩ := hd' d hd
  obtain ⟨n, rfl⟩ : ∃ m : ℕ, n = m := ⟨n.toNat, by omega⟩
  obtain ⟨p, rfl⟩ : ∃ m : ℕ, p = m := ⟨p.toNat, by omega⟩
  have hn4 : 4 ≤ n := by omega
  have hn0 : (n : ℝ) ≠ 0 := by positivity
  -- both rules: node and weight `j`, with symmetry
  have key : ∃ (T W : ℕ → ℝ), q.t.length = 2 * n + 1 ∧ q.wgt.length = 2 * n + 1 ∧
      (∀ j ≤ 2 * n, q.t[j]? = some (T j) ∧ q.wgt[j]? = some (W j)) ∧ T 0 = 0 ∧
      (∀ j ≤ 2 * n, T (2 * n - j) = 2 * Real.pi - T j ∧ W (2 * n - j) = W j) ∧
      (∀ j ≤ 2 * n, 0 ≤ T j ∧ T j ≤ 2 * Real.pi) := by
    unfold pickQuad at hq
    split at hq
    · cases hq
      obtain ⟨q', hq', -, l1, l2, hj⟩ := C21_trap "trap" n 7 hn4 (by decide) (by decide)
      rw [i1] at hq'; cases hq'
      refine ⟨fun j => j * (Real.pi / n), fun _ => 1, l1, l2, fun j h => ?_, by simp, fun j h => ?_, fun j h => ?_⟩
      · obtain ⟨a1, a2, a3⟩ := hj j h
        exact ⟨by rw [a1, a3], a2⟩
      · refine ⟨?_, rfl⟩
        push_cast [Nat.cast_sub h]
        field_simp
      · have : (j : ℝ) ≤ 2 * n := by exact_mod_cast h
        refine ⟨by positivity, ?_⟩
        dsimp only
        rw [mul_div_assoc', div_le_iff₀ (by positivity)]
        nlinarith
    · split at hq
      · cases hq
        obtain ⟨q', hq', -, l1, l2, f0, f1, mono, s1, s2⟩ := C21_kress n p hn4 (by omega)
        rw [i2] at hq'; cases hq'
        refine ⟨fun j => d.2.t.getD j 0, fun j => d.2.wgt.getD j 0, l1, l2, fun j h => ?_, ?_, fun j h => ?_, fun j h => ?_⟩
        · constructor
          · dsimp only
            rw [List.getElem?_eq_getElem (by omega), List.getD_eq_getElem _ _ (by omega)]
          · dsimp only
            rw [List.getElem?_eq_getElem (by omega), List.getD_eq_getElem _ _ (by omega)]
        · simp only [List.getD, f0, Option.getD_some]
        · obtain ⟨a, b, ha, hb, hab⟩ := s1 j h
          obtain ⟨c, hc, hc', -⟩ := s2 j h
          simp only [List.getD, ha, hb, hc, hc', Option.getD_some]
          exact ⟨by linarith, trivial⟩
        · have hle : ∀ i k, i ≤ k → k ≤ 2 * n → d.2.t.getD i 0 ≤ d.2.t.getD k 0 := by
            intro i k hik hk
            rcases hik.eq_or_lt with rfl | hik
            · exact le_rfl
            · rw [List.getD_eq_getElem _ _ (by omega), List.getD_eq_getElem _ _ (by omega)]
              exact (List.pairwise_iff_getElem.1 mono i k (by omega) (by omega) hik).le
          have a0 : d.2.t.getD 0 0 = 0 := by simp only [List.getD, f0, Option.getD_some]
          have a1 : d.2.t.getD (2 * n) 0 = 2 * Real.pi := by simp only [List.getD, f1, Option.getD_some]
          exact ⟨a0.ge.trans (hle 0 j (by omega) h), (hle j (2 * n) h le_rfl).trans a1.le⟩
      · cases hq
  obtain ⟨T, W, l1, l2, hj, t0, hs, hr⟩ := key
  have hz : ∀ j ≤ 2 * n, (q.t.zip q.wgt)[j]? = some (T j, W j) := by
    intro j h
    rw [List.getElem?_zip_eq_some]
    exact hj j h
  have hlen : (q.t.zip q.wgt).length = 2 * n + 1 := by rw [List.length_zip, l1, l2, min_self]
  refine ⟨⟨W 0, ?_⟩, ⟨W (2 * n), ?_⟩, ?_, ?_⟩
  · rw [List.head?_eq_getElem?, hz 0 (by omega), t0]
  · rw [List.getLast?_eq_getElem?, hlen, Nat.add_sub_cancel, hz _ le_rfl]
    have := (hs 0 (by omega)).1
    simp only [Nat.sub_zero, t0, sub_zero] at this
    rw [this]
  · intro x hx
    obtain ⟨j, hj', rfl⟩ := List.getElem_of_mem hx
    have := hz j (by omega)
    rw [List.getElem?_eq_getElem hj', Option.some.injEq] at this
    rw [this]
    exact hr j (by omega)
  · apply List.ext_getElem?
    intro j
    by_cases h : j ≤ 2 * n
    · rw [List.getElem?_reverse (by omega), hlen, List.getElem?_map, hz j h,
        show 2 * n + 1 - 1 - j = 2 * n - j by omega, hz _ (by omega), (hs j h).1, (hs j h).2]
      rfl
    · rw [List.getElem?_eq_none (by simp only [List.length_reverse]; omega),
        List.getElem?_eq_none (by simp only [List.length_map]; omega)]

theorem base_samples (c : CurveType) (o : CurveOpts) (hc : OptsOk c o) :
    ∃ γ : PCurve, γ.Smooth ∧ (∀ t, Curve.X c o t = .ok (γ.x t, γ.y t) ∧ Curve.DX c o t = .ok (γ.dx t, γ.dy t) ∧
        Curve.DDX c o t = .ok (γ.ddx t, γ.ddy t)) ∧
      ∀ a dt l, baseSamples c o a dt l = .ok ((γ.retime a dt).samples l) := by
  rcases C19_derivatives c o with ⟨e, he⟩ | ⟨f, g, h, hf, hd⟩
  · obtain ⟨p, hp⟩ := (C20_errors c o 0).1.2 hc
    rw [(he 0).1] at hp; cases hp
  · refine ⟨⟨fun t => (f t).1, fun t => (f t).2, fun t => (g t).1, fun t => (g t).2, fun t => (h t).1,
      fun t => (h t).2⟩, ?_, hf, ?_⟩
    · intro s
      obtain ⟨h1, h2⟩ := hd s
      exact ⟨h1.fst, h1.snd, h2.fst, h2.snd⟩
    · intro a dt l
      induction l with
      | nil => rfl
      | cons p l ih =>
        obtain ⟨t, w⟩ := p
        obtain ⟨h1, h2, h3⟩ := hf (dt * t + a)
        simp only [baseSamples, baseSample, h1, h2, h3, ih, bind, Except.bind, PCurve.samples, List.map_cons]
        congr 2
        apply PCurve.sample_ext <;> simp only [PCurve.sample, PCurve.retime, PCurve.speed]
        have : 0 ≤ (dt * (g (dt * t + a)).1) ^ 2 + (dt * (g (dt * t + a)).2) ^ 2 := by positivity
        set S := Real.sqrt ((dt * (g (dt * t + a)).1) ^ 2 + (dt * (g (dt * t + a)).2) ^ 2) with hS
        rw [show (dt * (g (dt * t + a)).1) ^ 2 + (dt * (g (dt * t + a)).2) ^ 2 = S ^ 2 from (Real.sq_sqrt this).symm]
        by_cases h0 : S = 0
        · simp [h0]
        · field_simp
          ring

theorem baseSamples_ok {c : CurveType} {o : CurveOpts} {a dt : ℝ} {l : List (ℝ × ℝ)} {L}
    (h : baseSamples c o a dt l = .ok L) (hl : l ≠ []) : OptsOk c o := by
  cases l with
  | nil => exact absurd rfl hl
  | cons p l =>
    obtain ⟨t, g⟩ := p
    obtain ⟨s, hs, -⟩ := bind_ok h
    obtain ⟨x, hx, -⟩ := bind_ok hs
    exact (C20_errors c o _).1.1 ⟨x, hx⟩

theorem SymRule.ne_nil {l} (h : SymRule l) : l ≠ [] := by
  obtain ⟨g, hg⟩ := h.first
  rintro rfl; simp at hg

theorem EdgeAct.act_regular {C : PCurve} (h : C.Regular) {a : EdgeAct} (hg : a.Good)
    (hj : ∀ u v w, a = .op (.joinPoints u v) w →
      (u.x ≠ v.x ∨ u.y ≠ v.y) ∧ (C.x (2 * Real.pi) ≠ C.x 0 ∨ C.y (2 * Real.pi) ≠ C.y 0)) : (a.act C).Regular := by
  cases a with
  | reverse =>
    intro s h0 h1
    have := h (2 * Real.pi - s) (by linarith) (by linarith)
    simpa [EdgeAct.act, PCurve.reverse] using this
  | op o w =>
    cases o with
    | joinPoints u v =>
      obtain ⟨h1, h2⟩ := hj u v w rfl
      refine h.affine _ _ _ ?_
      set wx := C.x (2 * Real.pi) - C.x 0
      set wy := C.y (2 * Real.pi) - C.y 0
      have hw : 0 < wx ^ 2 + wy ^ 2 := by
        rcases h2 with h2 | h2
        · have : wx ≠ 0 := sub_ne_zero.2 h2
          positivity
        · have : wy ≠ 0 := sub_ne_zero.2 h2
          positivity
      have hu : 0 < (v.x - u.x) ^ 2 + (v.y - u.y) ^ 2 := by
        rcases h1 with h1 | h1
        · have : v.x - u.x ≠ 0 := sub_ne_zero.2 (Ne.symm h1)
          positivity
        · have : v.y - u.y ≠ 0 := sub_ne_zero.2 (Ne.symm h1)
          positivity
      simp only [Mat2.complex]
      have : ((v.x - u.x) * wx + (v.y - u.y) * wy) / (wx ^ 2 + wy ^ 2) *
          (((v.x - u.x) * wx + (v.y - u.y) * wy) / (wx ^ 2 + wy ^ 2)) -
          -(((v.y - u.y) * wx - (v.x - u.x) * wy) / (wx ^ 2 + wy ^ 2)) *
          (((v.y - u.y) * wx - (v.x - u.x) * wy) / (wx ^ 2 + wy ^ 2)) =
          ((v.x - u.x) ^ 2 + (v.y - u.y) ^ 2) / (wx ^ 2 + wy ^ 2) := by
        field_simp; ring
      rw [this]
      positivity
    | rotate th =>
      refine h.affine _ _ _ ?_
      simp only [Mat2.complex]
      have := Real.sin_sq_add_cos_sq (th * Real.pi / 180)
      nlinarith
    | reflectX => exact h.affine _ _ _ (by norm_num)
    | reflectY => exact h.affine _ _ _ (by norm_num)
    | translate a => exact h.affine _ _ _ (by norm_num)
    | dilate al =>
      have : 0 < al := hg
      exact h.affine _ _ _ (by simp only [mul_zero, sub_zero]; positivity)
    | orthogonal A => exact h.affine _ _ _ (Mat2.IsOrth.det_ne hg)

theorem joinPoints_ne {e e' : EdgeG} {C : PCurve} {l : List (ℝ × ℝ)} (h : e.pts = some (C.samples l)) {a b : Vert} {w}
    (hl : SymRule l) (hr : e.joinPoints a b w = .ok e') :
    (a.x ≠ b.x ∨ a.y ≠ b.y) ∧ (C.x (2 * Real.pi) ≠ C.x 0 ∨ C.y (2 * Real.pi) ≠ C.y 0) := by
  obtain ⟨g0, h0⟩ := hl.first
  obtain ⟨g1, h1⟩ := hl.last
  unfold joinPoints at hr
  dsimp only at hr
  split at hr
  · cases hr
  rename_i hab
  cases l with
  | nil => simp at h0
  | cons p l =>
    simp only [List.head?_cons, Option.some.injEq] at h0
    subst h0
    have hp : (note w (.joinPoints a b) e).pts = some (C.samples ((0, g0) :: l)) := by rw [note_pts, h]
    have hl : (C.samples ((0, g0) :: l)).getLast (by simp [PCurve.samples]) = C.sample (2 * Real.pi) g1 := by
      rw [List.getLast_eq_iff_getLast?_eq_some]
      simp only [PCurve.samples, List.getLast?_map, h1, Option.map_some]
    have hs : C.samples ((0, g0) :: l) = C.sample 0 g0 :: C.samples l := rfl
    rw [hp] at hr
    simp only [hs] at hr hl
    rw [hl] at hr
    split at hr
    · cases hr
    rename_i hxy
    constructor
    · by_contra hc
      push Not at hc
      apply hab
      rw [hc.1, hc.2]; simpa using TOL_pos
    · by_contra hc
      push Not at hc
      apply hxy
      simp only [PCurve.sample]
      rw [hc.1, hc.2]; simpa using TOL_pos

theorem run_regular : ∀ (acts : List EdgeAct) {e e' : EdgeG} {C : PCurve} {l : List (ℝ × ℝ)},
    e.pts = some (C.samples l) → SymRule l → (∀ a ∈ acts, a.Good) → C.Smooth → C.Regular → e.run acts = .ok e' →
    e'.pts = some ((acts.foldl (fun C a => a.act C) C).samples l) ∧
    (acts.foldl (fun C a => a.act C) C).Smooth ∧ (acts.foldl (fun C a => a.act C) C).Regular
  | [], e, e', C, l, h, hl, hg, hs, hreg, hr => by cases hr; exact ⟨h, hs, hreg⟩
  | .op o w :: acts, e, e', C, l, h, hl, hg, hs, hreg, hr => by
    obtain ⟨e1, h1, h2⟩ := bind_ok hr
    have hgo : (EdgeAct.op o w).Good := hg _ (by simp)
    refine run_regular acts (apply_pts h hl hgo h1) hl (fun a ha => hg a (by simp [ha])) (EdgeOp.act_smooth hs o)
      (EdgeAct.act_regular (a := .op o w) hreg hgo ?_) h2
    rintro u v w' ⟨⟩
    exact joinPoints_ne h hl h1
  | .reverse :: acts, e, e', C, l, h, hl, hg, hs, hreg, hr =>
    run_regular acts (reverse_pts h hl) hl (fun a ha => hg a (by simp [ha])) hs.reverse
      (EdgeAct.act_regular (a := .reverse) hreg trivial (by rintro _ _ _ ⟨⟩)) hr

theorem runDiary_regular : ∀ (ops : List EdgeOp) {e e' : EdgeG} {C : PCurve} {l : List (ℝ × ℝ)},
    e.pts = some (C.samples l) → SymRule l → (∀ a ∈ ops, a.Good) → C.Smooth → C.Regular → runDiary ops e = .ok e' →
    e'.pts = some ((ops.foldl (fun C a => a.act C) C).samples l) ∧
    (ops.foldl (fun C a => a.act C) C).Smooth ∧ (ops.foldl (fun C a => a.act C) C).Regular
  | [], e, e', C, l, h, hl, hg, hs, hreg, hr => by cases hr; exact ⟨h, hs, hreg⟩
  | o :: ops, e, e', C, l, h, hl, hg, hs, hreg, hr => by
    obtain ⟨e1, h1, h2⟩ := bind_ok hr
    have hgo : o.Good := hg _ (by simp)
    refine runDiary_regular ops (apply_pts h hl hgo h1) hl (fun a ha => hg a (by simp [ha])) (EdgeOp.act_smooth hs o)
      (EdgeAct.act_regular (a := .op o false) hreg hgo ?_) h2
    rintro u v w' ⟨⟩
    exact joinPoints_ne h hl h1

theorem dict_len {n p : ℤ} {d : Quad × Quad} (hd : getQuadDict n p = .ok d) {qt : String} {q : Quad}
    (hq : pickQuad qt d = .ok q) : q.t.length = q.wgt.length := by
  obtain ⟨hok, hd'⟩ := C21_dict n p
  obtain ⟨hn, hp⟩ := hok.1 ⟨d, hd⟩
  obtain ⟨i1, i2, t1, t2⟩ := hd' d hd
  obtain ⟨n, rfl⟩ : ∃ m : ℕ, n = m := ⟨n.toNat, by omega⟩
  obtain ⟨p, rfl⟩ : ∃ m : ℕ, p = m := ⟨p.toNat, by omega⟩
  unfold pickQuad at hq
  split at hq
  · cases hq
    obtain ⟨q', hq', -, l1, l2, -⟩ := C21_trap "trap" n 7 (by omega) (by decide) (by decide)
    rw [i1] at hq'; cases hq'; rw [l1, l2]
  · split at hq
    · cases hq
      obtain ⟨q', hq', -, l1, l2, -⟩ := C21_kress n p (by omega) (by omega)
      rw [i2] at hq'; cases hq'; rw [l1, l2]
    · cases hq

end PFEM
