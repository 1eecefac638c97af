import Verif.Lemmas.Glue
import Verif.Lemmas.KressRule
import Verif.Props.QuadOrder
import Verif.Spec.Contour
import Verif.Spec.Calculus

/-!
A smooth function along a contour, as function of the parameter of the quadrature, is smooth across the corners.
-/

namespace PFEM
open Set Quad

/-! ### flat changes of variables -/

/-- composition with a function whose derivatives vanish -/
theorem comp_flat {g S : ℝ → ℝ} {a : ℝ} {k j : ℕ} (hg : ContDiffAt ℝ k g (S a)) (hS : ContDiffAt ℝ k S a) (h1 : 1 ≤ j) (hj : j ≤ k)
    (hz : ∀ i, 1 ≤ i → i ≤ j → iteratedDeriv i S a = 0) : iteratedDeriv j (fun t => g (S t)) a = 0 := by
  obtain ⟨i, rfl⟩ : ∃ i, j = i + 1 := ⟨j - 1, by omega⟩
  have hk : (k : WithTop ℕ∞) ≠ 0 := by norm_cast; omega
  have hg1 : ContDiffAt ℝ (1 : ℕ) g (S a) := hg.of_le (by norm_cast; omega)
  have hS1 : ContDiffAt ℝ (1 : ℕ) S a := hS.of_le (by norm_cast; omega)
  have e1 : deriv (fun t => g (S t)) =ᶠ[nhds a] (fun t => deriv g (S t)) * deriv S := by
    have h2 := hg1.eventually (by simp)
    have h3 := hS1.eventually (by simp)
    filter_upwards [hS.continuousAt.eventually h2, h3] with t ht ht'
    exact (((ht.differentiableAt (by simp)).hasDerivAt).comp t (ht'.differentiableAt (by simp)).hasDerivAt).deriv
  have hd : ContDiffAt ℝ i (deriv S) a := by
    have := iter_contDiffAt (m := i) (i := 1) hS (by omega)
    rwa [iteratedDeriv_one] at this
  have hd' : ContDiffAt ℝ i (fun t => deriv g (S t)) a := by
    have := iter_contDiffAt (m := i) (i := 1) hg (by omega)
    rw [iteratedDeriv_one] at this
    exact this.comp a (hS.of_le (by norm_cast; omega))
  rw [iteratedDeriv_succ', e1.iteratedDeriv_eq, iteratedDeriv_mul hd' hd]
  refine Finset.sum_eq_zero fun l hl => ?_
  have : iteratedDeriv (i - l) (deriv S) a = 0 := by
    rw [← iteratedDeriv_succ']
    exact hz _ (by omega) (by omega)
  rw [this, mul_zero]

theorem kressC_factors (p : ℕ) (t : ℝ) :
    kressC p (kressS t) = t * (((0.5 - 1 / (p : ℝ)) * (kressS t ^ 2 - kressS t + 1) + 1 / p) / Real.pi) ∧
    1 - kressC p (kressS t) = (t - 2 * Real.pi) * -(((0.5 - 1 / (p : ℝ)) * (kressS t ^ 2 + kressS t + 1) + 1 / p) / Real.pi) := by
  have hpi := Real.pi_pos.ne'
  constructor
  · have : t = Real.pi * (kressS t + 1) := by unfold kressS; field_simp; ring
    rw [mul_div_assoc', eq_div_iff hpi]
    conv_rhs => lhs; rw [this]
    unfold kressC
    ring
  · have : t - 2 * Real.pi = -(Real.pi * (1 - kressS t)) := by unfold kressS; field_simp; ring
    rw [neg_div', mul_div_assoc', eq_div_iff hpi, this]
    unfold kressC
    ring

/-- the derivatives of the change of variables vanish at the ends up to order `p - 1` -/
theorem kressT_flat {p : ℕ} (hp : 2 ≤ p) {i : ℕ} (h1 : 1 ≤ i) (hi : i < p) :
    iteratedDeriv i (kressT p) 0 = 0 ∧ iteratedDeriv i (kressT p) (2 * Real.pi) = 0 := by
  have hpi : (0 : ℝ) ≤ 2 * Real.pi := by positivity
  constructor
  · let S : ℝ → ℝ := fun t => 2 * Real.pi * (((0.5 - 1 / (p : ℝ)) * (kressS t ^ 2 - kressS t + 1) + 1 / p) / Real.pi) ^ p /
      (kressC p (kressS t) ^ p + (1 - kressC p (kressS t)) ^ p)
    have e : kressT p = fun t => (t - 0) ^ p * S t := by
      funext t
      have h := (kressC_factors p t).1
      have : kressC p (kressS t) ^ p = t ^ p * (((0.5 - 1 / (p : ℝ)) * (kressS t ^ 2 - kressS t + 1) + 1 / p) / Real.pi) ^ p := by
        rw [h, mul_pow]
      simp only [S, sub_zero]
      unfold kressT
      rw [mul_div_assoc', show t ^ p * (2 * Real.pi * (((0.5 - 1 / (p : ℝ)) * (kressS t ^ 2 - kressS t + 1) + 1 / p) / Real.pi) ^ p) =
        2 * Real.pi * kressC p (kressS t) ^ p by rw [this]; ring]
    rw [e]
    refine iter_zero hi ?_
    have hc := (kressC_contDiff (p := p) (k := i)).contDiffAt (x := 0)
    have hs := (kressS_contDiff (k := i)).contDiffAt (x := 0)
    refine ContDiffAt.div ?_ ((hc.pow p).add ((contDiffAt_const.sub hc).pow p)) (kress_den hp ⟨le_rfl, hpi⟩)
    fun_prop
  · let S : ℝ → ℝ := fun t => -(2 * Real.pi) * (-(((0.5 - 1 / (p : ℝ)) * (kressS t ^ 2 + kressS t + 1) + 1 / p) / Real.pi)) ^ p /
      (kressC p (kressS t) ^ p + (1 - kressC p (kressS t)) ^ p)
    have hmem : (2 * Real.pi) ∈ Icc 0 (2 * Real.pi) := ⟨hpi, le_rfl⟩
    have hden : ∀ᶠ t in nhds (2 * Real.pi), kressC p (kressS t) ^ p + (1 - kressC p (kressS t)) ^ p ≠ 0 := by
      have hc := (kressC_contDiff (p := p) (k := 0)).continuous
      exact ((hc.pow p).add ((continuous_const.sub hc).pow p)).continuousAt.eventually_ne (kress_den hp hmem)
    have e : kressT p =ᶠ[nhds (2 * Real.pi)] fun t => 2 * Real.pi + (t - 2 * Real.pi) ^ p * S t := by
      filter_upwards [hden] with t ht
      have h := (kressC_factors p t).2
      have : (1 - kressC p (kressS t)) ^ p = (t - 2 * Real.pi) ^ p *
          (-(((0.5 - 1 / (p : ℝ)) * (kressS t ^ 2 + kressS t + 1) + 1 / p) / Real.pi)) ^ p := by
        rw [h, mul_pow]
      simp only [S]
      unfold kressT
      rw [mul_div_assoc', show (t - 2 * Real.pi) ^ p * (-(2 * Real.pi) *
        (-(((0.5 - 1 / (p : ℝ)) * (kressS t ^ 2 + kressS t + 1) + 1 / p) / Real.pi)) ^ p) =
        -(2 * Real.pi) * (1 - kressC p (kressS t)) ^ p by rw [this]; ring]
      field_simp
      ring
    rw [e.iteratedDeriv_eq, iteratedDeriv_const_add (by omega)]
    refine iter_zero hi ?_
    have hc := (kressC_contDiff (p := p) (k := i)).contDiffAt (x := 2 * Real.pi)
    have hs := (kressS_contDiff (k := i)).contDiffAt (x := 2 * Real.pi)
    refine ContDiffAt.div ?_ ((hc.pow p).add ((contDiffAt_const.sub hc).pow p)) (kress_den hp hmem)
    fun_prop

/-! ### the samples of a contour -/

theorem flatMap_range {α β : Type} (d : α) (w : ℕ) (hw : 0 < w) (g : α → ℕ → β) : ∀ l : List α,
    l.flatMap (fun a => (List.range w).map (g a)) = (List.range (l.length * w)).map fun k => g (l.getD (k / w) d) (k % w)
  | [] => by simp
  | a :: l => by
    have ih := flatMap_range d w hw g l
    rw [List.flatMap_cons, ih, List.length_cons, show (l.length + 1) * w = w + l.length * w by ring, List.range_add, List.map_append,
      List.map_map]
    congr 1
    · refine List.map_congr_left fun k hk => ?_
      have hk := List.mem_range.1 hk
      rw [Nat.div_eq_of_lt hk, Nat.mod_eq_of_lt hk, List.getD_cons_zero]
    · refine List.map_congr_left fun k _ => ?_
      simp only [Function.comp]
      rw [Nat.add_mod_left, Nat.add_div_left _ hw, List.getD_cons_succ]

/-- the rule of an edge, as change of variables -/
noncomputable def ruleMapOf (p : ℕ) (qt : String) : ℝ → ℝ := if qt = "kress" then kressT p else fun t => t

/-- its derivative -/
noncomputable def wgtOf (p : ℕ) (qt : String) : ℝ → ℝ := if qt = "kress" then kressW p else fun _ => 1

theorem RuleMap.eq {p : ℕ} {qt : String} {lam W : ℝ → ℝ} (h : RuleMap p qt lam W) : lam = ruleMapOf p qt ∧ W = wgtOf p qt := by
  cases h with
  | trap => exact ⟨(if_neg (by decide)).symm, (if_neg (by decide)).symm⟩
  | kress => exact ⟨(if_pos rfl).symm, (if_pos rfl).symm⟩

theorem edge_cols {p n : ℤ} {d : Quad × Quad} (hd : getQuadDict n p = .ok d) {q : EdgeG × ℤ} {C0 C : PCurve} (hC : q.1.Follows C0)
    (ho : C = oriented q.2 C0) (hdi : ∀ o ∈ q.1.diary, o.Good) {e' : EdgeG} (h : SampledFrom d q e') :
    4 ≤ n ∧ e'.cols = (List.range (2 * n.toNat)).map fun j : ℕ =>
      C.sample (ruleMapOf p.toNat q.1.quadType (j * (2 * Real.pi / (2 * n.toNat : ℕ))))
        (wgtOf p.toNat q.1.quadType (j * (2 * Real.pi / (2 * n.toNat : ℕ)))) := by
  obtain ⟨e1, h1, h2⟩ := h
  have key : ∃ acts : List EdgeAct, (∀ a ∈ acts, a.Good) ∧ e1.run acts = .ok e' ∧ acts.foldl (fun C a => a.act C) C0 = C := by
    by_cases hq : q.2 = -1
    · refine ⟨[.reverse], by simp [EdgeAct.Good], ?_, ?_⟩
      · rw [h2, if_pos hq]; rfl
      · rw [ho, oriented, if_pos hq]; rfl
    · refine ⟨[], by simp, ?_, ?_⟩
      · rw [h2, if_neg hq]; rfl
      · rw [ho, oriented, if_neg hq]; rfl
  obtain ⟨acts, hac, h3, h4⟩ := key
  obtain ⟨hn4, -, lam, W, hr, hpts⟩ := follows_pts hd hC hdi hac h1 h3
  obtain ⟨rfl, rfl⟩ := hr.eq
  rw [h4] at hpts
  refine ⟨hn4, ?_⟩
  simp only [EdgeG.cols, hpts, Option.getD_some, PCurve.samples, List.range_succ, List.map_append, List.map_cons, List.map_nil,
    List.dropLast_concat, List.map_map]
  rfl

theorem contour_cols {p n : ℤ} {d : Quad × Quad} (hd : getQuadDict n p = .ok d) {qt : String} :
    ∀ {qs : List (EdgeG × ℤ)} {Cs : List PCurve} {es : List EdgeG},
    List.Forall₂ (fun (q : EdgeG × ℤ) C => ∃ C0, q.1.Follows C0 ∧ C = oriented q.2 C0) qs Cs →
    (∀ q ∈ qs, ∀ o ∈ q.1.diary, o.Good) → (∀ q ∈ qs, q.1.quadType = qt) → List.Forall₂ (SampledFrom d) qs es →
    es.flatMap EdgeG.cols = Cs.flatMap fun C => (List.range (2 * n.toNat)).map fun j : ℕ =>
      C.sample (ruleMapOf p.toNat qt (j * (2 * Real.pi / (2 * n.toNat : ℕ)))) (wgtOf p.toNat qt (j * (2 * Real.pi / (2 * n.toNat : ℕ)))) := by
  intro qs Cs es hF
  induction hF generalizing es with
  | nil =>
    intro _ _ h
    rw [List.forall₂_nil_left_iff] at h
    simp [h]
  | @cons q C qs Cs hq hqs ih =>
    intro hdi hqt h
    obtain ⟨C0, h1, h2⟩ := hq
    obtain ⟨e', es', k1, k2, rfl⟩ := List.forall₂_cons_left_iff.1 h
    rw [List.flatMap_cons, List.flatMap_cons, ih (fun q hq => hdi q (by simp [hq])) (fun q hq => hqt q (by simp [hq])) k2,
      (edge_cols hd h1 h2 (hdi q (by simp)) k1).2, hqt q (by simp)]

/-! ### a function along the contour -/

/-- a function along a curve, in the parameter of the rule -/
noncomputable def along (f : ℝ → ℝ → ℝ) (lam : ℝ → ℝ) (C : PCurve) (t : ℝ) : ℝ := f (C.x (lam t)) (C.y (lam t))

/-- a curve that stays at the origin -/
def restCurve : PCurve := ⟨fun _ => 0, fun _ => 0, fun _ => 0, fun _ => 0, fun _ => 0, fun _ => 0⟩

/-- the change of variables of a rule -/
structure RuleOk (lam W : ℝ → ℝ) : Prop where
  mem : ∀ t ∈ Icc 0 (2 * Real.pi), lam t ∈ Icc 0 (2 * Real.pi)
  smooth : ∀ k : ℕ, ∀ t ∈ Icc 0 (2 * Real.pi), ContDiffAt ℝ k lam t
  deriv : ∀ t ∈ Icc 0 (2 * Real.pi), HasDerivAt lam (W t) t
  zero : lam 0 = 0
  fin : lam (2 * Real.pi) = 2 * Real.pi

theorem ruleOk_kress {p : ℕ} (hp : 2 ≤ p) : RuleOk (ruleMapOf p "kress") (wgtOf p "kress") := by
  rw [ruleMapOf, wgtOf, if_pos rfl, if_pos rfl]
  exact ⟨fun t ht => kressT_mem hp ht, fun k t ht => kressT_contDiffAt hp ht, fun t ht => kressT_hasDerivAt p hp t ht.1 ht.2,
    kressT_zero hp, kressT_end hp⟩

theorem ruleOk_trap {p : ℕ} : RuleOk (ruleMapOf p "trap") (wgtOf p "trap") := by
  rw [ruleMapOf, wgtOf, if_neg (by decide), if_neg (by decide)]
  exact ⟨fun t ht => ht, fun k t _ => contDiffAt_id, fun t _ => hasDerivAt_id t, rfl, rfl⟩

theorem along_contDiff {lam W : ℝ → ℝ} (hl : RuleOk lam W) {C : PCurve} (h : C.Cinf) {k : ℕ} {f : ℝ → ℝ → ℝ}
    (hf : C.SmoothOnCurve k f) : ∀ t ∈ Icc 0 (2 * Real.pi), ContDiffAt ℝ k (along f lam C) t := by
  intro t ht
  exact ContDiffAt.comp (g := fun s => f (C.x s) (C.y s)) (f := lam) t (onCurve_contDiff h hf (lam t) (hl.mem t ht)) (hl.smooth k t ht)

theorem along_deriv {lam W : ℝ → ℝ} (hl : RuleOk lam W) {C : PCurve} (hs : C.Smooth) {k : ℕ} (hk : 1 ≤ k) {f g1 g2 : ℝ → ℝ → ℝ}
    (hf : C.SmoothOnCurve k f) (hg : ∀ s ∈ Icc 0 (2 * Real.pi), HasGrad f (C.x s) (C.y s) (g1 (C.x s) (C.y s)) (g2 (C.x s) (C.y s)))
    {t : ℝ} (ht : t ∈ Icc 0 (2 * Real.pi)) :
    HasDerivAt (along f lam C) ((g1 (C.x (lam t)) (C.y (lam t)) * C.dx (lam t) + g2 (C.x (lam t)) (C.y (lam t)) * C.dy (lam t)) * W t) t := by
  set s := lam t with hst
  have hsm := hl.mem t ht
  have hd : HasFDerivAt (fun q : ℝ × ℝ => f q.1 q.2) (fderiv ℝ (fun q : ℝ × ℝ => f q.1 q.2) (C.x s, C.y s)) (C.x s, C.y s) :=
    ((hf s hsm).differentiableAt (by norm_cast; omega)).hasFDerivAt
  obtain ⟨h1, h2⟩ := hg s hsm
  have e1 : fderiv ℝ (fun q : ℝ × ℝ => f q.1 q.2) (C.x s, C.y s) (1, 0) = g1 (C.x s) (C.y s) := by
    have := hd.comp_hasDerivAt (C.x s) (f := fun x : ℝ => (x, C.y s)) ((hasDerivAt_id (C.x s)).prodMk (hasDerivAt_const (C.x s) (C.y s)))
    exact this.unique h1
  have e2 : fderiv ℝ (fun q : ℝ × ℝ => f q.1 q.2) (C.x s, C.y s) (0, 1) = g2 (C.x s) (C.y s) := by
    have := hd.comp_hasDerivAt (C.y s) (f := fun y : ℝ => (C.x s, y)) ((hasDerivAt_const (C.y s) (C.x s)).prodMk (hasDerivAt_id (C.y s)))
    exact this.unique h2
  have h3 := hd.comp_hasDerivAt s (f := fun s => (C.x s, C.y s)) ((hs s).1.prodMk (hs s).2.1)
  have e3 : fderiv ℝ (fun q : ℝ × ℝ => f q.1 q.2) (C.x s, C.y s) (C.dx s, C.dy s) =
      g1 (C.x s) (C.y s) * C.dx s + g2 (C.x s) (C.y s) * C.dy s := by
    rw [show ((C.dx s, C.dy s) : ℝ × ℝ) = C.dx s • ((1 : ℝ), (0 : ℝ)) + C.dy s • ((0 : ℝ), (1 : ℝ)) by ext <;> simp, map_add, map_smul,
      map_smul, e1, e2, smul_eq_mul, smul_eq_mul]
    ring
  rw [e3] at h3
  exact h3.comp t (hl.deriv t ht)

/-- the number of edges is the number of curves -/
theorem curves_length {c : ContourG} {Cs : List PCurve} (hc : c.Curves Cs) (hl : c.edges.length = c.orients.length) :
    Cs.length = c.edges.length := by
  have := hc.length_eq
  simp only [List.length_zip] at this
  omega

/-- the derivatives of the function along the contour agree at the corners -/
theorem along_meets {c : ContourG} {Cs : List PCurve} (hch : Chained Cs) {p : ℤ} {k : ℕ} (hp : 2 ≤ p)
    (hr : c.SmoothRule p k Cs) {f : ℝ → ℝ → ℝ} (hci : ∀ C ∈ Cs, C.Cinf) (hf : ∀ C ∈ Cs, C.SmoothOnCurve (k + 2) f) :
    ∃ qt, (∀ e ∈ c.edges, e.quadType = qt) ∧ RuleOk (ruleMapOf p.toNat qt) (wgtOf p.toNat qt) ∧
      ∀ j ≤ k + 1, GlueMatch (2 * Real.pi) Cs.length fun i => iteratedDeriv j (along f (ruleMapOf p.toNat qt) (Cs.getD i restCurve)) := by
  have h0 : ∀ {lam W : ℝ → ℝ}, RuleOk lam W → GlueMatch (2 * Real.pi) Cs.length fun i => along f lam (Cs.getD i restCurve) := by
    intro lam W hl i hi
    have hi' : (i + 1) % Cs.length < Cs.length := Nat.mod_lt _ (by omega)
    obtain ⟨hx, hy⟩ := hch i Cs[i] Cs[(i + 1) % Cs.length] (List.getElem?_eq_getElem hi) (List.getElem?_eq_getElem hi')
    simp only [along, List.getD_eq_getElem _ _ hi, List.getD_eq_getElem _ _ hi', hl.zero, hl.fin, hx, hy]
  rcases hr with ⟨hq, hkp⟩ | ⟨e, C, he, hq, rfl, hcl⟩
  · have hl := ruleOk_kress (p := p.toNat) (by omega)
    refine ⟨"kress", hq, hl, fun j hj => ?_⟩
    rcases Nat.eq_zero_or_pos j with rfl | hj0
    · simp only [iteratedDeriv_zero]
      exact h0 hl
    · have hflat : ∀ i < Cs.length, iteratedDeriv j (along f (ruleMapOf p.toNat "kress") (Cs.getD i restCurve)) 0 = 0 ∧
          iteratedDeriv j (along f (ruleMapOf p.toNat "kress") (Cs.getD i restCurve)) (2 * Real.pi) = 0 := by
        intro i hi
        have hC := List.getElem_mem hi
        rw [List.getD_eq_getElem _ _ hi]
        have hg := onCurve_contDiff (hci _ hC) (hf _ hC)
        have hpi : (0 : ℝ) ≤ 2 * Real.pi := by positivity
        rw [ruleMapOf, if_pos rfl] at hl ⊢
        constructor
        · exact comp_flat (g := fun s => f (Cs[i].x s) (Cs[i].y s)) (hg _ (hl.mem 0 ⟨le_rfl, hpi⟩)) (hl.smooth _ 0 ⟨le_rfl, hpi⟩) hj0
            (by omega) fun l h1 h2 => (kressT_flat (by omega) h1 (by omega)).1
        · exact comp_flat (g := fun s => f (Cs[i].x s) (Cs[i].y s)) (hg _ (hl.mem _ ⟨hpi, le_rfl⟩)) (hl.smooth _ _ ⟨hpi, le_rfl⟩) hj0
            (by omega) fun l h1 h2 => (kressT_flat (by omega) h1 (by omega)).2
      intro i hi
      simp only
      rw [(hflat i hi).2, (hflat _ (Nat.mod_lt _ (by omega))).1]
  · refine ⟨"trap", by simp [he, hq], ruleOk_trap, fun j _ i hi => ?_⟩
    have hi0 : i = 0 := by simpa using hi
    subst hi0
    have hper : ∀ t, along f (ruleMapOf p.toNat "trap") C (t + 2 * Real.pi) = along f (ruleMapOf p.toNat "trap") C t := by
      intro t
      rw [ruleMapOf, if_neg (by decide)]
      simp only [along, (hcl t).1, (hcl t).2]
    simp only [List.length_singleton, Nat.mod_one, List.getD_cons_zero]
    have := congrFun (iteratedDeriv_comp_add_const j (along f (ruleMapOf p.toNat "trap") C) (2 * Real.pi)) 0
    rw [zero_add] at this
    rw [← this]
    congr 1
    exact (funext hper).symm ▸ rfl

end PFEM
