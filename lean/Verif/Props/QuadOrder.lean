import Verif.Props.LineIntegral

/-!
Property theorems C86: the rates at which quadrature over edges and cells converges.
-/

namespace PFEM
open EdgeG Set

/-! ### smoothness of the curves and of the integrands -/

/-- all derivatives of the coordinates exist -/
def PCurve.Cinf (C : PCurve) : Prop := ∀ k : ℕ, ContDiff ℝ k C.x ∧ ContDiff ℝ k C.y

theorem library_cinf {c : CurveType} {o : CurveOpts} {γ : PCurve} (h : ∀ t, Curve.X c o t = .ok (γ.x t, γ.y t)) : γ.Cinf := by
  intro k
  have key : ∀ F G : ℝ → ℝ, (∀ t, Curve.X c o t = .ok (F t, G t)) → ContDiff ℝ k F → ContDiff ℝ k G →
      ContDiff ℝ k γ.x ∧ ContDiff ℝ k γ.y := by
    intro F G hFG hF hG
    have e1 : γ.x = F := by
      funext t
      have := (h t).symm.trans (hFG t)
      simp only [Except.ok.injEq, Prod.mk.injEq] at this
      exact this.1
    have e2 : γ.y = G := by
      funext t
      have := (h t).symm.trans (hFG t)
      simp only [Except.ok.injEq, Prod.mk.injEq] at this
      exact this.2
    rw [e1, e2]
    exact ⟨hF, hG⟩
  have h0 := h 0
  cases c with
  | bean => exact key _ _ (fun t => rfl) (by fun_prop) (by fun_prop)
  | cartioid =>
    obtain ⟨a, ha, -⟩ := bind_ok h0
    exact key (fun t => Curve.cartR a t * Real.cos t) (fun t => Curve.cartR a t * Real.sin t)
      (fun t => by simp only [Curve.X, ha]; rfl) (by unfold Curve.cartR; fun_prop) (by unfold Curve.cartR; fun_prop)
  | circle => exact key _ _ (fun t => rfl) (by fun_prop) (by fun_prop)
  | circularArc =>
    obtain ⟨⟨H, R, t0, w⟩, ha, -⟩ := bind_ok h0
    exact key (fun t => 0.5 + R * Real.cos (t0 + Real.pi + w * t)) (fun t => H + R * Real.sin (t0 + Real.pi + w * t))
      (fun t => by simp only [Curve.X, ha]; rfl) (by fun_prop) (by fun_prop)
  | circularArcDeg =>
    obtain ⟨w, ha, -⟩ := bind_ok h0
    exact key (fun t => Real.cos (w * t)) (fun t => Real.sin (w * t))
      (fun t => by simp only [Curve.X, ha]; rfl) (by fun_prop) (by fun_prop)
  | ellipse =>
    obtain ⟨a, ha, h1⟩ := bind_ok h0
    obtain ⟨b, hb, -⟩ := bind_ok h1
    exact key (fun t => a * Real.cos t) (fun t => b * Real.sin t)
      (fun t => by simp only [Curve.X, ha, hb]; rfl) (by fun_prop) (by fun_prop)
  | line => exact key _ _ (fun t => rfl) (by fun_prop) (by fun_prop)
  | sineWave =>
    obtain ⟨⟨a, w⟩, ha, -⟩ := bind_ok h0
    exact key (fun t => t / (2 * Real.pi)) (fun t => a * Real.sin (w * t / 2))
      (fun t => by simp only [Curve.X, ha]; rfl) (by fun_prop) (by fun_prop)
  | teardrop =>
    obtain ⟨b, ha, -⟩ := bind_ok h0
    exact key (fun t => 2 * Real.sin (t / 2)) (fun t => -b * Real.sin t)
      (fun t => by simp only [Curve.X, ha]; rfl) (by fun_prop) (by fun_prop)

theorem PCurve.Cinf.affine {C : PCurve} (h : C.Cinf) (A : Mat2) (u v : ℝ) : (C.affine A u v).Cinf := by
  intro k
  obtain ⟨h1, h2⟩ := h k
  constructor <;> simp only [PCurve.affine] <;> fun_prop

theorem PCurve.Cinf.retime {C : PCurve} (h : C.Cinf) (a dt : ℝ) : (C.retime a dt).Cinf := by
  intro k
  obtain ⟨h1, h2⟩ := h k
  constructor <;> simp only [PCurve.retime] <;> fun_prop

theorem PCurve.Cinf.reverse {C : PCurve} (h : C.Cinf) : C.reverse.Cinf := by
  intro k
  obtain ⟨h1, h2⟩ := h k
  constructor <;> simp only [PCurve.reverse] <;> fun_prop

theorem PCurve.Cinf.op {C : PCurve} (h : C.Cinf) (o : EdgeOp) : (o.act C).Cinf := by
  cases o <;> exact h.affine _ _ _

theorem PCurve.Cinf.act {C : PCurve} (h : C.Cinf) (a : EdgeAct) : (a.act C).Cinf := by
  cases a with
  | op o w => exact h.op o
  | reverse => exact h.reverse

theorem acts_cinf {acts : List EdgeAct} {C : PCurve} (h : C.Cinf) : (acts.foldl (fun C a => a.act C) C).Cinf := by
  induction acts generalizing C with
  | nil => exact h
  | cons a l ih => exact ih (h.act a)

theorem follows_cinf {e : EdgeG} {C : PCurve} (h : e.Follows C) : C.Cinf := by
  obtain ⟨γ, -, g2, rfl⟩ := h
  have := (library_cinf g2).retime e.tBounds.1 ((e.tBounds.2 - e.tBounds.1) / (2 * Real.pi))
  revert this
  generalize γ.retime e.tBounds.1 ((e.tBounds.2 - e.tBounds.1) / (2 * Real.pi)) = C
  generalize e.diary = l
  intro h
  induction l generalizing C with
  | nil => exact h
  | cons o l ih => exact ih _ (h.op o)

theorem velocity_contDiff {C : PCurve} (hs : C.Smooth) (h : C.Cinf) (k : ℕ) : ContDiff ℝ k C.dx ∧ ContDiff ℝ k C.dy := by
  have e1 : C.dx = deriv C.x := funext fun s => (hs s).1.deriv.symm
  have e2 : C.dy = deriv C.y := funext fun s => (hs s).2.1.deriv.symm
  obtain ⟨h1, h2⟩ := h (k + 1)
  rw [e1, e2]
  constructor
  · exact (contDiff_succ_iff_deriv.1 (by exact_mod_cast h1)).2.2
  · exact (contDiff_succ_iff_deriv.1 (by exact_mod_cast h2)).2.2

theorem onCurve_contDiff {C : PCurve} (h : C.Cinf) {k : ℕ} {f : ℝ → ℝ → ℝ} (hf : C.SmoothOnCurve k f) :
    ∀ s ∈ Icc 0 (2 * Real.pi), ContDiffAt ℝ k (fun s => f (C.x s) (C.y s)) s := by
  intro s hs
  obtain ⟨h1, h2⟩ := h k
  exact ContDiffAt.comp (f := fun s => (C.x s, C.y s)) (g := fun q : ℝ × ℝ => f q.1 q.2) s (hf s hs)
    (h1.contDiffAt.prodMk h2.contDiffAt)

theorem line_contDiff {C : PCurve} (hs : C.Smooth) (h : C.Cinf) (hm : C.Moving) {k : ℕ} {f : ℝ → ℝ → ℝ}
    (hf : C.SmoothOnCurve k f) :
    ∀ s ∈ Icc 0 (2 * Real.pi), ContDiffAt ℝ k (fun s => f (C.x s) (C.y s) * C.speed s) s := by
  intro s hs'
  obtain ⟨h1, h2⟩ := velocity_contDiff hs h k
  refine (onCurve_contDiff h hf s hs').mul ?_
  unfold PCurve.speed
  refine ContDiffAt.sqrt (by fun_prop) ?_
  have := hm s hs'
  intro h0
  have h3 : C.dx s = 0 := by nlinarith [sq_nonneg (C.dx s), sq_nonneg (C.dy s)]
  have h4 : C.dy s = 0 := by nlinarith [sq_nonneg (C.dx s), sq_nonneg (C.dy s)]
  rcases this with h | h
  · exact h h3
  · exact h h4

theorem flux_contDiff {C : PCurve} (hs : C.Smooth) (h : C.Cinf) {k : ℕ} {f g : ℝ → ℝ → ℝ} (hf : C.SmoothOnCurve k f)
    (hg : C.SmoothOnCurve k g) : ∀ s ∈ Icc 0 (2 * Real.pi),
      ContDiffAt ℝ k (fun s => f (C.x s) (C.y s) * C.dy s - g (C.x s) (C.y s) * C.dx s) s := fun s hs' =>
  ((onCurve_contDiff h hf s hs').mul (velocity_contDiff hs h k).2.contDiffAt).sub
    ((onCurve_contDiff h hg s hs').mul (velocity_contDiff hs h k).1.contDiffAt)

theorem circulation_contDiff {C : PCurve} (hs : C.Smooth) (h : C.Cinf) {k : ℕ} {f g : ℝ → ℝ → ℝ} (hf : C.SmoothOnCurve k f)
    (hg : C.SmoothOnCurve k g) : ∀ s ∈ Icc 0 (2 * Real.pi),
      ContDiffAt ℝ k (fun s => f (C.x s) (C.y s) * C.dx s + g (C.x s) (C.y s) * C.dy s) s := fun s hs' =>
  ((onCurve_contDiff h hf s hs').mul (velocity_contDiff hs h k).1.contDiffAt).add
    ((onCurve_contDiff h hg s hs').mul (velocity_contDiff hs h k).2.contDiffAt)

theorem closed_velocity {C : PCurve} (hs : C.Smooth) (hc : C.Closed) (s : ℝ) :
    C.dx (s + 2 * Real.pi) = C.dx s ∧ C.dy (s + 2 * Real.pi) = C.dy s := by
  have e1 : (fun s => C.x (s + 2 * Real.pi)) = C.x := funext fun s => (hc s).1
  have e2 : (fun s => C.y (s + 2 * Real.pi)) = C.y := funext fun s => (hc s).2
  constructor
  · have := (hs (s + 2 * Real.pi)).1.comp_add_const s (2 * Real.pi)
    rw [e1] at this
    exact this.unique (hs s).1
  · have := (hs (s + 2 * Real.pi)).2.1.comp_add_const s (2 * Real.pi)
    rw [e2] at this
    exact this.unique (hs s).2.1

/-- an integrand that is periodic on closed curves -/
def PeriodicOn (G : PCurve → ℝ → ℝ) : Prop := ∀ C : PCurve, C.Smooth → C.Closed → ∀ s, G C (s + 2 * Real.pi) = G C s

theorem line_periodic (f : ℝ → ℝ → ℝ) : PeriodicOn (fun C s => f (C.x s) (C.y s) * C.speed s) := by
  intro C hs hc s
  simp only [PCurve.speed, (hc s).1, (hc s).2, (closed_velocity hs hc s).1, (closed_velocity hs hc s).2]

theorem flux_periodic (f g : ℝ → ℝ → ℝ) : PeriodicOn (fun C s => f (C.x s) (C.y s) * C.dy s - g (C.x s) (C.y s) * C.dx s) := by
  intro C hs hc s
  simp only [(hc s).1, (hc s).2, (closed_velocity hs hc s).1, (closed_velocity hs hc s).2]

theorem circulation_periodic (f g : ℝ → ℝ → ℝ) :
    PeriodicOn (fun C s => f (C.x s) (C.y s) * C.dx s + g (C.x s) (C.y s) * C.dy s) := by
  intro C hs hc s
  simp only [(hc s).1, (hc s).2, (closed_velocity hs hc s).1, (closed_velocity hs hc s).2]

/-! ### one edge -/

theorem bound_pos {M : ℝ} {k : ℕ} {E : ℕ → ℝ} (h : ∀ N : ℕ, 0 < N → |E N| ≤ M / (N : ℝ) ^ k) : 0 ≤ M := by
  have := (abs_nonneg _).trans (h 1 one_pos)
  simpa using this

theorem bound_half {M : ℝ} (hM : 0 ≤ M) {k n : ℕ} (hn : 0 < n) : M / ((2 * n : ℕ) : ℝ) ^ k ≤ M / (n : ℝ) ^ k := by
  have : (0 : ℝ) < n := by exact_mod_cast hn
  have h2 : (n : ℝ) ≤ (2 * n : ℕ) := by push_cast; linarith
  gcongr

theorem RuleMap.kress_inv {p : ℕ} {qt : String} {lam W : ℝ → ℝ} (h : RuleMap p qt lam W) (hq : qt = "kress") :
    lam = Quad.kressT p ∧ W = Quad.kressW p := by
  cases h with
  | trap => exact absurd hq (by decide)
  | kress => exact ⟨rfl, rfl⟩

theorem RuleMap.trap_inv {p : ℕ} {qt : String} {lam W : ℝ → ℝ} (h : RuleMap p qt lam W) (hq : qt = "trap") :
    lam = (fun t => t) ∧ W = fun _ => 1 := by
  cases h with
  | trap => exact ⟨rfl, rfl⟩
  | kress => exact absurd hq (by decide)

/-- the sums over a block of a contour -/
theorem lsum_order {p k : ℕ} (hp : 2 ≤ p) (hk : 1 ≤ k) {F : ℝ → ℝ}
    (hF : ∀ t ∈ Icc 0 (2 * Real.pi), ContDiffAt ℝ k F t) {qt : String}
    (hq : qt = "kress" ∧ k ≤ p + p % 2 ∨ qt = "trap" ∧ ∀ t, F (t + 2 * Real.pi) = F t) :
    ∃ M, ∀ lam W, RuleMap p qt lam W → ∀ N : ℕ, 0 < N →
      |lsum (2 * Real.pi) N (fun t => F (lam t) * W t) - ∫ t in (0 : ℝ)..2 * Real.pi, F t| ≤ M / (N : ℝ) ^ k := by
  rcases hq with ⟨hq, hkp⟩ | ⟨hq, hper⟩
  · obtain ⟨M, hM⟩ := kress_rate hp hk hkp hF
    refine ⟨M, fun lam W hr N hN => ?_⟩
    obtain ⟨rfl, rfl⟩ := hr.kress_inv hq
    exact hM N hN
  · obtain ⟨M, hM⟩ := periodic_rate (by positivity) hk hper hF
    refine ⟨M, fun lam W hr N hN => ?_⟩
    obtain ⟨rfl, rfl⟩ := hr.trap_inv hq
    simpa using hM N hN

theorem tsum_eq_lsum {F : ℝ → ℝ} {T : ℝ} {N : ℕ} (h : F T = F 0) : tsum T N F = lsum T N F := by
  rw [tsum, h]
  simp

/-- the two end values of the integrand agree for the rules in question -/
theorem ends_agree {p : ℕ} (hp : 2 ≤ p) {F : ℝ → ℝ} {qt : String} {lam W : ℝ → ℝ} (hr : RuleMap p qt lam W)
    (hq : qt = "kress" ∨ qt = "trap" ∧ ∀ t, F (t + 2 * Real.pi) = F t) :
    F (lam (2 * Real.pi)) * W (2 * Real.pi) = F (lam 0) * W 0 := by
  rcases hq with hq | ⟨hq, hper⟩
  · obtain ⟨rfl, rfl⟩ := hr.kress_inv hq
    have w0 : Quad.kressW p 0 = 0 := by
      rw [kressW_factor, sub_zero, zero_pow (by omega), zero_mul]
    have w1 : Quad.kressW p (2 * Real.pi) = 0 := by
      rw [kressW_factor', sub_self, zero_pow (by omega), zero_mul]
    rw [w0, w1, mul_zero, mul_zero]
  · obtain ⟨rfl, rfl⟩ := hr.trap_inv hq
    have := hper 0
    rw [zero_add] at this
    rw [this]

/-- C86: with the Kress rule of parameter `p`, integration over an edge converges with order `p` if `p` is even and with order
`p + 1` if it is odd, whatever the values at the end points: for a function with that many continuous derivatives near the
curve there is a constant `M`, independent of `n`, such that the error is at most `M / n^k`.  With the trapezoidal rule the same
holds for every order `k` if the curve closes up smoothly. -/
theorem C86_edge {e : EdgeG} {C : PCurve} (hC : e.Follows C) (hdi : ∀ o ∈ e.diary, o.Good) (acts : List EdgeAct)
    (hac : ∀ a ∈ acts, a.Good) (p : ℤ) {k : ℕ} (hk : 1 ≤ k)
    (hq : SuitedRule p k e.quadType (acts.foldl (fun C a => a.act C) C))
    (hm : (acts.foldl (fun C a => a.act C) C).Moving) {f : ℝ → ℝ → ℝ}
    (hf : (acts.foldl (fun C a => a.act C) C).SmoothOnCurve k f) :
    ∃ M : ℝ, ∀ n d e1 e2, getQuadDict n p = .ok d → e.parameterize d = .ok e1 → e1.run acts = .ok e2 →
      ∃ u I, e2.evaluateFunction f false = .ok u ∧ e2.integrate u false = .ok I ∧
        |I - (acts.foldl (fun C a => a.act C) C).lineIntegral f| ≤ M / (n : ℝ) ^ k := by
  by_cases hp : 2 ≤ p
  swap
  · refine ⟨0, fun n d e1 e2 hd _ _ => ?_⟩
    exact absurd ((C21_dict n p).1.1 ⟨d, hd⟩).2 hp
  have hs := acts_smooth (acts := acts) (follows_smooth hC)
  have hci := acts_cinf (acts := acts) (follows_cinf hC)
  have hFc := line_contDiff hs hci hm hf
  set F : ℝ → ℝ := fun s => f ((acts.foldl (fun C a => a.act C) C).x s) ((acts.foldl (fun C a => a.act C) C).y s) *
    (acts.foldl (fun C a => a.act C) C).speed s with hF
  have hq' : e.quadType = "kress" ∧ k ≤ p.toNat + p.toNat % 2 ∨ e.quadType = "trap" ∧ ∀ t, F (t + 2 * Real.pi) = F t :=
    hq.imp (fun h => ⟨h.1, by have := h.2; omega⟩) fun h => ⟨h.1, line_periodic f _ hs h.2⟩
  obtain ⟨M, hM⟩ := lsum_order (p := p.toNat) (by omega) hk hFc hq'
  refine ⟨M, fun n d e1 e2 hd h1 h2 => ?_⟩
  obtain ⟨hn4, -, lam, W, hr, hpts⟩ := follows_pts hd hC hdi hac h1 h2
  obtain ⟨L, hL, hI⟩ := edge_tsum (density_line f) (by omega) hpts
  refine ⟨L.map fun s => f s.x s.y, _, ?_, hI, ?_⟩
  · simp [evaluateFunction, sampled, hL, bind, Except.bind]
  · have hend := ends_agree (p := p.toNat) (by omega) hr (hq'.imp And.left id)
    rw [tsum_eq_lsum (F := fun t => F (lam t) * W t) hend]
    refine (hM lam W hr (2 * n.toNat) (by omega)).trans ((bound_half (bound_pos (hM lam W hr)) (by omega)).trans_eq ?_)
    rw [show ((n.toNat : ℕ) : ℝ) = (n : ℝ) by
      rw [← Int.cast_natCast, Int.toNat_of_nonneg (by omega)]]

/-- C86: with the trapezoidal rule, integration over an edge that need not close up converges with order two. -/
theorem C86_trapezoid {e : EdgeG} {C : PCurve} (hC : e.Follows C) (hdi : ∀ o ∈ e.diary, o.Good) (acts : List EdgeAct)
    (hac : ∀ a ∈ acts, a.Good) (p : ℤ) (hq : e.quadType = "trap")
    (hm : (acts.foldl (fun C a => a.act C) C).Moving) {f : ℝ → ℝ → ℝ}
    (hf : (acts.foldl (fun C a => a.act C) C).SmoothOnCurve 2 f) :
    ∃ M : ℝ, ∀ n d e1 e2, getQuadDict n p = .ok d → e.parameterize d = .ok e1 → e1.run acts = .ok e2 →
      ∃ u I, e2.evaluateFunction f false = .ok u ∧ e2.integrate u false = .ok I ∧
        |I - (acts.foldl (fun C a => a.act C) C).lineIntegral f| ≤ M / (n : ℝ) ^ 2 := by
  have hs := acts_smooth (acts := acts) (follows_smooth hC)
  have hci := acts_cinf (acts := acts) (follows_cinf hC)
  obtain ⟨M, hM⟩ := tsum_rate (T := 2 * Real.pi) (by positivity) (k := 2) (by norm_num) (line_contDiff hs hci hm hf)
    (fun i hi h2 => by obtain ⟨j, rfl⟩ := hi; omega)
  refine ⟨M, fun n d e1 e2 hd h1 h2 => ?_⟩
  obtain ⟨hn4, -, lam, W, hr, hpts⟩ := follows_pts hd hC hdi hac h1 h2
  obtain ⟨L, hL, hI⟩ := edge_tsum (density_line f) (by omega) hpts
  refine ⟨L.map fun s => f s.x s.y, _, ?_, hI, ?_⟩
  · simp [evaluateFunction, sampled, hL, bind, Except.bind]
  · obtain ⟨rfl, rfl⟩ := hr.trap_inv hq
    simp only [mul_one]
    refine (hM (2 * n.toNat) (by omega)).trans ((bound_half (bound_pos hM) (by omega)).trans_eq ?_)
    rw [show ((n.toNat : ℕ) : ℝ) = (n : ℝ) by
      rw [← Int.cast_natCast, Int.toNat_of_nonneg (by omega)]]

/-- C86: the curve of an edge has nowhere speed zero if its shape parameters are not degenerate, it covers a piece of the
parameter interval, and the edge can be parameterized at all. -/
theorem C86_moving {e e1 e2 : EdgeG} {C : PCurve} (hC : e.Follows C) (hdi : ∀ o ∈ e.diary, o.Good) (acts : List EdgeAct)
    (hac : ∀ a ∈ acts, a.Good) {n p : ℤ} {d : Quad × Quad} (hd : getQuadDict n p = .ok d)
    (h1 : e.parameterize d = .ok e1) (h2 : e1.run acts = .ok e2)
    (hb : e.tBounds.1 < e.tBounds.2) (hb0 : 0 ≤ e.tBounds.1) (hb1 : e.tBounds.2 ≤ 2 * Real.pi)
    (hn : Nondegenerate e.curve e.opts) : (acts.foldl (fun C a => a.act C) C).Moving := by
  obtain ⟨q, hq, h1⟩ := bind_ok h1
  obtain ⟨l, hl, h1⟩ := bind_ok h1
  obtain ⟨e', he', h1⟩ := bind_ok h1
  cases h1
  have hs := dict_sym hd hq
  obtain ⟨γ, g1, g2, g3⟩ := base_samples e.curve e.opts (baseSamples_ok hl hs.ne_nil)
  rw [g3] at hl
  cases hl
  have hpi := Real.pi_pos
  have e3 : 0.5 * (e.tBounds.2 - e.tBounds.1) / Real.pi = (e.tBounds.2 - e.tBounds.1) / (2 * Real.pi) := by
    rw [show (0.5 : ℝ) = 1 / 2 by norm_num]; field_simp
  rw [e3] at he'
  have r0 : (γ.retime e.tBounds.1 ((e.tBounds.2 - e.tBounds.1) / (2 * Real.pi))).Regular := by
    intro s s0 s1
    have hdt : 0 < (e.tBounds.2 - e.tBounds.1) / (2 * Real.pi) := by
      have : 0 < e.tBounds.2 - e.tBounds.1 := by linarith
      positivity
    have h3 : 0 ≤ (e.tBounds.2 - e.tBounds.1) / (2 * Real.pi) * s := by positivity
    have h4 : (e.tBounds.2 - e.tBounds.1) / (2 * Real.pi) * s ≤ e.tBounds.2 - e.tBounds.1 := by
      calc _ ≤ (e.tBounds.2 - e.tBounds.1) / (2 * Real.pi) * (2 * Real.pi) := mul_le_mul_of_nonneg_left s1 hdt.le
        _ = _ := by field_simp
    have := C20_regular e.curve e.opts ((e.tBounds.2 - e.tBounds.1) / (2 * Real.pi) * s + e.tBounds.1)
      (by linarith) (by linarith) hn _ (g2 _).2.1
    simp only [PCurve.retime]
    by_contra hc
    push Not at hc
    apply this
    rw [Prod.mk.injEq]
    exact ⟨(mul_eq_zero.1 hc.1).resolve_left hdt.ne', (mul_eq_zero.1 hc.2).resolve_left hdt.ne'⟩
  obtain ⟨k1, k2, k3⟩ := runDiary_regular e.diary rfl hs hdi (g1.retime _ _) r0 he'
  have hr := (run_regular acts (e := { e' with quadType := q.type }) k1 hs hac k2 k3 h2).2.2
  rw [follows_unique hC ⟨γ, g1, fun t => (g2 t).1, rfl⟩]
  exact fun s hs' => hr s hs'.1 hs'.2

/-! ### cells -/

theorem edgeSum_order {φ : Sample → ℝ} {G : PCurve → ℝ → ℝ} (hG : Density φ G) (hper : PeriodicOn G) {p : ℤ} (hp : 2 ≤ p)
    {q : EdgeG × ℤ} {C0 C : PCurve} (hC : q.1.Follows C0) (ho : C = oriented q.2 C0) (hdi : ∀ o ∈ q.1.diary, o.Good)
    {k : ℕ} (hk : 1 ≤ k) (hq : SuitedRule p k q.1.quadType C)
    (hc : ∀ s ∈ Icc 0 (2 * Real.pi), ContDiffAt ℝ k (G C) s) :
    ∃ M : ℝ, ∀ n d e', getQuadDict n p = .ok d → SampledFrom d q e' →
      |edgeSum φ e' - ∫ t in (0 : ℝ)..2 * Real.pi, G C t| ≤ M / (n : ℝ) ^ k := by
  have hs : C.Smooth := by
    rw [ho, oriented]
    split
    · exact (follows_smooth hC).reverse
    · exact follows_smooth hC
  obtain ⟨M, hM⟩ := lsum_order (p := p.toNat) (by omega) hk hc
    (hq.imp (fun h => ⟨h.1, by have := h.2; omega⟩) fun h => ⟨h.1, hper C hs h.2⟩)
  refine ⟨M, fun n d e' hd ⟨e1, h1, h2⟩ => ?_⟩
  have key : ∃ acts : List EdgeAct, (∀ a ∈ acts, a.Good) ∧ e1.run acts = .ok e' ∧ acts.foldl (fun C a => a.act C) C0 = C := by
    by_cases hq : q.2 = -1
    · refine ⟨[.reverse], by simp [EdgeAct.Good], ?_, ?_⟩
      · rw [h2, if_pos hq]; rfl
      · rw [ho, oriented, if_pos hq]; rfl
    · refine ⟨[], by simp, ?_, ?_⟩
      · rw [h2, if_neg hq]; rfl
      · rw [ho, oriented, if_neg hq]; rfl
  obtain ⟨acts, hac, h3, h4⟩ := key
  obtain ⟨hn4, -, lam, W, hr, hpts⟩ := follows_pts hd hC hdi hac h1 h3
  rw [h4] at hpts
  rw [edgeSum_eq hG hpts]
  refine (hM lam W hr (2 * n.toNat) (by omega)).trans ((bound_half (bound_pos (hM lam W hr)) (by omega)).trans_eq ?_)
  rw [show ((n.toNat : ℕ) : ℝ) = (n : ℝ) by
    rw [← Int.cast_natCast, Int.toNat_of_nonneg (by omega)]]

theorem sums_order {φ : Sample → ℝ} {G : PCurve → ℝ → ℝ} (hG : Density φ G) (hper : PeriodicOn G) {p : ℤ} (hp : 2 ≤ p)
    {k : ℕ} (hk : 1 ≤ k) :
    ∀ {qs : List (EdgeG × ℤ)} {Cs : List PCurve},
    List.Forall₂ (fun (q : EdgeG × ℤ) C => ∃ C0, q.1.Follows C0 ∧ C = oriented q.2 C0) qs Cs →
    List.Forall₂ (fun (q : EdgeG × ℤ) C => SuitedRule p k q.1.quadType C) qs Cs →
    (∀ q ∈ qs, ∀ o ∈ q.1.diary, o.Good) → (∀ C ∈ Cs, ∀ s ∈ Icc 0 (2 * Real.pi), ContDiffAt ℝ k (G C) s) →
    ∃ M : ℝ, ∀ n d es, getQuadDict n p = .ok d → List.Forall₂ (SampledFrom d) qs es →
      |(es.map (edgeSum φ)).sum - (Cs.map fun C => ∫ t in (0 : ℝ)..2 * Real.pi, G C t).sum| ≤ M / (n : ℝ) ^ k := by
  intro qs Cs hF
  induction hF with
  | nil =>
    intro _ _ _
    refine ⟨0, fun n d es _ h => ?_⟩
    rw [List.forall₂_nil_left_iff] at h
    simp [h]
  | @cons q C qs Cs hq hqs ih =>
    intro hr hdi hc
    obtain ⟨C0, h1, h2⟩ := hq
    obtain ⟨hr1, hr2⟩ := List.forall₂_cons.1 hr
    obtain ⟨A, hA⟩ := edgeSum_order hG hper hp h1 h2 (hdi q (by simp)) hk hr1 (hc C (by simp))
    obtain ⟨B, hB⟩ := ih hr2 (fun q hq => hdi q (by simp [hq])) (fun C hC => hc C (by simp [hC]))
    refine ⟨A + B, fun n d es hd h => ?_⟩
    obtain ⟨e', es', k1, k2, rfl⟩ := List.forall₂_cons_left_iff.1 h
    have a := hA n d e' hd k1
    have b := hB n d es' hd k2
    simp only [List.map_cons, List.sum_cons]
    rw [add_sub_add_comm, add_div]
    refine (abs_add_le _ _).trans ?_
    linarith

theorem boundary_cinf {K : CellG} {Cs : List PCurve} (h : K.BoundaryCurves Cs) : ∀ C ∈ Cs, C.Cinf := by
  intro C hC
  obtain ⟨i, hi, rfl⟩ := List.getElem_of_mem hC
  obtain ⟨C0, h1, h2⟩ := (List.forall₂_iff_get.1 h).2 i (by rw [(List.forall₂_iff_get.1 h).1]; exact hi) hi
  rw [List.get_eq_getElem] at h2
  rw [h2, oriented]
  split
  · exact (follows_cinf h1).reverse
  · exact follows_cinf h1

theorem cell_order {φ : Sample → ℝ} {G : PCurve → ℝ → ℝ} (hG : Density φ G) (hper : PeriodicOn G) (p : ℤ)
    {k : ℕ} (hk : 1 ≤ k) {K : CellG} {Cs : List PCurve}
    (hK : K.Shaped) (hg : K.GoodDiaries) (hC : K.BoundaryCurves Cs) (hr : K.SuitedRules p k Cs)
    (hc : ∀ C ∈ Cs, ∀ s ∈ Icc 0 (2 * Real.pi), ContDiffAt ℝ k (G C) s) :
    ∃ M : ℝ, ∀ n d inside fuel K1, getQuadDict n p = .ok d →
      K.parameterize inside fuel d = some (.ok K1) → K1.Ready ∧ ∃ I, K1.integrate (K1.cols.map φ) = .ok I ∧
        |I - (Cs.map fun C => ∫ t in (0 : ℝ)..2 * Real.pi, G C t).sum| ≤ M / (n : ℝ) ^ k := by
  by_cases hp : 2 ≤ p
  swap
  · refine ⟨0, fun n d inside fuel K1 hd _ => ?_⟩
    exact absurd ((C21_dict n p).1.1 ⟨d, hd⟩).2 hp
  obtain ⟨M, hM⟩ := sums_order hG hper hp hk hC hr (good_flat hg) hc
  refine ⟨M, fun n d inside fuel K1 hd h => ?_⟩
  obtain ⟨h1, h2, es, h3, h4⟩ := cell_rel hd hK h
  refine ⟨h1, _, cell_sum h1 h2 φ, ?_⟩
  rw [(h3.map (edgeSum φ)).sum_eq]
  exact hM n d es hd h4

/-- C86: if every edge of a cell is sampled with the Kress rule of parameter `p`, or with the trapezoidal rule in case it closes
up smoothly, then integration over the boundary converges with order `p` for even `p` and `p + 1` for odd `p`, and with every
order if there are only closed edges with the trapezoidal rule: the error is at most `M / n^k` with a constant `M` that depends
on the cell and the function but not on `n`. -/
theorem C86_cell {K : CellG} {Cs : List PCurve} (hK : K.Shaped) (hg : K.GoodDiaries) (hC : K.BoundaryCurves Cs)
    (p : ℤ) {k : ℕ} (hr : K.SuitedRules p k Cs) (hk : 1 ≤ k) (hm : ∀ C ∈ Cs, C.Moving)
    {f : ℝ → ℝ → ℝ} (hf : ∀ C ∈ Cs, C.SmoothOnCurve k f) :
    ∃ M : ℝ, ∀ n d inside fuel K1, getQuadDict n p = .ok d → K.parameterize inside fuel d = some (.ok K1) →
      ∃ u I, K1.evaluateFunction f = .ok u ∧ K1.integrate u = .ok I ∧
        |I - (Cs.map fun C => C.lineIntegral f).sum| ≤ M / (n : ℝ) ^ k := by
  obtain ⟨M, h⟩ := cell_order (density_line f) (line_periodic f) p hk hK hg hC hr
    (fun C hC' => line_contDiff (boundary_smooth hC C hC') (boundary_cinf hC C hC') (hm C hC') (hf C hC'))
  refine ⟨M, fun n d inside fuel K1 hd h1 => ?_⟩
  obtain ⟨hr, I, hI, hb⟩ := h n d inside fuel K1 hd h1
  exact ⟨_, I, hr.evaluateFunction f, hI, hb⟩

/-- C86: the same orders hold for fluxes and circulations of fields, also if the curves have points of zero speed. -/
theorem C86_fields {K : CellG} {Cs : List PCurve} (hK : K.Shaped) (hg : K.GoodDiaries) (hC : K.BoundaryCurves Cs)
    (p : ℤ) {k : ℕ} (hr : K.SuitedRules p k Cs) (hk : 1 ≤ k)
    {f g : ℝ → ℝ → ℝ} (hf : ∀ C ∈ Cs, C.SmoothOnCurve k f) (hg' : ∀ C ∈ Cs, C.SmoothOnCurve k g) :
    ∃ M : ℝ, ∀ n d inside fuel K1, getQuadDict n p = .ok d → K.parameterize inside fuel d = some (.ok K1) →
      ∃ u v, K1.evaluateFunction f = .ok u ∧ K1.evaluateFunction g = .ok v ∧
        (∃ w I, K1.dotWithNormal u v = .ok w ∧ K1.integrate w = .ok I ∧
          |I - (Cs.map fun C => C.flux f g).sum| ≤ M / (n : ℝ) ^ k) ∧
        ∃ w I, K1.dotWithTangent u v = .ok w ∧ K1.integrate w = .ok I ∧
          |I - (Cs.map fun C => C.circulation f g).sum| ≤ M / (n : ℝ) ^ k := by
  obtain ⟨A, hA⟩ := cell_order (density_flux f g) (flux_periodic f g) p hk hK hg hC hr
    (fun C hC' => flux_contDiff (boundary_smooth hC C hC') (boundary_cinf hC C hC') (hf C hC') (hg' C hC'))
  obtain ⟨B, hB⟩ := cell_order (density_circulation f g) (circulation_periodic f g) p hk hK hg hC hr
    (fun C hC' => circulation_contDiff (boundary_smooth hC C hC') (boundary_cinf hC C hC') (hf C hC') (hg' C hC'))
  refine ⟨max A B, fun n d inside fuel K1 hd h1 => ?_⟩
  have hn : (0 : ℝ) ≤ (n : ℝ) ^ k := by
    have := ((C21_dict n p).1.1 ⟨d, hd⟩).1
    have : (0 : ℝ) ≤ n := by exact_mod_cast (by omega : (0 : ℤ) ≤ n)
    positivity
  obtain ⟨hr, I, hI, hb⟩ := hA n d inside fuel K1 hd h1
  obtain ⟨-, J, hJ, hb'⟩ := hB n d inside fuel K1 hd h1
  refine ⟨_, _, hr.evaluateFunction f, hr.evaluateFunction g, ⟨_, I, hr.dotWithNormal (by simp) (by simp), ?_,
    hb.trans (div_le_div_of_nonneg_right (le_max_left _ _) hn)⟩,
    _, J, hr.dotWithTangent (by simp) (by simp), ?_, hb'.trans (div_le_div_of_nonneg_right (le_max_right _ _) hn)⟩
  · rw [List.zip_map', List.zipWith_map_right, List.zipWith_self]
    exact hI
  · rw [List.zip_map', List.zipWith_map_right, List.zipWith_self]
    exact hJ

end PFEM
