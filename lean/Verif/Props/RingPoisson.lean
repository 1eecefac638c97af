import Verif.Props.RingInterior
import Verif.Spec.RingPoisson

/-!
Property theorem C134: energy inner products of local Poisson functions on rings.
-/

namespace PFEM
open Nystrom Antilap Polynomial MeasureTheory

variable {K : CellG} {x0 y0 a b : ℝ} {n : ℕ}

/-- functions that are continuous away from the centre are integrable over a ring -/
theorem ring_integrable (ha : 0 < a) (hb : 0 < b) {F : ℝ × ℝ → ℝ} (hF : ∀ p ≠ (x0, y0), ContinuousAt F p) : IntegrableOn F (ring x0 y0 a b) := by
  set C : Set (ℝ × ℝ) := {p | a ^ 2 ≤ (p.1 - x0) ^ 2 + (p.2 - y0) ^ 2 ∧ (p.1 - x0) ^ 2 + (p.2 - y0) ^ 2 ≤ b ^ 2} with hC
  have hc : IsCompact C := by
    have h1 : IsClosed C := by
      rw [hC, Set.ofPred_and]
      exact (isClosed_le (by fun_prop) (by fun_prop)).inter (isClosed_le (by fun_prop) (by fun_prop))
    refine (isCompact_Icc (a := (x0 - b, y0 - b)) (b := (x0 + b, y0 + b))).of_isClosed_subset h1 ?_
    rintro p ⟨-, hp⟩
    have h2 := abs_le_of_sq_le_sq' (by nlinarith [pow_two_nonneg (p.2 - y0)] : (p.1 - x0) ^ 2 ≤ b ^ 2) hb.le
    have h3 := abs_le_of_sq_le_sq' (by nlinarith [pow_two_nonneg (p.1 - x0)] : (p.2 - y0) ^ 2 ≤ b ^ 2) hb.le
    exact ⟨⟨by dsimp only; linarith, by dsimp only; linarith⟩, ⟨by dsimp only; linarith, by dsimp only; linarith⟩⟩
  refine (ContinuousOn.integrableOn_compact hc fun p hp => (hF p ?_).continuousWithinAt).mono_set fun p hp => ⟨hp.1.le, hp.2.le⟩
  rintro rfl
  have := hp.1
  norm_num at this
  nlinarith

theorem grad_continuous {U : Set (ℝ × ℝ)} (hU : IsOpen U) {F g1 g2 : ℝ → ℝ → ℝ} (hF : ∀ p ∈ U, ContDiffAt ℝ 2 (fun p : ℝ × ℝ => F p.1 p.2) p)
    (hg : HasGradOn U F g1 g2) : ∀ p ∈ U, ContinuousAt (fun p : ℝ × ℝ => g1 p.1 p.2) p ∧ ContinuousAt (fun p : ℝ × ℝ => g2 p.1 p.2) p := by
  intro p hp
  have hd : ContinuousAt (fderiv ℝ fun p : ℝ × ℝ => F p.1 p.2) p := ((hF p hp).fderiv_right (m := 1) (by norm_num)).continuousAt
  have hev : ∀ q ∈ U, g1 q.1 q.2 = fderiv ℝ (fun p : ℝ × ℝ => F p.1 p.2) q (1, 0) ∧ g2 q.1 q.2 = fderiv ℝ (fun p : ℝ × ℝ => F p.1 p.2) q (0, 1) := by
    intro q hq
    have h0 := ((hF q hq).differentiableAt (by norm_num)).hasFDerivAt
    have h1 : HasDerivAt (fun s : ℝ => (s, q.2)) ((1 : ℝ), (0 : ℝ)) q.1 := (hasDerivAt_id q.1).prodMk (hasDerivAt_const q.1 q.2)
    have h2 : HasDerivAt (fun s : ℝ => (q.1, s)) ((0 : ℝ), (1 : ℝ)) q.2 := (hasDerivAt_const q.2 q.1).prodMk (hasDerivAt_id q.2)
    obtain ⟨k1, k2⟩ := hg q.1 q.2 hq
    have j1 := HasFDerivAt.comp_hasDerivAt (l := fun p : ℝ × ℝ => F p.1 p.2) q.1 h0 h1
    have j2 := HasFDerivAt.comp_hasDerivAt (l := fun p : ℝ × ℝ => F p.1 p.2) q.2 h0 h2
    exact ⟨k1.unique j1, k2.unique j2⟩
  have ho := hU.mem_nhds hp
  constructor
  · refine (hd.clm_apply (continuousAt_const (y := ((1 : ℝ), (0 : ℝ))))).congr (Filter.mem_of_superset ho fun q hq => ?_)
    exact ((hev q hq).1).symm
  · refine (hd.clm_apply (continuousAt_const (y := ((0 : ℝ), (1 : ℝ))))).congr (Filter.mem_of_superset ho fun q hq => ?_)
    exact ((hev q hq).2).symm

theorem ringEnergy_comm (g1 g2 k1 k2 : ℝ → ℝ → ℝ) : ringEnergy x0 y0 a b g1 g2 k1 k2 = ringEnergy x0 y0 a b k1 k2 g1 g2 := by
  unfold ringEnergy
  congr 1
  funext p
  ring

/-- gradient fields that are continuous away from the centre -/
def ContOff (x0 y0 : ℝ) (g1 g2 : ℝ → ℝ → ℝ) : Prop :=
  ∀ p : ℝ × ℝ, p ≠ (x0, y0) → ContinuousAt (fun p : ℝ × ℝ => g1 p.1 p.2) p ∧ ContinuousAt (fun p : ℝ × ℝ => g2 p.1 p.2) p

theorem ringEnergy_add (ha : 0 < a) (hb : 0 < b) {p1 p2 g1 g2 q1 q2 k1 k2 : ℝ → ℝ → ℝ} (hp : ContOff x0 y0 p1 p2) (hg : ContOff x0 y0 g1 g2)
    (hq : ContOff x0 y0 q1 q2) (hk : ContOff x0 y0 k1 k2) :
    ringEnergy x0 y0 a b (fun x y => p1 x y + g1 x y) (fun x y => p2 x y + g2 x y) (fun x y => q1 x y + k1 x y) (fun x y => q2 x y + k2 x y) =
      ringEnergy x0 y0 a b g1 g2 k1 k2 + ringEnergy x0 y0 a b p1 p2 q1 q2 + ringEnergy x0 y0 a b g1 g2 q1 q2 + ringEnergy x0 y0 a b p1 p2 k1 k2 := by
  have int : ∀ {u1 u2 v1 v2 : ℝ → ℝ → ℝ}, ContOff x0 y0 u1 u2 → ContOff x0 y0 v1 v2 →
      IntegrableOn (fun p : ℝ × ℝ => u1 p.1 p.2 * v1 p.1 p.2 + u2 p.1 p.2 * v2 p.1 p.2) (ring x0 y0 a b) := fun hu hv =>
    ring_integrable ha hb fun p h => ((hu p h).1.mul (hv p h).1).add ((hu p h).2.mul (hv p h).2)
  unfold ringEnergy
  have j1 := integral_add (int hg hk) (int hp hq)
  have j2 := integral_add ((int hg hk).add (int hp hq)) (int hg hq)
  have j3 := integral_add (((int hg hk).add (int hp hq)).add (int hg hq)) (int hp hk)
  simp only [Pi.add_apply] at j1 j2 j3
  rw [← j1, ← j2, ← j3]
  congr 1
  funext p
  ring

theorem ringFlux_mono (ha : 0 < a) (hab : a < b) {N n d : ℕ} {Q R : ℂ[X]} {τ τ' : ℝ} (h : τ ≤ τ') :
    ringFluxErr N a b n d τ Q R ≤ ringFluxErr N a b n d τ' Q R := by
  have hb0 : 0 < b := ha.trans hab
  obtain ⟨q0, q1, -⟩ := ring_ratio ha hab
  have hq : 0 < 1 - a / b := by linarith
  have hC : 0 ≤ ringConst a b := by unfold ringConst; positivity
  have hden : 0 < 2 * Real.pi * Real.log (b / a) := mul_pos Real.two_pi_pos (Real.log_pos ((one_lt_div ha).2 hab))
  unfold ringFluxErr ringLogErr
  gcongr

/-- C134: energy inner products of local Poisson functions on a ring.  Let two such functions have the boundary values of `p + u` and `q + v`, where `p`, `q`
are the anti-Laplacians of their right-hand sides (see C09) and `u`, `v` are harmonic as in C131.  Let `τ`, `τ'` bound the residuals of the linear solver for
right-hand sides with entries up to `ringRhsBound`.  Then `get_h1_semi_inner_prod` returns the energy of `p + u` and `q + v` over the ring up to the errors
of the fluxes of `u` and `v`, times bounds for the boundary values. -/
theorem C134_energy {gmres : Gmres} {tol : List ℝ → ℝ} (hg : ResidualWithin gmres tol) (h : K.IsAnnulus x0 y0 a b (2 * n)) (ha : 1 / 10 ^ 14 ≤ a)
    (hab : a < b) (h4 : 4 ≤ n) (hn : n ≤ 2 * 10 ^ 7) (hs : 4 * ringConst a b * (a / b) ^ (2 * n) ≤ 1) {strategy pc : String} {s : Nystrom.Solver}
    (hi : init gmres K strategy pc = .ok s) {A B : ℝ} {Q R S T : ℂ[X]} {d e m : ℕ} (hd : d < n) (he : e < n) (hm : m + 1 < n)
    (hQ : Q.natDegree ≤ d) (hR : R.natDegree ≤ d) (hS : S.natDegree ≤ e) (hT : T.natDegree ≤ e)
    {τ τ' : ℝ} (hτ : ∀ rhs, rhs.length = K.numPts + 1 → (∀ t ∈ rhs, |t| ≤ ringRhsBound a b n d A Q R) → tol rhs ≤ τ)
    (hτ' : ∀ rhs, rhs.length = K.numPts + 1 → (∀ t ∈ rhs, |t| ≤ ringRhsBound a b n e B S T) → tol rhs ≤ τ')
    {f f' p q : Poly ℝ} (hp : f.antiLaplacian = .ok p) (hq : f'.antiLaplacian = .ok q)
    (dp : ∀ c ∈ p, c.alpha.x + c.alpha.y ≤ m) (dq : ∀ c ∈ q, c.alpha.x + c.alpha.y ≤ m) (cp : ∀ c ∈ p, (1 / 10 ^ 12 : ℝ) ≤ |c.coef|)
    (cq : ∀ c ∈ q, (1 / 10 ^ 12 : ℝ) ≤ |c.coef|) {δ ε : ℝ} (lp : Poly.OnLattice δ p) (lq : Poly.OnLattice ε q) (hδ : 1 / 10 ^ 12 ≤ δ * ε)
    {M M' : ℝ} (hM0 : 0 ≤ M) (hM0' : 0 ≤ M') (hM : ∀ t ∈ K.samplesOf p.eval, |t| ≤ M) (hM' : ∀ t ∈ K.samplesOf q.eval, |t| ≤ M')
    {p1 p2 q1 q2 g1 g2 k1 k2 : ℝ → ℝ → ℝ} (gp : HasGradOn Set.univ p.eval p1 p2) (gq : HasGradOn Set.univ q.eval q1 q2)
    (hgr : RingGradient A Q R x0 y0 g1 g2) (hkr : RingGradient B S T x0 y0 k1 k2)
    {tr tr' : LocPoisson.TraceOr} (hv : tr.Gives K (K.samplesOf fun x y => p.eval x y + ringData A Q R x0 y0 x y))
    (hv' : tr'.Gives K (K.samplesOf fun x y => q.eval x y + ringData B S T x0 y0 x y)) {ei eg ei' eg' : Bool} {F G : LocPoisson}
    (hF : LocPoisson.init gmres (some s) f tr ei eg = .ok F) (hG : LocPoisson.init gmres (some s) f' tr' ei' eg' = .ok G) :
    ∃ I, F.getH1 (.poisson G) = .ok I ∧
      |I - ringEnergy x0 y0 a b (fun x y => p1 x y + g1 x y) (fun x y => p2 x y + g2 x y) (fun x y => q1 x y + k1 x y) (fun x y => q2 x y + k2 x y)| ≤
        4 * Real.pi * (ringBound B S T a b + M') * ringFluxErr K.numPts a b n d τ Q R + 4 * Real.pi * M * ringFluxErr K.numPts a b n e τ' S T := by
  rw [Poly.antiLaplacian_ok] at hp hq
  cases hp
  cases hq
  have ha0 : 0 < a := lt_of_lt_of_le (by positivity) ha
  have hb0 : 0 < b := ha0.trans hab
  have hof : s.Of K := C74_solver h.ready (h.even rfl h4 hn) h.edges_ne (h.holes ha0 hb0) hi
  have hlen : ∀ g : ℝ → ℝ → ℝ, (K.samplesOf g).length = K.numPts := fun g => by simp [CellG.samplesOf, h.ready.numPts]
  have ez : ∀ (P : Poly ℝ) (g : ℝ → ℝ → ℝ), List.zipWith (· - ·) (K.samplesOf fun x y => P.eval x y + g x y) (K.samplesOf P.eval) = K.samplesOf g := by
    intro P g
    simp only [CellG.samplesOf, List.zipWith_map_left, List.zipWith_map_right, List.zipWith_self, add_sub_cancel_left]
  obtain ⟨r, hr, fc, fp, fh⟩ := poissonInit_parts h.ready hof.cell hv hF
  obtain ⟨r', hr', gc, gpo, gh⟩ := poissonInit_parts h.ready hof.cell hv' hG
  rw [ez] at hr hr'
  have ht := made_on h.ready (v := K.samplesOf (ringData A Q R x0 y0)) (hlen _) (w := none) (d := none) nofun nofun
  have ht' := made_on h.ready (v := K.samplesOf (ringData B S T x0 y0)) (hlen _) (w := none) (d := none) nofun nofun
  have hpi := polyPart_init h.ready (Poly.alP f)
  have hqi := polyPart_init h.ready (Poly.alP f')
  have hrv := harmInit_values hr'
  obtain ⟨rhs1, I1, s1, t1, i1, b1⟩ := C132_energy hg h ha hab h4 hn hs hi hd he hQ hR hS hT hgr hkr ht rfl hr (v := r') hrv
  obtain ⟨rhs2, I2, s2, t2, i2, -, b2⟩ := C132_mixed hg h ha hab h4 hn hs hi hd (e := m) (by omega) hQ hR dq hgr gq hM' ht rfl hr hqi
  obtain ⟨rhs3, I3, s3, t3, -, i3, b3⟩ := C132_mixed hg h ha hab h4 hn hs hi he (e := m) (by omega) hS hT dp hkr gp hM ht' rfl hr' hpi
  have i4 := (C132_polys h ha0 hab (by omega : 2 * m + 2 < 2 * n) dp dq cp cq lp lq hδ hpi hqi gp gq).1
  have hopen : IsOpen {p : ℝ × ℝ | p ≠ (x0, y0)} := isOpen_ne
  have cg : ContOff x0 y0 g1 g2 := grad_continuous hopen (fun p hp => ringData_contDiff A Q R hp)
    fun x y hxy => hgr x y fun e => hxy (Prod.ext e.1 e.2)
  have ck : ContOff x0 y0 k1 k2 := grad_continuous hopen (fun p hp => ringData_contDiff B S T hp)
    fun x y hxy => hkr x y fun e => hxy (Prod.ext e.1 e.2)
  have poly : ∀ {P : Poly ℝ} {u1 u2 : ℝ → ℝ → ℝ}, (∀ c ∈ P, c.alpha.x + c.alpha.y ≤ m) → HasGradOn Set.univ P.eval u1 u2 → ContOff x0 y0 u1 u2 := by
    intro P u1 u2 hP hu
    have hPe : PolyFn m P.eval := PolyFn.ofPoly fun c hc => by
      have := hP c hc
      simp only [MultiIndex.order]
      exact_mod_cast this
    exact fun p _ => grad_continuous isOpen_univ (fun p _ => hPe.contDiff.contDiffAt) hu p trivial
  refine ⟨I1 + ringEnergy x0 y0 a b p1 p2 q1 q2 + I2 + I3, ?_, ?_⟩
  · simp only [LocPoisson.getH1, fc, fp, fh, gpo, gh, Trace.attr, py_ok_bind, i1, i2, i3, i4]
  rw [ringEnergy_add ha0 hb0 (poly dp gp) cg (poly dq gq) ck, ringEnergy_comm p1 p2 k1 k2]
  have hB : 0 ≤ ringBound B S T a b := by
    have := ringSum_nonneg (Q := S) (R := T) ha0 hb0
    have h2 : 0 ≤ max |Real.log a| |Real.log b| := (abs_nonneg _).trans (le_max_left _ _)
    unfold ringBound
    positivity
  have hpi := Real.pi_pos
  have c1 := b1.trans (mul_le_mul_of_nonneg_left (ringFlux_mono ha0 hab (N := K.numPts) (n := n) (d := d) (Q := Q) (R := R) (hτ rhs1 s1 t1)) (by positivity))
  have c2 := b2.trans (mul_le_mul_of_nonneg_left (ringFlux_mono ha0 hab (N := K.numPts) (n := n) (d := d) (Q := Q) (R := R) (hτ rhs2 s2 t2)) (by positivity))
  have c3 := b3.trans (mul_le_mul_of_nonneg_left (ringFlux_mono ha0 hab (N := K.numPts) (n := n) (d := e) (Q := S) (R := T) (hτ' rhs3 s3 t3)) (by positivity))
  rw [show ∀ E1 E2 E3 E4 : ℝ, I1 + E2 + I2 + I3 - (E1 + E2 + E3 + E4) = (I1 - E1) + (I2 - E3) + (I3 - E4) from fun _ _ _ _ => by ring]
  refine (abs_add_le _ _).trans ((add_le_add ((abs_add_le _ _).trans (add_le_add c1 c2)) c3).trans (le_of_eq ?_))
  ring

end PFEM
