import Verif.Props.AnnulusNeumann
import Verif.Props.FftDerivStable
import Verif.Props.TraceHeap

/-!
Property theorems C131, second part: normal derivatives of harmonic functions on a ring between two concentric circles.
-/

namespace PFEM
open Nystrom Antilap Finset Polynomial

variable {K : CellG} {x0 y0 a b : ℝ} {n : ℕ}

theorem trig_shift {X Y X' Y' : ℕ → ℝ} {M : ℕ} {c : ℝ} (h : ∀ θ, trig X Y M (2 * Real.pi) θ = trig X' Y' M (2 * Real.pi) θ - c) :
    trig (fun k => k * Y k) (fun k => -(k * X k)) M (2 * Real.pi) = trig (fun k => k * Y' k) (fun k => -(k * X' k)) M (2 * Real.pi) := by
  funext θ
  rw [← trig'_eq, ← trig'_eq]
  refine (trig_deriv X Y M (2 * Real.pi) θ).unique ?_
  rw [show trig X Y M (2 * Real.pi) = fun θ => trig X' Y' M (2 * Real.pi) θ - c from funext h]
  exact (trig_deriv X' Y' M (2 * Real.pi) θ).sub_const c

/-- the tangential derivative that the code computes for the conjugate is the weighted normal derivative -/
theorem ring_conj_flux (h : K.IsAnnulus x0 y0 a b (2 * n)) (ha : 0 < a) (hb : 0 < b) (h4 : 4 ≤ n) {Q R : ℂ[X]} (hQ : Q.natDegree < n)
    (hR : R.natDegree < n) :
    wtdFromTrace K (K.samplesOf (ringConj Q R x0 y0)) =
      .ok (K.normalOf (fun x y => (laurentDeriv Q R x0 y0 x y).re) (fun x y => -(laurentDeriv Q R x0 y0 x y).im)) := by
  have hM : ∀ k < n, 2 * k < 2 * n := fun k hk => by omega
  have hQn : (-Q).natDegree < n := by rwa [natDegree_neg]
  have hRn : (-R).natDegree < n := by rwa [natDegree_neg]
  have hQ' : (C Complex.I * -Q).natDegree < n := by rwa [natDegree_I]
  have hR' : (C Complex.I * -R).natDegree < n := by rwa [natDegree_I]
  have hflux := ring_flux h ha hb h4 hQn hRn
  have hpt : ∀ x y, ringConj Q R x0 y0 x y = ringData 0 (C Complex.I * -Q) (C Complex.I * -R) x0 y0 x y - (Q.coeff 0 + R.coeff 0).im := by
    intro x y
    rw [ringConj, ringData, zero_mul, zero_add, (laurent_mul_I (-Q) (-R) x0 y0 x y).1]
    simp only [laurent, eval_neg, Complex.mul_re, Complex.I_re, Complex.I_im, Complex.add_re, Complex.neg_re, Complex.add_im, Complex.neg_im]
    ring
  have hout : ∀ s, 0 < s → ∀ θ, trig (conjCos Q R s) (conjSin Q R 1 s) n (2 * Real.pi) θ =
      trig (dataCos 0 (C Complex.I * -Q) (C Complex.I * -R) s) (fun k => -modeIm (C Complex.I * -Q) (C Complex.I * -R) (-1) s k) n (2 * Real.pi) θ -
        (Q.coeff 0 + R.coeff 0).im := by
    intro s hs θ
    rw [← (ring_values 0 Q R hQ hR x0 y0 hs θ).2, ← (ring_values 0 _ _ hQ' hR' x0 y0 hs θ).1, hpt]
  have hin : ∀ θ, trig (conjCos Q R a) (conjSin Q R (-1) a) n (2 * Real.pi) θ =
      trig (dataCos 0 (C Complex.I * -Q) (C Complex.I * -R) a) (modeIm (C Complex.I * -Q) (C Complex.I * -R) (-1) a) n (2 * Real.pi) θ -
        (Q.coeff 0 + R.coeff 0).im := by
    intro θ
    have e : (fun k => -conjSin Q R 1 a k) = conjSin Q R (-1) a := by
      funext k
      simp only [conjSin]
      split <;> ring
    have := hout a ha (-θ)
    rw [trig_neg, trig_neg, e] at this
    simpa only [neg_neg] using this
  rw [ring_data h ha hb 0 _ _ hQ' hR', ring_derivative h h4 _ _ _ _ hM] at hflux
  rw [ring_conj h ha hb Q R hQ hR, ring_derivative h h4 _ _ _ _ hM, trig_shift (hout b hb), trig_shift hin, hflux]
  congr 1
  simp only [CellG.normalOf, List.map_map]
  refine List.map_congr_left fun s _ => ?_
  have e : ∀ x y, laurentDeriv (-Q) (-R) x0 y0 x y = -laurentDeriv Q R x0 y0 x y := by
    intro x y
    simp only [laurentDeriv, derivative_neg, eval_neg]
    ring
  simp only [Function.comp_apply, e, Complex.neg_re, Complex.neg_im]
  ring

/-- the weighted normal derivative of the logarithmic term on the two circles -/
theorem ring_logs {N : ℕ} (h : K.IsAnnulus x0 y0 a b N) (ha : 0 < a) (hb : 0 < b) (α : ℝ) :
    K.cols.map (logsNormal K [α]) = List.replicate N α ++ List.replicate N (-α) := by
  obtain ⟨c, d, e, f, h1, -, -, -, -, -, -, p, hp, hx, hy⟩ := h.circles
  have key : ∀ s : Sample, logsNormal K [α] s =
      α * (((s.x - x0) * s.nx + (s.y - y0) * s.ny) / ((s.x - x0) ^ 2 + (s.y - y0) ^ 2) * s.dxNorm) := by
    intro s
    simp [logsNormal, h1, hp, hx, hy]
  rw [h.cols, List.map_append, List.map_map, List.map_map]
  congr 1
  · refine List.ext_getElem (by simp) fun j h1 h2 => ?_
    simp only [List.getElem_map, List.getElem_range, List.getElem_replicate, Function.comp_apply, key, circleSample]
    generalize 2 * Real.pi * (j : ℝ) / N = θ
    have hr : (x0 + b * Real.cos θ - x0) ^ 2 + (y0 + b * Real.sin θ - y0) ^ 2 = b ^ 2 := by
      linear_combination b ^ 2 * Real.sin_sq_add_cos_sq θ
    rw [hr]
    have := Real.sin_sq_add_cos_sq θ
    field_simp
    linear_combination b * α * this
  · refine List.ext_getElem (by simp) fun j h1 h2 => ?_
    simp only [List.getElem_map, List.getElem_range, List.getElem_replicate, Function.comp_apply, key, holeSample]
    generalize 2 * Real.pi * (j : ℝ) / N = θ
    have hr : (x0 + a * Real.cos θ - x0) ^ 2 + (y0 - a * Real.sin θ - y0) ^ 2 = a ^ 2 := by
      linear_combination a ^ 2 * Real.sin_sq_add_cos_sq θ
    rw [hr]
    have := Real.sin_sq_add_cos_sq θ
    field_simp
    linear_combination -a * α * this

theorem within_combine {ε δ A α : ℝ} (hα : |α - A| ≤ δ) : ∀ {w d d0 : List ℝ}, (∀ u ∈ w, u = 1 ∨ u = -1) → w.length = d.length → Within ε d d0 →
    Within (ε + δ) (List.zipWith (fun x s => x + s) d (w.map (α * ·))) (List.zipWith (fun u v => A * u + v) w d0)
  | [], _, _, _, hl, h => by
    cases h with
    | nil => exact .nil
    | cons _ _ => simp at hl
  | u :: w, _, _, hu, hl, h => by
    cases h with
    | nil => simp at hl
    | cons h t =>
      simp only [List.map_cons, List.zipWith_cons_cons]
      refine .cons ?_ (within_combine hα (fun x hx => hu x (List.mem_cons_of_mem _ hx)) (by simpa using hl) t)
      rename_i x y _ _
      have e : x + α * u - (A * u + y) = (x - y) + (α - A) * u := by ring
      rw [e]
      refine (abs_add_le _ _).trans (add_le_add h ?_)
      rw [abs_mul]
      rcases hu u (by simp) with rfl | rfl <;> simpa using hα

/-- C131: `LocalHarmonic(trace, nyst)` on a ring, made from the boundary values of `A log |w|` plus the real part of the Laurent polynomial
`Q(w) + R(1/w)`, `w = z - z0`.  The logarithmic coefficient differs from `A` by at most `tol / (2π log (b/a))`, and the weighted normal derivative
that is stored differs from the weighted normal derivative of this function by at most that plus `M^(3/2) / 2` times the error of the conjugate (C114),
`M` the number of samples. -/
theorem C131_normal {gmres : Gmres} {tol : List ℝ → ℝ} (hg : ResidualWithin gmres tol) (h : K.IsAnnulus x0 y0 a b (2 * n)) (ha : 1 / 10 ^ 14 ≤ a)
    (hab : a < b) (h4 : 4 ≤ n) (hn : n ≤ 2 * 10 ^ 7) (hs : 4 * ringConst a b * (a / b) ^ (2 * n) ≤ 1) {strategy pc : String} {s : Nystrom.Solver}
    (hi : init gmres K strategy pc = .ok s) {A : ℝ} {Q R : ℂ[X]} {d : ℕ} (hd : d < n) (hQ : Q.natDegree ≤ d) (hR : R.natDegree ≤ d)
    {g1 g2 : ℝ → ℝ → ℝ} (hgr : RingGradient A Q R x0 y0 g1 g2) {t : Trace} (ht : t.On K.getEdges)
    (hv : t.values = some (K.samplesOf (ringData A Q R x0 y0))) {u : LocHarm} (hu : LocHarm.init gmres t (some s) = .ok u) :
    ∃ (rhs : List ℝ) (α : ℝ) (w : List ℝ), rhs.length = K.numPts + 1 ∧
      (∀ t ∈ rhs, |t| ≤ (3 + 5 * ((a / b) ^ (2 * n - d) / (1 - a / b))) * ringSum Q R a b + 2 * Real.pi * |A| * Real.log (b / a)) ∧
      u.trace.values = some (K.samplesOf (ringData A Q R x0 y0)) ∧
      u.logCoef = some [α] ∧ |α - A| ≤ tol rhs / (2 * Real.pi * Real.log (b / a)) ∧
      u.trace.wnd = some w ∧
      Within (Real.sqrt K.numPts * K.numPts / 2 * (ringConst a b * (tol rhs + 5 * ((a / b) ^ (2 * n - d) / (1 - a / b)) * ringSum Q R a b)) +
        tol rhs / (2 * Real.pi * Real.log (b / a))) w (K.normalOf g1 g2) := by
  have ha0 : 0 < a := lt_of_lt_of_le (by positivity) ha
  have hb0 : 0 < b := ha0.trans hab
  have hof : s.Of K := C74_solver h.ready (h.even rfl h4 hn) h.edges_ne (h.holes ha0 hb0) hi
  have hK := hof.cell
  unfold LocHarm.init at hu
  obtain ⟨v, hv', hu⟩ := bind_ok hu
  rw [hv] at hv'
  cases hv'
  obtain ⟨w, hw, hu⟩ := bind_ok hu
  obtain ⟨t1, ht1, hu⟩ := bind_ok hu
  obtain ⟨⟨c, al⟩, hc, hu⟩ := bind_ok hu
  obtain ⟨conj, -, hu⟩ := bind_ok hu
  obtain ⟨lam, -, hu⟩ := bind_ok hu
  obtain ⟨u', -, hu⟩ := bind_ok hu
  obtain ⟨psi, -, hu⟩ := bind_ok hu
  obtain ⟨w2, hw2, hu⟩ := bind_ok hu
  obtain ⟨w3, hw3, hu⟩ := bind_ok hu
  obtain ⟨t2, ht2, hu⟩ := bind_ok hu
  obtain ⟨⟨P, Pn⟩, -, hu⟩ := bind_ok hu
  obtain ⟨bb, -, hu⟩ := bind_ok hu
  obtain ⟨b2, -, hu⟩ := bind_ok hu
  cases hu
  obtain ⟨l1, rfl⟩ := setWtd_inv ht.good ht1
  have hg1 : ({ t with wtd := some w } : Trace).Good :=
    ⟨⟨ht.good.sampled, ht.good.numEdges, ht.good.numPts, ht.good.idx⟩, ht.good.values, ht.good.wnd, fun a ha => by cases ha; exact l1⟩
  obtain ⟨l2, rfl⟩ := setWnd_inv hg1 ht2
  obtain ⟨rhs, α, r1, r2, r3, rfl, r5⟩ := C114_conjugate hg h ha hab h4 hn hs hi hd hQ hR hc
  rw [hK] at hw2 hw3
  have hflux := ring_conj_flux h ha0 hb0 h4 (Q := Q) (R := R) (by omega) (by omega)
  have hcl : c.length = K.numPts := by
    rw [List.Forall₂.length_eq r3, CellG.samplesOf, List.length_map, h.ready.numPts]
  have hder := C131_trace h.ready h.edges_ne r3 hcl hw2 hflux
  have hnh : K.numHoles = 1 := by
    obtain ⟨c, d, e, f, h1, -⟩ := h.circles
    simp [CellG.numHoles, h1]
  have hw2l : w2.length = K.cols.length := by
    rw [List.Forall₂.length_eq hder, CellG.normalOf, List.length_map]
  rw [(loops_ok hof (a := [α]) (by simp [hnh]) hw2l).2] at hw3
  cases hw3
  refine ⟨rhs, α, _, r1, r2, hv, rfl, r5, rfl, ?_⟩
  rw [ring_normal h ha0 hb0 hgr]
  have e1 : List.zipWith (fun x q => x + logsNormal K [α] q) w2 K.cols = List.zipWith (fun x s => x + s) w2
      ((List.replicate (2 * n) (1 : ℝ) ++ List.replicate (2 * n) (-1 : ℝ)).map (α * ·)) := by
    have := ring_logs h ha0 hb0 α
    rw [show ((List.replicate (2 * n) (1 : ℝ) ++ List.replicate (2 * n) (-1 : ℝ)).map (α * ·)) = K.cols.map (logsNormal K [α]) by rw [this]; simp,
      List.zipWith_map_right]
  rw [e1]
  refine within_combine r5 (fun x hx => ?_) ?_ hder
  · rcases List.mem_append.1 hx with hx | hx
    · exact .inl (List.eq_of_mem_replicate hx)
    · exact .inr (List.eq_of_mem_replicate hx)
  · rw [hw2l, h.cols]; simp

end PFEM
