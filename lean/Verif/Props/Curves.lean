import Mathlib.Analysis.SpecialFunctions.Trigonometric.Deriv
import Mathlib.Analysis.Calculus.Deriv.Prod
import Mathlib.Analysis.Calculus.Deriv.Pow
import Verif.Model.Curves

/-!
Property theorems C19 and C20: the curve library.
-/

namespace PFEM
open Curve

/-- C19: for every curve of the library and all options, either the three functions raise the same exception for every
parameter, or they all return values, `DX` is the derivative of `X` and `DDX` is the derivative of `DX`. -/
theorem C19_derivatives (c : CurveType) (o : CurveOpts) :
    (∃ e, ∀ t, X c o t = .error e ∧ DX c o t = .error e ∧ DDX c o t = .error e) ∨
    ∃ f g h : ℝ → ℝ × ℝ, (∀ t, X c o t = .ok (f t) ∧ DX c o t = .ok (g t) ∧ DDX c o t = .ok (h t)) ∧
      ∀ t, HasDerivAt f (g t) t ∧ HasDerivAt g (h t) t := by
  have hc : ∀ (w t : ℝ), HasDerivAt (fun t => Real.cos (w * t)) (-(w * Real.sin (w * t))) t := by
    intro w t
    have := (Real.hasDerivAt_cos (w * t)).comp t ((hasDerivAt_id t).const_mul w)
    refine this.congr_deriv ?_
    simp; ring
  have hs : ∀ (w t : ℝ), HasDerivAt (fun t => Real.sin (w * t)) (w * Real.cos (w * t)) t := by
    intro w t
    have := (Real.hasDerivAt_sin (w * t)).comp t ((hasDerivAt_id t).const_mul w)
    refine this.congr_deriv ?_
    simp; ring
  cases c with
  | bean =>
    refine Or.inr ⟨_, _, _, fun t => ⟨rfl, rfl, rfl⟩, fun t => ⟨?_, ?_⟩⟩
    · refine HasDerivAt.prodMk ?_ ((Real.hasDerivAt_sin t).const_mul 1.5)
      exact ((Real.hasDerivAt_cos t).add ((hc 2 t).const_mul 0.65)).congr_deriv (by ring)
    · refine HasDerivAt.prodMk ?_ (((Real.hasDerivAt_cos t).const_mul 1.5).congr_deriv (by ring))
      exact ((Real.hasDerivAt_sin t).neg.sub ((hs 2 t).const_mul (2 * 0.65))).congr_deriv (by ring)
  | cartioid =>
    cases ha : o.a with
    | none => exact Or.inl ⟨.keyError, fun t => by simp [X, DX, DDX, kwarg, ha, bind, Except.bind]⟩
    | some a =>
      have h1 : ∀ t, HasDerivAt (fun t : ℝ => 1 - t / Real.pi) (-(1 / Real.pi)) t := by
        intro t
        exact ((hasDerivAt_id t).div_const Real.pi).const_sub 1
      have hr : ∀ t, HasDerivAt (fun t => cartR a t) (cartDr a t) t := by
        intro t
        refine ((((h1 t).pow 8).const_mul a).const_add 1).congr_deriv ?_
        unfold cartDr; push_cast; ring
      have hd : ∀ t, HasDerivAt (fun t => cartDr a t) (cartDdr a t) t := by
        intro t
        refine (((h1 t).pow 7).const_mul (-(8 * a / Real.pi))).congr_deriv ?_
        unfold cartDdr; push_cast; field_simp; ring
      refine Or.inr ⟨fun t => (cartR a t * Real.cos t, cartR a t * Real.sin t),
        fun t => (cartDr a t * Real.cos t - cartR a t * Real.sin t, cartDr a t * Real.sin t + cartR a t * Real.cos t),
        fun t => ((cartDdr a t - cartR a t) * Real.cos t - 2 * cartDr a t * Real.sin t,
          (cartDdr a t - cartR a t) * Real.sin t + 2 * cartDr a t * Real.cos t),
        fun t => by simp [X, DX, DDX, kwarg, ha, bind, Except.bind], fun t => ⟨?_, ?_⟩⟩
      · refine HasDerivAt.prodMk ?_ ?_
        · exact ((hr t).mul (Real.hasDerivAt_cos t)).congr_deriv (by ring)
        · exact ((hr t).mul (Real.hasDerivAt_sin t)).congr_deriv (by ring)
      · refine HasDerivAt.prodMk ?_ ?_
        · exact (((hd t).mul (Real.hasDerivAt_cos t)).sub ((hr t).mul (Real.hasDerivAt_sin t))).congr_deriv (by ring)
        · exact (((hd t).mul (Real.hasDerivAt_sin t)).add ((hr t).mul (Real.hasDerivAt_cos t))).congr_deriv (by ring)
  | circle =>
    refine Or.inr ⟨_, _, _, fun t => ⟨rfl, rfl, rfl⟩, fun t => ⟨?_, ?_⟩⟩
    · exact HasDerivAt.prodMk (((Real.hasDerivAt_cos t).const_mul _).congr_deriv (by ring))
        ((Real.hasDerivAt_sin t).const_mul _)
    · exact HasDerivAt.prodMk ((Real.hasDerivAt_sin t).const_mul _)
        (((Real.hasDerivAt_cos t).const_mul _).congr_deriv (by ring))
  | circularArc =>
    cases hH : o.H with
    | none => exact Or.inl ⟨.keyError, fun t => by simp [X, DX, DDX, unpackArc, kwarg, hH, bind, Except.bind]⟩
    | some H =>
      set R := Real.sqrt (0.25 + H ^ 2) with hR
      set t0 := Real.arcsin (H / R) with ht0
      set om := -0.5 - t0 / Real.pi with hom
      have hu : unpackArc o = .ok (H, R, t0, om) := by
        simp [unpackArc, kwarg, hH, bind, Except.bind, hR, ht0, hom]
      have hth : ∀ t : ℝ, HasDerivAt (fun t => t0 + Real.pi + om * t) om t := by
        intro t
        exact (((hasDerivAt_id t).const_mul om).const_add (t0 + Real.pi)).congr_deriv (by simp)
      have h1 : ∀ t : ℝ, HasDerivAt (fun t => Real.cos (t0 + Real.pi + om * t))
          (-Real.sin (t0 + Real.pi + om * t) * om) t := fun t => (Real.hasDerivAt_cos _).comp t (hth t)
      have h2 : ∀ t : ℝ, HasDerivAt (fun t => Real.sin (t0 + Real.pi + om * t))
          (Real.cos (t0 + Real.pi + om * t) * om) t := fun t => (Real.hasDerivAt_sin _).comp t (hth t)
      refine Or.inr ⟨fun t => (0.5 + R * Real.cos (t0 + Real.pi + om * t), H + R * Real.sin (t0 + Real.pi + om * t)),
        fun t => (-om * R * Real.sin (t0 + Real.pi + om * t), om * R * Real.cos (t0 + Real.pi + om * t)),
        fun t => (-om * om * R * Real.cos (t0 + Real.pi + om * t), -om * om * R * Real.sin (t0 + Real.pi + om * t)),
        fun t => by simp only [X, DX, DDX, hu, bind, Except.bind, and_self], fun t => ⟨?_, ?_⟩⟩
      · exact HasDerivAt.prodMk ((((h1 t).const_mul R).const_add _).congr_deriv (by ring))
          ((((h2 t).const_mul R).const_add _).congr_deriv (by ring))
      · exact HasDerivAt.prodMk (((h2 t).const_mul _).congr_deriv (by ring))
          (((h1 t).const_mul _).congr_deriv (by ring))
  | circularArcDeg =>
    cases hu : unpackDeg o with
    | error e => exact Or.inl ⟨e, fun t => by simp [X, DX, DDX, hu, bind, Except.bind]⟩
    | ok w =>
      refine Or.inr ⟨fun t => (Real.cos (w * t), Real.sin (w * t)),
        fun t => (-w * Real.sin (w * t), w * Real.cos (w * t)),
        fun t => (-w * w * Real.cos (w * t), -w * w * Real.sin (w * t)),
        fun t => by simp only [X, DX, DDX, hu, bind, Except.bind, and_self], fun t => ⟨?_, ?_⟩⟩
      · exact HasDerivAt.prodMk ((hc w t).congr_deriv (by ring)) (hs w t)
      · exact HasDerivAt.prodMk (((hs w t).const_mul _).congr_deriv (by ring))
          (((hc w t).const_mul _).congr_deriv (by ring))
  | ellipse =>
    cases ha : o.a with
    | none => exact Or.inl ⟨.keyError, fun t => by simp [X, DX, DDX, kwarg, ha, bind, Except.bind]⟩
    | some a =>
      cases hb : o.b with
      | none => exact Or.inl ⟨.keyError, fun t => by simp [X, DX, DDX, kwarg, ha, hb, bind, Except.bind]⟩
      | some b =>
        refine Or.inr ⟨fun t => (a * Real.cos t, b * Real.sin t), fun t => (-a * Real.sin t, b * Real.cos t),
          fun t => (-a * Real.cos t, -b * Real.sin t),
          fun t => by simp [X, DX, DDX, kwarg, ha, hb, bind, Except.bind], fun t => ⟨?_, ?_⟩⟩
        · exact HasDerivAt.prodMk (((Real.hasDerivAt_cos t).const_mul _).congr_deriv (by ring))
            ((Real.hasDerivAt_sin t).const_mul _)
        · exact HasDerivAt.prodMk ((Real.hasDerivAt_sin t).const_mul _)
            (((Real.hasDerivAt_cos t).const_mul _).congr_deriv (by ring))
  | line =>
    refine Or.inr ⟨_, _, _, fun t => ⟨rfl, rfl, rfl⟩, fun t => ⟨?_, ?_⟩⟩
    · exact HasDerivAt.prodMk ((hasDerivAt_id t).div_const _) (hasDerivAt_const t 0)
    · exact HasDerivAt.prodMk (hasDerivAt_const t _) (hasDerivAt_const t 0)
  | sineWave =>
    cases hu : unpackSine o with
    | error e => exact Or.inl ⟨e, fun t => by simp [X, DX, DDX, hu, bind, Except.bind]⟩
    | ok aw =>
      obtain ⟨a, w⟩ := aw
      have h1 : ∀ t : ℝ, HasDerivAt (fun t => w * t / 2) (w / 2) t := fun t =>
        (((hasDerivAt_id t).const_mul w).div_const 2).congr_deriv (by simp)
      have h2 : ∀ t : ℝ, HasDerivAt (fun t => Real.sin (w * t / 2)) (Real.cos (w * t / 2) * (w / 2)) t :=
        fun t => (Real.hasDerivAt_sin _).comp t (h1 t)
      have h3 : ∀ t : ℝ, HasDerivAt (fun t => Real.cos (w * t / 2)) (-Real.sin (w * t / 2) * (w / 2)) t :=
        fun t => (Real.hasDerivAt_cos _).comp t (h1 t)
      refine Or.inr ⟨fun t => (t / (2 * Real.pi), a * Real.sin (w * t / 2)),
        fun t => (1 / (2 * Real.pi), 0.5 * a * w * Real.cos (w * t / 2)),
        fun t => (0, -0.25 * a * w * w * Real.sin (w * t / 2)),
        fun t => by simp only [X, DX, DDX, hu, bind, Except.bind, and_self], fun t => ⟨?_, ?_⟩⟩
      · exact HasDerivAt.prodMk ((hasDerivAt_id t).div_const _) (((h2 t).const_mul a).congr_deriv (by ring))
      · exact HasDerivAt.prodMk (hasDerivAt_const t _) (((h3 t).const_mul _).congr_deriv (by ring))
  | teardrop =>
    cases hu : unpackTear o with
    | error e => exact Or.inl ⟨e, fun t => by simp [X, DX, DDX, hu, bind, Except.bind]⟩
    | ok b =>
      have h1 : ∀ t : ℝ, HasDerivAt (fun t : ℝ => t / 2) (1 / 2) t := fun t => (hasDerivAt_id t).div_const 2
      have h2 : ∀ t : ℝ, HasDerivAt (fun t => Real.sin (t / 2)) (Real.cos (t / 2) * (1 / 2)) t :=
        fun t => (Real.hasDerivAt_sin _).comp t (h1 t)
      have h3 : ∀ t : ℝ, HasDerivAt (fun t => Real.cos (t / 2)) (-Real.sin (t / 2) * (1 / 2)) t :=
        fun t => (Real.hasDerivAt_cos _).comp t (h1 t)
      refine Or.inr ⟨fun t => (2 * Real.sin (t / 2), -b * Real.sin t),
        fun t => (Real.cos (t / 2), -b * Real.cos t),
        fun t => (-0.5 * Real.sin (t / 2), b * Real.sin t),
        fun t => by simp only [X, DX, DDX, hu, bind, Except.bind, and_self], fun t => ⟨?_, ?_⟩⟩
      · exact HasDerivAt.prodMk (((h2 t).const_mul 2).congr_deriv (by ring)) ((Real.hasDerivAt_sin t).const_mul _)
      · exact HasDerivAt.prodMk ((h3 t).congr_deriv (by ring)) (((Real.hasDerivAt_cos t).const_mul _).congr_deriv (by ring))

/-- the cases of C19 really occur: a sine wave has derivatives, and leaving out the amplitude is an error -/
example : (∃ p, X .sineWave { amp := some 2, freq := some 3 } 1 = .ok p) ∧
    X .sineWave { freq := some 3 } 1 = .error .valueError := by
  simp [X, unpackSine, bind, Except.bind]

/-! ### C20 -/

/-- The options that make curve `c` well defined. -/
def OptsOk (c : CurveType) (o : CurveOpts) : Prop :=
  match c with
  | .bean | .circle | .line => True
  | .cartioid => o.a.isSome
  | .circularArc => o.H.isSome
  | .circularArcDeg => ∃ th, o.theta0 = some th ∧ 0 < th ∧ th ≤ 360
  | .ellipse => o.a.isSome ∧ o.b.isSome
  | .sineWave => o.amp.isSome ∧ o.freq.isSome
  | .teardrop => ∀ al, o.alpha = some al → 1 < al

/-- C20 (a): a curve is defined exactly for valid options; in particular `circular_arc_deg` rejects angles outside
(0, 360] and `teardrop` rejects `alpha <= 1`; which exception is raised. -/
theorem C20_errors (c : CurveType) (o : CurveOpts) (t : ℝ) :
    ((∃ p, X c o t = .ok p) ↔ OptsOk c o) ∧
    ((∃ p, DX c o t = .ok p) ↔ OptsOk c o) ∧
    ((∃ p, DDX c o t = .ok p) ↔ OptsOk c o) ∧
    (¬ OptsOk c o → X c o t =
      if c = .circularArcDeg ∨ c = .sineWave ∨ c = .teardrop then .error .valueError else .error .keyError) := by
  cases c with
  | bean => simp [OptsOk, X, DX, DDX]
  | circle => simp [OptsOk, X, DX, DDX]
  | line => simp [OptsOk, X, DX, DDX]
  | cartioid => cases h : o.a <;> simp [OptsOk, X, DX, DDX, kwarg, h, bind, Except.bind]
  | circularArc => cases h : o.H <;> simp [OptsOk, X, DX, DDX, unpackArc, kwarg, h, bind, Except.bind]
  | ellipse =>
    cases h : o.a <;> cases h' : o.b <;> simp [OptsOk, X, DX, DDX, kwarg, h, h', bind, Except.bind]
  | sineWave =>
    cases h : o.amp <;> cases h' : o.freq <;> simp [OptsOk, X, DX, DDX, unpackSine, h, h', bind, Except.bind]
  | circularArcDeg =>
    cases h : o.theta0 with
    | none => simp [OptsOk, X, DX, DDX, unpackDeg, h, bind, Except.bind]
    | some th =>
      by_cases h0 : th ≤ 0 ∨ th > 360
      · have : ¬ (0 < th ∧ th ≤ 360) := by
          rintro ⟨h1, h2⟩
          rcases h0 with h0 | h0
          · exact absurd h1 (not_lt.2 h0)
          · exact absurd h2 (not_le.2 h0)
        simp only [OptsOk, X, DX, DDX, unpackDeg, h, h0, bind, Except.bind, if_true]
        simpa using this
      · have : 0 < th ∧ th ≤ 360 := by
          push Not at h0; exact h0
        simp [OptsOk, X, DX, DDX, unpackDeg, h, h0, bind, Except.bind, this]
  | teardrop =>
    cases h : o.alpha with
    | none =>
      have : ¬ ((3 : ℝ) / 2 ≤ 1) := by norm_num
      simp [OptsOk, X, DX, DDX, unpackTear, h, this, bind, Except.bind]
    | some al =>
      by_cases h0 : al ≤ 1
      · simp [OptsOk, X, DX, DDX, unpackTear, h, h0, bind, Except.bind]
      · simp [OptsOk, X, DX, DDX, unpackTear, h, h0, bind, Except.bind, not_le.1 h0]

/-- C20 (b): the closed curves return to their starting point. -/
theorem C20_closed (c : CurveType) (o : CurveOpts)
    (hc : c = .circle ∨ c = .ellipse ∨ c = .bean ∨ c = .cartioid ∨ c = .teardrop) :
    X c o 0 = X c o (2 * Real.pi) := by
  have h4 : Real.cos (2 * (2 * Real.pi)) = 1 := by
    rw [show 2 * (2 * Real.pi) = ((2 : ℕ) : ℝ) * (2 * Real.pi) by norm_num, Real.cos_nat_mul_two_pi]
  rcases hc with rfl | rfl | rfl | rfl | rfl
  · simp [X]
  · cases h : o.a <;> cases h' : o.b <;> simp [X, kwarg, h, h', bind, Except.bind]
  · simp [X, h4]
  · cases h : o.a with
    | none => simp [X, kwarg, h, bind, Except.bind]
    | some a =>
      have : (1 - 2 * Real.pi / Real.pi) ^ 8 = (1 : ℝ) := by
        rw [mul_div_assoc, div_self Real.pi_ne_zero]; norm_num
      simp only [X, kwarg, h, bind, Except.bind, cartR, this]
      simp
  · cases h : unpackTear o with
    | error e => simp [X, h, bind, Except.bind]
    | ok b =>
      have : 2 * Real.pi / 2 = Real.pi := by ring
      simp [X, h, bind, Except.bind, this]

/-- facts about the circle of `circular_arc` -/
theorem arc_facts (H : ℝ) :
    let R := Real.sqrt (0.25 + H ^ 2)
    let t0 := Real.arcsin (H / R)
    0 < R ∧ R ^ 2 = 0.25 + H ^ 2 ∧ R * Real.sin t0 = H ∧ R * Real.cos t0 = 0.5 ∧
      -(Real.pi / 2) < t0 ∧ t0 < Real.pi / 2 := by
  intro R t0
  have hpos : (0 : ℝ) < 0.25 + H ^ 2 := by positivity
  have hR : 0 < R := Real.sqrt_pos.2 hpos
  have hR2 : R ^ 2 = 0.25 + H ^ 2 := Real.sq_sqrt hpos.le
  have hlt : (H / R) ^ 2 < 1 := by
    rw [div_pow, hR2, div_lt_one hpos]; norm_num
  have hab := (abs_lt.1 ((sq_lt_one_iff_abs_lt_one _).1 hlt))
  have hsin : Real.sin t0 = H / R := Real.sin_arcsin hab.1.le hab.2.le
  have hcos : Real.cos t0 = 0.5 / R := by
    rw [Real.cos_arcsin]
    have : 1 - (H / R) ^ 2 = (0.5 / R) ^ 2 := by
      rw [div_pow, div_pow, hR2]; field_simp; norm_num
    rw [this, Real.sqrt_sq (by positivity)]
  refine ⟨hR, hR2, by rw [hsin]; field_simp, by rw [hcos]; field_simp, ?_, ?_⟩
  · rw [← Real.arcsin_neg_one]; exact Real.strictMonoOn_arcsin (by simp) ⟨hab.1.le, hab.2.le⟩ hab.1
  · rw [← Real.arcsin_one]; exact Real.strictMonoOn_arcsin ⟨hab.1.le, hab.2.le⟩ (by simp) hab.2

/-- C20 (c): the open curves run from the origin to (1, 0), `circular_arc_deg` from (1, 0) to the point at the given
angle. -/
theorem C20_open :
    (∀ o, X .line o 0 = .ok (0, 0) ∧ X .line o (2 * Real.pi) = .ok (1, 0)) ∧
    (∀ o H, o.H = some H →
      X .circularArc o 0 = .ok (0, 0) ∧ X .circularArc o (2 * Real.pi) = .ok (1, 0)) ∧
    (∀ o amp (k : ℤ), o.amp = some amp → o.freq = some (k : ℝ) →
      X .sineWave o 0 = .ok (0, 0) ∧ X .sineWave o (2 * Real.pi) = .ok (1, 0)) ∧
    (∀ o th, o.theta0 = some th → 0 < th → th ≤ 360 →
      X .circularArcDeg o 0 = .ok (1, 0) ∧
      X .circularArcDeg o (2 * Real.pi) = .ok (Real.cos (th * Real.pi / 180), Real.sin (th * Real.pi / 180))) := by
  refine ⟨fun o => by simp [X], ?_, ?_, ?_⟩
  · intro o H hH
    obtain ⟨hR, -, hs, hc, -, -⟩ := arc_facts H
    simp only [X, unpackArc, kwarg, hH, bind, Except.bind, Except.ok.injEq, Prod.mk.injEq]
    set R := Real.sqrt (0.25 + H ^ 2)
    set t0 := Real.arcsin (H / R)
    have e : t0 + Real.pi + (-0.5 - t0 / Real.pi) * (2 * Real.pi) = -t0 := by
      field_simp; ring
    rw [e, mul_zero, add_zero, Real.cos_add_pi, Real.sin_add_pi, Real.cos_neg, Real.sin_neg, mul_neg, mul_neg, hs, hc]
    norm_num
  · intro o a k ha hk
    have e : (k : ℝ) * (2 * Real.pi) / 2 = k * Real.pi := by ring
    simp [X, unpackSine, ha, hk, bind, Except.bind, e, Real.sin_int_mul_pi]
  · intro o th hth h0 h1
    have hn : ¬ (th ≤ 0 ∨ th > 360) := by
      push Not; exact ⟨h0, h1⟩
    have e : th / 360 * (2 * Real.pi) = th * Real.pi / 180 := by ring
    simp [X, unpackDeg, hth, hn, bind, Except.bind, e]

/-- C20 (d): `circular_arc` stays on the circle with centre (1/2, H) through the origin, in the upper half plane. -/
theorem C20_arc (o : CurveOpts) (H t : ℝ) (hH : o.H = some H) (ht0 : 0 ≤ t) (ht1 : t ≤ 2 * Real.pi) :
    ∃ p, X .circularArc o t = .ok p ∧ (p.1 - 1 / 2) ^ 2 + (p.2 - H) ^ 2 = 1 / 4 + H ^ 2 ∧ 0 ≤ p.2 := by
  obtain ⟨hR, hR2, hs, hc, hl, hu⟩ := arc_facts H
  simp only [X, unpackArc, kwarg, hH, bind, Except.bind]
  set R := Real.sqrt (0.25 + H ^ 2)
  set t0 := Real.arcsin (H / R)
  refine ⟨_, rfl, ?_, ?_⟩
  · have := Real.sin_sq_add_cos_sq (t0 + Real.pi + (-0.5 - t0 / Real.pi) * t)
    have e : (0.5 : ℝ) = 1 / 2 := by norm_num
    have e' : (0.25 : ℝ) = 1 / 4 := by norm_num
    rw [e'] at hR2
    rw [e] at this ⊢
    linear_combination R ^ 2 * this + hR2
  · -- the angle lies between `-t0` and `pi + t0`
    set th := t0 + Real.pi + (-0.5 - t0 / Real.pi) * t with hth
    have hpi := Real.pi_pos
    have hom : -0.5 - t0 / Real.pi < 0 := by
      have : -(1 / 2) < t0 / Real.pi := by
        rw [lt_div_iff₀ hpi]; linarith
      norm_num at this ⊢; linarith
    have h1 : th ≤ t0 + Real.pi := by
      have := mul_nonpos_of_nonpos_of_nonneg hom.le ht0
      linarith
    have h2 : -t0 ≤ th := by
      have e : t0 + Real.pi + (-0.5 - t0 / Real.pi) * (2 * Real.pi) = -t0 := by field_simp; ring
      have := mul_le_mul_of_nonpos_left ht1 hom.le
      rw [← e]; linarith
    have hsin : Real.sin (-t0) ≤ Real.sin th := by
      by_cases hle : th ≤ Real.pi / 2
      · exact Real.sin_le_sin_of_le_of_le_pi_div_two (by linarith) hle h2
      · push Not at hle
        rw [← Real.sin_pi_sub th]
        exact Real.sin_le_sin_of_le_of_le_pi_div_two (by linarith) (by linarith) (by linarith)
    rw [Real.sin_neg] at hsin
    have := mul_le_mul_of_nonneg_left hsin hR.le
    change 0 ≤ H + R * Real.sin th
    linarith

/-- Shape parameters for which a curve does not degenerate to a point or a segment traversed back and forth. -/
def Nondegenerate (c : CurveType) (o : CurveOpts) : Prop :=
  match c with
  | .circle => o.radius ≠ some 0
  | .ellipse => o.a ≠ some 0 ∧ o.b ≠ some 0
  | .cartioid => ∀ a, o.a = some a → -1 < a
  | _ => True

/-- C20 (e): no curve of the library has zero speed anywhere on its parameter interval, for nondegenerate shape
parameters. So the unit tangent `dx / |dx|` that an edge stores is defined. -/
theorem C20_regular (c : CurveType) (o : CurveOpts) (t : ℝ) (h0 : 0 ≤ t) (h1 : t ≤ 2 * Real.pi)
    (hn : Nondegenerate c o) (d : ℝ × ℝ) (hd : DX c o t = .ok d) : d ≠ (0, 0) := by
  have hsc := Real.sin_sq_add_cos_sq
  have hpi := Real.pi_pos
  rintro rfl
  cases c with
  | bean =>
    simp only [DX, Except.ok.injEq, Prod.mk.injEq] at hd
    obtain ⟨hx, hy⟩ := hd
    have hc : Real.cos t = 0 := by
      rcases mul_eq_zero.1 hy with h | h
      · norm_num at h
      · exact h
    rw [Real.sin_two_mul, hc] at hx
    have hs : Real.sin t = 0 := by linarith
    have := hsc t; rw [hs, hc] at this; norm_num at this
  | cartioid =>
    cases ha : o.a with
    | none => simp [DX, kwarg, ha, bind, Except.bind] at hd
    | some a =>
      simp only [DX, kwarg, ha, bind, Except.bind, Except.ok.injEq, Prod.mk.injEq] at hd
      obtain ⟨hx, hy⟩ := hd
      have hr : cartR a t = 0 := by
        have e := hsc t
        linear_combination Real.cos t * hy - Real.sin t * hx - cartR a t * e
      have hb : (1 - t / Real.pi) ^ 8 ≤ 1 := by
        have h2 : |1 - t / Real.pi| ≤ 1 := by
          rw [abs_le]
          have e1 : 0 ≤ t / Real.pi := by positivity
          have e2 : t / Real.pi ≤ 2 := by rw [div_le_iff₀ hpi]; exact h1
          constructor <;> linarith
        rw [← Even.pow_abs (by decide)]
        exact pow_le_one₀ (abs_nonneg _) h2
      have hb0 : 0 ≤ (1 - t / Real.pi) ^ 8 := Even.pow_nonneg (by decide) _
      have ha1 : -1 < a := hn a ha
      unfold cartR at hr
      rcases le_or_gt 0 a with h | h
      · have := mul_nonneg h hb0
        linarith
      · have := mul_le_mul_of_nonpos_left hb h.le
        linarith
  | circle =>
    simp only [DX, Except.ok.injEq, Prod.mk.injEq] at hd
    obtain ⟨hx, hy⟩ := hd
    have hr : radius o = 0 := by
      have e := hsc t
      linear_combination Real.cos t * hy - Real.sin t * hx - radius o * e
    unfold radius at hr
    cases ho : o.radius with
    | none => simp [ho] at hr
    | some r => simp [ho] at hr; exact hn (by rw [ho, hr])
  | circularArc =>
    cases hH : o.H with
    | none => simp [DX, unpackArc, kwarg, hH, bind, Except.bind] at hd
    | some H =>
      obtain ⟨hR, hR2, hs, hc, hl, hu⟩ := arc_facts H
      simp only [DX, unpackArc, kwarg, hH, bind, Except.bind, Except.ok.injEq, Prod.mk.injEq] at hd
      set R := Real.sqrt (0.25 + H ^ 2)
      set t0 := Real.arcsin (H / R)
      obtain ⟨hx, hy⟩ := hd
      have e := hsc (t0 + Real.pi + (-0.5 - t0 / Real.pi) * t)
      have hz : (-0.5 - t0 / Real.pi) * R = 0 := by
        linear_combination Real.cos (t0 + Real.pi + (-0.5 - t0 / Real.pi) * t) * hy -
          Real.sin (t0 + Real.pi + (-0.5 - t0 / Real.pi) * t) * hx - (-0.5 - t0 / Real.pi) * R * e
      rcases mul_eq_zero.1 hz with h | h
      · have : -(1 / 2) < t0 / Real.pi := by
          rw [lt_div_iff₀ hpi]; linarith
        norm_num at this h; linarith
      · exact hR.ne' h
  | circularArcDeg =>
    cases ho : o.theta0 with
    | none => simp [DX, unpackDeg, ho, bind, Except.bind] at hd
    | some th =>
      by_cases hb : th ≤ 0 ∨ th > 360
      · simp only [DX, unpackDeg, ho, hb, bind, Except.bind, if_true] at hd; cases hd
      · simp only [DX, unpackDeg, ho, hb, bind, Except.bind, if_false, Except.ok.injEq, Prod.mk.injEq] at hd
        obtain ⟨hx, hy⟩ := hd
        have e := hsc (th / 360 * t)
        have hz : th / 360 = 0 := by
          linear_combination Real.cos (th / 360 * t) * hy - Real.sin (th / 360 * t) * hx - th / 360 * e
        push Not at hb
        linarith [hb.1]
  | ellipse =>
    cases ha : o.a with
    | none => simp [DX, kwarg, ha, bind, Except.bind] at hd
    | some a =>
      cases hb : o.b with
      | none => simp [DX, kwarg, ha, hb, bind, Except.bind] at hd
      | some b =>
        simp only [DX, kwarg, ha, hb, bind, Except.bind, Except.ok.injEq, Prod.mk.injEq] at hd
        obtain ⟨hx, hy⟩ := hd
        have ha0 : a ≠ 0 := by rintro rfl; exact hn.1 ha
        have hb0 : b ≠ 0 := by rintro rfl; exact hn.2 hb
        have hs : Real.sin t = 0 := by
          rcases mul_eq_zero.1 hx with h | h
          · exact absurd (neg_eq_zero.1 h) ha0
          · exact h
        have hc : Real.cos t = 0 := by
          rcases mul_eq_zero.1 hy with h | h
          · exact absurd h hb0
          · exact h
        have := hsc t; rw [hs, hc] at this; norm_num at this
  | line =>
    simp only [DX, Except.ok.injEq, Prod.mk.injEq] at hd
    have : (0 : ℝ) < 1 / (2 * Real.pi) := by positivity
    exact this.ne' hd.1
  | sineWave =>
    cases hu : unpackSine o with
    | error e => simp [DX, hu, bind, Except.bind] at hd
    | ok aw =>
      simp only [DX, hu, bind, Except.bind, Except.ok.injEq, Prod.mk.injEq] at hd
      have : (0 : ℝ) < 1 / (2 * Real.pi) := by positivity
      exact this.ne' hd.1
  | teardrop =>
    have hal : ∀ al : ℝ, 1 < al → Real.tan (0.5 * Real.pi / al) ≠ 0 := by
      intro al h
      apply ne_of_gt
      apply Real.tan_pos_of_pos_of_lt_pi_div_two
      · positivity
      · rw [div_lt_iff₀ (by linarith)]
        norm_num
        nlinarith
    have key : ∀ b : ℝ, b ≠ 0 → ¬ (Real.cos (t / 2) = 0 ∧ -b * Real.cos t = 0) := by
      rintro b hb ⟨hx, hy⟩
      have : Real.cos t = -1 := by
        have e : t = 2 * (t / 2) := by ring
        rw [e, Real.cos_two_mul, hx]; norm_num
      rw [this] at hy
      apply hb; linarith
    unfold DX unpackTear at hd
    by_cases hb : o.alpha.getD (3 / 2) ≤ 1
    · simp only [hb, bind, Except.bind, if_true] at hd; cases hd
    · simp only [hb, bind, Except.bind, if_false, Except.ok.injEq, Prod.mk.injEq] at hd
      exact key _ (hal _ (not_le.1 hb)) hd

example : Nondegenerate .cartioid { a := some (-1 / 2) } ∧ OptsOk .cartioid { a := some (-1 / 2) } := by
  constructor
  · intro a h
    simp at h; subst h; norm_num
  · simp [OptsOk]

end PFEM
