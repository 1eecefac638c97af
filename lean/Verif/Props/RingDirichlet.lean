import Verif.Lemmas.MaxPrinciple
import Verif.Props.RingPoisson
import Verif.Props.RingSolve
import Verif.Spec.RingDirichlet

/-!
Property theorem C137: Poisson problems on rings with polynomial data on both circles.
-/

namespace PFEM
open Nystrom Antilap Polynomial

variable {x0 y0 a b : ℝ}

theorem ringData_circle (A : ℝ) (Q R : ℂ[X]) {r : ℝ} (hr : 0 < r) (θ : ℝ) : ringData A Q R x0 y0 (x0 + r * Real.cos θ) (y0 + r * Real.sin θ) =
    A * Real.log r + (Q.eval (r * Complex.exp (θ * Complex.I)) + R.eval (r * Complex.exp (θ * Complex.I))⁻¹).re := by
  have e1 : (x0 + r * Real.cos θ - x0) ^ 2 + (y0 + r * Real.sin θ - y0) ^ 2 = r ^ 2 := by linear_combination r ^ 2 * Real.sin_sq_add_cos_sq θ
  have e2 : (⟨x0 + r * Real.cos θ - x0, y0 + r * Real.sin θ - y0⟩ : ℂ) = r * Complex.exp (θ * Complex.I) := by
    rw [add_sub_cancel_left, add_sub_cancel_left, Complex.exp_mul_I, ← Complex.ofReal_cos, ← Complex.ofReal_sin]
    apply Complex.ext <;> simp [-Complex.ofReal_cos, -Complex.ofReal_sin]
  rw [ringData, laurent, e1, e2, Real.sqrt_sq hr.le]

theorem ringData_add (A A' : ℝ) (Q R Q' R' : ℂ[X]) (x y : ℝ) :
    ringData (A + A') (Q + Q') (R + R') x0 y0 x y = ringData A Q R x0 y0 x y + ringData A' Q' R' x0 y0 x y := by
  simp only [ringData, laurent, eval_add, Complex.add_re]
  ring

theorem re_conj_mul (α e : ℂ) : (starRingEnd ℂ α * starRingEnd ℂ e).re = (α * e).re := by rw [← map_mul, Complex.conj_re]

/-- one mode on one circle, zero on the other -/
theorem ring_mode (x0 y0 : ℝ) {r s : ℝ} (hr : 0 < r) (hs : 0 < s) (hne : r ≠ s) {m d : ℕ} (hm : m ≤ d) (c : ℂ) :
    ∃ (A : ℝ) (Q R : ℂ[X]), Q.natDegree ≤ d ∧ R.natDegree ≤ d ∧ ∀ θ : ℝ,
      ringData A Q R x0 y0 (x0 + r * Real.cos θ) (y0 + r * Real.sin θ) = (c * Complex.exp (θ * Complex.I) ^ m).re ∧
      ringData A Q R x0 y0 (x0 + s * Real.cos θ) (y0 + s * Real.sin θ) = 0 := by
  rcases Nat.eq_zero_or_pos m with rfl | hpos
  · have hl : Real.log r - Real.log s ≠ 0 := sub_ne_zero.2 fun e => hne (Real.log_injOn_pos hr hs e)
    refine ⟨c.re / (Real.log r - Real.log s), C ((-(c.re / (Real.log r - Real.log s) * Real.log s) : ℝ) : ℂ), 0, by rw [natDegree_C]; exact Nat.zero_le _, by simp, fun θ => ?_⟩
    rw [ringData_circle _ _ _ hr, ringData_circle _ _ _ hs]
    simp only [eval_C, eval_zero, add_zero, Complex.ofReal_re, pow_zero, mul_one]
    constructor
    · field_simp
      ring
    · ring
  · have hD : r ^ m - s ^ (2 * m) * (r ^ m)⁻¹ ≠ 0 := by
      intro e
      have e1 : r ^ (2 * m) = s ^ (2 * m) := by
        have h0 : r ^ m ≠ 0 := by positivity
        field_simp at e
        rw [mul_comm 2 m, pow_mul r]
        rw [mul_comm 2 m] at e
        linarith
      exact hne ((pow_left_inj₀ hr.le hs.le (by omega)).1 e1)
    set D := r ^ m - s ^ (2 * m) * (r ^ m)⁻¹ with hDd
    set α : ℂ := c / (D : ℂ) with hα
    have key : ∀ {t : ℝ}, 0 < t → ∀ θ : ℝ, ringData 0 (C α * X ^ m) (C (-(starRingEnd ℂ α * ((s ^ (2 * m) : ℝ) : ℂ))) * X ^ m) x0 y0 (x0 + t * Real.cos θ)
        (y0 + t * Real.sin θ) = (t ^ m - s ^ (2 * m) * (t ^ m)⁻¹) * (α * Complex.exp (θ * Complex.I) ^ m).re := by
      intro t ht θ
      have hc : (Complex.exp (θ * Complex.I))⁻¹ = starRingEnd ℂ (Complex.exp (θ * Complex.I)) := by
        rw [← Complex.exp_neg, ← Complex.exp_conj, map_mul, Complex.conj_I, Complex.conj_ofReal, mul_neg]
      rw [ringData_circle _ _ _ ht, eval_mul, eval_mul, eval_C, eval_C, eval_pow, eval_pow, eval_X, eval_X, mul_inv, mul_pow, mul_pow, hc, ← map_pow, zero_mul, zero_add,
        Complex.add_re]
      generalize Complex.exp (θ * Complex.I) ^ m = e
      have h1 : (α * ((t : ℂ) ^ m * e)).re = t ^ m * (α * e).re := by
        rw [← Complex.re_ofReal_mul]
        push_cast
        congr 1
        ring
      have h2 : (-(starRingEnd ℂ α * ((s ^ (2 * m) : ℝ) : ℂ)) * ((t : ℂ)⁻¹ ^ m * starRingEnd ℂ e)).re = -(s ^ (2 * m) * (t ^ m)⁻¹) * (α * e).re := by
        rw [← re_conj_mul α e, ← Complex.re_ofReal_mul]
        push_cast
        congr 1
        rw [inv_pow]
        ring
      rw [h1, h2]
      ring
    refine ⟨0, _, _, (natDegree_C_mul_X_pow_le _ _).trans hm, (natDegree_C_mul_X_pow_le _ _).trans hm, fun θ => ⟨(key hr θ).trans ?_, (key hs θ).trans ?_⟩⟩
    · rw [← hDd, ← Complex.re_ofReal_mul, ← mul_assoc, hα, mul_div_cancel₀ _ (by exact_mod_cast hD)]
    · have : s ^ m ≠ 0 := by positivity
      rw [two_mul, pow_add, mul_assoc, mul_inv_cancel₀ this, mul_one, sub_self, zero_mul]

theorem ring_mode' (x0 y0 : ℝ) {r s : ℝ} (hr : 0 < r) (hs : 0 < s) (hne : r ≠ s) {d : ℕ} {g : ℝ → ℂ} (hg : g ∈ trigSpan d) :
    ∀ c : ℂ, ∃ (A : ℝ) (Q R : ℂ[X]), Q.natDegree ≤ d ∧ R.natDegree ≤ d ∧ ∀ θ : ℝ,
      ringData A Q R x0 y0 (x0 + r * Real.cos θ) (y0 + r * Real.sin θ) = (c * g θ).re ∧
      ringData A Q R x0 y0 (x0 + s * Real.cos θ) (y0 + s * Real.sin θ) = 0 := by
  induction hg using Submodule.span_induction with
  | mem g hg =>
    obtain ⟨k, hk, rfl⟩ := hg
    intro c
    have hk' : k.natAbs ≤ d := by
      have := abs_le.1 hk
      omega
    rcases le_total 0 k with h0 | h0
    · obtain ⟨A, Q, R, h1, h2, h3⟩ := ring_mode x0 y0 hr hs hne hk' c
      refine ⟨A, Q, R, h1, h2, fun θ => ⟨(h3 θ).1.trans ?_, (h3 θ).2⟩⟩
      obtain ⟨m, rfl⟩ := Int.eq_ofNat_of_zero_le h0
      rw [← Complex.exp_nat_mul]
      simp only [Int.natAbs_natCast, Int.cast_natCast, mul_assoc]
    · obtain ⟨A, Q, R, h1, h2, h3⟩ := ring_mode x0 y0 hr hs hne hk' (starRingEnd ℂ c)
      refine ⟨A, Q, R, h1, h2, fun θ => ⟨(h3 θ).1.trans ?_, (h3 θ).2⟩⟩
      obtain ⟨m, rfl⟩ : ∃ m : ℕ, k = -(m : ℤ) := ⟨k.natAbs, by omega⟩
      rw [← re_conj_mul c, ← Complex.exp_nat_mul, ← Complex.exp_conj]
      simp only [Int.natAbs_neg, Int.natAbs_natCast, Int.cast_neg, Int.cast_natCast, map_mul, map_neg, Complex.conj_I, Complex.conj_ofReal, map_natCast]
      congr 3
      ring
  | zero => exact fun c => ⟨0, 0, 0, by simp, by simp, fun θ => by simp [ringData, laurent]⟩
  | add g g' _ _ ih ih' =>
    intro c
    obtain ⟨A, Q, R, h1, h2, h3⟩ := ih c
    obtain ⟨A', Q', R', h1', h2', h3'⟩ := ih' c
    refine ⟨A + A', Q + Q', R + R', natDegree_add_le_of_degree_le h1 h1', natDegree_add_le_of_degree_le h2 h2', fun θ => ?_⟩
    rw [ringData_add, ringData_add, (h3 θ).1, (h3 θ).2, (h3' θ).1, (h3' θ).2]
    simp [mul_add]
  | smul e g _ ih =>
    intro c
    obtain ⟨A, Q, R, h1, h2, h3⟩ := ih (c * e)
    exact ⟨A, Q, R, h1, h2, fun θ => by rw [(h3 θ).1, (h3 θ).2]; simp [mul_assoc]⟩

/-- harmonic functions with polynomial values on both circles -/
theorem ring_dirichlet (x0 y0 : ℝ) (ha : 0 < a) (hab : a < b) {u v : ℝ → ℝ → ℝ} {d : ℕ} (hu : PolyFn d u) (hv : PolyFn d v) :
    ∃ (A : ℝ) (Q R : ℂ[X]), Q.natDegree ≤ d ∧ R.natDegree ≤ d ∧ ∀ θ : ℝ,
      ringData A Q R x0 y0 (x0 + b * Real.cos θ) (y0 + b * Real.sin θ) = u (x0 + b * Real.cos θ) (y0 + b * Real.sin θ) ∧
      ringData A Q R x0 y0 (x0 + a * Real.cos θ) (y0 + a * Real.sin θ) = v (x0 + a * Real.cos θ) (y0 + a * Real.sin θ) := by
  have hb : 0 < b := ha.trans hab
  obtain ⟨A, Q, R, h1, h2, h3⟩ := ring_mode' x0 y0 hb ha hab.ne' (hu.trig x0 y0 b) 1
  obtain ⟨A', Q', R', h1', h2', h3'⟩ := ring_mode' x0 y0 ha hb hab.ne (hv.trig x0 y0 a) 1
  refine ⟨A + A', Q + Q', R + R', natDegree_add_le_of_degree_le h1 h1', natDegree_add_le_of_degree_le h2 h2', fun θ => ?_⟩
  rw [ringData_add, ringData_add, (h3 θ).1, (h3 θ).2, (h3' θ).1, (h3' θ).2]
  simp

theorem circle_angle {r x y : ℝ} (hr : 0 < r) (h : (x - x0) ^ 2 + (y - y0) ^ 2 = r ^ 2) : ∃ θ : ℝ, x = x0 + r * Real.cos θ ∧ y = y0 + r * Real.sin θ := by
  have hn : ‖(⟨x - x0, y - y0⟩ : ℂ)‖ = r := by
    rw [Complex.norm_def, Complex.normSq_mk, ← pow_two, ← pow_two, h, Real.sqrt_sq hr.le]
  have h1 := Complex.norm_mul_cos_arg ⟨x - x0, y - y0⟩
  have h2 := Complex.norm_mul_sin_arg ⟨x - x0, y - y0⟩
  rw [hn] at h1 h2
  exact ⟨_, by rw [h1]; simp, by rw [h2]; simp⟩

theorem ring_samples_congr {K : CellG} {N : ℕ} (h : K.IsAnnulus x0 y0 a b N) {u v : ℝ → ℝ → ℝ}
    (hb : ∀ x y, (x - x0) ^ 2 + (y - y0) ^ 2 = b ^ 2 → u x y = v x y) (ha : ∀ x y, (x - x0) ^ 2 + (y - y0) ^ 2 = a ^ 2 → u x y = v x y) :
    K.samplesOf u = K.samplesOf v := by
  refine List.map_congr_left fun s hs => ?_
  rw [h.cols, List.mem_append, List.mem_map, List.mem_map] at hs
  rcases hs with ⟨j, -, rfl⟩ | ⟨j, -, rfl⟩
  · refine hb _ _ ?_
    simp only [circleSample]
    linear_combination b ^ 2 * Real.sin_sq_add_cos_sq (2 * Real.pi * j / N)
  · refine ha _ _ ?_
    simp only [holeSample]
    linear_combination a ^ 2 * Real.sin_sq_add_cos_sq (2 * Real.pi * j / N)

theorem ring_open (x0 y0 a b : ℝ) : IsOpen (ring x0 y0 a b) := by
  have c : Continuous fun p : ℝ × ℝ => (p.1 - x0) ^ 2 + (p.2 - y0) ^ 2 := by fun_prop
  exact (isOpen_lt continuous_const c).inter (isOpen_lt c continuous_const)

theorem ring_subset (x0 y0 a b : ℝ) : ring x0 y0 a b ⊆ closedRing x0 y0 a b := fun _ h => ⟨h.1.le, h.2.le⟩

theorem closedRing_compact (x0 y0 a : ℝ) (hb : 0 < b) : IsCompact (closedRing x0 y0 a b) := by
  have c : Continuous fun p : ℝ × ℝ => (p.1 - x0) ^ 2 + (p.2 - y0) ^ 2 := by fun_prop
  refine (isCompact_Icc (a := (x0 - b, y0 - b)) (b := (x0 + b, y0 + b))).of_isClosed_subset
    ((isClosed_le continuous_const c).inter (isClosed_le c continuous_const)) fun p hp => ?_
  have h1 := abs_le_of_sq_le_sq' (show (p.1 - x0) ^ 2 ≤ b ^ 2 by nlinarith [hp.2, pow_two_nonneg (p.2 - y0)]) hb.le
  have h2 := abs_le_of_sq_le_sq' (show (p.2 - y0) ^ 2 ≤ b ^ 2 by nlinarith [hp.2, pow_two_nonneg (p.1 - x0)]) hb.le
  exact ⟨⟨by dsimp only; linarith [h1.1], by dsimp only; linarith [h2.1]⟩, ⟨by dsimp only; linarith [h1.2], by dsimp only; linarith [h2.2]⟩⟩

theorem ring_off (ha : 0 < a) {x y : ℝ} (h : (x, y) ∈ closedRing x0 y0 a b) : ¬(x = x0 ∧ y = y0) := by
  rintro ⟨rfl, rfl⟩
  have := h.1
  simp only [sub_self] at this
  nlinarith [pow_pos ha 2]

/-- C137: a Poisson problem on a ring has at most one solution -/
theorem C137_unique (hb : 0 < b) {f u v w w' : ℝ → ℝ → ℝ} (h : RingSolution x0 y0 a b f u v w) (h' : RingSolution x0 y0 a b f u v w') :
    ∀ x y, (x, y) ∈ closedRing x0 y0 a b → w x y = w' x y := by
  refine poisson_unique (ring_open x0 y0 a b) (closedRing_compact x0 y0 a hb) (ring_subset x0 y0 a b) h.laplacian h'.laplacian h.continuous h'.continuous
    fun x y hc hr => ?_
  by_cases e : (x - x0) ^ 2 + (y - y0) ^ 2 = b ^ 2
  · rw [h.outer x y e, h'.outer x y e]
  · have e' : (x - x0) ^ 2 + (y - y0) ^ 2 = a ^ 2 := by
      by_contra n
      exact hr ⟨lt_of_le_of_ne hc.1 (Ne.symm n), lt_of_le_of_ne hc.2 e⟩
    rw [h.inner x y e', h'.inner x y e']

theorem ring_gradient_formula (x0 y0 A : ℝ) (Q R : ℂ[X]) :
    RingGradient A Q R x0 y0 (fun x y => A * ((x - x0) / ((x - x0) ^ 2 + (y - y0) ^ 2)) + (laurentDeriv Q R x0 y0 x y).re)
      (fun x y => A * ((y - y0) / ((x - x0) ^ 2 + (y - y0) ^ 2)) + -(laurentDeriv Q R x0 y0 x y).im) := fun _ _ h => log_gradient A Q R h

/-- the solution for polynomial data -/
theorem ring_solution (x0 y0 : ℝ) (ha : 0 < a) (hab : a < b) {f p u v : ℝ → ℝ → ℝ} (hpf : HasLaplacian Set.univ p f) {d : ℕ} (hp : PolyFn d p)
    (hu : PolyFn d u) (hv : PolyFn d v) : ∃ (A : ℝ) (Q R : ℂ[X]), Q.natDegree ≤ d ∧ R.natDegree ≤ d ∧
      RingSolution x0 y0 a b f u v fun x y => p x y + ringData A Q R x0 y0 x y := by
  have hb : 0 < b := ha.trans hab
  obtain ⟨A, Q, R, hQ, hR, hbd⟩ := ring_dirichlet x0 y0 ha hab (hu.sub hp) (hv.sub hp)
  rw [max_self] at hQ hR
  refine ⟨A, Q, R, hQ, hR, ?_, ?_, fun x y h => ?_, fun x y h => ?_⟩
  · have h1 : HasLaplacian (ring x0 y0 a b) (ringData A Q R x0 y0) fun _ _ => 0 := by
      refine ⟨_, _, fun x y h => ⟨ring_gradient_formula x0 y0 A Q R x y (ring_off ha (ring_subset _ _ _ _ h)), ?_⟩⟩
      obtain ⟨l, h1, h2⟩ := ring_harmonic A Q R (ring_off ha (ring_subset _ _ _ _ h))
      exact ⟨l, -l, h1, h2, add_neg_cancel l⟩
    have h2 : HasLaplacian (ring x0 y0 a b) p f := by
      obtain ⟨u1, u2, h⟩ := hpf
      exact ⟨u1, u2, fun x y _ => h x y trivial⟩
    simpa using h2.add h1
  · refine hp.contDiff.continuous.continuousOn.add fun q hq => ContinuousAt.continuousWithinAt ?_
    exact (ringData_contDiff A Q R fun e => ring_off ha (x := q.1) (y := q.2) hq ⟨congrArg Prod.fst e, congrArg Prod.snd e⟩).continuousAt
  · obtain ⟨θ, rfl, rfl⟩ := circle_angle hb h
    rw [(hbd θ).1]
    ring
  · obtain ⟨θ, rfl, rfl⟩ := circle_angle ha h
    rw [(hbd θ).2]
    ring

theorem gradient_unique {S : Set (ℝ × ℝ)} (hS : IsOpen S) {w w' g1 g2 k1 k2 : ℝ → ℝ → ℝ} (h : ∀ x y, (x, y) ∈ S → w x y = w' x y)
    (hg : HasGradOn S w g1 g2) (hk : HasGradOn S w' k1 k2) {x y : ℝ} (hxy : (x, y) ∈ S) : g1 x y = k1 x y ∧ g2 x y = k2 x y := by
  have n1 : ∀ᶠ t in nhds x, (t, y) ∈ S := (Continuous.prodMk_left y).continuousAt.preimage_mem_nhds (hS.mem_nhds hxy)
  have n2 : ∀ᶠ t in nhds y, (x, t) ∈ S := (Continuous.prodMk_right x).continuousAt.preimage_mem_nhds (hS.mem_nhds hxy)
  exact ⟨((hg x y hxy).1.congr_of_eventuallyEq (n1.mono fun t ht => (h t y ht).symm)).unique (hk x y hxy).1,
    ((hg x y hxy).2.congr_of_eventuallyEq (n2.mono fun t ht => (h x t ht).symm)).unique (hk x y hxy).2⟩

theorem polyFn_of_degrees {q : Poly ℝ} {d : ℕ} (hq : ∀ m ∈ q, m.alpha.x + m.alpha.y ≤ d) : PolyFn d q.eval := PolyFn.ofPoly fun m hm => by
  have := hq m hm
  simp only [MultiIndex.order]
  omega

theorem alP_degree {f : Poly ℝ} {d : ℕ} (hf : ∀ m ∈ f, m.alpha.x + m.alpha.y + 2 ≤ d) : Poly.DegLe d (Poly.alP f) := by
  have h0 : Poly.DegLe ((d : ℤ) - 2) f := fun m hm => by
    have := hf m hm
    simp only [MultiIndex.order]
    omega
  exact Poly.deg_mono (by omega) (Poly.deg_alP h0)

/-- C137: the Poisson problem on a ring with polynomial right-hand side and boundary values has a solution -/
theorem C137_exists (x0 y0 : ℝ) (ha : 0 < a) (hab : a < b) {u v f p : Poly ℝ} (hpf : HasLaplacian Set.univ p.eval f.eval) :
    ∃ w, RingSolution x0 y0 a b f.eval u.eval v.eval w := by
  have deg : ∀ q : Poly ℝ, ∃ d : ℕ, PolyFn d q.eval := fun q => ⟨(Poly.toMv q).totalDegree, Poly.toMv q, le_rfl, Poly.eval_mv q⟩
  obtain ⟨d1, h1⟩ := deg p
  obtain ⟨d2, h2⟩ := deg u
  obtain ⟨d3, h3⟩ := deg v
  obtain ⟨A, Q, R, -, -, h⟩ := ring_solution x0 y0 ha hab hpf (d := d1 + d2 + d3) (h1.mono (by omega)) (h2.mono (by omega)) (h3.mono (by omega))
  exact ⟨_, h⟩

/-- C137: the Poisson problem on a ring with polynomial right-hand side `f` and polynomial boundary values, `u` on the outer and `v` on the inner circle.  Let the
anti-Laplacian of `f` be exact (see C09), and let `w` be the solution of the problem (see `C137_exists` and `C137_unique`).  For every distance `δ` there is a
constant `M` such that for every admissible number `2n` of samples on each circle the object is made and has exactly the given boundary values.  If interior values
are requested, these differ from those of `w` by at most `M (τ + (a/b)^2n + (1 - δ/b)^2n)` at all points at distance at least `δ` from the two circles, and the
partial derivatives by at most `M (τ + (a/b)^2n + n (1 - δ/b)^2n)`.  Here `τ` bounds the residuals of the linear solver for right-hand sides with entries up to
`M`.  With `u = v = 0` these are the bubble functions of local finite element spaces. -/
theorem C137_interior (x0 y0 : ℝ) (ha : 1 / 10 ^ 14 ≤ a) (hab : a < b) {u v f p : Poly ℝ} (hp : f.antiLaplacian = .ok p)
    (hpf : HasLaplacian Set.univ p.eval f.eval) {d : ℕ} (hdu : ∀ m ∈ u, m.alpha.x + m.alpha.y ≤ d) (hdv : ∀ m ∈ v, m.alpha.x + m.alpha.y ≤ d)
    (hdf : ∀ m ∈ f, m.alpha.x + m.alpha.y + 2 ≤ d) {w g1 g2 : ℝ → ℝ → ℝ} (hw : RingSolution x0 y0 a b f.eval u.eval v.eval w)
    (hg : HasGradOn (ring x0 y0 a b) w g1 g2) {δ : ℝ} (hδ : 0 < δ) :
    ∃ M : ℝ, ∀ (gmres : Gmres) (tol : List ℝ → ℝ) (τ : ℝ) (K : CellG) (n : ℕ) (strategy pc : String) (s : Nystrom.Solver) (tr : LocPoisson.TraceOr),
      ResidualWithin gmres tol → Finds gmres → 0 ≤ τ → (∀ rhs, (∀ t ∈ rhs, |t| ≤ M) → tol rhs ≤ τ) →
      K.IsAnnulus x0 y0 a b (2 * n) → 4 ≤ n → n ≤ 2 * 10 ^ 7 → 4 * ringConst a b * (a / b) ^ (2 * n) ≤ 1 → d < n →
      init gmres K strategy pc = .ok s → tr.Gives K (K.samplesOf w) → (∀ y ∈ K.interior, y ∈ ring x0 y0 a b) → ∀ ei eg, ∃ F,
      LocPoisson.init gmres (some s) f tr ei eg = .ok F ∧ F.traceValues = .ok (K.samplesOf w) ∧
      ((ei || eg) = true → ∃ U : ℝ × ℝ → ℝ, F.intVals = some (K.interior.map U) ∧ ∀ y ∈ K.interior, a + δ ≤ radius x0 y0 y → radius x0 y0 y ≤ b - δ →
        |U y - w y.1 y.2| ≤ M * (τ + (a / b) ^ (2 * n) + (1 - δ / b) ^ (2 * n))) ∧
      (eg = true → ∃ V1 V2 : ℝ × ℝ → ℝ, F.intGrad1 = some (K.interior.map V1) ∧ F.intGrad2 = some (K.interior.map V2) ∧ ∀ y ∈ K.interior,
        a + δ ≤ radius x0 y0 y → radius x0 y0 y ≤ b - δ →
          |V1 y - g1 y.1 y.2| ≤ M * (τ + (a / b) ^ (2 * n) + n * (1 - δ / b) ^ (2 * n)) ∧
          |V2 y - g2 y.1 y.2| ≤ M * (τ + (a / b) ^ (2 * n) + n * (1 - δ / b) ^ (2 * n))) := by
  have hp0 := hp
  rw [Poly.antiLaplacian_ok] at hp
  cases hp
  have ha0 : 0 < a := lt_of_lt_of_le (by positivity) ha
  have hb0 : 0 < b := ha0.trans hab
  obtain ⟨A, Q, R, hQ, hR, hsol⟩ := ring_solution x0 y0 ha0 hab hpf (PolyFn.ofPoly (alP_degree hdf)) (polyFn_of_degrees hdu) (polyFn_of_degrees hdv)
  have hu := C137_unique hb0 hw hsol
  have hpg : HasGradOn Set.univ (Poly.alP f).eval (Poly.nz ((Poly.alP f).map Mono.dx)).eval (Poly.nz ((Poly.alP f).map Mono.dy)).eval := fun x y _ =>
    ⟨Poly.hasDerivAt_dx (Poly.alP_canonical f).2 x y, Poly.hasDerivAt_dy (Poly.alP_canonical f).2 x y⟩
  have hgr := ring_gradient_formula x0 y0 A Q R
  have hgu := fun (x y : ℝ) (h : (x, y) ∈ ring x0 y0 a b) => gradient_unique (ring_open x0 y0 a b) (fun x y h => hu x y (ring_subset _ _ _ _ h)) hg
    (fun x y h => ⟨(hpg x y trivial).1.fun_add (hgr x y (ring_off ha0 (ring_subset _ _ _ _ h))).1,
      (hpg x y trivial).2.fun_add (hgr x y (ring_off ha0 (ring_subset _ _ _ _ h))).2⟩) h
  obtain ⟨M, hM0, hM⟩ := ring_errors ha0 hab Q R d hδ
  have hA : 0 ≤ 2 * Real.pi * |A| * Real.log (b / a) := by
    have := Real.log_pos ((one_lt_div ha0).2 hab)
    positivity
  refine ⟨M + 2 * Real.pi * |A| * Real.log (b / a), fun gmres tol τ K n strategy pc s tr hg' hf hτ htol h h4 hn hs hdn hi hv hin ei eg => ?_⟩
  have hB : K.samplesOf w = K.samplesOf fun x y => (Poly.alP f).eval x y + ringData A Q R x0 y0 x y :=
    ring_samples_congr h (fun x y e => (hw.outer x y e).trans (hsol.outer x y e).symm) fun x y e => (hw.inner x y e).trans (hsol.inner x y e).symm
  rw [hB] at hv ⊢
  obtain ⟨rhs, F, r1, r2, h1, h2, h3, h5⟩ := C133_interior hg' hf h ha hab h4 hn hs hi hdn hQ hR hp0 hv hin hpg hgr ei eg
  have hrhs : tol rhs ≤ τ := htol rhs fun t ht =>
    (r2 t ht).trans (add_le_add (hM n 0 0 (by omega) hdn le_rfl le_rfl).2.2 le_rfl)
  obtain ⟨e1, e2, -⟩ := hM n _ τ (by omega) hdn hrhs hτ
  have hX : 0 ≤ (a / b) ^ (2 * n) := by positivity
  have hY : 0 ≤ (1 - δ / b) ^ (2 * n) := by rw [pow_mul]; positivity
  have le : ∀ {t : ℝ}, 0 ≤ t → M * t ≤ (M + 2 * Real.pi * |A| * Real.log (b / a)) * t := fun ht => mul_le_mul_of_nonneg_right (by linarith) ht
  refine ⟨F, h1, h2, fun hei => ?_, fun heg => ?_⟩
  · obtain ⟨U, hU, hUe⟩ := h3 hei
    refine ⟨U, hU, fun y hy y1 y2 => ?_⟩
    rw [hu y.1 y.2 (ring_subset _ _ _ _ (hin y hy))]
    exact ((hUe δ hδ y hy y1 y2).trans e1).trans (le (by positivity))
  · obtain ⟨V1, V2, hV1, hV2, hVe⟩ := h5 heg
    refine ⟨V1, V2, hV1, hV2, fun y hy y1 y2 => ?_⟩
    obtain ⟨k1, k2⟩ := hVe δ hδ y hy y1 y2
    rw [(hgu y.1 y.2 (hin y hy)).1, (hgu y.1 y.2 (hin y hy)).2]
    exact ⟨(k1.trans e2).trans (le (by positivity)), (k2.trans e2).trans (le (by positivity))⟩

/-! ### the hypotheses can be met: the bubble function with `Δw = 1` and `w = 0` on both circles of the ring between the circles of radius 1 and 2 about `(2, 3)`,
64 samples on each, at `(7/2, 3)` -/

example : ∃ w g1 g2 : ℝ → ℝ → ℝ, RingSolution 2 3 1 2 (fun _ _ => 1) (fun _ _ => 0) (fun _ _ => 0) w ∧ HasGradOn (ring 2 3 1 2) w g1 g2 ∧
    ∃ q inside K s F U V1 V2 M, getQuadDict 32 2 = .ok q ∧ ringOfCircles.parameterize inside 8 q = some (.ok K) ∧
    init someGmres { K with interior := [(7 / 2, 3)] } "direct" "jacobi" = .ok s ∧
    LocPoisson.init someGmres (some s) onePoly (.value (.arr (K.samplesOf fun _ _ => 0))) true true = .ok F ∧
    F.intVals = some [U] ∧ F.intGrad1 = some [V1] ∧ F.intGrad2 = some [V2] ∧ |U - w (7 / 2) 3| ≤ M * ((1 / 2) ^ 64 + (3 / 4) ^ 64) ∧
    |V1 - g1 (7 / 2) 3| ≤ M * ((1 / 2) ^ 64 + 32 * (3 / 4) ^ 64) ∧ |V2 - g2 (7 / 2) 3| ≤ M * ((1 / 2) ^ 64 + 32 * (3 / 4) ^ 64) := by
  classical
  have hx := one_problem (u := halfX2) ⟨_, _, fun x y _ => ⟨halfX2_grad x y trivial, 1, 0, hasDerivAt_id x, hasDerivAt_const y _, by simp [one_eval]⟩⟩
  have z0 : Poly.eval ([] : Poly ℝ) = fun _ _ => 0 := by
    funext x y
    simp [Poly.eval]
  obtain ⟨w, hw⟩ := C137_exists 2 3 (a := 1) (b := 2) one_pos (by norm_num) (u := []) (v := []) hx.antiExact
  obtain ⟨g1, g2, hL⟩ := hw.laplacian
  have hG : HasGradOn (ring 2 3 1 2) w g1 g2 := fun x y h => (hL x y h).1
  obtain ⟨M, hM⟩ := C137_interior 2 3 (a := 1) (b := 2) (by norm_num) (by norm_num) hx.anti hx.antiExact (d := 2)
    (by simp) (by simp) (by simp [onePoly]) hw hG (δ := 1 / 2) (by norm_num)
  rw [one_eval, z0] at hw
  refine ⟨w, g1, g2, hw, hG, ?_⟩
  obtain ⟨q, hd⟩ := (C21_dict 32 2).1.2 ⟨by norm_num, le_rfl⟩
  obtain ⟨K, hK, h0⟩ := C114_annulus hd (inside := fun _ q => decide ((q.1 - 2) ^ 2 + (q.2 - 3) ^ 2 < 1)) (fuel := 8) (by norm_num)
    (K := ringOfCircles) (e := circleAt 2) (f := circleAt 1) (v := Vert.mk' 2 3) (a := 1) (b := 2) rfl rfl rfl rfl rfl rfl rfl rfl rfl
    (by norm_num) (by norm_num) rfl rfl rfl rfl rfl rfl (by intro poly; simp [Vert.mk'])
  set K1 : CellG := { K with interior := [(7 / 2, 3)] } with hK1
  have h : K1.IsAnnulus 2 3 1 2 (2 * 32) := ⟨⟨h0.ready.ready, h0.ready.numPts, h0.ready.startIdx⟩, h0.circles, h0.vertices⟩
  have hc : ringConst 1 2 = 241 / 3 := by norm_num [ringConst]
  obtain ⟨s, hs, -⟩ := C70_init someGmres h.ready (h.even rfl (by norm_num) (by norm_num)) h.edges_ne (h.holes one_pos two_pos)
    (h.apart one_pos (by norm_num)) (h.simple one_pos (by norm_num))
  have hres : ResidualWithin someGmres fun _ => 0 := by
    intro A b M x hx
    have := someGmres_exact A b M x hx
    exact ⟨b, this, List.forall₂_same.2 fun u _ => by simp⟩
  have gx : (LocPoisson.TraceOr.value (.arr (K1.samplesOf fun _ _ => 0))).Gives K1 (K1.samplesOf w) :=
    ⟨by rw [ring_samples_congr h (v := fun _ _ => 0) hw.outer hw.inner], by simp [CellG.samplesOf, h.ready.numPts]⟩
  have hin : ∀ y ∈ K1.interior, y ∈ ring 2 3 1 2 := by
    intro y hy
    simp only [hK1, List.mem_singleton] at hy
    subst hy
    constructor <;> norm_num
  obtain ⟨F, h1, -, h2, h3⟩ := hM someGmres _ 0 K1 32 _ _ s _ hres someGmres_finds le_rfl (fun _ _ => le_rfl) h (by norm_num) (by norm_num)
    (by rw [hc]; norm_num) (by norm_num) hs gx hin true true
  obtain ⟨U, hU, hUe⟩ := h2 rfl
  obtain ⟨V1, V2, hV1, hV2, hVe⟩ := h3 rfl
  have hr : radius 2 3 (7 / 2, 3) = 3 / 2 := by
    rw [radius, show ((7 / 2 : ℝ) - 2) ^ 2 + ((3 : ℝ) - 3) ^ 2 = (3 / 2) ^ 2 by norm_num, Real.sqrt_sq (by norm_num)]
  have e1 := hUe (7 / 2, 3) (by simp [hK1]) (by rw [hr]; norm_num) (by rw [hr]; norm_num)
  obtain ⟨e2, e3⟩ := hVe (7 / 2, 3) (by simp [hK1]) (by rw [hr]; norm_num) (by rw [hr]; norm_num)
  have r1 : (1 : ℝ) - 1 / 2 / 2 = 3 / 4 := by norm_num
  have n1 : ((32 : ℕ) : ℝ) = 32 := by norm_num
  rw [r1, zero_add] at e1 e2 e3
  rw [n1] at e2 e3
  exact ⟨q, _, K, s, F, U (7 / 2, 3), V1 (7 / 2, 3), V2 (7 / 2, 3), M, hd, hK, hs, h1, hU, hV1, hV2, e1, e2, e3⟩

end PFEM
