import Verif.Props.EdgeGeom
import Verif.Props.Parameterize
import Verif.Lemmas.Motion

/-!
Property theorems C124, second part: edges between turned and shifted vertices have turned and shifted samples.
-/

namespace PFEM
open EdgeG

theorem rot_curv (θ : ℝ) : ¬ (|(Mat2.rot θ).b - (Mat2.rot θ).c| < TOL ∧ |(Mat2.rot θ).a + (Mat2.rot θ).d| < TOL) := by
  intro ⟨h1, h2⟩
  simp only [Mat2.rot] at h1 h2
  have h3 := Real.sin_sq_add_cos_sq (θ * Real.pi / 180)
  generalize Real.sin (θ * Real.pi / 180) = s at *
  generalize Real.cos (θ * Real.pi / 180) = c at *
  unfold TOL at h1 h2
  rw [abs_lt] at h1 h2
  have h4 : |s| < 1 / 2 := abs_lt.2 ⟨by norm_num at h1 ⊢; linarith, by norm_num at h1 ⊢; linarith⟩
  have h5 : |c| < 1 / 2 := abs_lt.2 ⟨by norm_num at h2 ⊢; linarith, by norm_num at h2 ⊢; linarith⟩
  have h6 := sq_lt_sq.2 (h4.trans_le (le_abs_self _))
  have h7 := sq_lt_sq.2 (h5.trans_le (le_abs_self _))
  norm_num at h6 h7
  linarith

/-- the angle and the scale of `join_points`, as a complex factor -/
theorem join_factor {p q : ℂ} (hp : p ≠ 0) (hq : q ≠ 0) :
    p / q = ⟨‖p‖ / ‖q‖ * Real.cos (-Complex.arg q + Complex.arg p), ‖p‖ / ‖q‖ * Real.sin (-Complex.arg q + Complex.arg p)⟩ := by
  have hn : ∀ z : ℂ, ‖z‖ = Real.sqrt (z.re ^ 2 + z.im ^ 2) := by
    intro z; rw [Complex.norm_def, Complex.normSq_apply, pow_two, pow_two]
  have hpos : ∀ z : ℂ, z ≠ 0 → 0 < z.re ^ 2 + z.im ^ 2 := by
    intro z hz
    have := norm_pos_iff.2 hz
    rw [hn] at this
    exact Real.sqrt_pos.1 this
  obtain ⟨t1, t2⟩ := turn _ _ _ _ (hpos p hp) (hpos q hq)
  rw [← hn, ← hn] at t1 t2
  have e1 : (⟨p.re, p.im⟩ : ℂ) = p := rfl
  have e2 : (⟨q.re, q.im⟩ : ℂ) = q := rfl
  rw [e1, e2] at t1 t2
  have c1 := norm_pos_iff.2 hp
  have c2 := norm_pos_iff.2 hq
  have c3 : ‖q‖ ^ 2 = q.re ^ 2 + q.im ^ 2 := by rw [hn, Real.sq_sqrt (hpos q hq).le]
  have c4 := (hpos q hq).ne'
  rw [t1, t2, div_eq_iff hq]
  apply Complex.ext
  · simp only [Complex.mul_re]
    generalize hD : q.re ^ 2 + q.im ^ 2 = D at *
    field_simp
    rw [← hD]
    ring
  · simp only [Complex.mul_im]
    generalize hD : q.re ^ 2 + q.im ^ 2 = D at *
    field_simp
    rw [← hD]
    ring

theorem joinSample_move (m : Motion) (a b : Vert) (s0 s1 s : Sample) (hab : b.z - a.z ≠ 0) (h01 : s1.z - s0.z ≠ 0) :
    joinSample (m.vert a) s0 ((-Complex.arg (s1.z - s0.z) + Complex.arg ((m.vert b).z - (m.vert a).z)) * (180 / Real.pi))
        (‖(m.vert b).z - (m.vert a).z‖ / ‖s1.z - s0.z‖) s =
      m.sample (joinSample a s0 ((-Complex.arg (s1.z - s0.z) + Complex.arg (b.z - a.z)) * (180 / Real.pi))
        (‖b.z - a.z‖ / ‖s1.z - s0.z‖) s) := by
  have hr := m.pos
  have hrot : (⟨m.c, m.s⟩ : ℂ) ≠ 0 := by
    intro h
    have h1 := congrArg Complex.re h
    have h2 := congrArg Complex.im h
    have h3 := m.rot
    simp only [Complex.zero_re, Complex.zero_im] at h1 h2
    rw [h1, h2] at h3
    norm_num at h3
  have hz : (m.vert b).z - (m.vert a).z = m.r * ⟨m.c, m.s⟩ * (b.z - a.z) := by
    apply Complex.ext <;> simp [Vert.z, Motion.vert] <;> ring
  have hn1 : ‖(⟨m.c, m.s⟩ : ℂ)‖ = 1 := by
    rw [Complex.norm_def, Complex.normSq_apply]
    simp only
    rw [← pow_two, ← pow_two, m.rot, Real.sqrt_one]
  have hnorm : ‖(m.vert b).z - (m.vert a).z‖ = m.r * ‖b.z - a.z‖ := by
    rw [hz, norm_mul, norm_mul, hn1, mul_one, Complex.norm_real, Real.norm_of_nonneg hr.le]
  have hab' : (m.vert b).z - (m.vert a).z ≠ 0 := by
    rw [hz]
    exact mul_ne_zero (mul_ne_zero (by exact_mod_cast hr.ne') hrot) hab
  have f1 := join_factor hab h01
  have f2 := join_factor hab' h01
  rw [hnorm] at f2 ⊢
  rw [hz, mul_div_assoc, f1] at f2
  rw [← hz] at f2
  have hpi := Real.pi_pos.ne'
  have hang : ∀ th : ℝ, th * (180 / Real.pi) * Real.pi / 180 = th := fun th => by field_simp
  have c1 := norm_pos_iff.2 hab
  have c2 := norm_pos_iff.2 h01
  have hre := congrArg Complex.re f2
  have him := congrArg Complex.im f2
  have hcv := rot_curv ((-Complex.arg (s1.z - s0.z) + Complex.arg (b.z - a.z)) * (180 / Real.pi))
  have hcv' := rot_curv ((-Complex.arg (s1.z - s0.z) + Complex.arg ((m.vert b).z - (m.vert a).z)) * (180 / Real.pi))
  simp only [joinSample, orthSample, if_neg hcv, if_neg hcv']
  simp only [Mat2.rot, hang]
  generalize -Complex.arg (s1.z - s0.z) + Complex.arg ((m.vert b).z - (m.vert a).z) = th' at *
  generalize -Complex.arg (s1.z - s0.z) + Complex.arg (b.z - a.z) = th at *
  generalize ‖s1.z - s0.z‖ = q at *
  generalize ‖b.z - a.z‖ = p at *
  simp only [Complex.mul_re, Complex.mul_im, Complex.ofReal_re, Complex.ofReal_im, zero_mul, sub_zero, add_zero] at hre him
  have hC : Real.cos th' = m.c * Real.cos th - m.s * Real.sin th := by
    have hne : m.r * p / q ≠ 0 := by positivity
    apply mul_left_cancel₀ hne
    rw [← hre]
    ring
  have hS : Real.sin th' = m.s * Real.cos th + m.c * Real.sin th := by
    have hne : m.r * p / q ≠ 0 := by positivity
    apply mul_left_cancel₀ hne
    rw [← him]
    ring
  have hpq : 0 < p / q := by positivity
  have hpq' : 0 < m.r * p / q := by positivity
  rw [abs_of_pos hpq, abs_of_pos hpq', hC, hS]
  simp only [Motion.sample, Motion.vert]
  congr 1
  · ring
  · ring
  · ring
  · ring
  · ring
  · ring
  · ring
  · field_simp

/-- the vertices of the image of an edge are equal for the code if and only if those of the edge are -/
theorem beq_move {m : Motion} (hr : m.r = 1) (a b : Vert) : (m.vert a).beq (m.vert b) = a.beq b := by
  have h : (Vert.mk' ((m.vert a).x - (m.vert b).x) ((m.vert a).y - (m.vert b).y)).norm = (Vert.mk' (a.x - b.x) (a.y - b.y)).norm := by
    unfold Vert.norm
    congr 1
    simp only [Vert.mk', Motion.vert, hr, one_mul]
    linear_combination ((a.x - b.x) ^ 2 + (a.y - b.y) ^ 2) * m.rot
  simp only [Vert.beq, Vert.sub, h]

theorem Motion.s_zero {m : Motion} (hc : m.c = 1) : m.s = 0 := by
  have h := m.rot
  rw [hc] at h
  have : m.s ^ 2 = 0 := by linarith
  exact pow_eq_zero_iff (two_ne_zero) |>.1 this

/-- one edge -/
theorem edge_move {m : Motion} (hr : m.r = 1) {e e' e1 : EdgeG} (h : e.MadeAt m e') {d : Quad × Quad}
    (hp : e.parameterize d = .ok e1) : ∃ e1', e'.parameterize d = .ok e1' ∧ e1.MovedBy m e1' := by
  obtain ⟨a, b, curve, opts, qt, tb, pos, neg, pos', neg', hi, hi', hloop⟩ := h
  unfold EdgeG.init at hi hi'
  split at hi
  · cases hi
  rename_i htb
  rw [if_neg htb] at hi'
  cases hi
  cases hi'
  simp only [setVerts, beq_move hr] at hp ⊢
  unfold parameterize at hp ⊢
  obtain ⟨q, hq, hp⟩ := bind_ok hp
  obtain ⟨l, hl, hp⟩ := bind_ok hp
  obtain ⟨e2, h2, hp⟩ := bind_ok hp
  cases hp
  simp only at hq hl h2
  simp only [hq, py_ok_bind, hl]
  cases hab : a.beq b with
  | true =>
    have hc := hloop hab
    have hs := Motion.s_zero hc
    simp only [hab, if_true, runDiary, EdgeG.apply, py_ok_bind] at h2 ⊢
    cases h2
    refine ⟨_, rfl, ⟨rfl, ?_⟩⟩
    simp only [translate, mapPts, note, Bool.false_eq_true, if_false, Option.map_some, List.map_map]
    congr 1
    refine List.map_congr_left fun s _ => ?_
    simp only [Function.comp, Motion.sample, Motion.vert, hr, hc, hs]
    congr 1 <;> ring
  | false =>
    simp only [hab, Bool.false_eq_true, if_false, runDiary, EdgeG.apply] at h2 ⊢
    obtain ⟨e3, h3, h2⟩ := bind_ok h2
    cases h2
    have hne : ∃ s0 rest, l = s0 :: rest := by
      cases l with
      | nil =>
        unfold joinPoints at h3
        simp only [note, Bool.false_eq_true, if_false] at h3
        split at h3 <;> cases h3
      | cons s r => exact ⟨s, r, rfl⟩
    obtain ⟨s0, rest, rfl⟩ := hne
    obtain ⟨s1, hs1⟩ : ∃ s1, (s0 :: rest).getLast? = some s1 := ⟨_, List.getLast?_eq_some_getLast (by simp)⟩
    obtain ⟨k1, k2⟩ := joinPoints_eq (e := ⟨a, b, curve, opts, qt, tb, false, [.joinPoints a b], some (s0 :: rest), pos, neg⟩) rfl hs1
      a b false
    obtain ⟨-, k2'⟩ := joinPoints_eq (e := ⟨m.vert a, m.vert b, curve, opts, qt, tb, false, [.joinPoints (m.vert a) (m.vert b)],
      some (s0 :: rest), pos', neg'⟩) rfl hs1 (m.vert a) (m.vert b) false
    have hc : ¬ (‖b.z - a.z‖ < TOL ∨ ‖s1.z - s0.z‖ < TOL ∨ ‖b.z - a.z‖ / ‖s1.z - s0.z‖ < TOL) := by
      intro hc
      rw [k1 hc] at h3
      cases h3
    have c1 : 0 < ‖b.z - a.z‖ := TOL_pos.trans_le (not_lt.1 fun h => hc (.inl h))
    have c2 : 0 < ‖s1.z - s0.z‖ := TOL_pos.trans_le (not_lt.1 fun h => hc (.inr (.inl h)))
    have hnorm : ‖(m.vert b).z - (m.vert a).z‖ = ‖b.z - a.z‖ := by
      have hn : ∀ z : ℂ, ‖z‖ = Real.sqrt (z.re ^ 2 + z.im ^ 2) := by
        intro z; rw [Complex.norm_def, Complex.normSq_apply, pow_two, pow_two]
      rw [hn, hn]
      congr 1
      simp only [Vert.z, Motion.vert, Complex.sub_re, Complex.sub_im, hr, one_mul]
      linear_combination ((b.x - a.x) ^ 2 + (b.y - a.y) ^ 2) * m.rot
    obtain ⟨e4, h4, -, -, h5⟩ := k2 hc
    rw [h4] at h3
    cases h3
    obtain ⟨e4', h4', -, -, h5'⟩ := k2' (by rw [hnorm]; exact hc)
    rw [h4']
    refine ⟨_, rfl, ⟨rfl, ?_⟩⟩
    simp only
    rw [h5, h5']
    simp only [Option.map_some, List.map_map]
    congr 1
    refine List.map_congr_left fun s _ => ?_
    exact joinSample_move m a b s0 s1 s (norm_pos_iff.1 c1) (norm_pos_iff.1 c2)

theorem reverse_move {m : Motion} {e e' : EdgeG} (h : e.MovedBy m e') : e.reverse.MovedBy m e'.reverse := by
  refine ⟨h.quadType, ?_⟩
  simp only [EdgeG.reverse, h.pts, Option.map_map]
  cases e.pts with
  | none => rfl
  | some l =>
    simp only [Option.map_some, Function.comp, List.map_reverse, List.map_map]
    congr 2
    refine List.map_congr_left fun s _ => ?_
    simp only [Function.comp, Motion.sample]
    congr 1 <;> ring

theorem sampleEdges_move {m : Motion} (hr : m.r = 1) {d : Quad × Quad} {es es' : List EdgeG} (h : List.Forall₂ (EdgeG.MadeAt m) es es') :
    ∀ {os : List ℤ} {r : List EdgeG}, es.length = os.length → ContourG.sampleEdges d es os = .ok r →
      ∃ r', ContourG.sampleEdges d es' os = .ok r' ∧ List.Forall₂ (EdgeG.MovedBy m) r r' := by
  induction h with
  | nil =>
    intro os r ho h
    cases os with
    | nil => cases h; exact ⟨[], rfl, .nil⟩
    | cons => simp at ho
  | @cons e e' es es' he hes ih =>
    intro os r ho h
    cases os with
    | nil => simp at ho
    | cons o os =>
      obtain ⟨e1, h1, h⟩ := bind_ok h
      obtain ⟨r1, h2, h⟩ := bind_ok h
      cases h
      obtain ⟨e1', g1, g2⟩ := edge_move hr he h1
      obtain ⟨r1', g3, g4⟩ := ih (by simpa using ho) h2
      refine ⟨(if o = -1 then e1'.reverse else e1') :: r1', by simp only [ContourG.sampleEdges, g1, g3, py_ok_bind], .cons ?_ g4⟩
      split
      · exact reverse_move g2
      · exact g2

theorem closestLoop_move {m : Motion} {es es' : List EdgeG} (h : List.Forall₂ (EdgeG.MovedBy m) es es') (vertIdx : List ℕ) (numPts : ℕ) :
    ∀ (i : ℕ) (acc : List ℕ), ContourG.closestLoop vertIdx numPts i acc es' = ContourG.closestLoop vertIdx numPts i acc es := by
  induction h with
  | nil => intros; rfl
  | cons he _ ih => intro i acc; simp only [ContourG.closestLoop, he.npts, ih]

theorem vertIdxLoop_move {m : Motion} {es es' : List EdgeG} (h : List.Forall₂ (EdgeG.MovedBy m) es es') :
    ∀ i, ContourG.vertIdxLoop i es' = ContourG.vertIdxLoop i es := by
  induction h with
  | nil => intros; rfl
  | cons he _ ih => intro i; simp only [ContourG.vertIdxLoop, he.npts, ih]

theorem numPts_move {m : Motion} {es es' : List EdgeG} (h : List.Forall₂ (EdgeG.MovedBy m) es es') :
    ∀ i : ℕ, es'.foldl (fun n e => n + (ContourG.npts e - 1)) i = es.foldl (fun n e => n + (ContourG.npts e - 1)) i := by
  induction h with
  | nil => intros; rfl
  | cons he _ ih => intro i; simp only [List.foldl_cons, he.npts, ih]

/-- a sampled contour, its interior point and its table of closest vertices -/
structure ContourAlong (m : Motion) (c c' : ContourG) : Prop where
  moved : c.MovedBy m c'
  interior : c'.interior = c.interior.map m.vert
  closest : c'.closest = c.closest

/-- one contour, without the search for an interior point -/
theorem contour_move {m : Motion} (hr : m.r = 1) {c c' c1 : ContourG} (h : c.MadeAt m c') {d : Quad × Quad}
    (hp : c.parameterize d = .ok c1) : ∃ c1', c'.parameterize d = .ok c1' ∧ ContourAlong m c1 c1' := by
  unfold ContourG.parameterize at hp ⊢
  obtain ⟨es, h1, hp⟩ := bind_ok hp
  obtain ⟨es', g1, g2⟩ := sampleEdges_move hr h.edges h.count h1
  simp only [h.orients, g1, py_ok_bind]
  have hall : (es'.all fun e => e.pts.isSome) = es.all fun e => e.pts.isSome := all_rel g2 fun _ _ he => he.isSome
  simp only [ContourG.findNumPts, ContourG.findLocalVertIdx, ContourG.findClosest, ContourG.guard, ContourG.isParameterized, hall,
    numPts_move g2] at hp ⊢
  by_cases ha : (es.all fun e => e.pts.isSome) = true
  · simp only [ha, hall, if_true, py_ok_bind, vertIdxLoop_move g2, closestLoop_move g2] at hp ⊢
    obtain ⟨l, h2, hp⟩ := bind_ok hp
    cases hp
    simp only [h2, py_ok_bind]
    exact ⟨_, rfl, ⟨⟨g2, rfl, rfl⟩, h.interior, rfl⟩⟩
  · rw [Bool.not_eq_true] at ha
    simp only [ha, Bool.false_eq_true, if_false] at hp
    cases hp

/-! ### the search for an interior point -/

theorem fold1_shift {f : ℝ → ℝ → ℝ} {b : ℝ} (hf : ∀ x y, f (x + b) (y + b) = f x y + b) (l : List ℝ) :
    Np.fold1 f (l.map (· + b)) = (Np.fold1 f l).map (· + b) := by
  cases l with
  | nil => rfl
  | cons x l =>
    simp only [List.map_cons, Np.fold1, Except.map]
    congr 1
    induction l generalizing x with
    | nil => rfl
    | cons y l ih => simp only [List.map_cons, List.foldl_cons, hf, ih]

theorem box_shift (xs ys : List ℝ) (u v : ℝ) :
    getBoundingBox (xs.map (· + u)) (ys.map (· + v)) =
      (getBoundingBox xs ys).map fun b => (b.1 + u, b.2.1 + u, b.2.2.1 + v, b.2.2.2 + v) := by
  have e1 : ∀ (l : List ℝ) (b : ℝ), Np.min (l.map (· + b)) = (Np.min l).map (· + b) := fun l b =>
    fold1_shift (fun x y => min_add_add_right x y b) l
  have e2 : ∀ (l : List ℝ) (b : ℝ), Np.max (l.map (· + b)) = (Np.max l).map (· + b) := fun l b =>
    fold1_shift (fun x y => max_add_add_right x y b) l
  unfold getBoundingBox
  rw [e1, e1, e2, e2]
  rcases Np.min xs with _ | x0
  · rfl
  rcases Np.max xs with _ | x1
  · rfl
  rcases Np.min ys with _ | y0
  · rfl
  rcases Np.max ys with _ | y1
  · rfl
  simp only [Except.map, py_ok_bind, add_sub_add_right_eq_sub]
  split_ifs <;> first | rfl | (congr 1; refine Prod.ext ?_ (Prod.ext ?_ (Prod.ext ?_ ?_)) <;> ring)

theorem grid_shift (box : ℝ × ℝ × ℝ × ℝ) (u v : ℝ) (m k : ℕ) :
    ContourG.gridPt (box.1 + u, box.2.1 + u, box.2.2.1 + v, box.2.2.2 + v) m k =
      ((ContourG.gridPt box m k).1 + u, (ContourG.gridPt box m k).2 + v) := by
  simp only [ContourG.gridPt, Np.linspace, add_sub_add_right_eq_sub]
  congr 1 <;> ring

theorem mapPy_map {α β γ : Type} (f : β → Py γ) (g : α → β) (l : List α) :
    ContourG.mapPy f (l.map g) = ContourG.mapPy (fun a => f (g a)) l := by
  induction l with
  | nil => rfl
  | cons a l ih => simp only [List.map_cons, ContourG.mapPy, ih]

section shift
variable {m : Motion} (hr : m.r = 1) (hc : m.c = 1)
include hr hc

theorem sample_x (s : Sample) : (m.sample s).x = s.x + m.b1 := by
  simp only [Motion.sample, hr, hc, Motion.s_zero hc]; ring

theorem sample_y (s : Sample) : (m.sample s).y = s.y + m.b2 := by
  simp only [Motion.sample, hr, hc, Motion.s_zero hc]; ring

theorem point_eq (p : ℝ × ℝ) : m.point p = (p.1 + m.b1, p.2 + m.b2) := by
  simp only [Motion.point, hr, hc, Motion.s_zero hc]
  congr 1 <;> ring

theorem vert_eq (x y : ℝ) : Vert.mk' (x + m.b1) (y + m.b2) = m.vert (Vert.mk' x y) := by
  simp only [Vert.mk', Motion.vert, hr, hc, Motion.s_zero hc]
  congr 1 <;> ring

theorem distLoop_shift {es es' : List EdgeG} (h : List.Forall₂ (EdgeG.MovedBy m) es es') (x y : ℝ) :
    ∀ d, ContourG.distLoop (x + m.b1) (y + m.b2) d es' = ContourG.distLoop x y d es := by
  induction h with
  | nil => intros; rfl
  | @cons e e' es es' he _ ih =>
    intro d
    simp only [ContourG.distLoop, he.sampled, ih]
    cases e.sampled with
    | error x => rfl
    | ok l =>
      simp only [Except.map, py_ok_bind, List.map_map]
      have : ((fun s : Sample => (s.x - (x + m.b1)) ^ 2 + (s.y - (y + m.b2)) ^ 2) ∘ m.sample) =
          fun s => (s.x - x) ^ 2 + (s.y - y) ^ 2 := by
        funext s
        simp only [Function.comp, sample_x hr hc, sample_y hr hc, add_sub_add_right_eq_sub]
      rw [this]

theorem points_shift {c c' : ContourG} (h : c.MovedBy m c') (hR : c.Ready) :
    c'.getSampledPoints = .ok ((c.cols.map Sample.x).map (· + m.b1), (c.cols.map Sample.y).map (· + m.b2)) := by
  rw [(h.ready hR).getSampledPoints, h.cols]
  simp only [List.map_map]
  congr 2
  · exact List.map_congr_left fun s _ => sample_x hr hc s
  · exact List.map_congr_left fun s _ => sample_y hr hc s

theorem zip_shift (xs ys : List ℝ) : (xs.map (· + m.b1)).zip (ys.map (· + m.b2)) = (xs.zip ys).map m.point := by
  rw [List.zip_map]
  exact List.map_congr_left fun p _ => by rw [point_eq hr hc]; rfl

theorem inInterior_shift {inside : InsideTest} (hin : inside.Invariant m) {c c' : ContourG} (h : c.MovedBy m c') (hR : c.Ready)
    (p : ℝ × ℝ) : ContourG.isInInterior inside c' (m.point p) = ContourG.isInInterior inside c p := by
  simp only [ContourG.isInInterior, points_shift hr hc h hR, hR.getSampledPoints, py_ok_bind, zip_shift hr hc]
  rw [hin]

theorem distEntry_shift {inside : InsideTest} (hin : inside.Invariant m) {c c' : ContourG} (h : c.MovedBy m c') (hR : c.Ready)
    (p : ℝ × ℝ) : ContourG.distEntry inside c' (m.point p) = ContourG.distEntry inside c p := by
  have : c'.distance (m.point p).1 (m.point p).2 = c.distance p.1 p.2 := by
    simp only [ContourG.distance, h.guard, point_eq hr hc, distLoop_shift hr hc h.edges]
  simp only [ContourG.distEntry, inInterior_shift hr hc hin h hR, this]

theorem searchLoop_shift {inside : InsideTest} (hin : inside.Invariant m) {c c' : ContourG} (h : c.MovedBy m c') (hR : c.Ready)
    (box : ℝ × ℝ × ℝ × ℝ) (tol : ℝ) : ∀ (fuel n : ℕ) (d : WithTop ℝ) (pt : Option Vert),
    ContourG.searchLoop inside c' (box.1 + m.b1, box.2.1 + m.b1, box.2.2.1 + m.b2, box.2.2.2 + m.b2) tol fuel n d (pt.map m.vert) =
      (ContourG.searchLoop inside c box tol fuel n d pt).map (Except.map (Option.map m.vert))
  | 0, _, _, _ => rfl
  | fuel + 1, n, d, pt => by
    have e1 : (fun k => ContourG.distEntry inside c' (ContourG.gridPt
        (box.1 + m.b1, box.2.1 + m.b1, box.2.2.1 + m.b2, box.2.2.2 + m.b2) n k)) =
        fun k => ContourG.distEntry inside c (ContourG.gridPt box n k) := by
      funext k
      rw [grid_shift, ← point_eq hr hc, distEntry_shift hr hc hin h hR]
    simp only [ContourG.searchLoop, e1]
    split
    · cases ContourG.mapPy (fun k => ContourG.distEntry inside c (ContourG.gridPt box n k)) (List.range (n * n)) with
      | error x => rfl
      | ok dist =>
        simp only
        cases Np.argmax dist with
        | error x => rfl
        | ok k =>
          simp only
          split
          · rfl
          · rw [grid_shift, vert_eq hr hc]
            exact searchLoop_shift hin h hR box tol fuel _ _ (some _)
    · rfl

theorem findInterior_shift {inside : InsideTest} (hin : inside.Invariant m) {c c' c1 : ContourG} (h : ContourAlong m c c')
    (hR : c.Ready) {fuel : ℕ} (hf : c.findInteriorPoint inside fuel = some (.ok c1)) :
    ∃ c1', c'.findInteriorPoint inside fuel = some (.ok c1') ∧ ContourAlong m c1 c1' := by
  unfold ContourG.findInteriorPoint at hf ⊢
  simp only [h.moved.guard, points_shift hr hc h.moved hR, hR.guard, hR.getSampledPoints, py_ok_bind, box_shift] at hf ⊢
  cases hb : getBoundingBox (c.cols.map Sample.x) (c.cols.map Sample.y) with
  | error x => rw [hb] at hf; cases hf
  | ok box =>
    rw [hb] at hf
    simp only [Except.map, add_sub_add_right_eq_sub, h.interior, searchLoop_shift hr hc hin h.moved hR] at hf ⊢
    cases hs : ContourG.searchLoop inside c box (0.01 * min (box.2.1 - box.1) (box.2.2.2 - box.2.2.1)) fuel 9 0 c.interior with
    | none => rw [hs] at hf; cases hf
    | some x =>
      rw [hs] at hf
      cases x with
      | error x => cases hf
      | ok pt =>
        simp only [Option.some.injEq, Except.ok.injEq] at hf
        subst hf
        exact ⟨_, rfl, ⟨⟨h.moved.edges, h.moved.numPts, h.moved.vertIdx⟩, rfl, h.closest⟩⟩

theorem sampleContours_shift {inside : InsideTest} (hin : inside.Invariant m) {n p : ℤ} {d : Quad × Quad} (hd : getQuadDict n p = .ok d)
    {fuel : ℕ} {l l' : List ContourG} (h : List.Forall₂ (ContourG.MadeAt m) l l') : ∀ {r}, CellG.sampleContours inside fuel d l = some (.ok r) →
      ∃ r', CellG.sampleContours inside fuel d l' = some (.ok r') ∧ List.Forall₂ (ContourAlong m) r r' ∧ ∀ c ∈ r, c.Ready := by
  induction h with
  | nil => intro r h; cases h; exact ⟨[], rfl, .nil, by simp⟩
  | @cons c c' l l' hcc _ ih =>
    intro r h
    unfold CellG.sampleContours at h ⊢
    cases h1 : c.parameterize d with
    | error x => simp only [h1] at h; cases h
    | ok c1 =>
      obtain ⟨c1', g1, g2⟩ := contour_move hr hcc h1
      have hR : c1.Ready := (parameterize_edges hd hcc.count h1).2.2.2.1
      simp only [h1, g1] at h ⊢
      cases h2 : c1.findInteriorPoint inside fuel with
      | none => simp only [h2] at h; cases h
      | some x =>
        cases x with
        | error x => simp only [h2] at h; cases h
        | ok c2 =>
          obtain ⟨c2', g3, g4⟩ := findInterior_shift hr hc hin g2 hR h2
          simp only [h2, g3] at h ⊢
          cases h3 : CellG.sampleContours inside fuel d l with
          | none => simp only [h3] at h; cases h
          | some x =>
            cases x with
            | error x => simp only [h3] at h; cases h
            | ok cs =>
              obtain ⟨cs', g5, g6, g7⟩ := ih h3
              simp only [h3, g5] at h ⊢
              cases h
              refine ⟨_, rfl, .cons g4 g6, ?_⟩
              intro x hx
              rcases List.mem_cons.1 hx with rfl | hx
              · obtain ⟨pt, rfl⟩ := findInterior_fields h2
                exact ⟨hR.sampled, hR.numPts, hR.vertIdx⟩
              · exact g7 x hx

/-! ### the outer boundary -/

theorem contains_shift {inside : InsideTest} (hin : inside.Invariant m) {a a' b b' : ContourG} (ha : a.MovedBy m a') (hb : b.MovedBy m b')
    (hRa : a.Ready) (hRb : b.Ready) : CellG.contains inside a' b' = CellG.contains inside a b := by
  simp only [CellG.contains, points_shift hr hc hb hRb, hRb.getSampledPoints, py_ok_bind, zip_shift hr hc, mapPy_map,
    inInterior_shift hr hc hin ha hRa]

theorem outerInner_shift {inside : InsideTest} (hin : inside.Invariant m) {a a' : ContourG} (ha : a.MovedBy m a') (hRa : a.Ready) (i : ℕ)
    {l l' : List ContourG} (h : List.Forall₂ (ContourAlong m) l l') : (∀ c ∈ l, c.Ready) → ∀ outer,
    CellG.outerInner inside i a' outer l' = CellG.outerInner inside i a outer l := by
  induction h with
  | nil => intros; rfl
  | @cons c c' l l' hcc _ ih =>
    intro hR outer
    simp only [CellG.outerInner, contains_shift hr hc hin ha hcc.moved hRa (hR c (by simp)), ih fun c hc => hR c (by simp [hc])]

theorem outerLoop_shift {inside : InsideTest} (hin : inside.Invariant m)
    {l l' : List ContourG} (h : List.Forall₂ (ContourAlong m) l l') : (∀ c ∈ l, c.Ready) → ∀ i outer,
    CellG.outerLoop inside i outer l' = CellG.outerLoop inside i outer l := by
  induction h with
  | nil => intros; rfl
  | @cons c c' l l' hcc hl ih =>
    intro hR i outer
    have hR' : ∀ c ∈ l, c.Ready := fun c hc => hR c (by simp [hc])
    simp only [CellG.outerLoop, outerInner_shift hr hc hin hcc.moved (hR c (by simp)) i hl hR', ih hR']

end shift

theorem set_rel {α β : Type} {R : α → β → Prop} {l : List α} {l' : List β} (h : List.Forall₂ R l l') {a : α} {b : β} (hab : R a b) :
    ∀ k, List.Forall₂ R (l.set k a) (l'.set k b) := by
  induction h with
  | nil => intro k; exact .nil
  | cons h1 h2 ih =>
    intro k
    cases k with
    | zero => exact .cons hab h2
    | succ k => exact .cons h1 (ih k)

theorem tail_rel {α β : Type} {R : α → β → Prop} {l : List α} {l' : List β} (h : List.Forall₂ R l l') :
    List.Forall₂ R l.tail l'.tail := by
  cases h with
  | nil => exact .nil
  | cons _ h => exact h

theorem swap0_rel {α β : Type} {R : α → β → Prop} {l : List α} {l' : List β} (h : List.Forall₂ R l l') {k : ℕ} {r : List α}
    (hk : CellG.swap0 l k = .ok r) : ∃ r', CellG.swap0 l' k = .ok r' ∧ List.Forall₂ R r r' := by
  unfold CellG.swap0 at hk ⊢
  obtain ⟨t, h1, hk⟩ := bind_ok hk
  obtain ⟨u, h2, hk⟩ := bind_ok hk
  cases hk
  have g1 := get_rel h 0
  have g2 := get_rel h k
  rw [h1] at g1
  rw [h2] at g2
  rcases g1 with ⟨g1, -⟩ | ⟨a, t', g1, g3, hR⟩
  · cases g1
  rcases g2 with ⟨g2, -⟩ | ⟨a', u', g2, g4, hR'⟩
  · cases g2
  cases g1
  cases g2
  exact ⟨_, by rw [g3, g4]; rfl, set_rel (set_rel h hR' 0) hR k⟩

theorem startLoop_move {m : Motion} {R : ContourG → ContourG → Prop} (hm : ∀ c c', R c c' → c.MovedBy m c') {l l' : List ContourG}
    (h : List.Forall₂ R l l') :
    ∀ i, CellG.startLoop i l' = CellG.startLoop i l := by
  induction h with
  | nil => intros; rfl
  | cons hc _ ih => intro i; simp only [CellG.startLoop, (hm _ _ hc).numPts, ih]

/-- the end of `parameterize` of a cell, from the outer boundary on -/
theorem finish_move {m : Motion} {R : ContourG → ContourG → Prop} (hm : ∀ c c', R c c' → c.MovedBy m c')
    (hcl : ∀ c c', R c c' → c'.closest = c.closest) {inside : InsideTest} {K K' K1 : CellG} (h : List.Forall₂ R K.components K'.components)
    (ho : ∀ i o, CellG.outerLoop inside i o K'.components = CellG.outerLoop inside i o K.components)
    (hf : (do let K ← CellG.findNumPts K
              let K ← CellG.findOuter inside K
              let K ← CellG.findStartIdx K
              CellG.findClosest K) = .ok K1) :
    ∃ K1', (do let K ← CellG.findNumPts K'
               let K ← CellG.findOuter inside K
               let K ← CellG.findStartIdx K
               CellG.findClosest K) = .ok K1' ∧
      List.Forall₂ R K1.components K1'.components ∧ K1'.numPts = K1.numPts ∧ K1'.startIdx = K1.startIdx ∧ K1'.closest = K1.closest ∧
      K1.components.length = K.components.length := by
  have hp : ∀ {l l' : List ContourG}, List.Forall₂ R l l' → l'.all ContourG.isParameterized = l.all ContourG.isParameterized :=
    fun h => all_rel h fun _ _ hc => (hm _ _ hc).isParameterized
  have hsum : ∀ {l l' : List ContourG}, List.Forall₂ R l l' → l'.map ContourG.numPts = l.map ContourG.numPts := by
    intro l l' h
    induction h with
    | nil => rfl
    | cons hc _ ih => rw [List.map_cons, List.map_cons, (hm _ _ hc).numPts, ih]
  obtain ⟨K2, h2, hf⟩ := bind_ok hf
  obtain ⟨K3, h3, hf⟩ := bind_ok hf
  obtain ⟨K4, h4, hf⟩ := bind_ok hf
  unfold CellG.findNumPts at h2
  obtain ⟨u, hg, h2⟩ := bind_ok h2
  cases h2
  unfold CellG.findOuter at h3
  obtain ⟨-, -, h3⟩ := bind_ok h3
  obtain ⟨k, hk, h3⟩ := bind_ok h3
  obtain ⟨cs, hcs, h3⟩ := bind_ok h3
  cases h3
  obtain ⟨cs', hcs', hrel⟩ := swap0_rel h hcs
  unfold CellG.findStartIdx at h4
  obtain ⟨u', hg4, h4⟩ := bind_ok h4
  cases h4
  unfold CellG.findClosest at hf
  obtain ⟨-, -, hf⟩ := bind_ok hf
  obtain ⟨l, hl, hf⟩ := bind_ok hf
  cases hf
  have q1 : CellG.guard K' = .ok () := by
    have : K'.guard = K.guard := by unfold CellG.guard CellG.isParameterized; rw [hp h]
    exact this.trans hg
  have q2 : ∀ (a b c d e f g), CellG.guard ⟨cs', a, b, c, d, e, f, g⟩ = .ok () := by
    intro a b c d e f g
    refine Eq.trans ?_ hg4
    unfold CellG.guard CellG.isParameterized
    rw [hp hrel]
  have q3 : ∀ (a b c d e f g), CellG.guard ⟨K'.components, a, b, c, d, e, f, g⟩ = .ok () := by
    intro a b c d e f g
    rw [← q1]; rfl
  have hl' : Np.blockLoop (fun c _ _ => .ok c.closest) (CellG.startLoop 0 cs') 0 (List.replicate (K'.components.map ContourG.numPts).sum 0) cs'
      = .ok l := by
    rw [← hl, startLoop_move hm hrel, hsum h]
    exact blockLoop_rel hrel (fun a a' j j' haa => by rw [hcl _ _ haa]) _ _ _
  refine ⟨⟨cs', (K'.components.map ContourG.numPts).sum, CellG.startLoop 0 cs', l, K'.meshSize, K'.rtol, K'.atol, K'.interior⟩, by
    simp only [CellG.findNumPts, CellG.findOuter, CellG.findStartIdx, CellG.findClosest, q1, q2, q3, ho, hk, hcs', hl', py_ok_bind], hrel, ?_, ?_, rfl, ?_⟩
  · simp only [hsum h]
  · simp only [startLoop_move hm hrel]
  · unfold CellG.swap0 at hcs
    obtain ⟨t, -, hcs⟩ := bind_ok hcs
    obtain ⟨v, -, hcs⟩ := bind_ok hcs
    cases hcs
    simp

/-! ### the theorems -/

/-- C124, edges: an edge made between turned and shifted vertices has turned and shifted samples, whatever the curve; for a loop this
holds for shifts. -/
theorem C124_edges {m : Motion} (hr : m.r = 1) {a b : Vert} {curve : CurveType} {opts : CurveOpts} {q : String} {tb : ℝ × ℝ} {pos neg : ℤ}
    (hloop : a.beq b = true → m.c = 1) {e e1 : EdgeG} (h : EdgeG.init a b curve opts q tb pos neg = .ok e) {d : Quad × Quad}
    (h1 : e.parameterize d = .ok e1) :
    ∃ e' e1', EdgeG.init (m.vert a) (m.vert b) curve opts q tb pos neg = .ok e' ∧ e'.parameterize d = .ok e1' ∧ e1.MovedBy m e1' := by
  obtain ⟨e', he'⟩ : ∃ e', EdgeG.init (m.vert a) (m.vert b) curve opts q tb pos neg = .ok e' := by
    unfold EdgeG.init at h ⊢
    split at h
    · cases h
    · rename_i htb
      rw [if_neg htb]
      exact ⟨_, rfl⟩
  obtain ⟨e1', h2, h3⟩ := edge_move hr ⟨a, b, curve, opts, q, tb, pos, neg, pos, neg, h, he', hloop⟩ h1
  exact ⟨e', e1', he', h2, h3⟩

/-- C124, whole cells, shifts: shifting the vertices of the edges of a cell, with holes or not, shifts everything that
`MeshCell.parameterize` makes: samples, interior points of the holes, and the choice of the outer boundary. -/
theorem C124_shift {m : Motion} (hr : m.r = 1) (hc : m.c = 1) {inside : InsideTest} (hin : inside.Invariant m) {K K' K1 : CellG}
    (h : List.Forall₂ (ContourG.MadeAt m) K.components K'.components) {n p : ℤ} {d : Quad × Quad} (hd : getQuadDict n p = .ok d) {fuel : ℕ}
    (hp : K.parameterize inside fuel d = some (.ok K1)) :
    ∃ K1', K'.parameterize inside fuel d = some (.ok K1') ∧ K1.MovedBy m K1' ∧
      List.Forall₂ (fun c c' : ContourG => c'.interior = c.interior.map m.vert) K1.components K1'.components := by
  unfold CellG.parameterize at hp ⊢
  cases h1 : CellG.sampleContours inside fuel d K.components with
  | none => simp only [h1] at hp; cases hp
  | some x =>
    cases x with
    | error x => simp only [h1] at hp; cases hp
    | ok cs =>
      obtain ⟨cs', g1, g2, g3⟩ := sampleContours_shift hr hc hin hd h h1
      simp only [h1, g1, Option.some.injEq] at hp ⊢
      obtain ⟨K1', g4, g5, g6, g7, g8, -⟩ := finish_move (fun _ _ h => h.moved) (fun _ _ h => h.closest) (K := { K with components := cs })
        (K' := { K' with components := cs' }) g2 (fun i o => outerLoop_shift hr hc hin g2 g3 i o) hp
      exact ⟨K1', g4, ⟨g5.imp fun _ _ h => h.moved, g6, g7, g8, (tail_rel g5).imp fun _ _ h => h.interior⟩,
        g5.imp fun _ _ h => h.interior⟩

/-- C124, whole cells, turns: if a cell without holes and the one made from its turned and shifted vertices can both be sampled, then
the second one is the first one, turned and shifted.  (The search for an interior point does not turn along; its result is not used
for cells without holes.) -/
theorem C124_turn {m : Motion} (hr : m.r = 1) {inside : InsideTest} {K K' K1 K1' : CellG} {c c' : ContourG} (hK : K.components = [c])
    (hK' : K'.components = [c']) (h : c.MadeAt m c') {d : Quad × Quad} {fuel : ℕ}
    (hp : K.parameterize inside fuel d = some (.ok K1)) (hp' : K'.parameterize inside fuel d = some (.ok K1')) : K1.MovedBy m K1' := by
  unfold CellG.parameterize at hp hp'
  cases h1 : CellG.sampleContours inside fuel d K.components with
  | none => simp only [h1] at hp; cases hp
  | some x =>
    cases x with
    | error x => simp only [h1] at hp; cases hp
    | ok cs =>
      cases h1' : CellG.sampleContours inside fuel d K'.components with
      | none => simp only [h1'] at hp'; cases hp'
      | some x =>
        cases x with
        | error x => simp only [h1'] at hp'; cases hp'
        | ok cs' =>
          simp only [h1, h1', Option.some.injEq] at hp hp'
          have s1 := sampleContours_get h1
          have s1' := sampleContours_get h1'
          rw [hK] at s1
          rw [hK'] at s1'
          cases s1 with
          | cons a1 b1 =>
            cases b1
            cases s1' with
            | cons a1' b1' =>
              cases b1'
              obtain ⟨c1, p1, p2⟩ := a1
              obtain ⟨c1', p1', p2'⟩ := a1'
              obtain ⟨c2, p3, p4⟩ := contour_move hr h p1
              rw [p1'] at p3
              cases p3
              obtain ⟨pt, rfl⟩ := findInterior_fields p2
              obtain ⟨pt', rfl⟩ := findInterior_fields p2'
              have hR : List.Forall₂ (fun c c' : ContourG => c.MovedBy m c' ∧ c'.closest = c.closest)
                  [{ c1 with interior := pt }] [{ c1' with interior := pt' }] :=
                .cons ⟨⟨p4.moved.edges, p4.moved.numPts, p4.moved.vertIdx⟩, p4.closest⟩ .nil
              obtain ⟨K2, g4, g5, g6, g7, g8, g9⟩ := finish_move (fun _ _ h => h.1) (fun _ _ h => h.2)
                (K := { K with components := [{ c1 with interior := pt }] }) (K' := { K' with components := [{ c1' with interior := pt' }] })
                hR (fun i o => rfl) hp
              rw [g4] at hp'
              cases hp'
              refine ⟨g5.imp fun _ _ h => h.1, g6, g7, g8, ?_⟩
              have hlen : K1.components.length = 1 := g9
              have h1 : K1.components.tail = [] := List.length_eq_zero_iff.1 (by simp [hlen])
              have h2 : K1'.components.tail = [] := List.length_eq_zero_iff.1 (by simp [← g5.length_eq, hlen])
              rw [h1, h2]
              exact .nil

end PFEM
