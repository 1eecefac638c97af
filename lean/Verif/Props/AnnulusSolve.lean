import Verif.Props.AnnulusConj
import Mathlib.LinearAlgebra.FiniteDimensional.Lemmas

/-!
Property theorems C114: harmonic conjugates and logarithmic coefficients on a ring between two concentric circles.
-/

namespace PFEM
open Nystrom Antilap Finset Polynomial

variable {K : CellG} {x0 y0 a b : ℝ} {n : ℕ}

/-- only zero is mapped to zero -/
theorem ring_injective (ha : 0 < a) (hab : a < b) (h : K.IsAnnulus x0 y0 a b (2 * n)) (h4 : 4 ≤ n) (hs : 4 * ringConst a b * (a / b) ^ (2 * n) ≤ 1)
    {u : ℕ → ℝ} (hu : RingSystem (2 * n) (ringKer a b (2 * n)) (ringDelta a b (2 * n)) a b u (fun j => u (2 * n + j))
      (fun i => u (K.closest.getD i 0)) (fun i => u (K.closest.getD (2 * n + i) 0)) (fun _ => 0) (fun _ => 0)) :
    ∀ i < 2 * (2 * n), u i = 0 := by
  have key := ring_bound ha hab (by omega) hs hu (fun m hm i hi => ?_) (ε := 0) (fun i _ => by simp)
  · intro i hi
    by_cases hi' : i < 2 * n
    · have := (key i hi').1
      rw [mul_zero] at this
      exact abs_eq_zero.1 (le_antisymm this (abs_nonneg _))
    · have := (key (i - 2 * n) (by omega)).2
      rw [mul_zero, show 2 * n + (i - 2 * n) = i by omega] at this
      exact abs_eq_zero.1 (le_antisymm this (abs_nonneg _))
  · have vx : ∀ i < 2 * (2 * n), |u (K.closest.getD i 0)| ≤ m := by
      intro i hi
      have hl : i < K.closest.length := by rw [h.vertices.1]; exact hi
      rw [List.getD_eq_getElem _ _ hl]
      rcases h.vertices.2 _ (List.getElem_mem hl) with e | e <;> rw [e]
      · exact (hm 0 (by omega)).1
      · exact (hm 0 (by omega)).2
    exact ⟨vx i (by omega), vx (2 * n + i) (by omega)⟩

/-- the rows of the system -/
noncomputable def ringRow (K : CellG) (a b : ℝ) (N : ℕ) (u : ℕ → ℝ) (i : ℕ) : ℝ :=
  if i < N then
    (u i - (∑ j ∈ range N, u j) / N) / 2 - ((∑ j ∈ range N, ringKer a b N i j * u (N + j)) / N - (∑ j ∈ range N, u (N + j)) / N) / 2 +
      ringDelta a b N / 2 * u (K.closest.getD i 0) + 2 * Real.pi * (b * ((∑ j ∈ range N, u j) / N) + a * ((∑ j ∈ range N, u (N + j)) / N))
  else
    (u i + (∑ j ∈ range N, u (N + j)) / N) / 2 - ((∑ j ∈ range N, ringKer a b N (i - N) j * u j) / N + (∑ j ∈ range N, u j) / N) / 2 +
      ringDelta a b N / 2 * u (K.closest.getD i 0) + 2 * Real.pi * (b * ((∑ j ∈ range N, u j) / N) + a * ((∑ j ∈ range N, u (N + j)) / N))

theorem ringRow_add (K : CellG) (a b : ℝ) (N : ℕ) (u v : ℕ → ℝ) (i : ℕ) :
    ringRow K a b N (fun j => u j + v j) i = ringRow K a b N u i + ringRow K a b N v i := by
  unfold ringRow
  split <;> simp only [mul_add, sum_add_distrib] <;> ring

theorem ringRow_smul (K : CellG) (a b : ℝ) (N : ℕ) (c : ℝ) (v : ℕ → ℝ) (i : ℕ) :
    ringRow K a b N (fun j => c * v j) i = c * ringRow K a b N v i := by
  have : ∀ x : ℝ, x * (c * 1) = c * x := fun x => by ring
  unfold ringRow
  split <;> simp only [mul_left_comm _ c, ← mul_sum] <;> ring

theorem ringRow_system {N : ℕ} {u : ℕ → ℝ} {r1 r2 : ℕ → ℝ} :
    RingSystem N (ringKer a b N) (ringDelta a b N) a b u (fun j => u (N + j)) (fun i => u (K.closest.getD i 0))
      (fun i => u (K.closest.getD (N + i) 0)) r1 r2 ↔ ∀ i < N, ringRow K a b N u i = r1 i ∧ ringRow K a b N u (N + i) = r2 i := by
  constructor
  · intro h i hi
    have h1 := h.outer i hi
    have h2 := h.inner i hi
    unfold ringRow
    rw [if_pos hi, if_neg (by omega), Nat.add_sub_cancel_left]
    exact ⟨h1, h2⟩
  · intro h
    constructor
    · intro i hi
      have := (h i hi).1
      unfold ringRow at this
      rwa [if_pos hi] at this
    · intro i hi
      have := (h i hi).2
      unfold ringRow at this
      rwa [if_neg (by omega), Nat.add_sub_cancel_left] at this

theorem ringRow_congr {N : ℕ} (hv : ∀ i ∈ K.closest, i < 2 * N) (hl : K.closest.length = 2 * N) {u v : ℕ → ℝ} (h : ∀ j < 2 * N, u j = v j) {i : ℕ}
    (hi : i < 2 * N) : ringRow K a b N u i = ringRow K a b N v i := by
  have hcl : K.closest.getD i 0 < 2 * N := by
    have hl : i < K.closest.length := by rw [hl]; exact hi
    rw [List.getD_eq_getElem _ _ hl]
    exact hv _ (List.getElem_mem hl)
  have s1 : ∑ j ∈ range N, u j = ∑ j ∈ range N, v j := sum_congr rfl fun j hj => h j (by have := mem_range.1 hj; omega)
  have s2 : ∑ j ∈ range N, u (N + j) = ∑ j ∈ range N, v (N + j) := sum_congr rfl fun j hj => h _ (by have := mem_range.1 hj; omega)
  have s3 : ∀ i, ∑ j ∈ range N, ringKer a b N i j * u j = ∑ j ∈ range N, ringKer a b N i j * v j :=
    fun i => sum_congr rfl fun j hj => by rw [h j (by have := mem_range.1 hj; omega)]
  have s4 : ∀ i, ∑ j ∈ range N, ringKer a b N i j * u (N + j) = ∑ j ∈ range N, ringKer a b N i j * v (N + j) :=
    fun i => sum_congr rfl fun j hj => by rw [h _ (by have := mem_range.1 hj; omega)]
  unfold ringRow
  rw [s1, s2, s3, s4, h i hi, h _ hcl]

/-- the system has a solution for every right-hand side -/
theorem ring_surjective (ha : 0 < a) (hab : a < b) (h : K.IsAnnulus x0 y0 a b (2 * n)) (h4 : 4 ≤ n)
    (hs : 4 * ringConst a b * (a / b) ^ (2 * n) ≤ 1) (c : ℕ → ℝ) : ∃ u : ℕ → ℝ, ∀ i < 2 * (2 * n), ringRow K a b (2 * n) u i = c i := by
  let ext : (Fin (2 * (2 * n)) → ℝ) → ℕ → ℝ := fun x j => if hj : j < 2 * (2 * n) then x ⟨j, hj⟩ else 0
  let L : (Fin (2 * (2 * n)) → ℝ) →ₗ[ℝ] (Fin (2 * (2 * n)) → ℝ) :=
    { toFun := fun x i => ringRow K a b (2 * n) (ext x) i
      map_add' := by
        intro x y
        funext i
        rw [Pi.add_apply, ← ringRow_add]
        congr 1
        funext j
        simp only [ext]
        split <;> simp
      map_smul' := by
        intro t x
        funext i
        rw [Pi.smul_apply, smul_eq_mul, RingHom.id_apply, ← ringRow_smul]
        congr 1
        funext j
        simp only [ext]
        split <;> simp }
  have hinj : Function.Injective L := by
    rw [← LinearMap.ker_eq_bot, LinearMap.ker_eq_bot']
    intro x hx
    have h0 : ∀ i < 2 * (2 * n), ringRow K a b (2 * n) (ext x) i = 0 := fun i hi => congrFun hx ⟨i, hi⟩
    have := ring_injective ha hab h h4 hs (ringRow_system.2 fun i hi => ⟨h0 i (by omega), h0 (2 * n + i) (by omega)⟩)
    funext i
    have hi := this i i.2
    simpa [ext] using hi
  obtain ⟨x, hx⟩ := LinearMap.injective_iff_surjective.1 hinj fun i => c i
  exact ⟨ext x, fun i hi => congrFun hx ⟨i, hi⟩⟩

/-- C114: on a ring with enough samples the linear system that the code sets up for harmonic conjugates has exactly one solution for every
right-hand side. -/
theorem C114_solvable (h : K.IsAnnulus x0 y0 a b (2 * n)) (ha : 1 / 10 ^ 14 ≤ a) (hab : a < b) (h4 : 4 ≤ n) (hn : n ≤ 2 * 10 ^ 7)
    (hs : 4 * ringConst a b * (a / b) ^ (2 * n) ≤ 1) {gmres : Gmres} {strategy pc : String} {s : Solver}
    (hi : init gmres K strategy pc = .ok s) {rhs : List ℝ} (hr : rhs.length = K.numPts + 1) :
    ∃ g, s.log = some g ∧ ∃! x, augmented s.ops g x = .ok rhs := by
  have ha0 : 0 < a := lt_of_lt_of_le (by positivity) ha
  have hb0 : 0 < b := ha0.trans hab
  have hlog : 0 < Real.log b - Real.log a := sub_pos.2 (Real.log_lt_log ha0 hab)
  have hden : 2 * Real.pi * (Real.log b - Real.log a) ≠ 0 := (mul_pos Real.two_pi_pos hlog).ne'
  obtain ⟨ho, hlg, -⟩ := init_parts hi
  obtain ⟨-, g, hg, hg'⟩ := hlg.resolve_right fun hh => by rw [h.numHoles] at hh; omega
  rw [logTerms_eq h.ready (h.even rfl h4 hn) h.edges_ne (h.holes ha0 hb0) ho] at hg'
  cases hg'
  have hK := (build_shape h.ready ho).1
  refine ⟨_, hg, ?_⟩
  rw [h.numPts] at hr
  have hsplit : rhs = rhs.take (2 * (2 * n)) ++ [vec rhs (2 * (2 * n))] := by
    have hd : rhs.drop (2 * (2 * n)) = [vec rhs (2 * (2 * n))] := by
      rw [List.drop_eq_getElem_cons (by omega), List.drop_of_length_le (by omega), vec, List.getD_eq_getElem _ _ (by omega)]
    rw [← hd, List.take_append_drop]
  have hvert : ∀ i ∈ K.closest, i < 2 * (2 * n) := fun i hi => by rcases h.vertices.2 i hi with e | e <;> omega
  have hvl : ∀ {l : List ℝ} {j : ℕ}, l.length = 2 * (2 * n) → j < 2 * (2 * n) → ∀ l', vec (l ++ l') j = vec l j := by
    intro l j hl hj l'
    unfold vec
    rw [List.getD_append _ _ _ _ (by omega)]
  -- a solution
  obtain ⟨u, hu⟩ := ring_surjective ha0 hab h h4 hs (fun i => vec rhs i)
  set psi := (List.range (2 * (2 * n))).map u with hpsi
  set α := vec rhs (2 * (2 * n)) / (2 * Real.pi * (Real.log b - Real.log a)) with hα
  have hpv : ∀ j < 2 * (2 * n), vec psi j = u j := fun j hj => vec_range _ hj
  obtain ⟨y, z, e1, e2, e3, e4⟩ := ring_rows h ha hab h4 hn ho (psi := psi) (by simp [hpsi]) α
  have e5 := ringRow_system.1 e3
  have hyv : y = rhs.take (2 * (2 * n)) := by
    refine vec_ext (by rw [e2, List.length_take]; omega) fun i hi => ?_
    rw [e2] at hi
    have ht : vec (rhs.take (2 * (2 * n))) i = vec rhs i := by
      conv_rhs => rw [hsplit]
      rw [hvl (by rw [List.length_take]; omega) hi]
    have hrow : ringRow K a b (2 * n) (fun j => vec psi j) i = vec rhs i := by
      rw [← hu i hi]
      exact ringRow_congr hvert h.vertices.1 hpv hi
    rw [ht, ← hrow]
    by_cases hi' : i < 2 * n
    · exact (e5 i hi').1.symm
    · have := (e5 (i - 2 * n) (by omega)).2
      rw [show 2 * n + (i - 2 * n) = i by omega] at this
      exact this.symm
  have hzv : z = vec rhs (2 * (2 * n)) := by rw [e4, hα, div_mul_cancel₀ _ hden]
  refine ⟨psi ++ [α], by change augmented _ _ _ = _; rw [e1, hyv, hzv, ← hsplit], fun x hx => ?_⟩
  -- there is no other
  have hxl : x.length = 2 * (2 * n) + 1 := by
    by_contra hl
    have : ¬ x.length = K.numPts + K.numHoles := by rw [h.numPts, h.numHoles]; exact hl
    simp [augmented, call, hK, this] at hx
  obtain ⟨x', β, rfl⟩ : ∃ x' β, x = x' ++ [β] := by
    refine ⟨x.take (2 * (2 * n)), vec x (2 * (2 * n)), ?_⟩
    have hd : x.drop (2 * (2 * n)) = [vec x (2 * (2 * n))] := by
      rw [List.drop_eq_getElem_cons (by omega), List.drop_of_length_le (by omega), vec, List.getD_eq_getElem _ _ (by omega)]
    rw [← hd, List.take_append_drop]
  have hxl' : x'.length = 2 * (2 * n) := by simpa using hxl
  obtain ⟨y', z', f1, f2, f3, f4⟩ := ring_rows h ha hab h4 hn ho hxl' β
  rw [f1] at hx
  have hx := Except.ok.inj hx
  rw [hsplit, ← hyv, ← hzv] at hx
  obtain ⟨rfl, hzz⟩ := List.append_inj hx (f2.trans e2.symm)
  have hzz : z' = z := by simpa using hzz
  have hβ : β = α := by
    have := f4.symm.trans (hzz.trans e4)
    exact mul_right_cancel₀ hden this
  have hdiff := f3.sub e3
  have h0 := ring_injective ha0 hab h h4 hs (u := fun j => vec x' j - vec psi j) (by simpa only [sub_self] using hdiff)
  rw [hβ, vec_ext (hxl'.trans (by simp [hpsi])) fun i hi => sub_eq_zero.1 (h0 i (by omega))]

/-- C114: `get_harmonic_conjugate` succeeds on such a ring if the solver of linear systems finds solutions that exist. -/
theorem C114_returns {gmres : Gmres} (hf : Finds gmres) (h : K.IsAnnulus x0 y0 a b (2 * n)) (ha : 1 / 10 ^ 14 ≤ a) (hab : a < b) (h4 : 4 ≤ n)
    (hn : n ≤ 2 * 10 ^ 7) (hs : 4 * ringConst a b * (a / b) ^ (2 * n) ≤ 1) {strategy pc : String} {s : Solver}
    (hi : init gmres K strategy pc = .ok s) {A : ℝ} {Q R : ℂ[X]} (hQ : Q.natDegree < n) (hR : R.natDegree < n) :
    ∃ r, conjugate gmres s (K.samplesOf (ringData A Q R x0 y0)) = .ok r := by
  have ha0 : 0 < a := lt_of_lt_of_le (by positivity) ha
  have hb0 : 0 < b := ha0.trans hab
  obtain ⟨ho, hlg, -⟩ := init_parts hi
  obtain ⟨-, g, hg, hg'⟩ := hlg.resolve_right fun hh => by rw [h.numHoles] at hh; omega
  rw [logTerms_eq h.ready (h.even rfl h4 hn) h.edges_ne (h.holes ha0 hb0) ho] at hg'
  cases hg'
  have hK := (build_shape h.ready ho).1
  obtain ⟨t, c, y, z, c1, c2, c3, -, -, c4, -⟩ := ring_consistent h ha hab h4 hn ho A Q R (d := max Q.natDegree R.natDegree) (by omega) (le_max_left _ _)
    (le_max_right _ _)
  obtain ⟨g', hg', x, hx, -⟩ := C114_solvable h ha hab h4 hn hs hi (rhs := c ++ [z]) (by rw [List.length_append, c3, h.numPts]; rfl)
  rw [hg] at hg'
  cases hg'
  obtain ⟨x', hx'⟩ := hf _ _ (precond (K.numPts + K.numHoles) s.diag) _ hx
  refine ⟨(x'.take K.numPts, x'.drop K.numPts), ?_⟩
  simp only [conjugate, hK, h.numHoles, one_ne_zero, if_false, hg, Trace.attr, py_ok_bind, c1, c2, c4]
  rw [← h.numHoles, hx']
  rfl

/-- C114: on a ring let the boundary data be `A log |w| + Re (Q(w) + R(1/w))`, `w` the position relative to the centre, with polynomials `Q` and `R` of
degrees at most `d`, less than half the number `2n` of samples of a circle.  If the linear solver leaves residuals of at most `tol`, then what
`get_harmonic_conjugate` returns differs from `Im (Q(w) + R(1/w))` (without its constant term) by at most a constant times
`tol + 5 (a/b)^(2n-d) S / (1 - a/b)`, and the logarithmic coefficient from `A` by at most `tol / (2π log (b/a))`.  The constant depends only on the ring
and `S` is a bound for the terms of the Laurent polynomial; `tol` may depend on the right-hand side, whose entries are bounded. -/
theorem C114_conjugate {gmres : Gmres} {tol : List ℝ → ℝ} (hg : ResidualWithin gmres tol) (h : K.IsAnnulus x0 y0 a b (2 * n)) (ha : 1 / 10 ^ 14 ≤ a)
    (hab : a < b) (h4 : 4 ≤ n) (hn : n ≤ 2 * 10 ^ 7) (hs : 4 * ringConst a b * (a / b) ^ (2 * n) ≤ 1) {strategy pc : String} {s : Solver}
    (hi : init gmres K strategy pc = .ok s) {A : ℝ} {Q R : ℂ[X]} {d : ℕ} (hd : d < n) (hQ : Q.natDegree ≤ d) (hR : R.natDegree ≤ d)
    {psiHat al : List ℝ} (hr : conjugate gmres s (K.samplesOf (ringData A Q R x0 y0)) = .ok (psiHat, al)) :
    ∃ (rhs : List ℝ) (α : ℝ), rhs.length = K.numPts + 1 ∧
      (∀ t ∈ rhs, |t| ≤ (3 + 5 * ((a / b) ^ (2 * n - d) / (1 - a / b))) * ringSum Q R a b + 2 * Real.pi * |A| * Real.log (b / a)) ∧
      Within (ringConst a b * (tol rhs + 5 * ((a / b) ^ (2 * n - d) / (1 - a / b)) * ringSum Q R a b)) psiHat (K.samplesOf (ringConj Q R x0 y0)) ∧
      al = [α] ∧ |α - A| ≤ tol rhs / (2 * Real.pi * Real.log (b / a)) := by
  have ha0 : 0 < a := lt_of_lt_of_le (by positivity) ha
  have hb0 : 0 < b := ha0.trans hab
  have hNp : 0 < 2 * n := by omega
  obtain ⟨r0, r1, -⟩ := ring_ratio ha0 hab
  have r2 : 0 < 1 - a / b := by linarith
  have hlog : 0 < Real.log b - Real.log a := sub_pos.2 (Real.log_lt_log ha0 hab)
  have hlogd : Real.log (b / a) = Real.log b - Real.log a := Real.log_div hb0.ne' ha0.ne'
  have hden : 0 < 2 * Real.pi * (Real.log b - Real.log a) := mul_pos Real.two_pi_pos hlog
  have hS := ringSum_nonneg (Q := Q) (R := R) ha0 hb0
  obtain ⟨ho, hlg, -⟩ := init_parts hi
  obtain ⟨-, g, hg', hg''⟩ := hlg.resolve_right fun hh => by rw [h.numHoles] at hh; omega
  rw [logTerms_eq h.ready (h.even rfl h4 hn) h.edges_ne (h.holes ha0 hb0) ho] at hg''
  cases hg''
  have hK := (build_shape h.ready ho).1
  obtain ⟨t, c, y, z, c1, c2, c3, c4, c5, c6, c7, c8, c10, c9⟩ := ring_consistent h ha hab h4 hn ho A Q R hd hQ hR
  set τ := 5 * ((a / b) ^ (2 * n - d) / (1 - a / b)) * ringSum Q R a b with hτ
  have hτ0 : 0 ≤ τ := by positivity
  simp only [conjugate, hK, h.numHoles, one_ne_zero, if_false, hg', Trace.attr, py_ok_bind, c1, c2, c6] at hr
  obtain ⟨x, hx, hr⟩ := bind_ok hr
  cases hr
  obtain ⟨w, hw, hres⟩ := hg _ _ _ _ hx
  have hxl : x.length = 2 * (2 * n) + 1 := by
    by_contra hl
    have : ¬ x.length = K.numPts + K.numHoles := by rw [h.numPts, h.numHoles]; exact hl
    simp [augmented, call, hK, this] at hw
  obtain ⟨x', α, rfl⟩ : ∃ x' β, x = x' ++ [β] := by
    refine ⟨x.take (2 * (2 * n)), vec x (2 * (2 * n)), ?_⟩
    have hd : x.drop (2 * (2 * n)) = [vec x (2 * (2 * n))] := by
      rw [List.drop_eq_getElem_cons (by omega), List.drop_of_length_le (by omega), vec, List.getD_eq_getElem _ _ (by omega)]
    rw [← hd, List.take_append_drop]
  have hxl' : x'.length = 2 * (2 * n) := by simpa using hxl
  obtain ⟨y', z', f1, f2, f3, f4⟩ := ring_rows h ha hab h4 hn ho hxl' α
  rw [f1] at hw
  cases hw
  rw [show List.take K.numPts (x' ++ [α]) = x' by rw [h.numPts, ← hxl', List.take_left],
    show List.drop K.numPts (x' ++ [α]) = [α] by rw [h.numPts, ← hxl', List.drop_left]]
  set η := tol (c ++ [z]) with hη
  have hent : (∀ i < 2 * (2 * n), |vec y' i - vec c i| ≤ η) ∧ |z' - z| ≤ η := by
    unfold Within at hres
    rw [List.forall₂_iff_get] at hres
    obtain ⟨hl, hall⟩ := hres
    constructor
    · intro i hi
      have := hall i (by simp; omega) (by simp; omega)
      simpa [List.getElem_append, f2, c3, hi, vec, List.getD_eq_getElem?_getD] using this
    · have := hall (2 * (2 * n)) (by simp; omega) (by simp; omega)
      simpa [List.getElem_append, f2, c3] using this
  have hpl : (K.samplesOf (ringConj Q R x0 y0)).length = 2 * (2 * n) := by simp [CellG.samplesOf, h.cols]; omega
  set psi := K.samplesOf (ringConj Q R x0 y0) with hpsi
  have hcorner : ∀ (u : ℕ → ℝ) (m : ℝ), (∀ i < 2 * n, |u i| ≤ m ∧ |u (2 * n + i)| ≤ m) → ∀ i < 2 * (2 * n), |u (K.closest.getD i 0)| ≤ m := by
    intro u m hm i hi
    have hl : i < K.closest.length := by rw [h.vertices.1]; exact hi
    rw [List.getD_eq_getElem _ _ hl]
    rcases h.vertices.2 _ (List.getElem_mem hl) with e | e <;> rw [e]
    · exact (hm 0 (by omega)).1
    · exact (hm 0 (by omega)).2
  have hb := ring_bound ha0 hab hNp hs (f3.sub c8) (ε := η + τ)
    (fun m hm i hi => ⟨hcorner (fun j => vec x' j - vec psi j) m hm i (by omega), hcorner (fun j => vec x' j - vec psi j) m hm (2 * n + i) (by omega)⟩)
    (fun i hi => by
      have tri : ∀ p q r : ℝ, |p - r| ≤ η → |q - r| ≤ τ → |p - q| ≤ η + τ := by
        intro p q r h1 h2
        rw [abs_le] at *
        constructor <;> linarith [h1.1, h1.2, h2.1, h2.2]
      exact ⟨tri _ _ _ (hent.1 i (by omega)) (c9 i hi).1, tri _ _ _ (hent.1 (2 * n + i) (by omega)) (c9 i hi).2⟩)
  refine ⟨c ++ [z], α, by rw [List.length_append, c3, h.numPts]; rfl, ?_, ?_, rfl, ?_⟩
  · intro t ht
    rw [List.mem_append, List.mem_singleton] at ht
    have hA : 0 ≤ 2 * Real.pi * |A| * Real.log (b / a) := by rw [hlogd]; positivity
    have hsum : (3 + 5 * ((a / b) ^ (2 * n - d) / (1 - a / b))) * ringSum Q R a b = 3 * ringSum Q R a b + τ := by rw [hτ]; ring
    rw [hsum]
    rcases ht with ht | rfl
    · obtain ⟨i, hi, rfl⟩ := List.getElem_of_mem ht
      have hv : c[i] = vec c i := by rw [vec, List.getD_eq_getElem _ _ hi]
      rw [c3] at hi
      have tri : ∀ p q : ℝ, |p| ≤ 3 * ringSum Q R a b → |p - q| ≤ τ → |q| ≤ 3 * ringSum Q R a b + τ := by
        intro p q h1 h2
        rw [abs_le] at *
        constructor <;> linarith [h1.1, h1.2, h2.1, h2.2]
      have hle : |c[i]| ≤ 3 * ringSum Q R a b + τ := by
        rw [hv]
        by_cases hi' : i < 2 * n
        · exact tri _ _ (c10 hs i hi').1 (c9 i hi').1
        · have h1 := (c10 hs (i - 2 * n) (by omega)).2
          have h2 := (c9 (i - 2 * n) (by omega)).2
          rw [show 2 * n + (i - 2 * n) = i by omega] at h1 h2
          exact tri _ _ h1 h2
      linarith
    · have e : |A * (2 * Real.pi * (Real.log b - Real.log a))| = 2 * Real.pi * |A| * (Real.log b - Real.log a) := by
        rw [abs_mul, abs_of_pos hden]; ring
      rw [c7, e, hlogd]
      linarith
  · unfold Within
    rw [List.forall₂_iff_get]
    refine ⟨hxl'.trans hpl.symm, fun i h1 h2 => ?_⟩
    have hv : ∀ {l : List ℝ} (hi : i < l.length), l.get ⟨i, hi⟩ = vec l i := fun hi => by
      rw [vec, List.getD_eq_getElem _ _ hi]; rfl
    rw [hv, hv]
    by_cases hi' : i < 2 * n
    · exact (hb i hi').1
    · have := (hb (i - 2 * n) (by omega)).2
      simpa only [show 2 * n + (i - 2 * n) = i by omega] using this
  · have e : z' - z = (α - A) * (2 * Real.pi * (Real.log b - Real.log a)) := by rw [f4, c7]; ring
    rw [hlogd, le_div_iff₀ hden, ← abs_of_pos hden, ← abs_mul, ← e]
    exact hent.2

end PFEM
