import Verif.Lemmas.Calculus

/-!
Calculus lemmas for anti-Laplacians.
-/

namespace PFEM

theorem HasGrad.add {u v : ℝ → ℝ → ℝ} {x y a b c d : ℝ} (h : HasGrad u x y a b) (k : HasGrad v x y c d) :
    HasGrad (fun x y => u x y + v x y) x y (a + c) (b + d) := ⟨h.1.fun_add k.1, h.2.fun_add k.2⟩

theorem HasGrad.const_mul {u : ℝ → ℝ → ℝ} {x y a b : ℝ} (r : ℝ) (h : HasGrad u x y a b) :
    HasGrad (fun x y => r * u x y) x y (r * a) (r * b) := ⟨h.1.const_mul r, h.2.const_mul r⟩

theorem HasLaplacian.add {S : Set (ℝ × ℝ)} {u v f g : ℝ → ℝ → ℝ} (h : HasLaplacian S u f) (k : HasLaplacian S v g) :
    HasLaplacian S (fun x y => u x y + v x y) fun x y => f x y + g x y := by
  obtain ⟨u1, u2, hu⟩ := h
  obtain ⟨v1, v2, hv⟩ := k
  refine ⟨fun x y => u1 x y + v1 x y, fun x y => u2 x y + v2 x y, fun x y hS => ?_⟩
  obtain ⟨h1, a, b, h2, h3, h4⟩ := hu x y hS
  obtain ⟨k1, c, d, k2, k3, k4⟩ := hv x y hS
  exact ⟨h1.add k1, a + c, b + d, h2.fun_add k2, h3.fun_add k3, by beta_reduce; rw [← h4, ← k4]; ring⟩

theorem HasLaplacian.const_mul {S : Set (ℝ × ℝ)} {u f : ℝ → ℝ → ℝ} (r : ℝ) (h : HasLaplacian S u f) :
    HasLaplacian S (fun x y => r * u x y) fun x y => r * f x y := by
  obtain ⟨u1, u2, hu⟩ := h
  refine ⟨fun x y => r * u1 x y, fun x y => r * u2 x y, fun x y hS => ?_⟩
  obtain ⟨h1, a, b, h2, h3, h4⟩ := hu x y hS
  exact ⟨h1.const_mul r, r * a, r * b, h2.const_mul r, h3.const_mul r, by beta_reduce; rw [← h4]; ring⟩

theorem HasLaplacian.mono {S T : Set (ℝ × ℝ)} {u f : ℝ → ℝ → ℝ} (h : HasLaplacian T u f) (hST : S ⊆ T) : HasLaplacian S u f := by
  obtain ⟨u1, u2, hu⟩ := h
  exact ⟨u1, u2, fun x y hS => hu x y (hST hS)⟩

theorem HasLaplacian.congr {S : Set (ℝ × ℝ)} {u f g : ℝ → ℝ → ℝ} (h : HasLaplacian S u f) (e : ∀ x y, (x, y) ∈ S → f x y = g x y) :
    HasLaplacian S u g := by
  obtain ⟨u1, u2, hu⟩ := h
  refine ⟨u1, u2, fun x y hS => ?_⟩
  obtain ⟨h1, a, b, h2, h3, h4⟩ := hu x y hS
  exact ⟨h1, a, b, h2, h3, h4.trans (e x y hS)⟩

/-! ### the rational term -/

/-- `½ (b·y) log|y|` with `y` relative to `p` -/
noncomputable def ratPot (p : Vert) (b c x y : ℝ) : ℝ := 0.5 * (b * (x - p.x) + c * (y - p.y)) * logDist p x y
/-- its first partial derivative -/
noncomputable def ratPot1 (p : Vert) (b c x y : ℝ) : ℝ :=
  0.5 * ((b * (x - p.x) + c * (y - p.y)) / sq p x y) * (x - p.x) + 0.5 * b * logDist p x y
/-- its second partial derivative -/
noncomputable def ratPot2 (p : Vert) (b c x y : ℝ) : ℝ :=
  0.5 * ((b * (x - p.x) + c * (y - p.y)) / sq p x y) * (y - p.y) + 0.5 * c * logDist p x y

theorem lin_d1 (p : Vert) (b c x y : ℝ) : HasDerivAt (fun s => b * (s - p.x) + c * (y - p.y)) b x := by
  simpa using (((hasDerivAt_id x).sub_const p.x).const_mul b).add_const (c * (y - p.y))

theorem lin_d2 (p : Vert) (b c x y : ℝ) : HasDerivAt (fun s => b * (x - p.x) + c * (s - p.y)) c y := by
  simpa using (((hasDerivAt_id y).sub_const p.y).const_mul c).const_add (b * (x - p.x))

theorem ratPot_grad {p : Vert} (b c : ℝ) {x y : ℝ} (h : (x, y) ∈ away p) :
    HasGrad (ratPot p b c) x y (ratPot1 p b c x y) (ratPot2 p b c x y) := by
  have h0 := (sq_pos h).ne'
  refine ⟨(((lin_d1 p b c x y).const_mul 0.5).fun_mul (logDist_d1 h)).congr_deriv ?_,
    (((lin_d2 p b c x y).const_mul 0.5).fun_mul (logDist_d2 h)).congr_deriv ?_⟩
  · unfold ratPot1; ring
  · unfold ratPot2; ring

theorem ratPot_laplacian (p : Vert) (b c : ℝ) :
    HasLaplacian (away p) (ratPot p b c) fun x y => (b * (x - p.x) + c * (y - p.y)) / sq p x y := by
  refine ⟨ratPot1 p b c, ratPot2 p b c, fun x y h => ⟨ratPot_grad b c h, _, _,
    ((((lin_d1 p b c x y).fun_div (sq_d1 p x y) (sq_pos h).ne').const_mul 0.5).fun_mul ((hasDerivAt_id x).sub_const p.x)).fun_add
      ((logDist_d1 h).const_mul (0.5 * b)),
    ((((lin_d2 p b c x y).fun_div (sq_d2 p x y) (sq_pos h).ne').const_mul 0.5).fun_mul ((hasDerivAt_id y).sub_const p.y)).fun_add
      ((logDist_d2 h).const_mul (0.5 * c)), ?_⟩⟩
  have h0 := (sq_pos h).ne'
  simp only [id]
  field_simp
  unfold sq
  ring

/-! ### the logarithmic term -/

/-- `|y|² (log|y| - 1) / 4` -/
noncomputable def logPot (p : Vert) (x y : ℝ) : ℝ := sq p x y * (logDist p x y - 1) / 4

theorem logPot_grad {p : Vert} {x y : ℝ} (h : (x, y) ∈ away p) :
    HasGrad (logPot p) x y ((x - p.x) * (2 * logDist p x y - 1) / 4) ((y - p.y) * (2 * logDist p x y - 1) / 4) := by
  have h0 := (sq_pos h).ne'
  refine ⟨(((sq_d1 p x y).fun_mul ((logDist_d1 h).sub_const 1)).div_const 4).congr_deriv ?_,
    (((sq_d2 p x y).fun_mul ((logDist_d2 h).sub_const 1)).div_const 4).congr_deriv ?_⟩
  · field_simp; ring
  · field_simp; ring

theorem logPot_laplacian (p : Vert) : HasLaplacian (away p) (logPot p) (logDist p) := by
  refine ⟨fun x y => (x - p.x) * (2 * logDist p x y - 1) / 4, fun x y => (y - p.y) * (2 * logDist p x y - 1) / 4,
    fun x y h => ⟨logPot_grad h, _, _,
    (((hasDerivAt_id x).sub_const p.x).fun_mul (((logDist_d1 h).const_mul 2).sub_const 1)).div_const 4,
    (((hasDerivAt_id y).sub_const p.y).fun_mul (((logDist_d2 h).const_mul 2).sub_const 1)).div_const 4, ?_⟩⟩
  have h0 := (sq_pos h).ne'
  simp only [id]
  field_simp
  unfold sq
  ring

/-! ### from conjugate pairs -/

/-- `¼ (x ρ + y ρ̂)` -/
noncomputable def compPot (rho rhoHat : ℝ → ℝ → ℝ) (x y : ℝ) : ℝ := 0.25 * (x * rho x y + y * rhoHat x y)

theorem compPot_grad {S : Set (ℝ × ℝ)} {psi psiHat rho rhoHat : ℝ → ℝ → ℝ} (hr : HasGradOn S rho psi fun x y => -psiHat x y)
    (hh : HasGradOn S rhoHat psiHat psi) :
    HasGradOn S (compPot rho rhoHat) (fun x y => 0.25 * (rho x y + x * psi x y + y * psiHat x y))
      fun x y => 0.25 * (rhoHat x y + y * psi x y - x * psiHat x y) := by
  intro x y hS
  obtain ⟨r1, r2⟩ := hr x y hS
  obtain ⟨k1, k2⟩ := hh x y hS
  refine ⟨((((hasDerivAt_id x).fun_mul r1).fun_add (k1.const_mul y)).const_mul 0.25).congr_deriv ?_,
    (((r2.const_mul x).fun_add ((hasDerivAt_id y).fun_mul k2)).const_mul 0.25).congr_deriv ?_⟩ <;> simp only [id] <;> ring

theorem compPot_laplacian {S : Set (ℝ × ℝ)} {psi psiHat rho rhoHat : ℝ → ℝ → ℝ} (hc : ConjugateOn S psi psiHat)
    (hr : HasGradOn S rho psi fun x y => -psiHat x y) (hh : HasGradOn S rhoHat psiHat psi) :
    HasLaplacian S (compPot rho rhoHat) psi := by
  obtain ⟨p, q, hp, hq⟩ := hc
  refine ⟨_, _, fun x y hS => ⟨compPot_grad hr hh x y hS, _, _,
    (((hr x y hS).1.fun_add ((hasDerivAt_id x).fun_mul (hp x y hS).1)).fun_add ((hq x y hS).1.const_mul y)).const_mul 0.25,
    (((hh x y hS).2.fun_add ((hasDerivAt_id y).fun_mul (hp x y hS).2)).fun_sub ((hq x y hS).2.const_mul x)).const_mul 0.25, ?_⟩⟩
  simp only [id]
  ring

/-! ### the conjugate rational terms -/

theorem mu_conjugate (p : Vert) (b c : ℝ) :
    ConjugateOn (away p) (fun x y => (b * (x - p.x) + c * (y - p.y)) / sq p x y)
      fun x y => (c * (x - p.x) + (-b) * (y - p.y)) / sq p x y := by
  refine ⟨fun x y => (b * sq p x y - (b * (x - p.x) + c * (y - p.y)) * (2 * (x - p.x))) / sq p x y ^ 2,
    fun x y => (c * sq p x y - (b * (x - p.x) + c * (y - p.y)) * (2 * (y - p.y))) / sq p x y ^ 2, fun x y h => ⟨?_, ?_⟩,
    fun x y h => ⟨?_, ?_⟩⟩
  · exact (lin_d1 p b c x y).fun_div (sq_d1 p x y) (sq_pos h).ne'
  · exact (lin_d2 p b c x y).fun_div (sq_d2 p x y) (sq_pos h).ne'
  · refine ((lin_d1 p c (-b) x y).fun_div (sq_d1 p x y) (sq_pos h).ne').congr_deriv ?_
    beta_reduce
    rw [← neg_div]
    congr 1
    unfold sq
    ring
  · refine ((lin_d2 p c (-b) x y).fun_div (sq_d2 p x y) (sq_pos h).ne').congr_deriv ?_
    congr 1
    unfold sq
    ring

end PFEM
