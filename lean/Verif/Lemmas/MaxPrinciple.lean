import Mathlib.Analysis.Calculus.DerivativeTest
import Verif.Spec.RingEnergy

/-!
The maximum principle for functions with a Laplacian, and uniqueness of solutions of Poisson problems.
-/

namespace PFEM

/-- at a maximum the second derivative is not positive -/
theorem second_le {f f' : ℝ → ℝ} {x l : ℝ} (h : ∀ᶠ t in nhds x, HasDerivAt f (f' t) t) (h' : HasDerivAt f' l x) (hm : IsLocalMax f x) : l ≤ 0 := by
  by_contra hl
  push Not at hl
  have e : deriv f =ᶠ[nhds x] f' := h.mono fun t ht => ht.deriv
  have hd : deriv f x = 0 := hm.deriv_eq_zero
  have hdd : deriv (deriv f) x = l := by rw [e.deriv_eq, h'.deriv]
  have hmin : IsLocalMin f x := isLocalMin_of_deriv_deriv_pos (by rw [hdd]; exact hl) hd h.self_of_nhds.continuousAt
  have hc : f =ᶠ[nhds x] fun _ => f x := by
    filter_upwards [hm, hmin] with t h1 h2 using le_antisymm h1 h2
  have h0 : deriv (deriv f) x = 0 := by
    rw [hc.deriv.deriv_eq]
    simp
  rw [hdd] at h0
  exact hl.ne' h0

/-- a function that is continuous on a compact set, has a nonnegative Laplacian in an open part of it and is at most 0 on the rest is at most 0 -/
theorem max_principle {S C : Set (ℝ × ℝ)} (hS : IsOpen S) (hC : IsCompact C) (hSC : S ⊆ C) {w f : ℝ → ℝ → ℝ} (hw : HasLaplacian S w f)
    (hc : ContinuousOn (fun q : ℝ × ℝ => w q.1 q.2) C) (hf : ∀ x y, (x, y) ∈ S → 0 ≤ f x y) (hb : ∀ x y, (x, y) ∈ C → (x, y) ∉ S → w x y ≤ 0) :
    ∀ x y, (x, y) ∈ C → w x y ≤ 0 := by
  obtain ⟨R, hR⟩ := hC.exists_bound_of_continuousOn (f := fun q : ℝ × ℝ => q.1 ^ 2 + q.2 ^ 2) (by fun_prop)
  obtain ⟨w1, w2, hL⟩ := hw
  have key : ∀ ε > 0, ∀ x y, (x, y) ∈ C → w x y + ε * (x ^ 2 + y ^ 2) ≤ ε * R := by
    intro ε hε x y hxy
    obtain ⟨⟨m1, m2⟩, hm, hmax⟩ := hC.exists_isMaxOn ⟨_, hxy⟩ (f := fun q : ℝ × ℝ => w q.1 q.2 + ε * (q.1 ^ 2 + q.2 ^ 2)) (hc.add (by fun_prop))
    refine (hmax hxy).trans ?_
    have hRm := (le_abs_self _).trans (hR _ hm)
    dsimp only at hRm ⊢
    by_cases hmS : (m1, m2) ∈ S
    · exfalso
      obtain ⟨-, l1, l2, k1, k2, k3⟩ := hL m1 m2 hmS
      have n1 : ∀ᶠ t in nhds m1, (t, m2) ∈ S := (Continuous.prodMk_left m2).continuousAt.preimage_mem_nhds (hS.mem_nhds hmS)
      have n2 : ∀ᶠ t in nhds m2, (m1, t) ∈ S := (Continuous.prodMk_right m1).continuousAt.preimage_mem_nhds (hS.mem_nhds hmS)
      have sq : ∀ c t : ℝ, HasDerivAt (fun t => ε * (t ^ 2 + c)) (ε * (2 * t)) t := fun c t => by
        simpa using ((hasDerivAt_pow 2 t).add_const c).const_mul ε
      have sq' : ∀ c t : ℝ, HasDerivAt (fun t => ε * (c + t ^ 2)) (ε * (2 * t)) t := fun c t => by
        simpa using ((hasDerivAt_pow 2 t).const_add c).const_mul ε
      have lin : ∀ t : ℝ, HasDerivAt (fun t => ε * (2 * t)) (ε * 2) t := fun t => by
        simpa using ((hasDerivAt_id t).const_mul 2).const_mul ε
      have s1 : l1 + ε * 2 ≤ 0 := second_le (f := fun t => w t m2 + ε * (t ^ 2 + m2 ^ 2)) (f' := fun t => w1 t m2 + ε * (2 * t))
        (n1.mono fun t ht => (hL t m2 ht).1.1.fun_add (sq _ t)) (k1.fun_add (lin m1)) (n1.mono fun t ht => hmax (hSC ht))
      have s2 : l2 + ε * 2 ≤ 0 := second_le (f := fun t => w m1 t + ε * (m1 ^ 2 + t ^ 2)) (f' := fun t => w2 m1 t + ε * (2 * t))
        (n2.mono fun t ht => (hL m1 t ht).1.2.fun_add (sq' _ t)) (k2.fun_add (lin m2)) (n2.mono fun t ht => hmax (hSC ht))
      have := hf m1 m2 hmS
      linarith
    · have := hb m1 m2 hm hmS
      nlinarith
  intro x y hxy
  by_contra hpos
  push Not at hpos
  have h1 : ∀ ε > 0, w x y ≤ ε * R := fun ε hε => by
    have := key ε hε x y hxy
    nlinarith [pow_two_nonneg x, pow_two_nonneg y]
  have hR0 : 0 < R := by
    have := h1 1 one_pos
    linarith
  have := h1 (w x y / (2 * R)) (by positivity)
  have e : w x y / (2 * R) * R = w x y / 2 := by field_simp
  linarith

theorem HasLaplacian.fun_sub {S : Set (ℝ × ℝ)} {u v f g : ℝ → ℝ → ℝ} (h : HasLaplacian S u f) (k : HasLaplacian S v g) :
    HasLaplacian S (fun x y => u x y - v x y) fun x y => f x y - g x y := by
  obtain ⟨u1, u2, hu⟩ := h
  obtain ⟨v1, v2, hv⟩ := k
  refine ⟨fun x y => u1 x y - v1 x y, fun x y => u2 x y - v2 x y, fun x y hS => ?_⟩
  obtain ⟨h1, a, b, h2, h3, h4⟩ := hu x y hS
  obtain ⟨k1, c, d, k2, k3, k4⟩ := hv x y hS
  exact ⟨⟨h1.1.fun_sub k1.1, h1.2.fun_sub k1.2⟩, a - c, b - d, h2.fun_sub k2, h3.fun_sub k3, by beta_reduce; rw [← h4, ← k4]; ring⟩

/-- a Poisson problem has at most one solution that is continuous up to the boundary -/
theorem poisson_unique {S C : Set (ℝ × ℝ)} (hS : IsOpen S) (hC : IsCompact C) (hSC : S ⊆ C) {v w f : ℝ → ℝ → ℝ} (hv : HasLaplacian S v f)
    (hw : HasLaplacian S w f) (cv : ContinuousOn (fun q : ℝ × ℝ => v q.1 q.2) C) (cw : ContinuousOn (fun q : ℝ × ℝ => w q.1 q.2) C)
    (hb : ∀ x y, (x, y) ∈ C → (x, y) ∉ S → v x y = w x y) : ∀ x y, (x, y) ∈ C → v x y = w x y := by
  intro x y hxy
  have h1 := max_principle hS hC hSC (hv.fun_sub hw) (cv.sub cw) (fun _ _ _ => by simp) (fun x y h h' => by rw [hb x y h h', sub_self]) x y hxy
  have h2 := max_principle hS hC hSC (hw.fun_sub hv) (cw.sub cv) (fun _ _ _ => by simp) (fun x y h h' => by rw [hb x y h h', sub_self]) x y hxy
  linarith

end PFEM
