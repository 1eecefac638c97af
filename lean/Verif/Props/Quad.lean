import Mathlib.Analysis.SpecialFunctions.Trigonometric.Deriv
import Mathlib.Analysis.Calculus.Deriv.Pow
import Mathlib.Analysis.Calculus.Deriv.Inv
import Verif.Model.Quad

/-!
Property theorem C21: the quadrature rules.
-/

namespace PFEM
open Quad

/-! ### specification: the sigmoidal change of variables of Kress (1990), formula (2.3) with parameter `p` -/

/-- Kress' cubic `v` -/
noncomputable def kressV (p : ℕ) (s : ℝ) : ℝ :=
  (1 / p - 1 / 2) * ((Real.pi - s) / Real.pi) ^ 3 + 1 / p * ((s - Real.pi) / Real.pi) + 1 / 2

/-- Kress' change of variables `w(s) = 2 pi v(s)^p / (v(s)^p + v(2 pi - s)^p)` -/
noncomputable def kressMap (p : ℕ) (s : ℝ) : ℝ :=
  2 * Real.pi * (kressV p s ^ p / (kressV p s ^ p + kressV p (2 * Real.pi - s) ^ p))

/-! ### the polynomial `c` -/

theorem kressC_hasDerivAt (p : ℕ) (s : ℝ) :
    HasDerivAt (kressC p) (3 * (0.5 - 1 / (p : ℝ)) * s ^ 2 + 1 / p) s := by
  have h : HasDerivAt (fun s : ℝ => (0.5 - 1 / (p : ℝ)) * s ^ 3 + s / p + 0.5)
      ((0.5 - 1 / (p : ℝ)) * ((3 : ℕ) * s ^ 2) + 1 / p) s := by
    refine HasDerivAt.add_const _ (HasDerivAt.add ?_ ((hasDerivAt_id s).div_const _))
    exact ((hasDerivAt_pow 3 s)).const_mul _
  refine HasDerivAt.congr_deriv ?_ (f' := (0.5 - 1 / (p : ℝ)) * ((3 : ℕ) * s ^ 2) + 1 / p) (by push_cast; ring)
  have e : kressC p = fun s : ℝ => (0.5 - 1 / (p : ℝ)) * s ^ 3 + s / p + 0.5 := by
    funext s; unfold kressC; ring
  rw [e]; exact h

theorem kressC_strictMono {p : ℕ} (hp : 2 ≤ p) {s r : ℝ} (h : s < r) : kressC p s < kressC p r := by
  have hp' : (2 : ℝ) ≤ p := by exact_mod_cast hp
  have h1 : 0 ≤ (0.5 - 1 / (p : ℝ)) := by
    have : 1 / (p : ℝ) ≤ 1 / 2 := one_div_le_one_div_of_le (by norm_num) hp'
    norm_num at this ⊢; linarith
  have h2 : 0 < 1 / (p : ℝ) := by positivity
  have e : kressC p r - kressC p s =
      (r - s) * ((0.5 - 1 / (p : ℝ)) * (r ^ 2 + r * s + s ^ 2) + 1 / p) := by
    unfold kressC; ring
  have h3 : 0 ≤ r ^ 2 + r * s + s ^ 2 := by nlinarith [sq_nonneg (r + s), sq_nonneg r, sq_nonneg s]
  have : 0 < kressC p r - kressC p s := by
    rw [e]; exact mul_pos (sub_pos.2 h) (add_pos_of_nonneg_of_pos (mul_nonneg h1 h3) h2)
  linarith

theorem kressC_neg_one {p : ℕ} : kressC p (-1) = 0 := by unfold kressC; ring
theorem kressC_one {p : ℕ} : kressC p 1 = 1 := by unfold kressC; ring
theorem kressC_neg (p : ℕ) (s : ℝ) : kressC p (-s) = 1 - kressC p s := by unfold kressC; ring

theorem kressC_mem {p : ℕ} (hp : 2 ≤ p) {s : ℝ} (h1 : -1 ≤ s) (h2 : s ≤ 1) :
    0 ≤ kressC p s ∧ kressC p s ≤ 1 := by
  constructor
  · rcases h1.eq_or_lt with h | h
    · rw [← h, kressC_neg_one]
    · have := kressC_strictMono hp h; rw [kressC_neg_one] at this; exact this.le
  · rcases h2.eq_or_lt with h | h
    · rw [h, kressC_one]
    · have := kressC_strictMono hp h; rw [kressC_one] at this; exact this.le

/-! ### the sigmoidal map -/

theorem denom_pos {p : ℕ} {c : ℝ} (h0 : 0 ≤ c) (h1 : c ≤ 1) : 0 < c ^ p + (1 - c) ^ p := by
  rcases h0.eq_or_lt with h | h
  · rw [← h]
    have : (0 : ℝ) ≤ 0 ^ p := by positivity
    simp only [sub_zero, one_pow]; linarith
  · have : 0 ≤ (1 - c) ^ p := pow_nonneg (by linarith) p
    have : 0 < c ^ p := pow_pos h p
    linarith

theorem sigmoid_lt {p : ℕ} (hp : p ≠ 0) {c d : ℝ} (h0 : 0 ≤ c) (h : c < d) (h1 : d ≤ 1) :
    c ^ p / (c ^ p + (1 - c) ^ p) < d ^ p / (d ^ p + (1 - d) ^ p) := by
  rw [div_lt_div_iff₀ (denom_pos h0 (h.le.trans h1)) (denom_pos (h0.trans h.le) h1)]
  have a1 : c ^ p < d ^ p := pow_lt_pow_left₀ h h0 hp
  have a2 : (1 - d) ^ p < (1 - c) ^ p := pow_lt_pow_left₀ (by linarith) (by linarith) hp
  have a3 : 0 ≤ c ^ p := pow_nonneg h0 p
  have a4 : 0 ≤ (1 - d) ^ p := pow_nonneg (by linarith) p
  have : c ^ p * (1 - d) ^ p < d ^ p * (1 - c) ^ p := by
    calc c ^ p * (1 - d) ^ p ≤ d ^ p * (1 - d) ^ p := mul_le_mul_of_nonneg_right a1.le a4
      _ < d ^ p * (1 - c) ^ p := mul_lt_mul_of_pos_left a2 (a3.trans_lt a1)
  nlinarith

theorem sigmoid_hasDerivAt {p : ℕ} (hp : p ≠ 0) {c : ℝ} (hd : c ^ p + (1 - c) ^ p ≠ 0) :
    HasDerivAt (fun c : ℝ => c ^ p / (c ^ p + (1 - c) ^ p))
      (p * (c * (1 - c)) ^ (p - 1) / (c ^ p + (1 - c) ^ p) ^ 2) c := by
  have h1 : HasDerivAt (fun c : ℝ => c ^ p) (p * c ^ (p - 1)) c := hasDerivAt_pow p c
  have h2 : HasDerivAt (fun c : ℝ => (1 - c) ^ p) (p * (1 - c) ^ (p - 1) * (-1)) c := by
    have := ((hasDerivAt_id c).const_sub 1).pow p
    exact this
  have h3 : HasDerivAt (fun c : ℝ => c ^ p + (1 - c) ^ p) (p * c ^ (p - 1) + p * (1 - c) ^ (p - 1) * (-1)) c := h1.add h2
  refine (h1.div h3 hd).congr_deriv ?_
  obtain ⟨q, rfl⟩ := Nat.exists_eq_succ_of_ne_zero hp
  simp only [Nat.succ_eq_add_one, Nat.add_sub_cancel, mul_pow]
  congr 1
  ring

/-- parameter range -/
theorem kressS_mem {t : ℝ} (h0 : 0 ≤ t) (h1 : t ≤ 2 * Real.pi) : -1 ≤ kressS t ∧ kressS t ≤ 1 := by
  have hpi := Real.pi_pos
  have a : 0 ≤ t / Real.pi := by positivity
  have b : t / Real.pi ≤ 2 := by rw [div_le_iff₀ hpi]; exact h1
  unfold kressS; constructor <;> linarith

theorem kressT_hasDerivAt (p : ℕ) (hp : 2 ≤ p) (t : ℝ) (h0 : 0 ≤ t) (h1 : t ≤ 2 * Real.pi) :
    HasDerivAt (kressT p) (kressW p t) t := by
  have hpi := Real.pi_pos
  have hp0 : (p : ℝ) ≠ 0 := by positivity
  obtain ⟨s0, s1⟩ := kressS_mem h0 h1
  obtain ⟨c0, c1⟩ := kressC_mem hp s0 s1
  have hS : HasDerivAt kressS (1 / Real.pi) t := ((hasDerivAt_id t).div_const _).sub_const 1
  have hC := (kressC_hasDerivAt p (kressS t)).comp t hS
  have hd := (denom_pos (p := p) c0 c1).ne'
  have hT := ((sigmoid_hasDerivAt (p := p) (by omega) hd).comp t hC).const_mul (2 * Real.pi)
  have e : kressT p = fun t => 2 * Real.pi * ((fun c : ℝ => c ^ p / (c ^ p + (1 - c) ^ p)) ∘ (kressC p ∘ kressS)) t := by
    ext t; simp only [kressT, Function.comp]; ring
  rw [e]
  refine hT.congr_deriv ?_
  unfold kressW
  dsimp only
  clear hT hC hS e
  generalize kressC p (kressS t) = c at *
  generalize kressS t = s at *
  generalize c ^ p + (1 - c) ^ p = D at *
  generalize (c * (1 - c)) ^ (p - 1) = E
  field_simp
  norm_num
  ring

/-- the j-th equispaced node -/
theorem nodes_getElem (n j : ℕ) (hj : j < 2 * n + 1) :
    (nodes n)[j]? = some ((j : ℝ) * (2 * Real.pi / (2 * n : ℕ))) := by
  unfold nodes; simp [hj]

theorem node_range {n j : ℕ} (hn : 4 ≤ n) (hj : j ≤ 2 * n) :
    0 ≤ (j : ℝ) * (2 * Real.pi / (2 * n : ℕ)) ∧ (j : ℝ) * (2 * Real.pi / (2 * n : ℕ)) ≤ 2 * Real.pi := by
  have hpi := Real.pi_pos
  have hN : (0 : ℝ) < (2 * n : ℕ) := by exact_mod_cast (by omega : 0 < 2 * n)
  refine ⟨by positivity, ?_⟩
  rw [mul_div_assoc', div_le_iff₀ hN]
  have : (j : ℝ) ≤ (2 * n : ℕ) := by exact_mod_cast hj
  nlinarith

theorem kressT_eq (p : ℕ) : kressT p = kressMap p := by
  have hpi := Real.pi_pos.ne'
  have e1 : ∀ t, kressV p t = kressC p (kressS t) := by
    intro t
    unfold kressV kressC kressS
    field_simp
    norm_num
    ring
  have e2 : ∀ t, kressV p (2 * Real.pi - t) = 1 - kressC p (kressS t) := by
    intro t
    rw [e1, ← kressC_neg]
    congr 1
    unfold kressS
    field_simp
    ring
  funext t
  simp only [kressT, kressMap]
  rw [e2, e1]
  ring

/-- C21 (a): the Kress nodes are the images of the equispaced nodes under Kress' change of variables, and the weights
are its derivative there. -/
theorem C21_weight_is_derivative (n p : ℕ) (hn : 4 ≤ n) (hp : 2 ≤ p) :
    ∃ q, Quad.init "kress" n p = .ok q ∧ ∀ j ≤ 2 * n,
      q.t[j]? = some (kressMap p (j * (Real.pi / n))) ∧
      ∃ w, q.wgt[j]? = some w ∧ HasDerivAt (kressMap p) w (j * (Real.pi / n)) := by
  have hn' : ¬ ((n : ℤ) < 4) := by omega
  have hp' : ¬ ((p : ℤ) < 2) := by omega
  have hn0 : (n : ℝ) ≠ 0 := by positivity
  refine ⟨⟨"kress", n, Real.pi / n, (nodes n).map (kressT p), (nodes n).map (kressW p)⟩,
    by simp [Quad.init, hn', hp'], fun j hj => ?_⟩
  have e : (j : ℝ) * (2 * Real.pi / (2 * n : ℕ)) = j * (Real.pi / n) := by
    push_cast; field_simp
  obtain ⟨h0, h1⟩ := node_range hn hj
  have hd := kressT_hasDerivAt p hp _ h0 h1
  simp only [List.getElem?_map, nodes_getElem n j (by omega), Option.map_some]
  rw [e] at hd ⊢
  rw [kressT_eq] at hd ⊢
  exact ⟨rfl, _, rfl, hd⟩

/-- C21 (b): which arguments are rejected, and what an unknown type string gives. -/
theorem C21_validation (qtype : String) (n p : ℤ) :
    (Quad.init qtype n p = .error .valueError ↔ n < 4 ∨ (qtype = "kress" ∧ p < 2)) ∧
    ((∃ q, Quad.init qtype n p = .ok q) ↔ 4 ≤ n ∧ (qtype = "kress" → 2 ≤ p)) := by
  by_cases hn : n < 4
  · simp [Quad.init, hn]
  · by_cases hk : qtype = "kress"
    · by_cases hp : p < 2
      · simp [Quad.init, hn, hk, hp]
      · simp [Quad.init, hn, hk, hp, not_lt.1 hp, not_lt.1 hn]
    · by_cases hm : qtype = "mart"
      · simp [Quad.init, hn, hm, not_lt.1 hn]
      · simp [Quad.init, hn, hk, hm, not_lt.1 hn]

/-- C21 (c): trapezoid rule, also for every unknown type string: equispaced nodes with unit weights. -/
theorem C21_trap (qtype : String) (n : ℕ) (p : ℤ) (hn : 4 ≤ n) (hk : qtype ≠ "kress") (hm : qtype ≠ "mart") :
    ∃ q, Quad.init qtype n p = .ok q ∧ q.n = n ∧ q.t.length = 2 * n + 1 ∧ q.wgt.length = 2 * n + 1 ∧
      ∀ j ≤ 2 * n, q.t[j]? = some (j * q.h) ∧ q.wgt[j]? = some 1 ∧ q.h = Real.pi / n := by
  have hn' : ¬ ((n : ℤ) < 4) := by omega
  refine ⟨⟨qtype, n, Real.pi / n, nodes n, List.replicate (2 * n + 1) 1⟩,
    by simp [Quad.init, hn', hk, hm], rfl, by simp [nodes], by simp, ?_⟩
  intro j hj
  refine ⟨?_, ?_, rfl⟩
  · rw [nodes_getElem _ _ (by omega)]
    have : (n : ℝ) ≠ 0 := by positivity
    simp only [Option.some.injEq]
    push_cast; field_simp
  · rw [List.getElem?_replicate, if_pos (by omega)]

/-- C21 (d): Kress nodes and weights. There are `2n+1` of each; node 0 is 0, the last node is `2 pi`, nodes are
strictly increasing and symmetric about `pi`; weights are symmetric, positive inside and zero exactly at both ends. -/
theorem C21_kress (n p : ℕ) (hn : 4 ≤ n) (hp : 2 ≤ p) :
    ∃ q, Quad.init "kress" n p = .ok q ∧ q.n = n ∧ q.t.length = 2 * n + 1 ∧ q.wgt.length = 2 * n + 1 ∧
      q.t[0]? = some 0 ∧ q.t[2 * n]? = some (2 * Real.pi) ∧
      q.t.Pairwise (· < ·) ∧
      (∀ j ≤ 2 * n, ∃ a b, q.t[j]? = some a ∧ q.t[2 * n - j]? = some b ∧ a + b = 2 * Real.pi) ∧
      (∀ j ≤ 2 * n, ∃ a, q.wgt[j]? = some a ∧ q.wgt[2 * n - j]? = some a ∧ 0 ≤ a ∧
        (a = 0 ↔ j = 0 ∨ j = 2 * n)) := by
  have hn' : ¬ ((n : ℤ) < 4) := by omega
  have hp' : ¬ ((p : ℤ) < 2) := by omega
  have hpi := Real.pi_pos
  have hN : (0 : ℝ) < (2 * n : ℕ) := by exact_mod_cast (by omega : 0 < 2 * n)
  have hp0 : p ≠ 0 := by omega
  set x : ℕ → ℝ := fun j => (j : ℝ) * (2 * Real.pi / (2 * n : ℕ)) with hx
  have hS : ∀ j, kressS (x j) = 2 * (j : ℝ) / (2 * n : ℕ) - 1 := by
    intro j; simp only [hx, kressS]; field_simp
  have hsym : ∀ j ≤ 2 * n, kressS (x (2 * n - j)) = - kressS (x j) := by
    intro j hj
    rw [hS, hS, Nat.cast_sub hj]
    field_simp; ring
  have hmem : ∀ j ≤ 2 * n, 0 ≤ kressC p (kressS (x j)) ∧ kressC p (kressS (x j)) ≤ 1 := by
    intro j hj
    obtain ⟨h1, h2⟩ := node_range hn hj
    obtain ⟨h3, h4⟩ := kressS_mem h1 h2
    exact kressC_mem hp h3 h4
  have hlt : ∀ i j : ℕ, i < j → kressC p (kressS (x i)) < kressC p (kressS (x j)) := by
    intro i j hij
    apply kressC_strictMono hp
    rw [hS, hS]
    have : (i : ℝ) < j := by exact_mod_cast hij
    have : 2 * (i : ℝ) / (2 * n : ℕ) < 2 * (j : ℝ) / (2 * n : ℕ) :=
      div_lt_div_of_pos_right (by linarith) hN
    linarith
  have hget : ∀ j ≤ 2 * n, (nodes n)[j]? = some (x j) := fun j hj => nodes_getElem n j (by omega)
  have h0 : kressC p (kressS (x 0)) = 0 := by
    have : kressS (x 0) = -1 := by rw [hS]; simp
    rw [this, kressC_neg_one]
  have h1 : kressC p (kressS (x (2 * n))) = 1 := by
    have : kressS (x (2 * n)) = 1 := by rw [hS]; field_simp; norm_num
    rw [this, kressC_one]
  refine ⟨⟨"kress", n, Real.pi / n, (nodes n).map (kressT p), (nodes n).map (kressW p)⟩,
    by simp [Quad.init, hn', hp'], rfl, by simp [nodes], by simp [nodes], ?_, ?_, ?_, ?_, ?_⟩
  · simp only [List.getElem?_map, hget 0 (by omega), Option.map_some, kressT, h0, Option.some.injEq]
    simp [hp0]
  · simp only [List.getElem?_map, hget (2 * n) le_rfl, Option.map_some, kressT, h1, Option.some.injEq]
    simp [hp0]
  · rw [List.pairwise_map]
    unfold nodes
    rw [List.pairwise_map]
    refine List.Pairwise.imp_of_mem ?_ List.pairwise_lt_range
    intro i j hi hj hij
    rw [List.mem_range] at hi hj
    have := sigmoid_lt hp0 (hmem i (by omega)).1 (hlt i j hij) (hmem j (by omega)).2
    have := mul_lt_mul_of_pos_left this (by positivity : (0 : ℝ) < 2 * Real.pi)
    rw [mul_div_assoc', mul_div_assoc'] at this
    exact this
  · intro j hj
    refine ⟨_, _, by simp only [List.getElem?_map, hget j hj, Option.map_some]; rfl,
      by simp only [List.getElem?_map, hget (2 * n - j) (by omega), Option.map_some]; rfl, ?_⟩
    have hd := (denom_pos (p := p) (hmem j hj).1 (hmem j hj).2).ne'
    simp only [kressT, hsym j hj, kressC_neg]
    generalize kressC p (kressS (x j)) = c at *
    have hd2 : (1 - c) ^ p + (1 - (1 - c)) ^ p ≠ 0 := by
      rw [sub_sub_cancel, add_comm]; exact hd
    rw [sub_sub_cancel] at hd2 ⊢
    rw [add_comm ((1 - c) ^ p)]
    rw [← add_div, ← mul_add, mul_div_assoc, div_self hd, mul_one]
  · intro j hj
    have hd := denom_pos (p := p) (hmem j hj).1 (hmem j hj).2
    have hf : 0 < 3 * ((p : ℝ) - 2) * (kressS (x j) * kressS (x j)) + 2 := by
      have : (2 : ℝ) ≤ p := by exact_mod_cast hp
      have : 0 ≤ 3 * ((p : ℝ) - 2) * (kressS (x j) * kressS (x j)) :=
        mul_nonneg (by linarith) (mul_self_nonneg _)
      linarith
    refine ⟨_, by simp only [List.getElem?_map, hget j hj, Option.map_some]; rfl, ?_, ?_, ?_⟩
    · simp only [List.getElem?_map, hget (2 * n - j) (by omega), Option.map_some, Option.some.injEq]
      simp only [kressW, hsym j hj, kressC_neg]
      generalize kressC p (kressS (x j)) = c
      rw [sub_sub_cancel, add_comm ((1 - c) ^ p), neg_mul_neg, mul_comm (1 - c) c]
    · have := hmem j hj
      unfold kressW
      have : 0 ≤ (kressC p (kressS (x j)) * (1 - kressC p (kressS (x j)))) ^ (p - 1) :=
        pow_nonneg (mul_nonneg this.1 (by linarith)) _
      positivity
    · constructor
      · intro h
        by_contra hc
        push Not at hc
        have a1 : 0 < kressC p (kressS (x j)) := by
          rw [← h0]; exact hlt 0 j (by omega)
        have a2 : kressC p (kressS (x j)) < 1 := by
          rw [← h1]; exact hlt j (2 * n) (by omega)
        have : 0 < kressW p (x j) := by
          unfold kressW
          have : 0 < (kressC p (kressS (x j)) * (1 - kressC p (kressS (x j)))) ^ (p - 1) :=
            pow_pos (mul_pos a1 (by linarith)) _
          positivity
        exact this.ne' h
      · have hp1 : p - 1 ≠ 0 := by omega
        rintro (rfl | rfl)
        · simp [kressW, h0, hp1]
        · simp [kressW, h1, hp1]

/-- the default rule is covered -/
example : (4 : ℕ) ≤ 16 ∧ (2 : ℕ) ≤ 7 := by decide

/-- C21 (e): `get_quad_dict` succeeds exactly for `n >= 4` and `p >= 2` and returns the two rules under these names. -/
theorem C21_dict (n p : ℤ) :
    ((∃ d, getQuadDict n p = .ok d) ↔ 4 ≤ n ∧ 2 ≤ p) ∧
    ∀ d, getQuadDict n p = .ok d → Quad.init "trap" n 7 = .ok d.1 ∧ Quad.init "kress" n p = .ok d.2 ∧
      d.1.type = "trap" ∧ d.2.type = "kress" := by
  by_cases hn : n < 4
  · simp [getQuadDict, Quad.init, hn, bind, Except.bind]
  · by_cases hp : p < 2
    · simp [getQuadDict, Quad.init, hn, hp, bind, Except.bind]
    · simp [getQuadDict, Quad.init, hn, hp, bind, Except.bind, not_lt.1 hn, not_lt.1 hp]

end PFEM
