import Verif.Spec.PolyEval
import Verif.Props.Barycentric
import Mathlib.Tactic.LinearCombination

namespace PFEM
open Poly

/-! ### exactness of the coordinates on horizontal edges -/

/-- multiples of `γ` for the constant term, of `a` for `x`, and of `b` for the others -/
def lat3 (γ a b : ℝ) : MultiIndex → AddSubgroup ℝ := fun m =>
  if m = ⟨0, 0⟩ then AddSubgroup.zmultiples γ else if m = ⟨1, 0⟩ then AddSubgroup.zmultiples a else AddSubgroup.zmultiples b

theorem sep_lat3 {γ a b : ℝ} (h1 : tol ℝ ≤ γ) (h2 : tol ℝ ≤ a) (h3 : tol ℝ ≤ b) : Sep (lat3 γ a b) := by
  intro m c hc
  unfold lat3 at hc
  split at hc
  · exact lat_clean h1 (mem_zm.1 hc)
  · split at hc
    · exact lat_clean h2 (mem_zm.1 hc)
    · exact lat_clean h3 (mem_zm.1 hc)

theorem lat3_mul {γ a b γ' a' b' δ : ℝ} (c : ℝ) (hc : ∃ n : ℤ, c = n * δ) (h1 : γ' = γ * δ) (h2 : a' = a * δ)
    (h3 : b' = b * δ) (m : MultiIndex) (d : ℝ) (hd : d ∈ lat3 γ a b m) : d * c ∈ lat3 γ' a' b' m := by
  obtain ⟨n, rfl⟩ := hc
  have key : ∀ u u' : ℝ, u' = u * δ → d ∈ AddSubgroup.zmultiples u → d * (n * δ) ∈ AddSubgroup.zmultiples u' := by
    intro u u' hu h
    obtain ⟨k, rfl⟩ := mem_zm.1 h
    exact mem_zm.2 ⟨k * n, by rw [hu]; push_cast; ring⟩
  unfold lat3 at *
  split at hd
  · rename_i h; rw [if_pos h]; exact key _ _ h1 hd
  · rename_i h
    rw [if_neg h]
    split at hd
    · rename_i h'; rw [if_pos h']; exact key _ _ h2 hd
    · rename_i h'; rw [if_neg h']; exact key _ _ h3 hd

theorem ellP_exact_rect (zj p n : ℝ × ℝ) (h α β : ℝ) (hα : 0 < α) (hβ : 0 < β) (t1 : tol ℝ ≤ α) (t2 : tol ℝ ≤ β)
    (t3 : tol ℝ ≤ α / β) (t4 : tol ℝ ≤ β / α) (t5 : tol ℝ ≤ α * β) (hh : 0 < h) (t6 : tol ℝ ≤ α * β / h)
    (t7 : tol ℝ ≤ β / h) (t8 : tol ℝ ≤ α / h) (hj : (∃ k : ℤ, zj.1 = k * α) ∧ ∃ k : ℤ, zj.2 = k * β)
    (hp : (∃ k : ℤ, p.1 = k * α) ∧ ∃ k : ℤ, p.2 = k * β) (hn : (∃ k : ℤ, n.1 = k * α) ∧ ∃ k : ℤ, n.2 = k * β)
    (hN : ∃ k : ℤ, h = k * (α * β)) (x y : ℝ) :
    eval (ellP zj p n h) x y = 1 - ((x - zj.1) * (p.2 - n.2) - (y - zj.2) * (p.1 - n.1)) / h := by
  have SX : Sep (lat3 α 1 (α / β)) := sep_lat3 t1 tol_lt_one.le t3
  have SY : Sep (lat3 β (β / α) 1) := sep_lat3 t2 t4 tol_lt_one.le
  have SB : Sep (lat3 (α * β) β α) := sep_lat3 t5 t2 t1
  have SC : Sep (lat3 (α * β / h) (β / h) (α / h)) := sep_lat3 t6 t7 t8
  have neg : ∀ δ c : ℝ, (∃ n : ℤ, c = n * δ) → ∃ n : ℤ, -1 * c = n * δ := by
    rintro δ c ⟨n, rfl⟩; exact ⟨-n, by push_cast; ring⟩
  have ic : ∀ δ a b c : ℝ, (∃ n : ℤ, c = n * δ) → InA (lat3 δ a b) [⟨⟨0, 0⟩, c⟩] := by
    intro δ a b c hc m hm; simp at hm; subst hm
    simpa [lat3] using mem_zm.2 hc
  have ix : InA (lat3 α 1 (α / β)) [⟨⟨1, 0⟩, 1⟩] := by
    intro m hm; simp at hm; subst hm
    simp [lat3]
  have iy : InA (lat3 β (β / α) 1) [⟨⟨0, 1⟩, 1⟩] := by
    intro m hm; simp at hm; subst hm
    simp [lat3]
  obtain ⟨ea, ia⟩ := add_A SX ix (ic _ _ _ _ (neg _ _ hj.1))
  obtain ⟨eb, ib⟩ := add_A SY iy (ic _ _ _ _ (neg _ _ hj.2))
  obtain ⟨esa, isa⟩ := smul_A SB ia (p.2 - n.2) (lat3_mul _ (mul_sub_lat hp.2 hn.2) rfl (by ring) (by field_simp))
  obtain ⟨esb, isb⟩ := smul_A SB ib (p.1 - n.1) (lat3_mul _ (mul_sub_lat hp.1 hn.1) (by ring) (by field_simp) (by ring))
  obtain ⟨en, inn⟩ := smul_A SB isb (-1) (lat3_mul (δ := 1) _ ⟨-1, by simp⟩ (by ring) (by ring) (by ring))
  obtain ⟨es, is⟩ := add_A SB isa inn
  obtain ⟨et, it⟩ := smul_A SC is (-1 / h) (lat3_mul (δ := 1 / h) _ ⟨-1, by push_cast; ring⟩ (by ring) (by ring) (by ring))
  have i1 : InA (lat3 (α * β / h) (β / h) (α / h)) [⟨⟨0, 0⟩, 1⟩] := by
    refine ic _ _ _ _ ?_
    obtain ⟨k, hk⟩ := hN
    exact ⟨k, by rw [mul_div_assoc', ← hk, div_self hh.ne']⟩
  obtain ⟨er, -⟩ := iadd_A SC it i1
  have ec : ∀ c : ℝ, eval [⟨⟨0, 0⟩, c⟩] x y = c := by intro c; simp [eval_cons, eval_nil, Mono.eval_eq]
  have ex : eval ([⟨⟨1, 0⟩, 1⟩] : Poly ℝ) x y = x := by simp [eval_cons, eval_nil, Mono.eval_eq]
  have ey : eval ([⟨⟨0, 1⟩, 1⟩] : Poly ℝ) x y = y := by simp [eval_cons, eval_nil, Mono.eval_eq]
  unfold ellP
  rw [eval_toMv]
  unfold sub
  rw [er, et, es, esa, en, esb, ea, eb]
  simp only [map_add, map_mul, MvPolynomial.eval_C, ← eval_toMv, ec, ex, ey]
  ring

theorem r32_bounds : 4 / 5 ≤ root3over2 ∧ root3over2 ≤ 1 := by
  unfold root3over2
  constructor
  · have : (8 / 5 : ℝ) ≤ Real.sqrt 3 := Real.le_sqrt_of_sq_le (by norm_num)
    linarith
  · have : Real.sqrt 3 ≤ 2 := Real.sqrt_le_iff.2 (by norm_num)
    linarith

theorem horizontal_exact {l : ℝ} (h0 : 1 / 10 ^ 5 ≤ l) (h1 : l ≤ 10 ^ 5) : ExactCoords (0, 0) (l, 0) := by
  obtain ⟨r0, r1⟩ := r32_bounds
  have hl : 0 < l := lt_of_lt_of_le (by norm_num) h0
  set r := root3over2 with hr
  have hz0 : edgeTriangle (0, 0) (l, 0) 0 = (0, 0) := rfl
  have hz1 : edgeTriangle (0, 0) (l, 0) 1 = (l, 0) := rfl
  have hz2 : edgeTriangle (0, 0) (l, 0) 2 = (l / 2, r * l) := by
    simp [edgeTriangle, ← hr]; norm_num; ring
  have ho : orient (edgeTriangle (0, 0) (l, 0) 0) (edgeTriangle (0, 0) (l, 0) 1) (edgeTriangle (0, 0) (l, 0) 2) = r * l * l := by
    rw [hz0, hz1, hz2]; unfold orient; ring
  have hpos : 0 < r * l * l := by positivity
  have hs : Real.sqrt ((((l, 0) : ℝ × ℝ).1 - ((0, 0) : ℝ × ℝ).1) ^ 2 + (((l, 0) : ℝ × ℝ).2 - ((0, 0) : ℝ × ℝ).2) ^ 2) = l := by
    simp only [sub_zero]
    rw [show l ^ 2 + (0 : ℝ) ^ 2 = l ^ 2 by ring, Real.sqrt_sq hl.le]
  have hl5 : (1 : ℝ) / 10 ^ 12 ≤ l := le_trans (by norm_num) h0
  obtain ⟨-, hd, -⟩ := C15_edge (0, 0) (l, 0) (by rw [hs]; exact hl5)
  have hdist : ∀ j, tol ℝ ≤ baryDist (edgeTriangle (0, 0) (l, 0)) j := by
    intro j
    unfold baryDist
    rw [hd j (j - 1) (by fin_cases j <;> decide), hs]
    exact hl5
  have hH : baryH (edgeTriangle (0, 0) (l, 0)) = r * l * l := by rw [baryH_eq, ho, abs_of_pos hpos]
  refine ⟨_, _, _, barycentric_ok hdist (by rw [ho]; exact hpos.ne'), ?_⟩
  have g0 : (∃ k : ℤ, ((0, 0) : ℝ × ℝ).1 = k * (l / 2)) ∧ ∃ k : ℤ, ((0, 0) : ℝ × ℝ).2 = k * (r * l) :=
    ⟨⟨0, by simp⟩, 0, by simp⟩
  have g1 : (∃ k : ℤ, ((l, 0) : ℝ × ℝ).1 = k * (l / 2)) ∧ ∃ k : ℤ, ((l, 0) : ℝ × ℝ).2 = k * (r * l) :=
    ⟨⟨2, by push_cast; ring⟩, 0, by simp⟩
  have g2 : (∃ k : ℤ, ((l / 2, r * l) : ℝ × ℝ).1 = k * (l / 2)) ∧ ∃ k : ℤ, ((l / 2, r * l) : ℝ × ℝ).2 = k * (r * l) :=
    ⟨⟨1, by simp⟩, 1, by simp⟩
  have hab : l / 2 * (r * l) = r * l * l / 2 := by ring
  have ht : tol ℝ = 1 / 10 ^ 12 := rfl
  have hll : (1 : ℝ) / 10 ^ 10 ≤ l * l := by nlinarith
  have key : ∀ zj p n : ℝ × ℝ, ((∃ k : ℤ, zj.1 = k * (l / 2)) ∧ ∃ k : ℤ, zj.2 = k * (r * l)) →
      ((∃ k : ℤ, p.1 = k * (l / 2)) ∧ ∃ k : ℤ, p.2 = k * (r * l)) →
      ((∃ k : ℤ, n.1 = k * (l / 2)) ∧ ∃ k : ℤ, n.2 = k * (r * l)) → ∀ x y,
      eval (ellP zj p n (r * l * l)) x y = 1 - ((x - zj.1) * (p.2 - n.2) - (y - zj.2) * (p.1 - n.1)) / (r * l * l) := by
    intro zj p n a b c x y
    refine ellP_exact_rect zj p n _ (l / 2) (r * l) (by positivity) (by positivity) ?_ ?_ ?_ ?_ ?_ hpos ?_ ?_ ?_ a b c
      ⟨2, by rw [hab]; push_cast; ring⟩ x y <;> rw [ht]
    · refine le_trans ?_ (div_le_div_of_nonneg_right h0 (by norm_num)); norm_num
    · nlinarith
    · rw [le_div_iff₀ (by positivity)]; nlinarith
    · rw [le_div_iff₀ (by positivity)]; nlinarith
    · rw [hab]; nlinarith
    · rw [hab, div_right_comm, div_self hpos.ne']; norm_num
    · rw [div_mul_cancel_left₀ (by positivity), ← one_div, le_div_iff₀ hl]
      calc 1 / 10 ^ 12 * l ≤ 1 / 10 ^ 12 * 10 ^ 5 := by gcongr
        _ ≤ 1 := by norm_num
    · rw [show l / 2 / (r * l * l) = 1 / (2 * (r * l)) by field_simp, le_div_iff₀ (by positivity)]
      calc 1 / 10 ^ 12 * (2 * (r * l)) ≤ 1 / 10 ^ 12 * (2 * (1 * 10 ^ 5)) := by gcongr
        _ ≤ 1 := by norm_num
  intro j x y
  rw [hH, hz0, hz1, hz2]
  unfold baryCoord
  rw [ho]
  fin_cases j
  · change eval (ellP _ _ _ _) x y = orient (x, y) (edgeTriangle (0, 0) (l, 0) 1) (edgeTriangle (0, 0) (l, 0) 2) / _
    rw [key _ _ _ g0 g2 g1, hz1, hz2]; unfold orient; field_simp; ring
  · change eval (ellP _ _ _ _) x y = orient (x, y) (edgeTriangle (0, 0) (l, 0) 2) (edgeTriangle (0, 0) (l, 0) 0) / _
    rw [key _ _ _ g1 g0 g2, hz0, hz2]; unfold orient; field_simp; ring
  · change eval (ellP _ _ _ _) x y = orient (x, y) (edgeTriangle (0, 0) (l, 0) 0) (edgeTriangle (0, 0) (l, 0) 1) / _
    rw [key _ _ _ g2 g1 g0, hz0, hz1]; unfold orient; field_simp; ring

end PFEM
