import Mathlib.Tactic.Linarith
import Mathlib.Tactic.Ring
import Mathlib.Tactic.NormNum
import Mathlib.Analysis.Real.Sqrt
import Verif.Model.MultiIndex

namespace PFEM
namespace MultiIndex

theorem two_tri (t : ℕ) : 2 * (t * (t + 1) / 2) = t * (t + 1) :=
  Nat.mul_div_cancel' (Nat.even_mul_succ_self t).two_dvd

theorem two_idx (a : MultiIndex) : 2 * a.idx = 2 * a.y + a.order * (a.order + 1) := by
  unfold idx; rw [Nat.mul_add, two_tri]

theorem y_le_order (a : MultiIndex) : a.y ≤ a.order := by unfold order; omega

theorem ext_order {a b : MultiIndex} (h1 : a.order = b.order) (h2 : a.y = b.y) : a = b := by
  cases a; cases b; simp [order] at *; omega

/-- id order is graded order -/
theorem idx_lt_iff (a b : MultiIndex) :
    a.idx < b.idx ↔ a.order < b.order ∨ (a.order = b.order ∧ a.y < b.y) := by
  have ha := two_idx a
  have hb := two_idx b
  have hya := y_le_order a
  have hyb := y_le_order b
  rcases lt_trichotomy a.order b.order with h | h | h
  · constructor
    · intro _; exact Or.inl h
    · intro _
      have : (a.order + 1) * (a.order + 2) ≤ b.order * (b.order + 1) :=
        Nat.mul_le_mul h (by omega)
      nlinarith
  · rw [h] at ha
    constructor
    · intro hlt; right; exact ⟨h, by omega⟩
    · rintro (h' | ⟨_, h'⟩) <;> omega
  · constructor
    · intro hlt
      have : (b.order + 1) * (b.order + 2) ≤ a.order * (a.order + 1) :=
        Nat.mul_le_mul h (by omega)
      exfalso; nlinarith
    · rintro (h' | ⟨h', _⟩) <;> omega

theorem idx_inj {a b : MultiIndex} (h : a.idx = b.idx) : a = b := by
  have h1 : ¬ a.idx < b.idx := by omega
  have h2 : ¬ b.idx < a.idx := by omega
  rw [idx_lt_iff] at h1 h2
  have h3 : a.order = b.order := by omega
  exact ext_order h3 (by omega)

theorem eq_iff (a b : MultiIndex) : a.eq b = true ↔ a = b := by
  unfold eq
  constructor
  · intro h; exact idx_inj (by simpa using h)
  · rintro rfl; simp

theorem set_ok (a b : ℕ) : set [(a : ℤ), (b : ℤ)] = .ok ⟨a, b⟩ := by
  have h1 : ¬ ((a : ℤ) < 0) := by omega
  have h2 : ¬ ((b : ℤ) < 0) := by omega
  simp [set, validate, bind, Except.bind, h1, h2]

theorem set_ok' {a b : ℤ} (ha : 0 ≤ a) (hb : 0 ≤ b) : set [a, b] = .ok ⟨a.toNat, b.toNat⟩ := by
  have := set_ok a.toNat b.toNat
  rwa [Int.toNat_of_nonneg ha, Int.toNat_of_nonneg hb] at this

theorem set_eq_ok_iff (l : List ℤ) (m : MultiIndex) :
    set l = .ok m ↔ l = [(m.x : ℤ), (m.y : ℤ)] := by
  constructor
  · intro h
    match l with
    | [] => simp [set, validate, bind, Except.bind] at h
    | [_] => simp [set, validate, bind, Except.bind] at h
    | _ :: _ :: _ :: _ => simp [set, validate, bind, Except.bind] at h
    | [a, b] =>
      by_cases hn : a < 0 ∨ b < 0
      · simp [set, validate, bind, Except.bind, hn] at h
      · push Not at hn
        rw [set_ok' hn.1 hn.2] at h
        injection h with h
        subst h
        simp [hn.1, hn.2]
  · rintro rfl; exact set_ok _ _

theorem add_ok (a b : MultiIndex) : a.add b = .ok ⟨a.x + b.x, a.y + b.y⟩ := by
  unfold add
  have := set_ok (a.x + b.x) (a.y + b.y)
  push_cast at this
  exact this

/-- the triangular root used by `set_from_idx` -/
theorem tri_root (n : ℕ) :
    let t := (Nat.sqrt (8 * n + 1) - 1) / 2
    t * (t + 1) ≤ 2 * n ∧ 2 * n < (t + 1) * (t + 2) := by
  intro t
  have h1 := Nat.sqrt_le (8 * n + 1)

  have h3 := Nat.lt_succ_sqrt (8 * n + 1)
  have hs : 1 ≤ Nat.sqrt (8 * n + 1) := by
    rw [Nat.le_sqrt]; omega
  generalize hsd : Nat.sqrt (8 * n + 1) = s at *
  have ht1 : 2 * t + 1 ≤ s := by omega
  have ht2 : s + 1 ≤ 2 * t + 3 := by omega
  constructor
  · have := Nat.mul_le_mul ht1 ht1
    nlinarith
  · have := Nat.mul_le_mul ht2 ht2
    have h4 : 8 * n + 1 < (s + 1) * (s + 1) := h3
    nlinarith

/-- The integer expression in the model is the floor of the real expression in the code (multi_index.py L93). -/
theorem floor_formula (n : ℕ) :
    ⌊(Real.sqrt (8 * n + 1) - 1) / 2⌋ = ((Nat.sqrt (8 * n + 1) : ℤ) - 1) / 2 := by
  have h1 := Nat.sqrt_le (8 * n + 1)
  have h3 : 8 * n + 1 < (Nat.sqrt (8 * n + 1) + 1) * (Nat.sqrt (8 * n + 1) + 1) :=
    Nat.lt_succ_sqrt (8 * n + 1)
  generalize hsd : Nat.sqrt (8 * n + 1) = s at *
  have hr1 : (s : ℝ) ≤ Real.sqrt (8 * n + 1) := by
    apply Real.le_sqrt_of_sq_le
    have : ((s * s : ℕ) : ℝ) ≤ ((8 * n + 1 : ℕ) : ℝ) := by exact_mod_cast h1
    push_cast at this
    nlinarith
  have hr2 : Real.sqrt (8 * n + 1) < s + 1 := by
    rw [Real.sqrt_lt' (by positivity)]
    have : ((8 * n + 1 : ℕ) : ℝ) < (((s + 1) * (s + 1) : ℕ) : ℝ) := by exact_mod_cast h3
    push_cast at this
    nlinarith
  rw [Int.floor_eq_iff]
  have e : (s : ℤ) - 1 = 2 * (((s : ℤ) - 1) / 2) + ((s : ℤ) - 1) % 2 := by omega
  have e1 : 0 ≤ ((s : ℤ) - 1) % 2 := by omega
  have e2 : ((s : ℤ) - 1) % 2 ≤ 1 := by omega
  generalize ((s : ℤ) - 1) / 2 = q at *
  generalize ((s : ℤ) - 1) % 2 = r at *
  have er : (s : ℝ) - 1 = 2 * (q : ℝ) + (r : ℝ) := by exact_mod_cast e
  have er1 : (0 : ℝ) ≤ r := by exact_mod_cast e1
  have er2 : (r : ℝ) ≤ 1 := by exact_mod_cast e2
  constructor <;> linarith

theorem setFromIdx_nat (n : ℕ) :
    ∃ a : MultiIndex, setFromIdx (n : ℤ) = .ok a ∧ a.idx = n := by
  obtain ⟨h1, h2⟩ := tri_root n
  have hs : 1 ≤ Nat.sqrt (8 * n + 1) := by rw [Nat.le_sqrt]; omega
  generalize htd : (Nat.sqrt (8 * n + 1) - 1) / 2 = t at *
  have hN := two_tri t
  generalize hNd : t * (t + 1) / 2 = N at *
  have hNn : N ≤ n := by omega
  have htn : n ≤ t + N := by nlinarith
  refine ⟨⟨t + N - n, n - N⟩, ?_, ?_⟩
  · have c1 : ¬ (8 * (n : ℤ) + 1 < 0) := by omega
    have e1 : (8 * (n : ℤ) + 1).toNat = 8 * n + 1 := by omega
    have e2 : ((Nat.sqrt (8 * n + 1) : ℤ) - 1) / 2 = (t : ℤ) := by omega
    have e3 : ((t : ℤ) * (t + 1)) / 2 = (N : ℤ) := by
      rw [← hNd]; push_cast; rfl
    simp only [setFromIdx, c1, if_false, e1, e2, e3]
    rw [set_ok' (by omega) (by omega)]
    congr 2 <;> omega
  · have := two_idx ⟨t + N - n, n - N⟩
    have ho : order ⟨t + N - n, n - N⟩ = t := by simp [order]; omega
    rw [ho] at this
    simp only at this
    omega

theorem setFromIdx_idx (a : MultiIndex) : setFromIdx (a.idx : ℤ) = .ok a := by
  obtain ⟨b, hb, hi⟩ := setFromIdx_nat a.idx
  rw [hb, idx_inj hi]

end MultiIndex
end PFEM
