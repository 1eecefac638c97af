import Mathlib.Data.Set.Card
import Mathlib.Order.Interval.Finset.Nat
import Verif.Lemmas.MultiIndex

/-!
Property theorems C01, C02: multi-index numbering.
-/

namespace PFEM
open MultiIndex

/-- C01 (a): rebuilding a multi-index from its id gives back the same exponents. -/
theorem C01_roundtrip (a : MultiIndex) : MultiIndex.setFromIdx (a.idx : ℤ) = .ok a :=
  setFromIdx_idx a

example : MultiIndex.setFromIdx ((MultiIndex.mk 3 2).idx : ℤ) = .ok ⟨3, 2⟩ := C01_roundtrip ⟨3, 2⟩
example : (MultiIndex.mk 3 2).idx = 17 := by decide

/-- C01 (b): every natural number is the id of the multi-index built from it. -/
theorem C01_surjective (n : ℕ) :
    ∃ a : MultiIndex, MultiIndex.setFromIdx (n : ℤ) = .ok a ∧ a.idx = n :=
  setFromIdx_nat n

/-- C01 (c): two multi-indices compare equal exactly when their exponents agree. -/
theorem C01_eq_iff (a b : MultiIndex) : a.eq b = true ↔ a.x = b.x ∧ a.y = b.y := by
  rw [eq_iff]; cases a; cases b; simp

/-- C01 (d): the id map is a bijection from pairs of natural exponents to the naturals. -/
theorem C01_bijective : Function.Bijective MultiIndex.idx :=
  ⟨fun _ _ h => idx_inj h, fun n => (setFromIdx_nat n).imp fun _ h => h.2⟩

/-- C01 (e): the integer square root in the model is the floor of the real-number formula in the code. -/
theorem C01_real_formula (n : ℕ) :
    ⌊(Real.sqrt (8 * n + 1) - 1) / 2⌋ = ((Nat.sqrt (8 * n + 1) : ℤ) - 1) / 2 :=
  floor_formula n

/-- Graded order on exponent pairs: total degree first, then the exponent of `y`. (Specification.) -/
def GradedLT (a b : ℕ × ℕ) : Prop :=
  a.1 + a.2 < b.1 + b.2 ∨ (a.1 + a.2 = b.1 + b.2 ∧ a.2 < b.2)

/-- C02 (a): ids order monomials by total degree, then by the `y` exponent. -/
theorem C02_graded (a b : MultiIndex) : a.idx < b.idx ↔ GradedLT (a.x, a.y) (b.x, b.y) :=
  idx_lt_iff a b

example : GradedLT (5, 0) (4, 1) ∧ GradedLT (0, 4) (5, 0) := by constructor <;> simp [GradedLT]

/-- C02 (b): the id of a multi-index is the number of exponent pairs preceding it in graded order. -/
theorem C02_idx_counts (a : MultiIndex) : a.idx = {p : ℕ × ℕ | GradedLT p (a.x, a.y)}.ncard := by
  let f : ℕ × ℕ → ℕ := fun p => (MultiIndex.mk p.1 p.2).idx
  have hf : Function.Injective f := by
    rintro ⟨p1, p2⟩ ⟨q1, q2⟩ h
    have := idx_inj h
    simp at this; simp [this]
  have himg : f '' {p : ℕ × ℕ | GradedLT p (a.x, a.y)} = Set.Iio a.idx := by
    ext n
    simp only [Set.mem_image, Set.mem_ofPred_eq, Set.mem_Iio]
    constructor
    · rintro ⟨p, hp, rfl⟩
      exact (C02_graded ⟨p.1, p.2⟩ a).2 hp
    · intro hn
      obtain ⟨b, -, rfl⟩ := setFromIdx_nat n
      exact ⟨(b.x, b.y), (C02_graded b a).1 hn, rfl⟩
  rw [← Set.ncard_image_of_injective _ hf, himg, ← Finset.coe_Iio, Set.ncard_coe_finset]
  simp

/-- C02 (c): the sum of two multi-indices has the componentwise sum of the exponents and never raises. -/
theorem C02_add (a b : MultiIndex) : ∃ c, a.add b = .ok c ∧ c.x = a.x + b.x ∧ c.y = a.y + b.y :=
  ⟨_, add_ok a b, rfl, rfl⟩

/-- C02 (d): a list of two nonnegative integers is accepted, with those exponents. -/
theorem C02_accepts (l : List ℤ) (m : MultiIndex) :
    MultiIndex.set l = .ok m ↔ l = [(m.x : ℤ), (m.y : ℤ)] :=
  set_eq_ok_iff l m

/-- C02 (e): a list of the wrong length is rejected with `MultiIndexError`, and only then. -/
theorem C02_rejects_length (l : List ℤ) :
    MultiIndex.set l = .error .multiIndexError ↔ l.length ≠ 2 := by
  match l with
  | [] => simp [MultiIndex.set, validate, bind, Except.bind]
  | [_] => simp [MultiIndex.set, validate, bind, Except.bind]
  | _ :: _ :: _ :: _ => simp [MultiIndex.set, validate, bind, Except.bind]
  | [a, b] =>
    by_cases hn : a < 0 ∨ b < 0 <;> simp [MultiIndex.set, validate, bind, Except.bind, hn]

/-- C02 (f): a pair with a negative entry is rejected with `ValueError`. -/
theorem C02_rejects_negative (l : List ℤ) :
    MultiIndex.set l = .error .valueError ↔ l.length = 2 ∧ ∃ a ∈ l, a < 0 := by
  match l with
  | [] => simp [MultiIndex.set, validate, bind, Except.bind]
  | [_] => simp [MultiIndex.set, validate, bind, Except.bind]
  | _ :: _ :: _ :: _ => simp [MultiIndex.set, validate, bind, Except.bind]
  | [a, b] =>
    by_cases hn : a < 0 ∨ b < 0 <;> simp [MultiIndex.set, validate, bind, Except.bind, hn]

/-- C02 (g): a negative id is rejected with `ValueError`. -/
theorem C02_rejects_negative_id (n : ℤ) :
    MultiIndex.setFromIdx n = .error .valueError ↔ n < 0 := by
  constructor
  · intro h
    by_contra hn
    push Not at hn
    obtain ⟨k, rfl⟩ := Int.eq_ofNat_of_zero_le hn
    obtain ⟨a, ha, -⟩ := setFromIdx_nat k
    rw [ha] at h; cases h
  · intro h
    have : 8 * n + 1 < 0 := by omega
    simp [MultiIndex.setFromIdx, this]

example : MultiIndex.set [1, 2, 3] = .error .multiIndexError := (C02_rejects_length _).2 (by simp)
example : MultiIndex.set [1, -2] = .error .valueError := (C02_rejects_negative _).2 (by simp)
example : MultiIndex.setFromIdx (-1) = .error .valueError := (C02_rejects_negative_id _).2 (by simp)

end PFEM
