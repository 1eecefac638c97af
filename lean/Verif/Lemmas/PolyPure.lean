import Verif.Lemmas.PolyOps

set_option linter.unusedSectionVars false

namespace PFEM
namespace Poly

variable {K : Type} [Field K] [LinearOrder K] [IsStrictOrderedRing K]

/-- the constant polynomial 1 -/
def oneP (K : Type) [Field K] : Poly K := [⟨⟨0, 0⟩, 1⟩]

theorem canonical_singleton {m : Mono K} (h : tol K ≤ |m.coef|) : Canonical ([m] : Poly K) := by
  constructor
  · simp
  · simpa using h

theorem oneP_canonical : Canonical (oneP K) :=
  canonical_singleton (by simp [tol_lt_one.le])

theorem canonical_nz {p : Poly K} (h : Canonical p) : nz p = p := h.filter_eq

theorem set_one : set [((1 : K), 0, 0)] = .ok (oneP K) := by
  have := set_ok (K := K) [(1, 0, 0)]
  simp only [List.map_cons, List.map_nil, Nat.cast_zero] at this
  rw [this]
  change Except.ok (consolidate (nz (oneP K))) = _
  rw [canonical_nz oneP_canonical, consolidate_eq_self oneP_canonical]

/-- pure power -/
def powP (p : Poly K) (n : ℕ) (new : Poly K) : Poly K := (fun r => mulP r p)^[n] new

theorem powLoop_ok (p : Poly K) (n : ℕ) (new : Poly K) : powLoop p n new = .ok (powP p n new) := by
  induction n generalizing new with
  | zero => rfl
  | succ n ih =>
    unfold powLoop; rw [mul_eq]
    change powLoop p n (mulP new p) = _
    rw [ih]; simp [powP]

theorem pow_ok (p : Poly K) (n : ℕ) : pow p (n : ℤ) = .ok (powP p n (oneP K)) := by
  unfold pow
  have : ¬ ((n : ℤ) < 0) := by omega
  simp only [this, if_false, set_one]
  change powLoop p (n : ℤ).toNat (oneP K) = _
  rw [powLoop_ok]; simp

theorem mulP_canonical (p q : Poly K) : Canonical (mulP p q) := consolidate_canonical _

theorem powP_canonical (p : Poly K) (n : ℕ) (new : Poly K) (h : Canonical new) :
    Canonical (powP p n new) := by
  cases n with
  | zero => exact h
  | succ n => unfold powP; rw [Function.iterate_succ_apply']; exact mulP_canonical _ _

/-- pure composition step -/
def compStep (q1 q2 : Poly K) (new : Poly K) (m : Mono K) : Poly K :=
  iadd new (smul (mulP (powP q1 m.alpha.x (oneP K)) (powP q2 m.alpha.y (oneP K))) m.coef)

theorem composeLoop_ok (q1 q2 new p : Poly K) :
    composeLoop q1 q2 new p = .ok (p.foldl (compStep q1 q2) new) := by
  induction p generalizing new with
  | nil => rfl
  | cons m p ih =>
    unfold composeLoop
    rw [pow_ok, pow_ok]
    simp only [bind, Except.bind, mul_eq]
    rw [ih, List.foldl_cons, compStep]

theorem compose_ok (p q1 q2 : Poly K) : compose p q1 q2 = .ok (p.foldl (compStep q1 q2) []) :=
  composeLoop_ok q1 q2 [] p

theorem iadd_canonical (p q : Poly K) : Canonical (iadd p q) := by
  rw [iadd_eq]; exact consolidate_canonical _

theorem foldl_canonical {β : Type} (f : Poly K → β → Poly K) (h : ∀ p b, Canonical (f p b))
    (l : List β) (p : Poly K) (hp : Canonical p) : Canonical (l.foldl f p) := by
  induction l generalizing p with
  | nil => exact hp
  | cons b l ih => exact ih _ (h p b)

/-- `x^2 + y^2` -/
def rsq (K : Type) [Field K] : Poly K := [⟨⟨2, 0⟩, 1⟩, ⟨⟨0, 2⟩, 1⟩]

theorem rsq_canonical : Canonical (rsq K) := by
  constructor
  · simp [rsq]; decide
  · intro m hm
    simp [rsq] at hm
    rcases hm with rfl | rfl <;> simp [tol_lt_one.le]

theorem one_not_isZero (a : MultiIndex) : (Mono.mk a (1 : K)).isZero = false := by
  simp [Mono.isZero, tol_lt_one.le]

theorem p1_ok : addMonomialsWithIdxs ([] : Poly K) [1, 1] [3, 5] = .ok (rsq K) := by
  have h3 : MultiIndex.setFromIdx (3 : ℤ) = .ok ⟨2, 0⟩ := MultiIndex.setFromIdx_idx ⟨2, 0⟩
  have h5 : MultiIndex.setFromIdx (5 : ℤ) = .ok ⟨0, 2⟩ := MultiIndex.setFromIdx_idx ⟨0, 2⟩
  have c1 : consolidate ([⟨⟨2, 0⟩, 1⟩] : Poly K) = [⟨⟨2, 0⟩, 1⟩] :=
    consolidate_eq_self (canonical_singleton (by simp [tol_lt_one.le]))
  have c2 : consolidate ([⟨⟨2, 0⟩, 1⟩, ⟨⟨0, 2⟩, 1⟩] : Poly K) = [⟨⟨2, 0⟩, 1⟩, ⟨⟨0, 2⟩, 1⟩] :=
    consolidate_eq_self rsq_canonical
  simp [addMonomialsWithIdxs, addIdxLoop, addMonomialWithIdx, bind, Except.bind, h3, h5,
    addMonomial, one_not_isZero, c1, c2, rsq]

/-- pure form of the `k` loop of `anti_laplacian` -/
def alLoop (ord : ℕ) : (n k : ℕ) → (pk Lk : Poly K) → (scale : K) → (P : Poly K) → Poly K
  | 0, _, _, _, _, P => P
  | n + 1, k, pk, Lk, scale, P =>
    let pk' := mulP pk (rsq K)
    let Lk' := lap Lk
    let scale' := scale * (-(1 / 4) / (((k : K) + 1) * ((ord : K) + 1 - k)))
    alLoop ord n (k + 1) pk' Lk' scale' (iadd P (smul (mulP pk' Lk') scale'))

/-- pure `P_alpha` -/
def alMono (m : Mono K) : Poly K :=
  alLoop m.alpha.order (m.alpha.order / 2) 1 (rsq K) (addMonomial [] m)
    ((1 / 4) / (1 + (m.alpha.order : K)))
    (smul (mulP (rsq K) (addMonomial [] m)) ((1 / 4) / (1 + (m.alpha.order : K))))

theorem antiLapLoop_ok (ord n k : ℕ) (pk Lk : Poly K) (scale : K) (P : Poly K) :
    antiLapLoop (rsq K) ord n k pk Lk scale P = .ok (alLoop ord n k pk Lk scale P) := by
  induction n generalizing k pk Lk scale P with
  | zero => rfl
  | succ n ih =>
    unfold antiLapLoop alLoop
    rw [mul_eq]
    simp only [bind, Except.bind, laplacian_ok, mul_eq]
    rw [ih]

theorem copy_rsq : copy (rsq K) = rsq K := by
  rw [copy_eq, canonical_nz rsq_canonical, consolidate_eq_self rsq_canonical]

theorem antiLapMono_ok (m : Mono K) : antiLapMono (rsq K) m = .ok (alMono m) := by
  unfold antiLapMono alMono
  simp only [copy_rsq, mul_eq, bind, Except.bind, antiLapLoop_ok]

theorem antiLapOuter_ok (new p : Poly K) :
    antiLapOuter (rsq K) new p = .ok (p.foldl (fun r m => iadd r (alMono m)) new) := by
  induction p generalizing new with
  | nil => rfl
  | cons m p ih =>
    unfold antiLapOuter
    rw [antiLapMono_ok]
    change antiLapOuter (rsq K) (iadd new (alMono m)) p = _
    rw [ih]; rfl

/-- pure `anti_laplacian` -/
def alP (p : Poly K) : Poly K := p.foldl (fun r m => iadd r (alMono m)) []

theorem antiLaplacian_ok (p : Poly K) : antiLaplacian p = .ok (alP p) := by
  unfold antiLaplacian
  rw [p1_ok]
  exact antiLapOuter_ok [] p

theorem lap_canonical (p : Poly K) : Canonical (lap p) := by
  unfold lap; rw [add_eq]; exact consolidate_canonical _

theorem alP_canonical (p : Poly K) : Canonical (alP p) :=
  foldl_canonical _ (fun _ _ => iadd_canonical _ _) _ _ Canonical.nil

theorem compose_canonical (p q1 q2 : Poly K) : Canonical (p.foldl (compStep q1 q2) []) :=
  foldl_canonical _ (fun _ _ => iadd_canonical _ _) _ _ Canonical.nil

theorem addIdxLoop_canonical (l : List (K × ℤ)) (p r : Poly K) (hp : Canonical p)
    (h : addIdxLoop p l = .ok r) : Canonical r := by
  induction l generalizing p with
  | nil => simp [addIdxLoop] at h; exact h ▸ hp
  | cons t l ih =>
    obtain ⟨c, i⟩ := t
    unfold addIdxLoop addMonomialWithIdx at h
    cases hi : MultiIndex.setFromIdx i with
    | error e => simp [hi, bind, Except.bind] at h
    | ok a =>
      simp [hi, bind, Except.bind] at h
      exact ih _ (consolidate_canonical _) h

end Poly
end PFEM
