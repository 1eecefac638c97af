import Mathlib.Algebra.MvPolynomial.PDeriv
import Mathlib.Algebra.Ring.Subring.Basic
import Verif.Lemmas.Poly

set_option linter.unusedSectionVars false

namespace PFEM

/-! ### exponent vectors -/

namespace MultiIndex

/-- componentwise sum -/
def plus (a b : MultiIndex) : MultiIndex := ⟨a.x + b.x, a.y + b.y⟩

theorem fs_zero (a : MultiIndex) : a.fs 0 = a.x := by simp [fs]
theorem fs_one (a : MultiIndex) : a.fs 1 = a.y := by simp [fs]

theorem fs_inj {a b : MultiIndex} : a.fs = b.fs ↔ a = b := by
  constructor
  · intro h
    have h0 := DFunLike.congr_fun h 0
    have h1 := DFunLike.congr_fun h 1
    rw [fs_zero, fs_zero] at h0
    rw [fs_one, fs_one] at h1
    cases a; cases b; simp_all
  · rintro rfl; rfl

theorem fs_surj (s : Fin 2 →₀ ℕ) : ∃ a : MultiIndex, a.fs = s := by
  refine ⟨⟨s 0, s 1⟩, ?_⟩
  ext i; fin_cases i
  · exact fs_zero _
  · exact fs_one _

theorem fs_plus (a b : MultiIndex) : (a.plus b).fs = a.fs + b.fs := by
  ext i; fin_cases i <;> simp [fs, plus]

theorem add_ok_plus (a b : MultiIndex) : a.add b = .ok (a.plus b) := add_ok a b

end MultiIndex

variable {K : Type} [Field K] [LinearOrder K]

namespace Mono
omit [LinearOrder K]

/-- product monomial -/
def times (m n : Mono K) : Mono K := ⟨m.alpha.plus n.alpha, m.coef * n.coef⟩

theorem mul_ok (m n : Mono K) : m.mul n = .ok (m.times n) := by
  unfold mul; rw [MultiIndex.add_ok_plus]; rfl

/-- pure form of `partial_deriv` -/
def dx (m : Mono K) : Mono K :=
  if m.alpha.x = 0 then ⟨⟨0, 0⟩, 0⟩ else ⟨⟨m.alpha.x - 1, m.alpha.y⟩, m.coef * m.alpha.x⟩

/-- pure form of `partial_deriv` -/
def dy (m : Mono K) : Mono K :=
  if m.alpha.y = 0 then ⟨⟨0, 0⟩, 0⟩ else ⟨⟨m.alpha.x, m.alpha.y - 1⟩, m.coef * m.alpha.y⟩

theorem init_none : MultiIndex.init none = .ok ⟨0, 0⟩ := MultiIndex.set_ok 0 0

theorem partialDeriv_x (m : Mono K) : m.partialDeriv .x = .ok m.dx := by
  unfold partialDeriv dx
  by_cases h : m.alpha.x = 0
  · simp [h, init_none, bind, Except.bind]
  · have e : (m.alpha.x : ℤ) - 1 = ((m.alpha.x - 1 : ℕ) : ℤ) := by omega
    simp only [h, if_false, e, MultiIndex.set_ok]
    rfl

theorem partialDeriv_y (m : Mono K) : m.partialDeriv .y = .ok m.dy := by
  unfold partialDeriv dy
  by_cases h : m.alpha.y = 0
  · simp [h, init_none, bind, Except.bind]
  · have e : (m.alpha.y : ℤ) - 1 = ((m.alpha.y - 1 : ℕ) : ℤ) := by omega
    simp only [h, if_false, e, MultiIndex.set_ok]
    rfl

theorem eval_eq (m : Mono K) (x y : K) : m.eval x y = m.coef * x ^ m.alpha.x * y ^ m.alpha.y := by
  unfold eval
  by_cases h1 : 0 < m.alpha.x <;> by_cases h2 : 0 < m.alpha.y <;>
    simp only [gt_iff_lt, h1, h2, if_true, if_false, mul_one] <;>
    simp only [not_lt, Nat.le_zero] at h1 h2 <;> simp [h1, h2]

end Mono

namespace Poly

/-! ### pure forms of the operators -/

/-- all pairwise products, in loop order -/
def prods (p q : Poly K) : Poly K := p.flatMap fun m => q.map fun n => m.times n

/-- keep the monomials that are not near zero -/
def nz (p : Poly K) : Poly K := p.filter (fun m => !m.isZero)

theorem nz_append (p q : Poly K) : nz (p ++ q) = nz p ++ nz q := by simp [nz]

theorem mulInner_ok (m : Mono K) (new q : Poly K) :
    mulInner m new q = .ok (new ++ nz (q.map fun n => m.times n)) := by
  induction q generalizing new with
  | nil => simp [mulInner, nz]
  | cons n q ih =>
    unfold mulInner
    rw [Mono.mul_ok]
    change mulInner m (addMonomial new (m.times n)) q = _
    rw [ih]
    unfold addMonomial nz
    by_cases h : (m.times n).isZero = true <;> simp [h]

theorem mulLoop_ok (q new p : Poly K) : mulLoop q new p = .ok (new ++ nz (prods p q)) := by
  induction p generalizing new with
  | nil => simp [mulLoop, nz, prods]
  | cons m p ih =>
    unfold mulLoop
    rw [mulInner_ok]
    change mulLoop q (new ++ nz (q.map fun n => m.times n)) p = _
    rw [ih]
    simp [prods, nz_append]

theorem mul_ok (p q : Poly K) : mul p q = .ok (consolidate (nz (prods p q))) := by
  unfold mul; rw [mulLoop_ok]; simp [bind, Except.bind]

theorem derivLoop_x (new p : Poly K) : derivLoop .x new p = .ok (new ++ nz (p.map Mono.dx)) := by
  induction p generalizing new with
  | nil => simp [derivLoop, nz]
  | cons m p ih =>
    unfold derivLoop
    rw [Mono.partialDeriv_x]
    change derivLoop .x (addMonomial new m.dx) p = _
    rw [ih]; unfold addMonomial nz
    by_cases h : m.dx.isZero = true <;> simp [h]

theorem derivLoop_y (new p : Poly K) : derivLoop .y new p = .ok (new ++ nz (p.map Mono.dy)) := by
  induction p generalizing new with
  | nil => simp [derivLoop, nz]
  | cons m p ih =>
    unfold derivLoop
    rw [Mono.partialDeriv_y]
    change derivLoop .y (addMonomial new m.dy) p = _
    rw [ih]; unfold addMonomial nz
    by_cases h : m.dy.isZero = true <;> simp [h]

theorem partialDeriv_x (p : Poly K) : partialDeriv p .x = .ok (nz (p.map Mono.dx)) := by
  unfold partialDeriv; rw [derivLoop_x]; simp

theorem partialDeriv_y (p : Poly K) : partialDeriv p .y = .ok (nz (p.map Mono.dy)) := by
  unfold partialDeriv; rw [derivLoop_y]; simp

theorem add_eq (p q : Poly K) : add p q = consolidate (nz (p ++ q)) := by
  unfold add; rw [addAll_eq, addAll_eq, nz_append]; simp [nz]

theorem iadd_eq (p q : Poly K) : iadd p q = consolidate (p ++ nz q) := by
  unfold iadd; rw [addAll_eq]; rfl

theorem smul_eq (p : Poly K) (c : K) : smul p c = nz (p.map fun m => m.smul c) := by
  unfold smul; rw [addAll_eq]; simp [nz]

theorem constMono_ok (c : K) : constMono c = .ok ⟨⟨0, 0⟩, c⟩ := by
  have : MultiIndex.setFromIdx (0 : ℤ) = .ok ⟨0, 0⟩ := MultiIndex.setFromIdx_idx ⟨0, 0⟩
  unfold constMono; rw [this]; rfl

theorem addScalar_ok (p : Poly K) (c : K) :
    addScalar p c = .ok (add p [⟨⟨0, 0⟩, c⟩]) := by
  unfold addScalar; rw [constMono_ok]
  simp only [bind, Except.bind, add]
  rfl

theorem iaddScalar_ok (p : Poly K) (c : K) :
    iaddScalar p c = .ok (iadd p [⟨⟨0, 0⟩, c⟩]) := by
  unfold iaddScalar; rw [constMono_ok]
  simp only [bind, Except.bind, iadd]
  rfl

theorem copy_eq (p : Poly K) : copy p = consolidate (nz p) := by
  unfold copy addMonomials; rw [addAll_eq]; simp [nz]

/-- pure Laplacian -/
def lap (p : Poly K) : Poly K :=
  add (nz ((nz (p.map Mono.dx)).map Mono.dx)) (nz ((nz (p.map Mono.dy)).map Mono.dy))

theorem laplacian_ok (p : Poly K) : laplacian p = .ok (lap p) := by
  unfold laplacian grad
  rw [partialDeriv_x, partialDeriv_y]
  simp only [bind, Except.bind, partialDeriv_x, partialDeriv_y, lap]

section setters
omit [LinearOrder K]

/-- pure power loop -/
theorem set_triples_ok [LinearOrder K] (l : List (K × ℕ × ℕ)) (p : Poly K) :
    setLoop p (l.map fun t => (t.1, (t.2.1 : ℤ), (t.2.2 : ℤ))) =
      .ok (p ++ nz (l.map fun t => ⟨⟨t.2.1, t.2.2⟩, t.1⟩)) := by
  induction l generalizing p with
  | nil => simp [setLoop, nz]
  | cons t l ih =>
    obtain ⟨c, a, b⟩ := t
    simp only [List.map_cons]
    unfold setLoop
    rw [MultiIndex.set_ok]
    change setLoop (addMonomial p ⟨⟨a, b⟩, c⟩) _ = _
    rw [ih]; unfold addMonomial nz
    by_cases h : (Mono.mk ⟨a, b⟩ c).isZero = true <;> simp [h]

end setters

theorem set_ok (l : List (K × ℕ × ℕ)) :
    set (l.map fun t => (t.1, (t.2.1 : ℤ), (t.2.2 : ℤ))) =
      .ok (consolidate (nz (l.map fun t => ⟨⟨t.2.1, t.2.2⟩, t.1⟩))) := by
  unfold set; rw [set_triples_ok]; simp [bind, Except.bind]

/-! ### evaluation and denotation -/

section denot
omit [LinearOrder K]

theorem eval_foldl (p : Poly K) (x y v : K) :
    p.foldl (fun val m => val + m.eval x y) v = v + (p.map fun m => m.eval x y).sum := by
  induction p generalizing v with
  | nil => simp
  | cons m p ih => simp [ih, add_assoc]

theorem eval_eq_sum (p : Poly K) (x y : K) : eval p x y = (p.map fun m => m.eval x y).sum := by
  unfold eval; rw [eval_foldl, zero_add]

theorem eval_nil (x y : K) : eval ([] : Poly K) x y = 0 := rfl

theorem eval_cons (m : Mono K) (p : Poly K) (x y : K) :
    eval (m :: p) x y = m.eval x y + eval p x y := by
  simp [eval_eq_sum]

theorem eval_append (p q : Poly K) (x y : K) : eval (p ++ q) x y = eval p x y + eval q x y := by
  simp [eval_eq_sum]

theorem toMv_nil : toMv ([] : Poly K) = 0 := rfl

theorem toMv_cons (m : Mono K) (p : Poly K) :
    toMv (m :: p) = MvPolynomial.monomial m.alpha.fs m.coef + toMv p := by
  simp [toMv]

theorem toMv_append (p q : Poly K) : toMv (p ++ q) = toMv p + toMv q := by simp [toMv]

theorem eval_toMv (p : Poly K) (x y : K) :
    eval p x y = MvPolynomial.eval (fun i : Fin 2 => if i = 0 then x else y) (toMv p) := by
  induction p with
  | nil => simp [eval_nil, toMv_nil]
  | cons m p ih =>
    rw [eval_cons, toMv_cons, map_add, ← ih, MvPolynomial.eval_monomial, Mono.eval_eq]
    congr 1
    rw [Finsupp.prod_fintype _ _ (fun i => pow_zero _), Fin.prod_univ_two, MultiIndex.fs_zero,
      MultiIndex.fs_one]
    simp [mul_assoc]

theorem coeff_toMv (p : Poly K) (a : MultiIndex) :
    MvPolynomial.coeff a.fs (toMv p) = coeffOf p a := by
  induction p with
  | nil => simp [toMv_nil, coeffOf_nil]
  | cons m p ih =>
    rw [toMv_cons, MvPolynomial.coeff_add, ih, coeffOf_cons, MvPolynomial.coeff_monomial]
    simp only [MultiIndex.fs_inj]

theorem toMv_ext {p q : Poly K} (h : ∀ a, coeffOf p a = coeffOf q a) : toMv p = toMv q := by
  ext s
  obtain ⟨a, rfl⟩ := MultiIndex.fs_surj s
  rw [coeff_toMv, coeff_toMv, h]

theorem coeffOf_of_toMv {p q : Poly K} (h : toMv p = toMv q) (a : MultiIndex) :
    coeffOf p a = coeffOf q a := by
  rw [← coeff_toMv, ← coeff_toMv, h]

theorem toMv_map_times (m : Mono K) (q : Poly K) :
    toMv (q.map fun n => m.times n) = MvPolynomial.monomial m.alpha.fs m.coef * toMv q := by
  induction q with
  | nil => simp [toMv_nil]
  | cons n q ih =>
    rw [List.map_cons, toMv_cons, ih, toMv_cons, mul_add, MvPolynomial.monomial_mul]
    simp [Mono.times, MultiIndex.fs_plus]

theorem toMv_prods [LinearOrder K] (p q : Poly K) : toMv (prods p q) = toMv p * toMv q := by
  induction p with
  | nil => simp [toMv_nil, prods]
  | cons m p ih =>
    have e : prods (m :: p) q = (q.map fun n => m.times n) ++ prods p q := by simp [prods]
    rw [e, toMv_append, ih, toMv_map_times, toMv_cons, add_mul]

theorem toMv_map_smul (p : Poly K) (c : K) :
    toMv (p.map fun m => m.smul c) = MvPolynomial.C c * toMv p := by
  induction p with
  | nil => simp [toMv_nil]
  | cons m p ih =>
    rw [List.map_cons, toMv_cons, ih, toMv_cons, mul_add, MvPolynomial.C_mul_monomial]
    simp [Mono.smul, mul_comm]

theorem monomial_dx (m : Mono K) :
    MvPolynomial.monomial m.dx.alpha.fs m.dx.coef =
      MvPolynomial.pderiv 0 (MvPolynomial.monomial m.alpha.fs m.coef) := by
  rw [MvPolynomial.pderiv_monomial, MultiIndex.fs_zero]
  unfold Mono.dx
  by_cases h : m.alpha.x = 0
  · simp [h]
  · simp only [h, if_false]
    have e : (MultiIndex.mk (m.alpha.x - 1) m.alpha.y).fs = m.alpha.fs - Finsupp.single 0 1 := by
      ext i; fin_cases i <;> simp [MultiIndex.fs]
    rw [e]

theorem monomial_dy (m : Mono K) :
    MvPolynomial.monomial m.dy.alpha.fs m.dy.coef =
      MvPolynomial.pderiv 1 (MvPolynomial.monomial m.alpha.fs m.coef) := by
  rw [MvPolynomial.pderiv_monomial, MultiIndex.fs_one]
  unfold Mono.dy
  by_cases h : m.alpha.y = 0
  · simp [h]
  · simp only [h, if_false]
    have e : (MultiIndex.mk m.alpha.x (m.alpha.y - 1)).fs = m.alpha.fs - Finsupp.single 1 1 := by
      ext i; fin_cases i <;> simp [MultiIndex.fs]
    rw [e]

theorem toMv_map_dx (p : Poly K) : toMv (p.map Mono.dx) = MvPolynomial.pderiv 0 (toMv p) := by
  induction p with
  | nil => simp [toMv_nil]
  | cons m p ih => rw [List.map_cons, toMv_cons, ih, toMv_cons, map_add, monomial_dx]

theorem toMv_map_dy (p : Poly K) : toMv (p.map Mono.dy) = MvPolynomial.pderiv 1 (toMv p) := by
  induction p with
  | nil => simp [toMv_nil]
  | cons m p ih => rw [List.map_cons, toMv_cons, ih, toMv_cons, map_add, monomial_dy]

end denot

variable [IsStrictOrderedRing K]

/-! ### exactness -/

/-- not strictly between 0 and the tolerance -/
def CleanC (c : K) : Prop := c = 0 ∨ tol K ≤ |c|

omit [IsStrictOrderedRing K] in
theorem not_isZero_iff (m : Mono K) : (!m.isZero) = true ↔ tol K ≤ |m.coef| := by
  simp [Mono.isZero]

theorem toMv_nz {l : Poly K} (h : ∀ m ∈ l, CleanC m.coef) : toMv (nz l) = toMv l := by
  induction l with
  | nil => rfl
  | cons m l ih =>
    have ih' := ih fun n hn => h n (by simp [hn])
    unfold nz at *
    by_cases hz : m.isZero = true
    · rw [List.filter_cons_of_neg (by simp [hz]), ih', toMv_cons]
      rcases h m (by simp) with h0 | h0
      · simp [h0]
      · exact absurd ((Mono.isZero_iff m).1 hz) (not_lt.2 h0)
    · rw [List.filter_cons_of_pos (by simp [hz]), toMv_cons, toMv_cons, ih']

theorem CleanC.chop {c : K} (h : CleanC c) : chop c = c := by
  rcases h with h | h
  · rw [h, chop_zero]
  · exact chop_of_le h

theorem toMv_consolidate {l : Poly K} (h : ∀ a, CleanC (coeffOf l a)) :
    toMv (consolidate l) = toMv l :=
  toMv_ext fun a => by rw [coeffOf_consolidate, (h a).chop]

theorem toMv_consolidate_iff {l : Poly K} :
    toMv (consolidate l) = toMv l ↔ ∀ a, CleanC (coeffOf l a) := by
  constructor
  · intro h a
    have := coeffOf_of_toMv h a
    rw [← this]
    exact (consolidate_canonical l).clean a
  · exact toMv_consolidate

/-! ### families of coefficient groups separated from zero -/

/-- every nonzero element of every group is at least the tolerance -/
def Sep (A : MultiIndex → AddSubgroup K) : Prop := ∀ a, ∀ c ∈ A a, CleanC c

/-- all coefficients lie in the respective group -/
def InA (A : MultiIndex → AddSubgroup K) (p : Poly K) : Prop := ∀ m ∈ p, m.coef ∈ A m.alpha

omit [LinearOrder K] [IsStrictOrderedRing K] in
theorem InA.coeffOf {A : MultiIndex → AddSubgroup K} {p : Poly K} (h : InA A p) (a : MultiIndex) :
    Poly.coeffOf p a ∈ A a := by
  unfold Poly.coeffOf
  apply list_sum_mem
  intro c hc
  simp only [List.mem_map, List.mem_filter, decide_eq_true_eq] at hc
  obtain ⟨m, ⟨hm, rfl⟩, rfl⟩ := hc
  exact h m hm

omit [LinearOrder K] [IsStrictOrderedRing K] in
theorem InA.append {A : MultiIndex → AddSubgroup K} {p q : Poly K} (hp : InA A p) (hq : InA A q) :
    InA A (p ++ q) := by
  intro m hm
  rcases List.mem_append.1 hm with h | h
  · exact hp m h
  · exact hq m h

omit [IsStrictOrderedRing K] in
theorem InA.nz {A : MultiIndex → AddSubgroup K} {p : Poly K} (hp : InA A p) : InA A (nz p) :=
  fun m hm => hp m (List.mem_filter.1 hm).1

theorem InA.consolidate {A : MultiIndex → AddSubgroup K} {p : Poly K} (hp : InA A p) :
    InA A (consolidate p) := by
  intro m hm
  have h1 := ((consolidate_canonical p).mem_iff m).1 hm
  rw [← h1.1, coeffOf_consolidate]
  unfold chop; split
  · exact (A _).zero_mem
  · exact hp.coeffOf _

theorem toMv_nz_A {A : MultiIndex → AddSubgroup K} (hA : Sep A) {p : Poly K} (hp : InA A p) :
    toMv (Poly.nz p) = toMv p := toMv_nz fun m hm => hA _ _ (hp m hm)

theorem toMv_consolidate_A {A : MultiIndex → AddSubgroup K} (hA : Sep A) {p : Poly K}
    (hp : InA A p) : toMv (Poly.consolidate p) = toMv p :=
  toMv_consolidate fun a => hA _ _ (hp.coeffOf a)

theorem add_A {A : MultiIndex → AddSubgroup K} (hA : Sep A) {p q : Poly K} (hp : InA A p)
    (hq : InA A q) : toMv (add p q) = toMv p + toMv q ∧ InA A (add p q) := by
  rw [add_eq]
  have h := hp.append hq
  exact ⟨by rw [toMv_consolidate_A hA h.nz, toMv_nz_A hA h, toMv_append], h.nz.consolidate⟩

theorem iadd_A {A : MultiIndex → AddSubgroup K} (hA : Sep A) {p q : Poly K} (hp : InA A p)
    (hq : InA A q) : toMv (iadd p q) = toMv p + toMv q ∧ InA A (iadd p q) := by
  rw [iadd_eq]
  have h := hp.append hq.nz
  exact ⟨by rw [toMv_consolidate_A hA h, toMv_append, toMv_nz_A hA hq], h.consolidate⟩

theorem smul_A {A B : MultiIndex → AddSubgroup K} (hB : Sep B) {p : Poly K} (hp : InA A p) (c : K)
    (hc : ∀ a, ∀ d ∈ A a, d * c ∈ B a) :
    toMv (smul p c) = MvPolynomial.C c * toMv p ∧ InA B (smul p c) := by
  rw [smul_eq]
  have h : InA B (p.map fun m => m.smul c) := by
    intro m hm
    simp only [List.mem_map] at hm
    obtain ⟨n, hn, rfl⟩ := hm
    exact hc _ _ (hp n hn)
  exact ⟨by rw [toMv_nz_A hB h, toMv_map_smul], h.nz⟩

/-- pure product -/
def mulP (p q : Poly K) : Poly K := consolidate (Poly.nz (prods p q))

omit [IsStrictOrderedRing K] in
theorem mul_eq (p q : Poly K) : mul p q = .ok (mulP p q) := mul_ok p q

theorem mul_A {A B C : MultiIndex → AddSubgroup K} (hC : Sep C) {p q : Poly K} (hp : InA A p)
    (hq : InA B q) (h : ∀ a b, ∀ c ∈ A a, ∀ d ∈ B b, c * d ∈ C (a.plus b)) :
    toMv (mulP p q) = toMv p * toMv q ∧ InA C (mulP p q) := by
  have h : InA C (prods p q) := by
    intro m hm
    simp only [prods, List.mem_flatMap, List.mem_map] at hm
    obtain ⟨m1, h1, m2, h2, rfl⟩ := hm
    exact h _ _ _ (hp m1 h1) _ (hq m2 h2)
  exact ⟨by rw [mulP, toMv_consolidate_A hC h.nz, toMv_nz_A hC h, toMv_prods], h.nz.consolidate⟩

theorem dx_A {A B : MultiIndex → AddSubgroup K} (hB : Sep B) {p : Poly K} (hp : InA A p)
    (h : ∀ x y : ℕ, ∀ c ∈ A ⟨x + 1, y⟩, c * ((x + 1 : ℕ) : K) ∈ B ⟨x, y⟩) :
    toMv (Poly.nz (p.map Mono.dx)) = MvPolynomial.pderiv 0 (toMv p) ∧
      InA B (Poly.nz (p.map Mono.dx)) := by
  have h : InA B (p.map Mono.dx) := by
    intro m hm
    simp only [List.mem_map] at hm
    obtain ⟨⟨⟨x, y⟩, c⟩, hn, rfl⟩ := hm
    unfold Mono.dx
    cases x with
    | zero => simp
    | succ x => simpa using h x y c (hp _ hn)
  exact ⟨by rw [toMv_nz_A hB h, toMv_map_dx], h.nz⟩

theorem dy_A {A B : MultiIndex → AddSubgroup K} (hB : Sep B) {p : Poly K} (hp : InA A p)
    (h : ∀ x y : ℕ, ∀ c ∈ A ⟨x, y + 1⟩, c * ((y + 1 : ℕ) : K) ∈ B ⟨x, y⟩) :
    toMv (Poly.nz (p.map Mono.dy)) = MvPolynomial.pderiv 1 (toMv p) ∧
      InA B (Poly.nz (p.map Mono.dy)) := by
  have h : InA B (p.map Mono.dy) := by
    intro m hm
    simp only [List.mem_map] at hm
    obtain ⟨⟨⟨x, y⟩, c⟩, hn, rfl⟩ := hm
    unfold Mono.dy
    cases y with
    | zero => simp
    | succ y => simpa using h x y c (hp _ hn)
  exact ⟨by rw [toMv_nz_A hB h, toMv_map_dy], h.nz⟩

/-! ### canonical form of every operator -/

theorem smul_canonical {p : Poly K} (h : Canonical p) (c : K) : Canonical (smul p c) := by
  rw [smul_eq]
  constructor
  · refine List.Pairwise.filter _ ?_
    rw [List.pairwise_map]
    exact h.1
  · intro m hm
    exact (not_isZero_iff m).1 (List.mem_filter.1 hm).2

theorem dx_canonical {p : Poly K} (h : Canonical p) : Canonical (Poly.nz (p.map Mono.dx)) := by
  constructor
  · unfold Poly.nz
    rw [List.filter_map, List.pairwise_map]
    refine List.Pairwise.imp_of_mem ?_ (h.1.filter _)
    intro m n hm hn hlt
    have hm' : m.alpha.x ≠ 0 := by
      intro h0
      have := (List.mem_filter.1 hm).2
      simp only [Function.comp, not_isZero_iff, Mono.dx, h0, if_true, abs_zero] at this
      exact absurd tol_pos (not_lt.2 this)
    have hn' : n.alpha.x ≠ 0 := by
      intro h0
      have := (List.mem_filter.1 hn).2
      simp only [Function.comp, not_isZero_iff, Mono.dx, h0, if_true, abs_zero] at this
      exact absurd tol_pos (not_lt.2 this)
    simp only [Mono.dx, hm', hn', if_false]
    rw [MultiIndex.idx_lt_iff] at hlt ⊢
    simp only [MultiIndex.order] at hlt ⊢
    omega
  · intro m hm
    exact (not_isZero_iff m).1 (List.mem_filter.1 hm).2

theorem dy_canonical {p : Poly K} (h : Canonical p) : Canonical (Poly.nz (p.map Mono.dy)) := by
  constructor
  · unfold Poly.nz
    rw [List.filter_map, List.pairwise_map]
    refine List.Pairwise.imp_of_mem ?_ (h.1.filter _)
    intro m n hm hn hlt
    have hm' : m.alpha.y ≠ 0 := by
      intro h0
      have := (List.mem_filter.1 hm).2
      simp only [Function.comp, not_isZero_iff, Mono.dy, h0, if_true, abs_zero] at this
      exact absurd tol_pos (not_lt.2 this)
    have hn' : n.alpha.y ≠ 0 := by
      intro h0
      have := (List.mem_filter.1 hn).2
      simp only [Function.comp, not_isZero_iff, Mono.dy, h0, if_true, abs_zero] at this
      exact absurd tol_pos (not_lt.2 this)
    simp only [Mono.dy, hm', hn', if_false]
    rw [MultiIndex.idx_lt_iff] at hlt ⊢
    simp only [MultiIndex.order] at hlt ⊢
    omega
  · intro m hm
    exact (not_isZero_iff m).1 (List.mem_filter.1 hm).2

end Poly
end PFEM
