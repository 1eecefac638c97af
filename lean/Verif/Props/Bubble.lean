import Verif.Props.LocBasis
import Verif.Props.DiscInner

/-!
Property theorems C80: the Laplacians of the bubble functions.
-/

namespace PFEM
open Nystrom Antilap Poly LocSpaceG

theorem set_x : Poly.set [((1 : ℝ), 1, 0)] = .ok [⟨⟨1, 0⟩, 1⟩] := by
  have h1 : MultiIndex.set [1, 0] = .ok ⟨1, 0⟩ := by decide
  have h2 : addMonomial [] (⟨⟨1, 0⟩, 1⟩ : Mono ℝ) = [⟨⟨1, 0⟩, 1⟩] := by
    have : (⟨⟨1, 0⟩, 1⟩ : Mono ℝ).isZero = false := by norm_num [Mono.isZero, tol, abs_of_pos]
    simp [addMonomial, this]
  have h3 : Canonical [(⟨⟨1, 0⟩, 1⟩ : Mono ℝ)] := ⟨by simp, by simp [tol]; norm_num⟩
  simp only [Poly.set, setLoop, h1, py_ok_bind, h2, consolidate_eq_self h3]

theorem set_y : Poly.set [((1 : ℝ), 0, 1)] = .ok [⟨⟨0, 1⟩, 1⟩] := by
  have h1 : MultiIndex.set [0, 1] = .ok ⟨0, 1⟩ := by decide
  have h2 : addMonomial [] (⟨⟨0, 1⟩, 1⟩ : Mono ℝ) = [⟨⟨0, 1⟩, 1⟩] := by
    have : (⟨⟨0, 1⟩, 1⟩ : Mono ℝ).isZero = false := by norm_num [Mono.isZero, tol, abs_of_pos]
    simp [addMonomial, this]
  have h3 : Canonical [(⟨⟨0, 1⟩, 1⟩ : Mono ℝ)] := ⟨by simp, by simp [tol]; norm_num⟩
  simp only [Poly.set, setLoop, h1, py_ok_bind, h2, consolidate_eq_self h3]

/-- the centred monomial as one expression -/
theorem centeredMonomial_eq (c : ℝ × ℝ) {A : ℝ} (hA : A ≠ 0) (α : MultiIndex) :
    centeredMonomial c A α.idx = .ok ((consolidate (addMonomial [] ⟨α, -1 / A ^ 2⟩)).foldl
      (compStep (add [⟨⟨1, 0⟩, 1⟩] [⟨⟨0, 0⟩, -1 * c.1⟩]) (add [⟨⟨0, 1⟩, 1⟩] [⟨⟨0, 0⟩, -1 * c.2⟩])) []) := by
  simp only [centeredMonomial, set_x, set_y, py_ok_bind, subScalar, addScalar_ok, if_neg hA, addMonomialWithIdx, MultiIndex.setFromIdx_idx,
    compose_ok]

/-- either zero or large enough not to be dropped -/
def Kept (z : ℝ) : Prop := z = 0 ∨ 1 / 10 ^ 12 ≤ |z|

/-- the multiples of `g c1^(i - a) c2^(j - b)` for the exponents `(a, b)` up to `(i, j)` -/
def cen (c1 c2 g : ℝ) (i j : ℕ) (a : MultiIndex) : AddSubgroup ℝ :=
  if a.x ≤ i ∧ a.y ≤ j then AddSubgroup.zmultiples (g * (c1 ^ (i - a.x) * c2 ^ (j - a.y))) else ⊥

theorem mem_cen {c1 c2 g : ℝ} {i j : ℕ} {a : MultiIndex} {c : ℝ} :
    c ∈ cen c1 c2 g i j a ↔ (a.x ≤ i ∧ a.y ≤ j ∧ ∃ n : ℤ, c = n * (g * (c1 ^ (i - a.x) * c2 ^ (j - a.y)))) ∨ c = 0 := by
  unfold cen
  split_ifs with h
  · rw [AddSubgroup.mem_zmultiples_iff]
    constructor
    · rintro ⟨n, rfl⟩
      exact Or.inl ⟨h.1, h.2, n, by simp⟩
    · rintro (⟨-, -, n, rfl⟩ | rfl)
      · exact ⟨n, by simp⟩
      · exact ⟨0, by simp⟩
  · rw [AddSubgroup.mem_bot]
    constructor
    · exact Or.inr
    · rintro (⟨h1, h2, -⟩ | h0)
      · exact absurd ⟨h1, h2⟩ h
      · exact h0

theorem sep_cen {c1 c2 g : ℝ} {i j : ℕ} (h : ∀ p ≤ i, ∀ q ≤ j, Kept (g * (c1 ^ p * c2 ^ q))) : Sep (cen c1 c2 g i j) := by
  intro a c hc
  rcases mem_cen.1 hc with ⟨-, -, n, rfl⟩ | rfl
  · rcases h (i - a.x) (Nat.sub_le _ _) (j - a.y) (Nat.sub_le _ _) with h0 | h0
    · rw [h0, mul_zero]
      exact lat_clean le_rfl ⟨0, by simp⟩
    · set z := g * (c1 ^ (i - a.x) * c2 ^ (j - a.y))
      refine lat_clean (δ := |z|) h0 ?_
      rcases abs_choice z with h | h
      · exact ⟨n, by rw [h]⟩
      · exact ⟨-n, by rw [h]; push_cast; ring⟩
  · exact lat_clean le_rfl ⟨0, by simp⟩

theorem cen_mul {c1 c2 g h : ℝ} {i j k l : ℕ} {a b : MultiIndex} {c d : ℝ} (hc : c ∈ cen c1 c2 g i j a) (hd : d ∈ cen c1 c2 h k l b) :
    c * d ∈ cen c1 c2 (g * h) (i + k) (j + l) (a.plus b) := by
  rw [mem_cen] at *
  rcases hc with ⟨h1, h2, m, rfl⟩ | rfl
  · rcases hd with ⟨h3, h4, n, rfl⟩ | rfl
    · refine Or.inl ⟨?_, ?_, m * n, ?_⟩
      · simp only [MultiIndex.plus]; omega
      · simp only [MultiIndex.plus]; omega
      · have e1 : i + k - (a.plus b).x = (i - a.x) + (k - b.x) := by simp only [MultiIndex.plus]; omega
        have e2 : j + l - (a.plus b).y = (j - a.y) + (l - b.y) := by simp only [MultiIndex.plus]; omega
        rw [e1, e2, pow_add, pow_add]
        push_cast
        ring
    · exact Or.inr (mul_zero _)
  · exact Or.inr (zero_mul _)

theorem kept_of {c1 c2 : ℝ} {i j k l : ℕ} (hk : k ≤ i) (hl : l ≤ j) (h : ∀ p ≤ i, ∀ q ≤ j, Kept (c1 ^ p * c2 ^ q)) :
    ∀ p ≤ k, ∀ q ≤ l, Kept (1 * (c1 ^ p * c2 ^ q)) := fun p hp q hq => by
  rw [one_mul]; exact h p (hp.trans hk) q (hq.trans hl)

theorem oneP_cen (c1 c2 : ℝ) : InA (cen c1 c2 1 0 0) (oneP ℝ) := by
  intro m hm
  simp only [oneP, List.mem_singleton] at hm
  subst hm
  exact mem_cen.2 (Or.inl ⟨le_rfl, le_rfl, 1, by simp⟩)

/-- powers of a polynomial with such coefficients -/
theorem pow_cen {c1 c2 : ℝ} {a b : ℕ} {p : Poly ℝ} (hp : InA (cen c1 c2 1 a b) p) : ∀ n : ℕ,
    (∀ k ≤ n, Sep (cen c1 c2 1 (k * a) (k * b))) →
    toMv (powP p n (oneP ℝ)) = toMv p ^ n ∧ InA (cen c1 c2 1 (n * a) (n * b)) (powP p n (oneP ℝ))
  | 0, _ => by
    refine ⟨by simp [powP, toMv_oneP], ?_⟩
    simpa [powP] using oneP_cen c1 c2
  | n + 1, h => by
    obtain ⟨h1, h2⟩ := pow_cen hp n fun k hk => h k (by omega)
    have e : powP p (n + 1) (oneP ℝ) = mulP (powP p n (oneP ℝ)) p := by
      unfold powP; rw [Function.iterate_succ_apply']
    obtain ⟨h3, h4⟩ := mul_A (h (n + 1) le_rfl) h2 hp (fun a' b' c hc d hd => by
      have := cen_mul hc hd
      rw [one_mul] at this
      convert this using 2 <;> ring)
    rw [e]
    exact ⟨by rw [h3, h1, pow_succ], h4⟩

/-- the linear polynomials that are substituted -/
theorem shift_x (c1 c2 : ℝ) (h : Sep (cen c1 c2 1 1 0)) :
    toMv (add [⟨⟨1, 0⟩, 1⟩] [⟨⟨0, 0⟩, -1 * c1⟩]) = toMv ([⟨⟨1, 0⟩, 1⟩, ⟨⟨0, 0⟩, -1 * c1⟩] : Poly ℝ) ∧
      InA (cen c1 c2 1 1 0) (add [⟨⟨1, 0⟩, 1⟩] [⟨⟨0, 0⟩, -1 * c1⟩]) := by
  have := add_A h (p := [⟨⟨1, 0⟩, 1⟩]) (q := [⟨⟨0, 0⟩, -1 * c1⟩]) (fun m hm => by
    rw [List.mem_singleton] at hm
    subst hm
    exact mem_cen.2 (Or.inl ⟨le_rfl, le_rfl, 1, by simp⟩)) (fun m hm => by
    rw [List.mem_singleton] at hm
    subst hm
    exact mem_cen.2 (Or.inl ⟨by simp, le_rfl, -1, by simp⟩))
  refine ⟨this.1.trans ?_, this.2⟩
  rw [← toMv_append]
  rfl

theorem shift_y (c1 c2 : ℝ) (h : Sep (cen c1 c2 1 0 1)) :
    toMv (add [⟨⟨0, 1⟩, 1⟩] [⟨⟨0, 0⟩, -1 * c2⟩]) = toMv ([⟨⟨0, 1⟩, 1⟩, ⟨⟨0, 0⟩, -1 * c2⟩] : Poly ℝ) ∧
      InA (cen c1 c2 1 0 1) (add [⟨⟨0, 1⟩, 1⟩] [⟨⟨0, 0⟩, -1 * c2⟩]) := by
  have := add_A h (p := [⟨⟨0, 1⟩, 1⟩]) (q := [⟨⟨0, 0⟩, -1 * c2⟩]) (fun m hm => by
    rw [List.mem_singleton] at hm
    subst hm
    exact mem_cen.2 (Or.inl ⟨le_rfl, le_rfl, 1, by simp⟩)) (fun m hm => by
    rw [List.mem_singleton] at hm
    subst hm
    exact mem_cen.2 (Or.inl ⟨le_rfl, by simp, -1, by simp⟩))
  refine ⟨this.1.trans ?_, this.2⟩
  rw [← toMv_append]
  rfl

/-- substituting them into a monomial -/
theorem comp_cen (c1 c2 κ : ℝ) (i j : ℕ) (h1 : ∀ p ≤ i, ∀ q ≤ j, Kept (c1 ^ p * c2 ^ q))
    (h2 : ∀ p ≤ i, ∀ q ≤ j, Kept (κ * (c1 ^ p * c2 ^ q))) (x y : ℝ) :
    (compStep (add [⟨⟨1, 0⟩, 1⟩] [⟨⟨0, 0⟩, -1 * c1⟩]) (add [⟨⟨0, 1⟩, 1⟩] [⟨⟨0, 0⟩, -1 * c2⟩]) [] ⟨⟨i, j⟩, κ⟩).eval x y =
      κ * ((x - c1) ^ i * (y - c2) ^ j) := by
  -- the powers
  have hx : toMv (powP (add [⟨⟨1, 0⟩, 1⟩] [⟨⟨0, 0⟩, -1 * c1⟩]) i (oneP ℝ)) = toMv ([⟨⟨1, 0⟩, 1⟩, ⟨⟨0, 0⟩, -1 * c1⟩] : Poly ℝ) ^ i ∧
      InA (cen c1 c2 1 i 0) (powP (add [⟨⟨1, 0⟩, 1⟩] [⟨⟨0, 0⟩, -1 * c1⟩]) i (oneP ℝ)) := by
    rcases Nat.eq_zero_or_pos i with rfl | hi
    · exact ⟨by simp [powP, toMv_oneP], by simpa [powP] using oneP_cen c1 c2⟩
    · obtain ⟨e, hA⟩ := shift_x c1 c2 (sep_cen (kept_of hi (Nat.zero_le _) h1))
      have := pow_cen hA i fun k hk => sep_cen (kept_of (by omega) (by omega) h1)
      rw [e, mul_one, mul_zero] at this
      exact this
  have hy : toMv (powP (add [⟨⟨0, 1⟩, 1⟩] [⟨⟨0, 0⟩, -1 * c2⟩]) j (oneP ℝ)) = toMv ([⟨⟨0, 1⟩, 1⟩, ⟨⟨0, 0⟩, -1 * c2⟩] : Poly ℝ) ^ j ∧
      InA (cen c1 c2 1 0 j) (powP (add [⟨⟨0, 1⟩, 1⟩] [⟨⟨0, 0⟩, -1 * c2⟩]) j (oneP ℝ)) := by
    rcases Nat.eq_zero_or_pos j with rfl | hj
    · exact ⟨by simp [powP, toMv_oneP], by simpa [powP] using oneP_cen c1 c2⟩
    · obtain ⟨e, hA⟩ := shift_y c1 c2 (sep_cen (kept_of (Nat.zero_le _) hj h1))
      have := pow_cen hA j fun k hk => sep_cen (kept_of (by omega) (by omega) h1)
      rw [e, mul_one, mul_zero] at this
      exact this
  obtain ⟨hm, hmA⟩ := mul_A (C := cen c1 c2 1 i j) (sep_cen (kept_of le_rfl le_rfl h1)) hx.2 hy.2 (fun a b c hc d hd => by
    have := cen_mul hc hd
    rwa [one_mul, add_zero, zero_add] at this)
  obtain ⟨hs, hsA⟩ := smul_A (B := cen c1 c2 κ i j) (sep_cen h2) hmA κ (fun a d hd => by
    rw [mem_cen] at *
    rcases hd with ⟨h1, h2, n, rfl⟩ | rfl
    · exact Or.inl ⟨h1, h2, n, by ring⟩
    · exact Or.inr (zero_mul _))
  obtain ⟨ha, -⟩ := iadd_A (p := []) (sep_cen h2) (fun m hm => by cases hm) hsA
  have e1 : ∀ x y : ℝ, Poly.eval ([⟨⟨1, 0⟩, 1⟩, ⟨⟨0, 0⟩, -1 * c1⟩] : Poly ℝ) x y = x - c1 := by
    intro x y; simp [Poly.eval, Mono.eval]; ring
  have e2 : ∀ x y : ℝ, Poly.eval ([⟨⟨0, 1⟩, 1⟩, ⟨⟨0, 0⟩, -1 * c2⟩] : Poly ℝ) x y = y - c2 := by
    intro x y; simp [Poly.eval, Mono.eval]; ring
  rw [compStep, eval_toMv, ha, hs, hm, hx.1, hy.1]
  simp only [map_add, map_mul, map_pow, MvPolynomial.eval_C, ← eval_toMv, e1, e2, eval_nil, zero_add]

/-- C80: the Laplacian of a bubble function is `-1/A² (x - c1)^i (y - c2)^j`, where `(i, j)` is the multi-index with the number of the function,
`A` the area and `(c1, c2)` the centre, provided that none of the coefficients that arise is smaller than 1e-12.  Missing: tiny coefficients,
which are dropped (see `C80_large`). -/
theorem C80_monomial_partial (c : ℝ × ℝ) (A : ℝ) (hA : 0 < A) (i j : ℕ)
    (h1 : ∀ p ≤ i, ∀ q ≤ j, Kept (c.1 ^ p * c.2 ^ q)) (h2 : ∀ p ≤ i, ∀ q ≤ j, Kept (-1 / A ^ 2 * (c.1 ^ p * c.2 ^ q))) :
    ∃ m, centeredMonomial c A (MultiIndex.mk i j).idx = .ok m ∧ Canonical m ∧
      ∀ x y, m.eval x y = -1 / A ^ 2 * ((x - c.1) ^ i * (y - c.2) ^ j) := by
  have hA2 : 0 < A ^ 2 := by positivity
  have hc1 : 1 / 10 ^ 12 ≤ |-1 / A ^ 2| := by
    rcases h2 0 (Nat.zero_le _) 0 (Nat.zero_le _) with h | h
    · simp only [pow_zero, mul_one] at h
      rw [neg_div] at h
      exact absurd (neg_eq_zero.1 h) (by positivity)
    · simpa only [pow_zero, mul_one] using h
  generalize hκ : -1 / A ^ 2 = κ at *
  have hz : (Mono.mk ⟨i, j⟩ κ).isZero = false := by
    simp only [Mono.isZero, tol]
    exact decide_eq_false (not_lt.2 hc1)
  have h3 : Canonical [Mono.mk ⟨i, j⟩ κ] := by
    refine ⟨by simp, ?_⟩
    intro m hm
    rw [List.mem_singleton] at hm
    subst hm
    exact hc1
  have h4 : addMonomial [] (Mono.mk ⟨i, j⟩ κ) = [⟨⟨i, j⟩, κ⟩] := by simp [addMonomial, hz]
  have h5 := centeredMonomial_eq c hA.ne' ⟨i, j⟩
  rw [hκ, h4, consolidate_eq_self h3, List.foldl_cons, List.foldl_nil] at h5
  refine ⟨_, h5, by rw [compStep]; exact iadd_canonical _ _, fun x y => ?_⟩
  exact comp_cen c.1 c.2 κ i j h1 h2 x y

/-- C80 as stated is false for large cells: if the area exceeds 1e6, the Laplacian of every bubble function is the zero polynomial, since its
coefficient is below 1e-12. -/
theorem C80_large (c : ℝ × ℝ) (A : ℝ) (hA : 10 ^ 6 < A) (k : ℕ) : centeredMonomial c A k = .ok [] := by
  obtain ⟨α, -, rfl⟩ := MultiIndex.setFromIdx_nat k
  have hA0 : A ≠ 0 := by intro h; rw [h] at hA; norm_num at hA
  have hz : (Mono.mk α (-1 / A ^ 2)).isZero = true := by
    simp only [Mono.isZero, tol]
    refine decide_eq_true ?_
    rw [neg_div, abs_neg, abs_of_nonneg (by positivity)]
    apply one_div_lt_one_div_of_lt (by norm_num)
    nlinarith
  rw [centeredMonomial_eq c hA0]
  have : addMonomial [] (Mono.mk α (-1 / A ^ 2)) = [] := by simp [addMonomial, hz]
  rw [this]
  rfl

/-- C80: so on such a cell every bubble function is zero on the boundary and has no polynomial part: it is harmonic with boundary values zero. -/
theorem C80_zero_bubble {x : Ctx} (h : x.K.Ready) (hA : 10 ^ 6 < x.area) {k : ℕ} {f : Fn} (hf : bubbFun x k = .ok f) :
    f.val.traceValues = .ok (List.replicate x.K.numPts 0) ∧ ∃ p r, f.val.poly = some p ∧ p.exact = [] ∧ f.val.harm = some r ∧
      r.trace.values = some (List.replicate x.K.numPts 0) := by
  unfold bubbFun at hf
  rw [C80_large _ _ hA, py_ok_bind] at hf
  obtain ⟨v, hv, hf⟩ := bind_ok hf
  cases hf
  have hg : (LocPoisson.TraceOr.value (.num 0)).Gives x.K (List.replicate x.K.numPts 0) := rfl
  obtain ⟨r, hr, -, hp, hh⟩ := poissonInit_parts h rfl hg hv
  refine ⟨C75_trace h hg hv, _, r, hp, alP_nil, hh, ?_⟩
  rw [harmInit_values hr]
  show some _ = some _
  congr 1
  refine List.ext_getElem (by simp [CellG.samplesOf, h.numPts]) fun i h1 h2 => ?_
  simp [CellG.samplesOf, alP_nil, Poly.eval]

/-! ### the area and the centre -/

/-- C80: the area is the integral of the constant 1, computed as any other integral of a polynomial. -/
theorem C80_area {K : CellG} (h : K.Ready) (hne : ∀ c ∈ K.components, c.edges ≠ []) : area K = integratePoly onePoly K := by
  have hx := h.dotWithNormal (c1 := K.cols.map Sample.x) (c2 := K.cols.map Sample.y) (by simp) (by simp)
  have e1 : List.zipWith (fun s (p : ℝ × ℝ) => p.1 * s.nx + p.2 * s.ny) K.cols
      ((K.cols.map Sample.x).zip (K.cols.map Sample.y)) = K.cols.map fun s => s.x * s.nx + s.y * s.ny := by
    rw [List.zip_map', List.zipWith_map_right, List.zipWith_self]
  rw [e1] at hx
  rw [integratePoly_ok h hne, area, h.getBoundaryPoints, py_ok_bind]
  dsimp only
  rw [hx, py_ok_bind, cell_integrate h hne (by simp), py_ok_bind]
  congr 1
  have h2 := dot_lincomb 0.5 0 (K.cols.map fun s => s.x * s.nx + s.y * s.ny) (K.cols.map fun s => s.x * s.nx + s.y * s.ny) (cellWeights K) rfl
  rw [zero_mul, add_zero] at h2
  rw [← h2]
  congr 1
  rw [lincomb, List.zipWith_map, List.zipWith_self]
  refine List.map_congr_left fun s _ => ?_
  simp [radial, onePoly]
  ring

theorem disc_area {r : ℝ} (hr : 0 < r) (x0 y0 : ℝ) : ∫ z in disc x0 y0 r, onePoly.eval z.1 z.2 = Real.pi * r ^ 2 := by
  have e : ∀ x y, onePoly.eval x y = 1 := fun x y => by simp [onePoly, Poly.eval, Mono.eval]
  simp only [e]
  rw [disc_shift, disc_polar continuous_const hr]
  simp only [mul_one, intervalIntegral.integral_const, smul_eq_mul]
  rw [intervalIntegral.integral_const_mul, integral_id]
  ring

/-- C80: on a disc the area is that of the disc and the centre is the centre. -/
theorem C80_disc {K : CellG} {x0 y0 r : ℝ} {N : ℕ} (h : K.IsDisc x0 y0 r N) (hr : 0 < r) (hN : 2 < N) :
    area K = .ok (Real.pi * r ^ 2) ∧ centroid K = .ok (x0, y0) := by
  constructor
  · rw [C80_area h.ready h.edges_ne, C78_integral h hr (by simp [onePoly, hN]), disc_area hr]
  · have hN0 : (N : ℝ) ≠ 0 := by positivity
    have hd : ¬ (N : ℤ) ∣ 1 := by
      intro hd
      have := Int.le_of_dvd one_pos hd
      omega
    have hc := sum_cos_shift (by omega : 0 < N) hd 0
    have hs := sum_sin_shift (by omega : 0 < N) hd 0
    simp only [Int.cast_one, one_mul, zero_add] at hc hs
    rw [centroid, h.ready.getBoundaryPoints, py_ok_bind]
    dsimp only
    rw [h.cols]
    have key : ∀ (f : ℕ → ℝ) (a : ℝ), ∑ j ∈ Finset.range N, f j = 0 →
        Np.mean ((List.range N).map fun j : ℕ => a + r * f j) = .ok a := by
      intro f a hf
      have : ((List.range N).map fun j : ℕ => a + r * f j).sum = ∑ j ∈ Finset.range N, (a + r * f j) := by
        rw [Finset.sum_range, ← List.sum_ofFn, List.ofFn_eq_map, ← List.map_coe_finRange_eq_range, List.map_map]
        rfl
      rw [Np.mean, if_neg (by simp; omega), this, Finset.sum_add_distrib, ← Finset.mul_sum, hf]
      simp [hN0]
    rw [List.map_map, List.map_map]
    have h1 := key (fun j => Real.cos (2 * Real.pi * j / N)) x0 hc
    have h2 := key (fun j => Real.sin (2 * Real.pi * j / N)) y0 hs
    have e1 : (Sample.x ∘ circleSample x0 y0 r N) = fun j : ℕ => x0 + r * Real.cos (2 * Real.pi * j / N) := rfl
    have e2 : (Sample.y ∘ circleSample x0 y0 r N) = fun j : ℕ => y0 + r * Real.sin (2 * Real.pi * j / N) := rfl
    rw [e1, e2, h1, py_ok_bind, h2, py_ok_bind]

/-! ### large discs -/

theorem zero_problem : PolyProblem [] [] [] [] := by
  have h : HasLaplacian Set.univ (Poly.eval ([] : Poly ℝ)) (Poly.eval []) := by
    have e : Poly.eval ([] : Poly ℝ) = fun _ _ => 0 := by funext x y; simp [Poly.eval]
    rw [e]
    exact ⟨fun _ _ => 0, fun _ _ => 0, fun x y _ => ⟨⟨hasDerivAt_const x _, hasDerivAt_const y _⟩, 0, 0, hasDerivAt_const x _,
      hasDerivAt_const y _, by simp⟩⟩
  exact ⟨⟨by simp, by simp⟩, h, by rw [antiLaplacian_ok, alP_nil], h, by rw [antiLaplacian_ok, alP_nil], h⟩

/-- C80: the bubble functions of a disc with an area above 1e6 have no energy: whatever the coefficients of the bilinear form, its values on them
are zero.  (So the matrix of the linear system is singular.) -/
theorem C80_no_energy {x : Ctx} (hx : Exact x.gmres) (hfd : Finds x.gmres) {x0 y0 r : ℝ} {n : ℕ} (h : x.K.IsDisc x0 y0 r (2 * n))
    (hc : Corners x.K) (hr : 0 < r) (hA : 10 ^ 6 < Real.pi * r ^ 2) (ha : area x.K = .ok x.area) (h4 : 4 ≤ n) (hn : n ≤ 2 * 10 ^ 7)
    {strategy pc : String} (hs : init x.gmres x.K strategy pc = .ok x.nyst) {k l : ℕ} {f g : Fn} (hf : bubbFun x k = .ok f)
    (hg : bubbFun x l = .ok g) (B : BilinForm) : B.eval f.val g.val = .ok 0 := by
  have ha' := (C80_disc h hr (by omega)).1
  rw [ha] at ha'
  injection ha' with ha'
  rw [← ha'] at hA
  have hr' : 1 / 10 ^ 14 ≤ r := by
    by_contra hlt
    push Not at hlt
    have h1 : r ^ 2 < 1 := by nlinarith
    have h2 := Real.pi_le_four
    rw [ha'] at hA
    nlinarith
  unfold bubbFun at hf hg
  rw [C80_large _ _ hA, py_ok_bind] at hf hg
  obtain ⟨F, hF, hf⟩ := bind_ok hf
  obtain ⟨G, hG, hg⟩ := bind_ok hg
  cases hf
  cases hg
  have e0 : Poly.eval ([] : Poly ℝ) = fun _ _ => 0 := by funext x y; simp [Poly.eval]
  have ht : (LocPoisson.TraceOr.value (.num 0)).Gives x.K (x.K.samplesOf (Poly.eval [])) := by
    show _ = _
    rw [e0, CellG.samplesOf, h.ready.numPts]
    simp
  have hgr : HasGradOn Set.univ (Poly.eval ([] : Poly ℝ)) (fun _ _ => 0) fun _ _ => 0 := by
    rw [e0]
    exact fun x y _ => ⟨hasDerivAt_const x _, hasDerivAt_const y _⟩
  obtain ⟨h1, h2⟩ := C78_inner_products hx hfd h hc hr' h4 hn hs zero_problem zero_problem (by simp) (by simp) (δ := 1) (ε := 1)
    (by intro m hm; cases hm) (by intro m hm; cases hm) (by norm_num) ht ht hF hG hgr hgr
  simp only [BilinForm.eval, h1, h2, py_ok_bind, BilinForm.evalWith, e0]
  simp

theorem fft_init (gmres : Gmres) {K : CellG} {x0 y0 r : ℝ} {n : ℕ} (h : K.IsDisc x0 y0 r (2 * n)) (hr : 0 < r) (h4 : 4 ≤ n) (hn : n ≤ 2 * 10 ^ 7) :
    ∃ s, init gmres K "fft" "jacobi" = .ok s := by
  obtain ⟨s, hs, -⟩ := C70_init gmres h.ready (h.even rfl h4 hn) h.edges_ne h.holes h.apart (h.simple hr)
  have hh : ¬ 0 < K.numHoles := by rw [h.numHoles]; omega
  obtain ⟨h1, h2, h3, -⟩ := init_parts hs
  rcases h2 with ⟨h2, -⟩ | ⟨-, h2⟩
  · exact absurd h2 hh
  · refine ⟨⟨s.ops, none, s.diag, "fft", none⟩, ?_⟩
    rw [h2] at h3
    simp only [init, h1, py_ok_bind, if_neg hh, h3]
    simp [hh]

/-! ### the hypotheses can be met -/

/-- a square of side 2 about `(1/2, 3)`: the monomial `x² y` -/
example : ∃ m, centeredMonomial (1 / 2, 3) 4 (MultiIndex.mk 2 1).idx = .ok m ∧ Canonical m ∧
    ∀ x y, m.eval x y = -1 / 4 ^ 2 * ((x - 1 / 2) ^ 2 * (y - 3) ^ 1) := by
  refine C80_monomial_partial (1 / 2, 3) 4 (by norm_num) 2 1 ?_ ?_
  all_goals
    intro p hp q hq
    refine Or.inr ?_
    interval_cases p <;> interval_cases q <;> norm_num [abs_of_pos]

/-- a cell of area 2000000 -/
example : centeredMonomial (3, 4) 2000000 5 = .ok [] := C80_large _ _ (by norm_num) 5

/-- a disc of radius 1000 with `2n` samples -/
noncomputable def bigDisc (n : ℕ) : CellG :=
  { components := [{ edges := [{ unitCircle "trap" [] with pts := some ((List.range (2 * n + 1)).map (circleSample 0 0 1000 (2 * n))) }]
                     orients := [1], numPts := 2 * n, vertIdx := [0, 2 * n], closest := List.replicate (2 * n) 0 }]
    numPts := 2 * n, startIdx := [0, 2 * n], closest := List.replicate (2 * n) 0 }

theorem bigDisc_ok {n : ℕ} (hn : 0 < n) : (bigDisc n).IsDisc 0 0 1000 (2 * n) ∧ Corners (bigDisc n) := by
  have hcols : ({ unitCircle "trap" [] with pts := some ((List.range (2 * n + 1)).map (circleSample 0 0 1000 (2 * n))) } : EdgeG).cols =
      (List.range (2 * n)).map (circleSample 0 0 1000 (2 * n)) := by
    simp [EdgeG.cols, List.range_succ]
  refine ⟨⟨⟨?_, ?_, ?_⟩, _, _, rfl, rfl, ?_, hcols⟩, by simp [bigDisc], ?_⟩
  · intro c hc
    simp only [bigDisc, List.mem_singleton] at hc
    subst hc
    refine ⟨?_, ?_, ?_⟩
    · intro e he
      simp only [List.mem_singleton] at he
      subst he
      exact ⟨_, rfl, by simp; omega⟩
    · simp only [ContourG.cols, List.flatMap_cons, List.flatMap_nil, List.append_nil, hcols]
      simp
    · simp only [List.map_cons, List.map_nil, hcols]
      simp [List.range_succ, blockStart]
  · simp only [bigDisc, CellG.cols, ContourG.cols, List.flatMap_cons, List.flatMap_nil, List.append_nil, hcols]
    simp
  · simp [bigDisc, List.range_succ, blockStart]
  · simp only [EdgeG.IsKress, unitCircle]
    decide
  · intro i hi
    simp only [bigDisc, List.mem_replicate] at hi
    rw [hi.2]
    simp [bigDisc]
    omega

/-- the bubble functions number 0 and 1 of the disc of radius 1000 exist, and the bilinear form vanishes on them -/
example : ∃ x f g, x.K = bigDisc 8 ∧ bubbFun x 0 = .ok f ∧ bubbFun x 1 = .ok g ∧ ∀ B : BilinForm, B.eval f.val g.val = .ok 0 := by
  obtain ⟨h1, h2⟩ := bigDisc_ok (n := 8) (by norm_num)
  obtain ⟨s, hs⟩ := fft_init someGmres h1 (by norm_num) (by norm_num) (by norm_num)
  obtain ⟨ha, hc⟩ := C80_disc h1 (by norm_num) (by norm_num)
  have hK : s.ops.K = bigDisc 8 := build_cell (init_parts hs).1
  have hA : (10 : ℝ) ^ 6 < Real.pi * 1000 ^ 2 := by nlinarith [Real.two_le_pi]
  have hgr : HasGradOn Set.univ (Poly.eval ([] : Poly ℝ)) (fun _ _ => 0) fun _ _ => 0 := by
    have e0 : Poly.eval ([] : Poly ℝ) = fun _ _ => 0 := by funext x y; simp [Poly.eval]
    rw [e0]
    exact fun x y _ => ⟨hasDerivAt_const x _, hasDerivAt_const y _⟩
  have hg : (LocPoisson.TraceOr.value (.num 0)).Gives (bigDisc 8) ((bigDisc 8).samplesOf (Poly.eval [])) := by
    have e0 : Poly.eval ([] : Poly ℝ) = fun _ _ => 0 := by funext x y; simp [Poly.eval]
    show _ = _
    rw [e0, CellG.samplesOf, h1.ready.numPts]
    simp
  obtain ⟨B, hB⟩ := C77_poisson 0 0 (r := 1000) (by norm_num) zero_problem.canonical zero_problem.anti zero_problem.antiExact zero_problem.solution
    hgr (d := 0) (by simp)
  obtain ⟨F, hF, -⟩ := hB someGmres _ 8 "fft" "jacobi" s _ someGmres_exact someGmres_finds h1 h2 (by norm_num) (by norm_num) (by norm_num) hs hg
    (by simp [bigDisc]) true true
  have hf : ∀ k : ℕ, bubbFun ⟨someGmres, s, (0, 0), Real.pi * 1000 ^ 2, true, true⟩ k = .ok ⟨.ofBubb (k : ℤ), F⟩ := by
    intro k
    rw [bubbFun, C80_large _ _ hA, py_ok_bind, hF, py_ok_bind]
  refine ⟨⟨someGmres, s, (0, 0), Real.pi * 1000 ^ 2, true, true⟩, _, _, hK, hf 0, hf 1, ?_⟩
  exact C80_no_energy (x := ⟨someGmres, s, (0, 0), Real.pi * 1000 ^ 2, true, true⟩) someGmres_exact someGmres_finds (x0 := 0) (y0 := 0) (r := 1000)
    (n := 8) (by rw [Ctx.K]; exact hK ▸ h1) (by rw [Ctx.K]; exact hK ▸ h2) (by norm_num) hA (by rw [Ctx.K]; exact hK ▸ ha) (by norm_num) (by norm_num)
    (by rw [Ctx.K]; exact hK ▸ hs) (hf 0) (hf 1)

end PFEM
