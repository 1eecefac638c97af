import Verif.Props.EdgeSpace
import Verif.Props.PolyBuild
import Verif.Lemmas.LineSum
import Verif.Lemmas.TrigSum
import Verif.Props.DiscCell
import Mathlib.Algebra.Order.Chebyshev
import Mathlib.Analysis.Real.Pi.Bounds

/-!
Property theorems C128: the selection of edge functions uses absolute thresholds, so the number of edge functions depends on the unit of length.
-/

namespace PFEM
open Poly
namespace EdgeSpaceG

/-- a singular value decomposition with orthonormal singular vectors -/
structure FullSvd (m : ℕ) (M : ℕ → ℕ → ℝ) (d : Svd) : Prop extends IsSvd m M d where
  left : ∀ k < m, ∀ l < m, ∑ i ∈ Finset.range m, d.U i k * d.U i l = if k = l then 1 else 0
  right : ∀ k < m, ∀ l < m, ∑ j ∈ Finset.range m, d.Vh k j * d.Vh l j = if k = l then 1 else 0

/-- singular values are at most the size of the matrix times its largest entry -/
theorem FullSvd.le {m : ℕ} {M : ℕ → ℕ → ℝ} {d : Svd} (h : FullSvd m M d) {η : ℝ} (hη : ∀ i < m, ∀ j < m, |M i j| ≤ η) {k : ℕ} (hk : k < m) :
    d.S k ≤ m * η := by
  have e : d.S k = ∑ i ∈ Finset.range m, ∑ j ∈ Finset.range m, d.U i k * M i j * d.Vh k j := by
    have h1 : ∀ i ∈ Finset.range m, ∑ j ∈ Finset.range m, d.U i k * M i j * d.Vh k j = d.U i k * (d.U i k * d.S k) := by
      intro i hi
      have h2 : ∀ j ∈ Finset.range m, d.U i k * M i j * d.Vh k j =
          ∑ l ∈ Finset.range m, d.U i k * (d.U i l * d.S l) * (d.Vh l j * d.Vh k j) := by
        intro j hj
        rw [h.prod i (Finset.mem_range.1 hi) j (Finset.mem_range.1 hj), Finset.mul_sum, Finset.sum_mul]
        exact Finset.sum_congr rfl fun l _ => by ring
      rw [Finset.sum_congr rfl h2, Finset.sum_comm]
      have h3 : ∀ l ∈ Finset.range m, ∑ j ∈ Finset.range m, d.U i k * (d.U i l * d.S l) * (d.Vh l j * d.Vh k j) =
          if l = k then d.U i k * (d.U i l * d.S l) else 0 := by
        intro l hl
        rw [← Finset.mul_sum, h.right l (Finset.mem_range.1 hl) k hk]
        split <;> simp
      rw [Finset.sum_congr rfl h3, Finset.sum_ite_eq' _ k, if_pos (Finset.mem_range.2 hk)]
    rw [Finset.sum_congr rfl h1]
    simp only [← mul_assoc]
    rw [← Finset.sum_mul, h.left k hk k hk, if_pos rfl, one_mul]
  have hη0 : 0 ≤ η := (abs_nonneg _).trans (hη k hk k hk)
  set A := ∑ i ∈ Finset.range m, |d.U i k| with hA
  set B := ∑ j ∈ Finset.range m, |d.Vh k j| with hB
  have hA2 : A ^ 2 ≤ m := by
    refine (sq_sum_le_card_mul_sum_sq (s := Finset.range m) (f := fun i => |d.U i k|)).trans_eq ?_
    have := h.left k hk k hk
    simp only [if_true] at this
    simp only [pow_two, abs_mul_abs_self, this, Finset.card_range, mul_one]
  have hB2 : B ^ 2 ≤ m := by
    refine (sq_sum_le_card_mul_sum_sq (s := Finset.range m) (f := fun j => |d.Vh k j|)).trans_eq ?_
    have := h.right k hk k hk
    simp only [if_true] at this
    simp only [pow_two, abs_mul_abs_self, this, Finset.card_range, mul_one]
  calc d.S k ≤ ∑ i ∈ Finset.range m, ∑ j ∈ Finset.range m, |d.U i k| * η * |d.Vh k j| := by
        rw [e]
        refine Finset.sum_le_sum fun i hi => Finset.sum_le_sum fun j hj => ?_
        refine (le_abs_self _).trans ?_
        rw [abs_mul, abs_mul]
        have := hη i (Finset.mem_range.1 hi) j (Finset.mem_range.1 hj)
        gcongr
    _ = η * (A * B) := by
        rw [hA, hB, Finset.sum_mul_sum, Finset.mul_sum]
        refine Finset.sum_congr rfl fun i _ => ?_
        rw [Finset.mul_sum]
        exact Finset.sum_congr rfl fun j _ => by ring
    _ ≤ η * m := by
        gcongr
        nlinarith [sq_nonneg (A - B)]
    _ = m * η := mul_comm _ _

/-- the entries on the diagonal of the replaced matrix are at most the largest singular value -/
theorem lowRank_diag {svd : (m : ℕ) → (ℕ → ℕ → ℝ) → Svd} {m : ℕ} (hm : 0 < m) {M : ℕ → ℕ → ℝ} (h : FullSvd m M (svd m M)) {t η : ℝ} (ht : 0 ≤ t)
    (hη : ∀ i < m, ∀ j < m, |M i j| ≤ η) : ∃ M', lowRank svd m M t = .ok M' ∧ ∀ i < m, M' i i ≤ m * η ∧ |M' i i - M i i| ≤ t * (m * η) := by
  obtain ⟨M', smax, h1, hmax, herr⟩ := C66_lowRank svd m hm M h.toIsSvd t ht
  have hs : smax ≤ m * η := by
    obtain ⟨k, hk, hk'⟩ := List.mem_map.1 hmax.1
    rw [← hk']
    exact h.le hη (List.mem_range.1 hk)
  refine ⟨M', h1, fun i hi => ⟨?_, (herr i hi i hi).trans (by gcongr)⟩⟩
  have hle : ∀ k < m, (svd m M).S k ≤ smax := fun k hk => hmax.2 _ (List.mem_map.2 ⟨k, by simpa using hk, rfl⟩)
  have h0 : 0 ≤ smax := (h.nonneg 0 hm).trans (hle 0 hm)
  obtain ⟨smax', hv, hmax'⟩ := np_max (l := (List.range m).map (svd m M).S) (by simp; omega)
  have hM' : M' = fun i j => ((List.range m).map fun k => (svd m M).U i k * (if (svd m M).S k > t * smax' then (svd m M).S k else 0) *
      (svd m M).Vh k j).sum := by
    simp only [lowRank, if_neg hm.ne', hv, bind, Except.bind, Except.ok.injEq] at h1
    exact h1.symm
  have hsum : ∀ f : ℕ → ℝ, ((List.range m).map f).sum = ∑ k ∈ Finset.range m, f k := fun f => by
    rw [← List.sum_toFinset f List.nodup_range, List.toFinset_range]
  rw [hM']
  simp only [hsum]
  refine le_trans ?_ hs
  calc _ ≤ ∑ k ∈ Finset.range m, smax * (((svd m M).U i k ^ 2 + (svd m M).Vh k i ^ 2) / 2) := by
        refine Finset.sum_le_sum fun k hk => ?_
        have hk := Finset.mem_range.1 hk
        have hab : |(svd m M).U i k| * |(svd m M).Vh k i| ≤ ((svd m M).U i k ^ 2 + (svd m M).Vh k i ^ 2) / 2 := by
          rw [← sq_abs ((svd m M).U i k), ← sq_abs ((svd m M).Vh k i)]
          nlinarith [sq_nonneg (|(svd m M).U i k| - |(svd m M).Vh k i|)]
        split
        · refine (le_abs_self _).trans ?_
          rw [abs_mul, abs_mul, abs_of_nonneg (h.nonneg k hk), mul_right_comm, mul_comm]
          exact mul_le_mul (hle k hk) hab (by positivity) h0
        · rw [mul_zero, zero_mul]
          positivity
    _ = smax := by
        rw [← Finset.mul_sum, ← Finset.sum_div, Finset.sum_add_distrib, h.rows i hi, h.cols i hi]
        norm_num

/-- the selection is empty exactly if no entry on the diagonal is above the threshold -/
theorem basisIndexSet_nil {m : ℕ} {M : ℕ → ℕ → ℝ} {t : ℝ} {fuel : ℕ} (hf : 1 ≤ fuel) :
    (∀ i < m, M i i ≤ t) → basisIndexSet m M t fuel = some (.ok []) := by
  intro h
  unfold basisIndexSet
  split
  · rfl
  · next hm =>
    obtain ⟨k, hk, hkm, -⟩ := argmax_diag hm M
    obtain ⟨f, rfl⟩ : ∃ f, fuel = f + 1 := ⟨fuel - 1, by omega⟩
    simp only [pivotLoop, hk, gt_iff_lt, if_neg (not_lt.2 (h k hkm)), List.insertionSort_nil]

theorem basisIndexSet_ne {m : ℕ} {M : ℕ → ℕ → ℝ} {t : ℝ} (ht : 0 ≤ t) {fuel : ℕ} (hf : m + 1 ≤ fuel) {i : ℕ} (hi : i < m) (h : t < M i i) :
    basisIndexSet m M t fuel ≠ some (.ok []) := by
  have hm : m ≠ 0 := by omega
  obtain ⟨k, hk, hkm, hmax⟩ := argmax_diag hm M
  have hkt : M k k > t := lt_of_lt_of_le h (hmax i hi)
  unfold basisIndexSet
  rw [if_neg hm]
  obtain ⟨f, rfl⟩ : ∃ f, fuel = f + 1 := ⟨fuel - 1, by omega⟩
  simp only [pivotLoop, hk, if_pos hkt, List.nil_append]
  obtain ⟨M', idx, hr, -, hmem, -⟩ := pivotLoop_run hm ht (fun _ l => k ∈ l) (fun _ l j _ h _ _ => by simp [h]) f (pivotStep M k) [k]
    (by simpa using (PivotInv.step (M := M) (idx := []) ⟨by simp, by simp, by simp⟩ hkm (lt_of_le_of_lt ht hkt))) (by simp)
    (by simp; omega)
  rw [hr]
  intro hc
  simp only [Option.some.injEq, Except.ok.injEq] at hc
  have := (List.mem_insertionSort (r := (· ≤ ·)) (l := idx) (x := k)).2 hmem
  rw [hc] at this
  simp at this

/-- C128: if the number of functions times the largest entry of the Gram matrix is at most 1e-6, no edge function is kept, however independent the
functions are. -/
theorem C128_empty (svd : (m : ℕ) → (ℕ → ℕ → ℝ) → Svd) (e : EdgeG) (fs : List (Poly ℝ)) (M : ℕ → ℕ → ℝ) (hM : gram e fs = .ok M)
    (hs : FullSvd fs.length M (svd fs.length M)) (η : ℝ) (hη : ∀ i < fs.length, ∀ j < fs.length, |M i j| ≤ η)
    (hsmall : fs.length * η ≤ 1 / 10 ^ 6) (fuel : ℕ) (hf : 1 ≤ fuel) : reduceToBasis svd e fs fuel = some (.ok []) := by
  rcases Nat.eq_zero_or_pos fs.length with h0 | h0
  · simp only [reduceToBasis, hM, h0, lowRank, if_true, basisIndexSet, ContourG.mapPy, bind, Except.bind]
  · obtain ⟨M', h1, h2⟩ := lowRank_diag h0 hs (t := 1 / 10 ^ 6) (by norm_num) hη
    have h3 := basisIndexSet_nil (M := M') (t := 1 / 10 ^ 6) hf fun i hi => (h2 i hi).1.trans hsmall
    simp only [reduceToBasis, hM, h1, h3, ContourG.mapPy, bind, Except.bind]

/-- C128: if the square of the norm of one of the functions is above 1e-6 and above the change made by the low-rank replacement, functions are kept. -/
theorem C128_nonempty (svd : (m : ℕ) → (ℕ → ℕ → ℝ) → Svd) (e : EdgeG) (fs : List (Poly ℝ)) (M : ℕ → ℕ → ℝ) (hM : gram e fs = .ok M)
    (hs : FullSvd fs.length M (svd fs.length M)) (η : ℝ) (hη : ∀ i < fs.length, ∀ j < fs.length, |M i j| ≤ η)
    (i : ℕ) (hi : i < fs.length) (hbig : 1 / 10 ^ 6 * (1 + fs.length * η) < M i i) (fuel : ℕ) (hf : fs.length + 1 ≤ fuel) :
    ∃ b, reduceToBasis svd e fs fuel = some (.ok b) ∧ b ≠ [] := by
  obtain ⟨M', h1, h2⟩ := lowRank_diag (lt_of_le_of_lt (Nat.zero_le _) hi) hs (t := 1 / 10 ^ 6) (by norm_num) hη
  have h3 : 1 / 10 ^ 6 < M' i i := by
    have := abs_le.1 (h2 i hi).2
    linarith [this.1]
  obtain ⟨idx, h4, -, hv, -⟩ := C53_terminates fs.length M' (1 / 10 ^ 6) (by norm_num) fuel hf
  have h5 := basisIndexSet_ne (M := M') (t := 1 / 10 ^ 6) (by norm_num) hf hi h3
  obtain ⟨b, hb⟩ := mapPy_total (f := pyGet fs) (l := idx) fun k hk => ⟨fs[k]'(hv k hk), pyGet_ok (by simp [hv k hk])⟩
  refine ⟨b, by simp only [reduceToBasis, hM, h1, h4, bind, Except.bind, hb], ?_⟩
  rintro rfl
  have := (mapPy_mem hb).1
  rw [List.length_nil, eq_comm, List.length_eq_zero_iff] at this
  rw [this] at h4
  exact h5 h4

/-! ### circles -/

/-- polynomials with integer coefficients stay so under the operations of the constructor, and their values are exact -/
theorem set_int (ts : List (ℝ × ℕ × ℕ)) (hl : ∀ t ∈ ts, ∃ n : ℤ, t.1 = n) :
    ∃ p, Poly.set (ts.map fun t => (t.1, (t.2.1 : ℤ), (t.2.2 : ℤ))) = .ok p ∧ OnLattice 1 p ∧
      ∀ x y, eval p x y = (ts.map fun t => t.1 * x ^ t.2.1 * y ^ t.2.2).sum := by
  obtain ⟨p, hp, hv⟩ := C59_set_exact ts 1 (by norm_num) fun t ht => by simpa using hl t ht
  refine ⟨p, hp, ?_, hv⟩
  rw [Poly.set_ok] at hp
  simp only [Except.ok.injEq] at hp
  rw [← hp]
  refine onLattice_iff.2 (InA.consolidate (InA.nz ?_))
  intro m hm
  obtain ⟨t, ht, rfl⟩ := List.mem_map.1 hm
  exact mem_lat.2 (by simpa using hl t ht)

theorem comp_int {p q1 q2 : Poly ℝ} (hp : OnLattice 1 p) (h1 : OnLattice 1 q1) (h2 : OnLattice 1 q2) :
    ∀ new : Poly ℝ, OnLattice 1 new → OnLattice 1 (p.foldl (compStep q1 q2) new) := by
  induction p with
  | nil => exact fun new h => h
  | cons m p ih =>
    intro new hnew
    have one : ∀ n : ℕ, ∀ k ≤ n, tol ℝ ≤ (1 : ℝ) ^ k := fun _ _ _ => by simp [tol_lt_one.le]
    have a1 := pow_lat m.alpha.x (onLattice_iff.1 h1) (one _)
    have a2 := pow_lat m.alpha.y (onLattice_iff.1 h2) (one _)
    have a3 := mul_A (C := lat (1 : ℝ)) (sep_lat tol_lt_one.le) a1.2 a2.2
      (fun a b c hc d hd => by
        have := lat_mul (e := a.plus b) hc hd
        simpa using this)
    have a4 := smul_A (B := lat (1 : ℝ)) (sep_lat tol_lt_one.le) a3.2 m.coef (fun a d hd => by
        rw [mem_lat] at *
        obtain ⟨i, rfl⟩ := hd
        obtain ⟨j, hj⟩ := hp m (by simp)
        exact ⟨i * j, by rw [hj]; push_cast; ring⟩)
    have a5 := iadd_A (sep_lat tol_lt_one.le) (onLattice_iff.1 hnew) a4.2
    rw [List.foldl_cons]
    exact ih (fun n hn => hp n (by simp [hn])) (compStep q1 q2 new m) (onLattice_iff.2 a5.2)

theorem compose_int {p q1 q2 : Poly ℝ} (hp : OnLattice 1 p) (h1 : OnLattice 1 q1) (h2 : OnLattice 1 q2) :
    ∃ r, compose p q1 q2 = .ok r ∧ OnLattice 1 r ∧ ∀ x y, eval r x y = eval p (eval q1 x y) (eval q2 x y) := by
  obtain ⟨r, hr, hv⟩ := C07_compose p q1 q2 1 (by norm_num) hp h1 h2
  refine ⟨r, hr, ?_, hv⟩
  rw [compose_ok] at hr
  simp only [Except.ok.injEq] at hr
  rw [← hr]
  exact comp_int hp h1 h2 [] (fun m hm => by simp at hm)

/-- the edge is the circle of radius `r` about the origin, sampled at `M + 1` equispaced points -/
structure IsCircle (e : EdgeG) (r : ℝ) (M : ℕ) : Prop where
  loop : e.isLoop = true
  pts : e.pts = some ((List.range (M + 1)).map (circleSample 0 0 r M))

/-- angle of sample `k` -/
noncomputable def ang (M k : ℕ) : ℝ := 2 * Real.pi * k / M

theorem IsCircle.integral {e : EdgeG} {r : ℝ} {M : ℕ} (h : IsCircle e r M) (hM : 0 < M) (f : ℝ → ℝ → ℝ) :
    e.integrate (((List.range (M + 1)).map (circleSample 0 0 r M)).map fun s => f s.x s.y) =
      .ok (2 * Real.pi * r / M * ∑ k ∈ Finset.range M, f (r * Real.cos (ang M k)) (r * Real.sin (ang M k))) := by
  rw [integrate_eq h.pts (by simp; omega) (by simp)]
  have e1 : entrywise (((List.range (M + 1)).map (circleSample 0 0 r M)).map fun s => f s.x s.y)
      (((List.range (M + 1)).map (circleSample 0 0 r M)).map Sample.dxNorm) =
      (List.range (M + 1)).map fun k => f (r * Real.cos (ang M k)) (r * Real.sin (ang M k)) * r := by
    simp only [entrywise, List.map_map, List.zipWith_map, List.zipWith_self, Function.comp_def, circleSample, zero_add, ang]
  have e2 : ang M M = 2 * Real.pi := by
    have : (M : ℝ) ≠ 0 := by positivity
    unfold ang
    field_simp
  have e3 : ang M 0 = 0 := by simp [ang]
  rw [e1, trapezoid_range, e2, e3, Real.cos_two_pi, Real.sin_two_pi, Real.cos_zero, Real.sin_zero, sub_self, zero_div, mul_zero, add_zero,
    ← Finset.sum_mul]
  simp only [List.length_map, List.length_range]
  push_cast
  congr 1
  ring

theorem circle_sums {M : ℕ} (hM : 4 ≤ M) :
    ∑ k ∈ Finset.range M, Real.cos (ang M k) = 0 ∧ ∑ k ∈ Finset.range M, Real.sin (ang M k) = 0 ∧
    ∑ k ∈ Finset.range M, Real.cos (ang M k) ^ 2 = M / 2 ∧ ∑ k ∈ Finset.range M, Real.sin (ang M k) ^ 2 = M / 2 ∧
    ∑ k ∈ Finset.range M, Real.cos (ang M k) * Real.sin (ang M k) = 0 := by
  have nd : ∀ j : ℤ, 0 < j → j < 4 → ¬ (M : ℤ) ∣ j := fun j h0 h1 hd => by
    have := Int.le_of_dvd h0 hd
    omega
  have c1 := sum_cos_shift (N := M) (by omega) (nd 1 (by norm_num) (by norm_num)) 0
  have s1 := sum_sin_shift (N := M) (by omega) (nd 1 (by norm_num) (by norm_num)) 0
  have c2 := sum_cos_shift (N := M) (by omega) (nd 2 (by norm_num) (by norm_num)) 0
  have s2 := sum_sin_shift (N := M) (by omega) (nd 2 (by norm_num) (by norm_num)) 0
  simp only [zero_add, Int.cast_one, one_mul, Int.cast_ofNat] at c1 s1 c2 s2
  refine ⟨c1, s1, ?_, ?_, ?_⟩
  · have : ∀ k ∈ Finset.range M, Real.cos (ang M k) ^ 2 = 1 / 2 + Real.cos (2 * (2 * Real.pi * k / M)) / 2 := fun k _ => Real.cos_sq _
    rw [Finset.sum_congr rfl this, Finset.sum_add_distrib, ← Finset.sum_div, ← Finset.sum_div, c2]
    simp
  · have : ∀ k ∈ Finset.range M, Real.sin (ang M k) ^ 2 = 1 / 2 - Real.cos (2 * (2 * Real.pi * k / M)) / 2 := fun k _ => by
      rw [Real.sin_sq, Real.cos_sq]
      unfold ang
      ring
    rw [Finset.sum_congr rfl this, Finset.sum_sub_distrib, ← Finset.sum_div, ← Finset.sum_div, c2]
    simp
  · have : ∀ k ∈ Finset.range M, Real.cos (ang M k) * Real.sin (ang M k) = Real.sin (2 * (2 * Real.pi * k / M)) / 2 := fun k _ => by
      rw [Real.sin_two_mul]
      unfold ang
      ring
    rw [Finset.sum_congr rfl this, ← Finset.sum_div, s2, zero_div]

theorem IsCircle.box {e : EdgeG} {r : ℝ} {m : ℕ} (h : IsCircle e r (4 * m)) (hm : 0 < m) (hr : 1 / 10 ^ 12 ≤ 2 * r) :
    e.boundingBox = .ok (-r, r, -r, r) := by
  have hr0 : 0 < r := by
    have : (0 : ℝ) < 1 / 10 ^ 12 := by norm_num
    linarith
  have hm' : (m : ℝ) ≠ 0 := by positivity
  have mem : ∀ k ≤ 4 * m, r * Real.cos (ang (4 * m) k) ∈
      ((List.range (4 * m + 1)).map (circleSample 0 0 r (4 * m))).map Sample.x ∧
      r * Real.sin (ang (4 * m) k) ∈ ((List.range (4 * m + 1)).map (circleSample 0 0 r (4 * m))).map Sample.y := by
    intro k hk
    constructor
    all_goals
      rw [List.map_map, List.mem_map]
      exact ⟨k, by simp; omega, by simp [circleSample, ang]⟩
  have a0 : ang (4 * m) 0 = 0 := by simp [ang]
  have a1 : ang (4 * m) m = Real.pi / 2 := by unfold ang; push_cast; field_simp; ring
  have a2 : ang (4 * m) (2 * m) = Real.pi := by unfold ang; push_cast; field_simp; ring
  have a3 : ang (4 * m) (3 * m) = Real.pi / 2 + Real.pi := by unfold ang; push_cast; field_simp; ring
  have x0 := (mem 0 (by omega)).1
  have x2 := (mem (2 * m) (by omega)).1
  have y1 := (mem m (by omega)).2
  have y3 := (mem (3 * m) (by omega)).2
  rw [a0, Real.cos_zero, mul_one] at x0
  rw [a2, Real.cos_pi, mul_neg, mul_one] at x2
  rw [a1, Real.sin_pi_div_two, mul_one] at y1
  rw [a3, Real.sin_add_pi, Real.sin_pi_div_two, mul_neg, mul_one] at y3
  have bx : ∀ t ∈ ((List.range (4 * m + 1)).map (circleSample 0 0 r (4 * m))).map Sample.x, -r ≤ t ∧ t ≤ r := by
    intro t ht
    simp only [List.map_map, List.mem_map, Function.comp_def, circleSample, zero_add] at ht
    obtain ⟨k, -, rfl⟩ := ht
    constructor <;> nlinarith [Real.cos_le_one (2 * Real.pi * k / (4 * m : ℕ)), Real.neg_one_le_cos (2 * Real.pi * k / (4 * m : ℕ))]
  have by' : ∀ t ∈ ((List.range (4 * m + 1)).map (circleSample 0 0 r (4 * m))).map Sample.y, -r ≤ t ∧ t ≤ r := by
    intro t ht
    simp only [List.map_map, List.mem_map, Function.comp_def, circleSample, zero_add] at ht
    obtain ⟨k, -, rfl⟩ := ht
    constructor <;> nlinarith [Real.sin_le_one (2 * Real.pi * k / (4 * m : ℕ)), Real.neg_one_le_sin (2 * Real.pi * k / (4 * m : ℕ))]
  unfold EdgeG.boundingBox
  rw [sampled_ok h.pts, py_ok_bind]
  exact C56_tight ⟨x2, fun t ht => (bx t ht).1⟩ ⟨x0, fun t ht => (bx t ht).2⟩ ⟨y3, fun t ht => (by' t ht).1⟩
    ⟨y1, fun t ht => (by' t ht).2⟩ (by linarith) (by linarith)

/-- the spanning set of degree 1 on a circle of radius `1 / N` -/
theorem IsCircle.spanning {e : EdgeG} {N m : ℕ} (h : IsCircle e (1 / N) (4 * m)) (hm : 0 < m) (hN : 0 < N) (hN' : N ≤ 10 ^ 12) :
    ∃ f g q, buildSpanningSet e 1 = .ok ([], [f, g, q]) ∧ (∀ p ∈ [f, g, q], OnLattice 1 p) ∧
      (∀ x y, eval f x y = 1 + N * x + N * y) ∧ (∀ x y, eval g x y = 1 - N * x - N * y) ∧ (∀ x y, eval q x y = N * x - N * y) := by
  have hNr : (0 : ℝ) < N := by exact_mod_cast hN
  have hM : 4 ≤ 4 * m := by omega
  obtain ⟨sc, ss, -⟩ := circle_sums hM
  have hM' : ((4 * m : ℕ) : ℝ) ≠ 0 := by positivity
  have len := h.integral (by omega) fun _ _ => 1
  have i1 := h.integral (by omega) fun x _ => x
  have i2 := h.integral (by omega) fun _ y => y
  rw [← Finset.mul_sum, sc, mul_zero, mul_zero] at i1
  rw [← Finset.mul_sum, ss, mul_zero, mul_zero] at i2
  have len0 : 2 * Real.pi * (1 / N) / (4 * m : ℕ) * ∑ k ∈ Finset.range (4 * m), (1 : ℝ) = 2 * Real.pi * (1 / N) := by
    rw [Finset.sum_const, Finset.card_range, nsmul_eq_mul, mul_one]
    field_simp
  rw [len0] at len
  have lpos : 0 < 2 * Real.pi * (1 / N : ℝ) := by positivity
  have hbox := h.box hm (by
    rw [mul_one_div, div_le_div_iff₀ (by norm_num) hNr]
    have : (N : ℝ) ≤ 10 ^ 12 := by exact_mod_cast hN'
    linarith)
  -- the functions before and after centring
  obtain ⟨T, hT, lT, -⟩ := C14_integrated 1 (by norm_num)
  obtain ⟨t0, t1, t2, rfl⟩ := List.length_eq_three.1 lT
  obtain ⟨a, ha, la, va⟩ := set_int [(1, 0, 0), (1, 1, 0), (1, 0, 1)] (by
    intro t ht; simp only [List.mem_cons, List.not_mem_nil, or_false] at ht; rcases ht with rfl | rfl | rfl <;> exact ⟨1, by simp⟩)
  obtain ⟨b, hb, lb, vb⟩ := set_int [(1, 0, 0), (-1, 1, 0), (-1, 0, 1)] (by
    intro t ht; simp only [List.mem_cons, List.not_mem_nil, or_false] at ht
    rcases ht with rfl | rfl | rfl
    exacts [⟨1, by simp⟩, ⟨-1, by simp⟩, ⟨-1, by simp⟩])
  obtain ⟨c, hc, lc, vc⟩ := set_int [(1, 1, 0), (-1, 0, 1)] (by
    intro t ht; simp only [List.mem_cons, List.not_mem_nil, or_false] at ht
    rcases ht with rfl | rfl
    exacts [⟨1, by simp⟩, ⟨-1, by simp⟩])
  obtain ⟨X, hX, lX, vX⟩ := set_int [(1, 1, 0), (0, 0, 0)] (by
    intro t ht; simp only [List.mem_cons, List.not_mem_nil, or_false] at ht
    rcases ht with rfl | rfl
    exacts [⟨1, by simp⟩, ⟨0, by simp⟩])
  obtain ⟨Y, hY, lY, vY⟩ := set_int [(1, 0, 1), (0, 0, 0)] (by
    intro t ht; simp only [List.mem_cons, List.not_mem_nil, or_false] at ht
    rcases ht with rfl | rfl
    exacts [⟨1, by simp⟩, ⟨0, by simp⟩])
  simp only [List.map_cons, List.map_nil, Nat.cast_zero, Nat.cast_one, List.sum_cons, List.sum_nil, pow_zero, pow_one, mul_one, one_mul,
    add_zero] at ha hb hc hX hY va vb vc vX vY
  obtain ⟨a1, ha1, la1, va1⟩ := compose_int la lX lY
  obtain ⟨b1, hb1, lb1, vb1⟩ := compose_int lb lX lY
  obtain ⟨c1, hc1, lc1, vc1⟩ := compose_int lc lX lY
  have scale : ∀ p : Poly ℝ, OnLattice 1 p → OnLattice 1 (smul p N) ∧ ∀ x y, eval (smul p N) x y = N * eval p x y := by
    intro p hp
    have := smul_A (B := lat (1 : ℝ)) (sep_lat tol_lt_one.le) (onLattice_iff.1 hp) (N : ℝ) (fun a d hd => by
      rw [mem_lat] at *
      obtain ⟨i, rfl⟩ := hd
      exact ⟨i * N, by push_cast; ring⟩)
    exact ⟨onLattice_iff.2 this.2, fun x y => by rw [eval_toMv, this.1, map_mul, MvPolynomial.eval_C, ← eval_toMv]⟩
  obtain ⟨lX1, vX1⟩ := scale X lX
  obtain ⟨lY1, vY1⟩ := scale Y lY
  obtain ⟨f, hf, lf, vf⟩ := compose_int la1 lX1 lY1
  obtain ⟨g, hg, lg, vg⟩ := compose_int lb1 lX1 lY1
  obtain ⟨q, hq, lq, vq⟩ := compose_int lc1 lX1 lY1
  have d1 : ∀ p : Poly ℝ, Poly.div p (1 / N) = .ok (smul p N) := by
    intro p
    rw [Poly.div, if_neg (by positivity), one_div_one_div]
  have step1 : redoLinear 1 [t0, t1, t2] = .ok [a, b, c] := by
    simp only [redoLinear, ha, hb, hc, pySet, bind, Except.bind, List.length_cons, List.length_nil, List.set_cons_zero]
    rfl
  have step2 : centerLinear e 1 [a, b, c] = .ok [a1, b1, c1] := by
    simp only [centerLinear, sampled_ok h.pts, len, i1, i2, bind, Except.bind, if_neg lpos.ne', zero_div, neg_zero, hX, hY, composeAt, pyGet, pySet,
      List.length_cons, List.length_nil, List.getElem?_cons_zero, List.set_cons_zero, ha1]
    simp [hb1, hc1]
  have step3 : toBox e [a1, b1, c1] = .ok [f, g, q] := by
    have e1 : ((1 : ℝ) / N - -(1 / N)) / 2 = 1 / N := by ring
    have e2 : -(((1 : ℝ) / N + -(1 / N)) / 2) = 0 := by ring
    simp only [toBox, hbox, bind, Except.bind, e1, e2, hX, hY, d1, ContourG.mapPy, hf, hg, hq]
  have step4 := rescale_ok h.pts len lpos [f, g, q]
  refine ⟨f, g, q, ?_, ?_, ?_, ?_, ?_⟩
  · simp only [buildSpanningSet, EdgeSpaceG.spanning, hT, step1, step2, step3, step4, bind, Except.bind, h.loop, if_true]
  · intro p hp
    simp only [List.mem_cons, List.not_mem_nil, or_false] at hp
    rcases hp with rfl | rfl | rfl
    exacts [lf, lg, lq]
  · intro x y
    rw [vf, va1, va, vX, vY, vX1, vY1, vX, vY]
    ring
  · intro x y
    rw [vg, vb1, vb, vX, vY, vX1, vY1, vX, vY]
    ring
  · intro x y
    rw [vq, vc1, vc, vX, vY, vX1, vY1, vX, vY]
    ring

/-- the Gram matrix of degree 1 on a circle of radius `r` is `2πr diag(2, 2, 1)` -/
noncomputable def circleGram (r : ℝ) (i j : ℕ) : ℝ := if i = j then (if i = 2 then 2 * Real.pi * r else 4 * Real.pi * r) else 0

theorem IsCircle.gram {e : EdgeG} {N m : ℕ} (h : IsCircle e (1 / N) (4 * m)) (hm : 0 < m) (hN : 0 < N) {f g q : Poly ℝ}
    (hl : ∀ p ∈ [f, g, q], OnLattice 1 p) (vf : ∀ x y, eval f x y = 1 + N * x + N * y) (vg : ∀ x y, eval g x y = 1 - N * x - N * y)
    (vq : ∀ x y, eval q x y = N * x - N * y) :
    ∃ M, EdgeSpaceG.gram e [f, g, q] = .ok M ∧ ∀ i < 3, ∀ j < 3, M i j = circleGram (1 / N) i j := by
  have hNr : (N : ℝ) ≠ 0 := by positivity
  have hM' : (m : ℝ) ≠ 0 := by positivity
  obtain ⟨sc, ss, scc, sss, scs⟩ := circle_sums (M := 4 * m) (by omega)
  obtain ⟨M, hM, hv⟩ := C64_gram e _ h.pts (by simp; omega) [f, g, q]
  have val : ∀ i j a b, ([f, g, q] : List (Poly ℝ))[i]? = some a → ([f, g, q] : List (Poly ℝ))[j]? = some b →
      M i j = 2 * Real.pi * (1 / N) / (4 * m : ℕ) * ∑ k ∈ Finset.range (4 * m),
        eval a (1 / N * Real.cos (ang (4 * m) k)) (1 / N * Real.sin (ang (4 * m) k)) *
          eval b (1 / N * Real.cos (ang (4 * m) k)) (1 / N * Real.sin (ang (4 * m) k)) := by
    intro i j a b ha hb
    obtain ⟨-, p, hp, hi⟩ := hv i j a b ha hb
    obtain ⟨p', hp', vp⟩ := C06_mul_exact a b 1 1 (by norm_num) (hl a (List.mem_of_getElem? ha)) (hl b (List.mem_of_getElem? hb))
    rw [hp, Except.ok.injEq] at hp'
    subst hp'
    rw [h.integral (by omega), Except.ok.injEq] at hi
    rw [← hi]
    simp only [vp]
  have cx : ∀ k, (N : ℝ) * (1 / N * Real.cos (ang (4 * m) k)) = Real.cos (ang (4 * m) k) := fun k => by field_simp
  have cy : ∀ k, (N : ℝ) * (1 / N * Real.sin (ang (4 * m) k)) = Real.sin (ang (4 * m) k) := fun k => by field_simp
  have one : ∑ k ∈ Finset.range (4 * m), (1 : ℝ) = (4 * m : ℕ) := by simp
  have lin : ∀ a0 a1 a2 a3 a4 a5 : ℝ, ∑ k ∈ Finset.range (4 * m), (a0 * 1 + a1 * Real.cos (ang (4 * m) k) + a2 * Real.sin (ang (4 * m) k) +
      a3 * Real.cos (ang (4 * m) k) ^ 2 + a4 * Real.sin (ang (4 * m) k) ^ 2 + a5 * (Real.cos (ang (4 * m) k) * Real.sin (ang (4 * m) k))) =
      (a0 + a3 / 2 + a4 / 2) * (4 * m : ℕ) := by
    intro a0 a1 a2 a3 a4 a5
    simp only [Finset.sum_add_distrib, ← Finset.mul_sum, one, sc, ss, scc, sss, scs]
    ring
  have fin : ∀ i j a b a0 a1 a2 a3 a4 a5, ([f, g, q] : List (Poly ℝ))[i]? = some a → ([f, g, q] : List (Poly ℝ))[j]? = some b →
      (∀ k, eval a (1 / N * Real.cos (ang (4 * m) k)) (1 / N * Real.sin (ang (4 * m) k)) *
          eval b (1 / N * Real.cos (ang (4 * m) k)) (1 / N * Real.sin (ang (4 * m) k)) =
          a0 * 1 + a1 * Real.cos (ang (4 * m) k) + a2 * Real.sin (ang (4 * m) k) +
      a3 * Real.cos (ang (4 * m) k) ^ 2 + a4 * Real.sin (ang (4 * m) k) ^ 2 + a5 * (Real.cos (ang (4 * m) k) * Real.sin (ang (4 * m) k))) →
      M i j = (a0 + a3 / 2 + a4 / 2) * (2 * Real.pi * (1 / N)) := by
    intro i j a b a0 a1 a2 a3 a4 a5 ha hb hk
    rw [val i j a b ha hb, Finset.sum_congr rfl fun k _ => hk k, lin]
    push_cast
    field_simp
  refine ⟨M, hM, fun i hi j hj => ?_⟩
  have M00 : M 0 0 = 4 * Real.pi * (1 / N) := (fin 0 0 f f 1 2 2 1 1 2 rfl rfl fun k => by rw [vf, cx, cy]; ring).trans (by ring)
  have M01 : M 0 1 = 0 := (fin 0 1 f g 1 0 0 (-1) (-1) (-2) rfl rfl fun k => by rw [vf, vg, cx, cy]; ring).trans (by ring)
  have M02 : M 0 2 = 0 := (fin 0 2 f q 0 1 (-1) 1 (-1) 0 rfl rfl fun k => by rw [vf, vq, cx, cy]; ring).trans (by ring)
  have M11 : M 1 1 = 4 * Real.pi * (1 / N) := (fin 1 1 g g 1 (-2) (-2) 1 1 2 rfl rfl fun k => by rw [vg, cx, cy]; ring).trans (by ring)
  have M12 : M 1 2 = 0 := (fin 1 2 g q 0 1 (-1) (-1) 1 0 rfl rfl fun k => by rw [vg, vq, cx, cy]; ring).trans (by ring)
  have M22 : M 2 2 = 2 * Real.pi * (1 / N) := (fin 2 2 q q 0 0 0 1 1 (-2) rfl rfl fun k => by rw [vq, cx, cy]; ring).trans (by ring)
  have M10 := (hv 0 1 f g rfl rfl).1
  have M20 := (hv 0 2 f q rfl rfl).1
  have M21 := (hv 1 2 g q rfl rfl).1
  interval_cases i <;> interval_cases j <;> simp [circleGram, M00, M01, M02, M11, M12, M22, ← M10, ← M20, ← M21]

theorem circleGram_le {r : ℝ} (hr : 0 ≤ r) (i j : ℕ) : |circleGram r i j| ≤ 4 * Real.pi * r := by
  have : 0 ≤ Real.pi * r := by positivity
  unfold circleGram
  split_ifs
  · rw [abs_of_nonneg (by linarith)]; linarith
  · rw [abs_of_nonneg (by linarith)]
  · simp; linarith

/-- C128: on a circle of radius `1 / N` with `N` at least 4 * 10^7 the space of degree 1 is empty: neither the constants nor any other function is
left, although the circle has the same shape as the unit circle. -/
theorem C128_tiny_circle (svd : (m : ℕ) → (ℕ → ℕ → ℝ) → Svd) (e : EdgeG) (N m : ℕ) (h : IsCircle e (1 / N) (4 * m)) (hm : 0 < m)
    (hN : 4 * 10 ^ 7 ≤ N) (hN' : N ≤ 10 ^ 12)
    (hs : ∀ vs fs M, buildSpanningSet e 1 = .ok (vs, fs) → gram e fs = .ok M → FullSvd fs.length M (svd fs.length M))
    (fuel : ℕ) (hf : 1 ≤ fuel) : init svd e 1 fuel = some (.ok ([], [])) := by
  obtain ⟨f, g, q, hb, hl, vf, vg, vq⟩ := h.spanning hm (by omega) hN'
  obtain ⟨M, hM, hv⟩ := h.gram hm (by omega) hl vf vg vq
  have hNr : (4 * 10 ^ 7 : ℝ) ≤ N := by exact_mod_cast hN
  have := C128_empty svd e [f, g, q] M hM (hs _ _ _ hb hM) (4 * Real.pi * (1 / N))
    (fun i hi j hj => by rw [hv i hi j hj]; exact circleGram_le (by positivity) i j) (by
      simp only [List.length_cons, List.length_nil]
      have h1 : 1 / (N : ℝ) ≤ 1 / (4 * 10 ^ 7) := one_div_le_one_div_of_le (by norm_num) hNr
      have h2 := Real.pi_lt_d2
      have h3 := Real.pi_pos
      push_cast
      nlinarith) fuel hf
  simp only [init, setDeg, bind, Except.bind]
  norm_num
  simp only [hb, this]

/-- C128: on a circle of radius `1 / N` with `N` at most 10^7 the space of degree 1 is not empty. -/
theorem C128_circle_partial (svd : (m : ℕ) → (ℕ → ℕ → ℝ) → Svd) (e : EdgeG) (N m : ℕ) (h : IsCircle e (1 / N) (4 * m)) (hm : 0 < m)
    (hN : 0 < N) (hN' : N ≤ 10 ^ 7)
    (hs : ∀ vs fs M, buildSpanningSet e 1 = .ok (vs, fs) → gram e fs = .ok M → FullSvd fs.length M (svd fs.length M))
    (fuel : ℕ) (hf : 4 ≤ fuel) : ∃ b, init svd e 1 fuel = some (.ok ([], b)) ∧ b ≠ [] := by
  obtain ⟨f, g, q, hb, hl, vf, vg, vq⟩ := h.spanning hm hN (by omega)
  obtain ⟨M, hM, hv⟩ := h.gram hm hN hl vf vg vq
  have hNr : (N : ℝ) ≤ 10 ^ 7 := by exact_mod_cast hN'
  have hN1 : (0 : ℝ) < N := by exact_mod_cast hN
  obtain ⟨b, hb', hne⟩ := C128_nonempty svd e [f, g, q] M hM (hs _ _ _ hb hM) (4 * Real.pi * (1 / N))
    (fun i hi j hj => by rw [hv i hi j hj]; exact circleGram_le (by positivity) i j) 0 (by simp) (by
      rw [hv 0 (by norm_num) 0 (by norm_num)]
      simp only [List.length_cons, List.length_nil, circleGram, if_true]
      rw [if_neg (by norm_num)]
      have h1 : 1 / (10 ^ 7 : ℝ) ≤ 1 / N := one_div_le_one_div_of_le hN1 hNr
      have h2 := Real.pi_gt_d2
      push_cast
      nlinarith) fuel (by simpa using hf)
  refine ⟨b, ?_, hne⟩
  simp only [init, setDeg, bind, Except.bind]
  norm_num
  simp only [hb, hb']

theorem parameterize_isLoop {e e1 : EdgeG} {d : Quad × Quad} {a : Vert} (h : e.parameterize d = .ok e1) (hd : e.diary = [.translate a]) :
    e1.isLoop = e.isLoop := by
  unfold EdgeG.parameterize at h
  obtain ⟨q, -, h⟩ := bind_ok h
  dsimp only at h
  obtain ⟨l, -, h⟩ := bind_ok h
  simp only [hd, EdgeG.runDiary, EdgeG.apply, bind, Except.bind, Except.ok.injEq] at h
  rw [← h]
  rfl

/-- C128: a closed edge that is a circle of radius `1 / N` about the origin, parameterized with an even number of intervals per half, is such a
circle. -/
theorem C128_parameterized {n p : ℤ} {d : Quad × Quad} (hd : getQuadDict n p = .ok d) (hev : Even n) {e : EdgeG} {a : Vert} (h1 : e.curve = .circle)
    {N : ℕ} (hN : 0 < N) (hr : Curve.radius e.opts = 1 / N) (h2 : e.quadType = "trap") (h3 : e.tBounds = (0, 2 * Real.pi))
    (h4 : e.diary = [.translate a]) (hl : e.isLoop = true) (hx : a.x = 0) (hy : a.y = 0) :
    ∃ e1 m, e.parameterize d = .ok e1 ∧ 0 < m ∧ IsCircle e1 (1 / N) (4 * m) := by
  have h4n : 4 ≤ n := by
    by_contra hlt
    simp [getQuadDict, Quad.init, show n < 4 by omega, bind, Except.bind] at hd
  obtain ⟨k, hk⟩ := hev
  obtain ⟨e1, g1, -, g2⟩ := circle_edge hd h1 (by rw [hr]; positivity) h2 h3 h4
  refine ⟨e1, k.toNat, g1, by omega, (parameterize_isLoop g1 h4).trans hl, ?_⟩
  rw [g2, hx, hy, hr, show 2 * n.toNat = 4 * k.toNat by omega]

/-! ### examples -/

/-- a circle of radius `1 / N` with 4 * 8 sampled points -/
noncomputable def circleEdge (N : ℕ) : EdgeG :=
  { unitCircle "trap" [] with
    isLoop := true
    pts := some ((List.range (4 * 8 + 1)).map (circleSample 0 0 (1 / N) (4 * 8))) }

/-- the decomposition of a diagonal matrix -/
def diagSvd (_ : ℕ) (M : ℕ → ℕ → ℝ) : Svd := ⟨fun i j => if i = j then 1 else 0, fun k => M k k, fun i j => if i = j then 1 else 0⟩

theorem diagSvd_full {N : ℕ} {e : EdgeG} {m : ℕ} (h : IsCircle e (1 / N) (4 * m)) (hm : 0 < m) (hN : 0 < N) (hN' : N ≤ 10 ^ 12) :
    ∀ vs fs M, buildSpanningSet e 1 = .ok (vs, fs) → gram e fs = .ok M → FullSvd fs.length M (diagSvd fs.length M) := by
  intro vs fs M h1 h2
  obtain ⟨f, g, q, hb, hl, vf, vg, vq⟩ := h.spanning hm hN hN'
  obtain ⟨M', hM, hv⟩ := h.gram hm hN hl vf vg vq
  rw [hb, Except.ok.injEq, Prod.mk.injEq] at h1
  obtain ⟨-, rfl⟩ := h1
  rw [hM, Except.ok.injEq] at h2
  subst h2
  have pos : (0 : ℝ) ≤ 1 / N := by positivity
  refine ⟨⟨?_, ?_, ?_, ?_⟩, ?_, ?_⟩
  all_goals simp only [List.length_cons, List.length_nil, diagSvd]
  · intro i hi j hj
    have hd : M' i j = if i = j then M' i i else 0 := by
      rw [hv i hi j hj, hv i hi i hi]
      unfold circleGram
      split_ifs <;> simp_all
    rw [hd]
    interval_cases i <;> interval_cases j <;> simp
  · intro i hi
    interval_cases i <;> simp
  · intro i hi
    interval_cases i <;> simp
  · intro k hk
    rw [hv k hk k hk]
    unfold circleGram
    split_ifs <;> positivity
  · intro i hi j hj
    interval_cases i <;> interval_cases j <;> simp
  · intro i hi j hj
    interval_cases i <;> interval_cases j <;> simp

/-- C128, example: no function on a circle of radius 10^-8 -/
example : init diagSvd (circleEdge (10 ^ 8)) 1 1 = some (.ok ([], [])) :=
  have h : IsCircle (circleEdge (10 ^ 8)) (1 / (10 ^ 8 : ℕ)) (4 * 8) := ⟨rfl, rfl⟩
  C128_tiny_circle diagSvd _ (10 ^ 8) 8 h (by norm_num) (by norm_num) (by norm_num) (diagSvd_full h (by norm_num) (by norm_num) (by norm_num)) 1 le_rfl

/-- C128, example: some functions on a circle of radius 10^-2 -/
example : ∃ b, init diagSvd (circleEdge 100) 1 4 = some (.ok ([], b)) ∧ b ≠ [] :=
  have h : IsCircle (circleEdge 100) (1 / (100 : ℕ)) (4 * 8) := ⟨rfl, rfl⟩
  C128_circle_partial diagSvd _ 100 8 h (by norm_num) (by norm_num) (by norm_num) (diagSvd_full h (by norm_num) (by norm_num) (by norm_num)) 4 le_rfl

/-- C128 fails: two closed edges, the second with the points of the first times 10^-6, correct decompositions for both; the first has edge functions
of degree 1, the second has none. -/
theorem C128_broken : ∃ (svd : (m : ℕ) → (ℕ → ℕ → ℝ) → Svd) (e e' : EdgeG) (L : List Sample) (b : List (Poly ℝ)),
    e.pts = some L ∧ (∃ L', e'.pts = some L' ∧ L'.map (fun s => (s.x, s.y)) = L.map fun s => (1 / 10 ^ 6 * s.x, 1 / 10 ^ 6 * s.y)) ∧
    (∀ E ∈ [e, e'], ∀ vs fs M, buildSpanningSet E 1 = .ok (vs, fs) → gram E fs = .ok M → FullSvd fs.length M (svd fs.length M)) ∧
    init svd e 1 4 = some (.ok ([], b)) ∧ b ≠ [] ∧ init svd e' 1 4 = some (.ok ([], [])) := by
  have h : IsCircle (circleEdge 100) (1 / (100 : ℕ)) (4 * 8) := ⟨rfl, rfl⟩
  have h' : IsCircle (circleEdge (10 ^ 8)) (1 / (10 ^ 8 : ℕ)) (4 * 8) := ⟨rfl, rfl⟩
  have s := diagSvd_full h (by norm_num) (by norm_num) (by norm_num)
  have s' := diagSvd_full h' (by norm_num) (by norm_num) (by norm_num)
  obtain ⟨b, hb, hne⟩ := C128_circle_partial diagSvd _ 100 8 h (by norm_num) (by norm_num) (by norm_num) s 4 le_rfl
  refine ⟨diagSvd, circleEdge 100, circleEdge (10 ^ 8), _, b, rfl, ⟨_, rfl, ?_⟩, ?_, hb, hne,
    C128_tiny_circle diagSvd _ (10 ^ 8) 8 h' (by norm_num) (by norm_num) (by norm_num) s' 4 (by norm_num)⟩
  · rw [List.map_map, List.map_map]
    refine List.map_congr_left fun k _ => ?_
    simp only [Function.comp_def, circleSample, zero_add, Prod.mk.injEq]
    push_cast
    constructor <;> ring
  · intro E hE
    simp only [List.mem_cons, List.not_mem_nil, or_false] at hE
    rcases hE with rfl | rfl
    exacts [s, s']

/-- C128, example: the unit circle meets the hypotheses of `C128_parameterized` -/
example (d : Quad × Quad) (hd : getQuadDict 16 7 = .ok d) :
    ∃ e1 m, (unitCircle "trap" [.translate ⟨0, 0, 0⟩]).parameterize d = .ok e1 ∧ 0 < m ∧ IsCircle e1 (1 / (1 : ℕ)) (4 * m) :=
  C128_parameterized hd (by decide) rfl (by norm_num) (by simp [unitCircle, Curve.radius]) rfl rfl rfl rfl rfl rfl

end EdgeSpaceG
end PFEM
