import Verif.Props.DiscParam
import Verif.Lemmas.EllipseSum

/-!
Property theorem C115: the point that `find_interior_point` finds inside a circle is its centre.
-/

namespace PFEM
open EdgeG Finset

/-- a point of the square round a circle, other than the centre, is nearer than the radius to one of the samples -/
theorem nearest_sample {n : ℕ} (hn : 3 ≤ n) {r x y : ℝ} (hr : 0 < r) (h0 : x ≠ 0 ∨ y ≠ 0) (hx : |x| ≤ r) (hy : |y| ≤ r) :
    ∃ j < 2 * n, (r * Real.cos (gridPt (2 * n) j) - x) ^ 2 + (r * Real.sin (gridPt (2 * n) j) - y) ^ 2 < r ^ 2 := by
  by_contra hcon
  push Not at hcon
  have hNp : 0 < 2 * n := by omega
  have hnr : (0 : ℝ) < n := by exact_mod_cast (by omega : 0 < n)
  have hN : (0 : ℝ) < (2 * n : ℕ) := by exact_mod_cast hNp
  have hpi := Real.pi_pos
  set P := x ^ 2 + y ^ 2 with hP
  have hP0 : 0 < P := by rcases h0 with h | h <;> positivity
  -- products with the samples
  have h1 : ∀ j < 2 * n, 2 * r * (x * Real.cos (gridPt (2 * n) j) + y * Real.sin (gridPt (2 * n) j)) ≤ P := by
    intro j hj
    have := hcon j hj
    have h5 := Real.sin_sq_add_cos_sq (gridPt (2 * n) j)
    have e : (r * Real.cos (gridPt (2 * n) j) - x) ^ 2 + (r * Real.sin (gridPt (2 * n) j) - y) ^ 2 =
        r ^ 2 - 2 * r * (x * Real.cos (gridPt (2 * n) j) + y * Real.sin (gridPt (2 * n) j)) + P := by
      rw [hP]; linear_combination r ^ 2 * h5
    linarith
  have hshift : ∀ j : ℕ, gridPt (2 * n) (j + n) = gridPt (2 * n) j + Real.pi := by
    intro j
    unfold gridPt
    push_cast
    field_simp
  have h2 : ∀ j < 2 * n, |2 * r * (x * Real.cos (gridPt (2 * n) j) + y * Real.sin (gridPt (2 * n) j))| ≤ P := by
    intro j hj
    rw [abs_le]
    refine ⟨?_, h1 j hj⟩
    by_cases hj' : j < n
    · have := h1 (j + n) (by omega)
      rw [hshift, Real.cos_add_pi, Real.sin_add_pi] at this
      linarith
    · have := h1 (j - n) (by omega)
      have e := hshift (j - n)
      rw [Nat.sub_add_cancel (by omega)] at e
      rw [e, Real.cos_add_pi, Real.sin_add_pi]
      linarith
  -- their squares
  have hsq : ∑ j ∈ range (2 * n), (x * Real.cos (gridPt (2 * n) j) + y * Real.sin (gridPt (2 * n) j)) ^ 2 = (2 * n : ℕ) * (P / 2) := by
    have hnd : ¬ (((2 * n : ℕ) : ℤ) ∣ 2) := by
      intro hd
      have := Int.le_of_dvd (by norm_num) hd
      push_cast at this
      omega
    have c2 := sum_cos_shift hNp hnd 0
    have s2 := sum_sin_shift hNp hnd 0
    have e : ∀ j ∈ range (2 * n), (x * Real.cos (gridPt (2 * n) j) + y * Real.sin (gridPt (2 * n) j)) ^ 2 =
        P / 2 + ((x ^ 2 - y ^ 2) / 2 * Real.cos (0 + ((2 : ℤ) : ℝ) * (2 * Real.pi * j / (2 * n : ℕ))) +
          x * y * Real.sin (0 + ((2 : ℤ) : ℝ) * (2 * Real.pi * j / (2 * n : ℕ)))) := by
      intro j _
      have : (0 : ℝ) + ((2 : ℤ) : ℝ) * (2 * Real.pi * j / (2 * n : ℕ)) = 2 * gridPt (2 * n) j := by unfold gridPt; push_cast; ring
      rw [this, Real.cos_two_mul, Real.sin_two_mul, hP]
      have h5 := Real.sin_sq_add_cos_sq (gridPt (2 * n) j)
      linear_combination y ^ 2 * h5
    rw [sum_congr rfl e, sum_add_distrib, sum_add_distrib, ← mul_sum, ← mul_sum, c2, s2, sum_const, card_range, nsmul_eq_mul]
    ring
  have h3 : (2 * n : ℕ) * (P / 2) * (2 * r) ^ 2 ≤ (2 * n : ℕ) * P ^ 2 := by
    rw [← hsq, sum_mul]
    calc ∑ j ∈ range (2 * n), (x * Real.cos (gridPt (2 * n) j) + y * Real.sin (gridPt (2 * n) j)) ^ 2 * (2 * r) ^ 2
        ≤ ∑ j ∈ range (2 * n), P ^ 2 := sum_le_sum fun j hj => by
          have := h2 j (mem_range.1 hj)
          have e : (x * Real.cos (gridPt (2 * n) j) + y * Real.sin (gridPt (2 * n) j)) ^ 2 * (2 * r) ^ 2 =
            |2 * r * (x * Real.cos (gridPt (2 * n) j) + y * Real.sin (gridPt (2 * n) j))| ^ 2 := by rw [sq_abs]; ring
          rw [e]
          gcongr
      _ = _ := by rw [sum_const, card_range, nsmul_eq_mul]
  have h4 : 2 * r ^ 2 ≤ P := by
    have e : (2 * n : ℕ) * (P / 2) * (2 * r) ^ 2 = (2 * n : ℕ) * P * (2 * r ^ 2) := by ring
    have e' : (2 * n : ℕ) * P ^ 2 = (2 * n : ℕ) * P * P := by ring
    rw [e, e'] at h3
    exact le_of_mul_le_mul_left h3 (mul_pos hN hP0)
  have hx2 : x ^ 2 ≤ r ^ 2 := by rw [← sq_abs]; gcongr
  have hy2 : y ^ 2 ≤ r ^ 2 := by rw [← sq_abs y]; gcongr
  have hx3 : x ^ 2 = r ^ 2 := by rw [hP] at h4; linarith
  have hy3 : y ^ 2 = r ^ 2 := by rw [hP] at h4; linarith
  have hP2 : P = 2 * r ^ 2 := by rw [hP, hx3, hy3]; ring
  -- the corners of the square
  set t := Real.pi / n with ht
  have ht0 : 0 < t := by positivity
  have ht1 : t < Real.pi / 2 := by
    rw [ht]
    apply div_lt_div_of_pos_left hpi (by norm_num)
    exact_mod_cast (by omega : 2 < n)
  have hc := Real.cos_pos_of_mem_Ioo (x := t) ⟨by linarith, ht1⟩
  have hs := Real.sin_pos_of_pos_of_lt_pi ht0 (by linarith)
  have hcs : 1 < Real.cos t + Real.sin t := by
    have := Real.sin_sq_add_cos_sq t
    nlinarith [mul_pos hc hs]
  have g1 : gridPt (2 * n) 1 = t := by unfold gridPt; rw [ht]; push_cast; field_simp
  have g2 : gridPt (2 * n) (n - 1) = Real.pi - t := by
    unfold gridPt
    rw [ht, Nat.cast_sub (by omega)]
    push_cast
    field_simp
  have k1 := h2 1 (by omega)
  have k2 := h2 (n - 1) (by omega)
  rw [g1, hP2, abs_le] at k1
  rw [g2, Real.cos_pi_sub, Real.sin_pi_sub, hP2, abs_le] at k2
  have hbig : r ^ 2 < r ^ 2 * (Real.cos t + Real.sin t) := by nlinarith [mul_pos hr hr]
  rcases sq_eq_sq_iff_eq_or_eq_neg.1 hx3 with rfl | rfl <;> rcases sq_eq_sq_iff_eq_or_eq_neg.1 hy3 with rfl | rfl <;>
    nlinarith [k1.1, k1.2, k2.1, k2.2]

theorem linspace_mem {a b : ℝ} (h : a ≤ b) {m k : ℕ} (hm : 1 < m) (hk : k < m) : a ≤ Np.linspace a b m k ∧ Np.linspace a b m k ≤ b := by
  have hm' : (0 : ℝ) < (m : ℝ) - 1 := by
    have : (1 : ℝ) < m := by exact_mod_cast hm
    linarith
  have hk' : (k : ℝ) ≤ (m : ℝ) - 1 := by
    have : ((k + 1 : ℕ) : ℝ) ≤ m := by exact_mod_cast hk
    push_cast at this
    linarith
  unfold Np.linspace
  have h0 : 0 ≤ (b - a) / ((m : ℝ) - 1) := div_nonneg (by linarith) hm'.le
  constructor
  · have : (0 : ℝ) ≤ k := Nat.cast_nonneg k
    nlinarith
  · have : (k : ℝ) * ((b - a) / ((m : ℝ) - 1)) ≤ ((m : ℝ) - 1) * ((b - a) / ((m : ℝ) - 1)) := by gcongr
    rw [mul_div_cancel₀ _ hm'.ne'] at this
    linarith

/-- C115: a circle is sampled at `2n` equispaced points, `n ≥ 4`, in one or the other direction.  If the inside test accepts the centre, then the
centre is the point that `find_interior_point` stores. -/
theorem C115_centre {c : ContourG} (h : c.Ready) {e : EdgeG} (hc : c.edges = [e]) {n : ℕ} (hn : 4 ≤ n) {x0 y0 r σ : ℝ} (hr : 1 / 10 ^ 11 ≤ r)
    (hσ : σ = 1 ∨ σ = -1) {f : ℕ → Sample} (hp : e.pts = some ((List.range (2 * n + 1)).map f))
    (hf : ∀ j, (f j).x = x0 + r * Real.cos (2 * Real.pi * j / (2 * n : ℕ)) ∧ (f j).y = y0 + σ * (r * Real.sin (2 * Real.pi * j / (2 * n : ℕ))))
    (inside : InsideTest) (hin : inside (c.cols.map fun s => (s.x, s.y)) (x0, y0) = true) {fuel : ℕ} (hfu : 2 ≤ fuel) :
    c.findInteriorPoint inside fuel = some (.ok { c with interior := some (Vert.mk' x0 y0) }) := by
  have hr0 : 0 < r := lt_of_lt_of_le (by positivity) hr
  have hpi := Real.pi_pos
  have hNr : (0 : ℝ) < n := by exact_mod_cast (by omega : 0 < n)
  have hσ2 : σ ^ 2 = 1 := by rcases hσ with rfl | rfl <;> norm_num
  have hne : c.edges ≠ [] := by simp [hc]
  have hcols : c.cols = (List.range (2 * n)).map f := by
    simp only [ContourG.cols, hc, List.flatMap_cons, List.flatMap_nil, List.append_nil, EdgeG.cols, hp, Option.getD_some]
    rw [List.range_succ, List.map_append, List.map_cons, List.map_nil, List.dropLast_concat]
  have hsam : c.samples = (List.range (2 * n + 1)).map f := by
    simp [ContourG.samples, hc, hp]
  have hmem : ∀ j, j < 2 * n → f j ∈ c.cols := fun j hj => by
    rw [hcols]; exact List.mem_map.2 ⟨j, List.mem_range.2 hj, rfl⟩
  have hnorm : ∀ j, ((f j).x - x0) ^ 2 + ((f j).y - y0) ^ 2 = r ^ 2 := by
    intro j
    rw [(hf j).1, (hf j).2]
    linear_combination r ^ 2 * Real.sin_sq_add_cos_sq (2 * Real.pi * j / (2 * n : ℕ)) +
      (r * Real.sin (2 * Real.pi * j / (2 * n : ℕ))) ^ 2 * hσ2
  have hall : ∀ s ∈ c.cols, (s.x - x0) ^ 2 + (s.y - y0) ^ 2 = r ^ 2 := by
    intro s hs
    rw [hcols] at hs
    obtain ⟨j, -, rfl⟩ := List.mem_map.1 hs
    exact hnorm j
  -- the opposite of a sample is a sample
  have hopp : ∀ s ∈ c.cols, ∃ s' ∈ c.cols, s'.y = 2 * y0 - s.y := by
    intro s hs
    rw [hcols] at hs
    obtain ⟨j, hj, rfl⟩ := List.mem_map.1 hs
    have hj := List.mem_range.1 hj
    have hshift : ∀ j : ℕ, 2 * Real.pi * ((j + n : ℕ) : ℝ) / (2 * n : ℕ) = 2 * Real.pi * j / (2 * n : ℕ) + Real.pi := by
      intro j
      push_cast
      field_simp
    by_cases hj' : j < n
    · refine ⟨f (j + n), hmem _ (by omega), ?_⟩
      rw [(hf _).2, (hf _).2, hshift, Real.sin_add_pi]
      ring
    · refine ⟨f (j - n), hmem _ (by omega), ?_⟩
      have e := hshift (j - n)
      rw [Nat.sub_add_cancel (by omega)] at e
      rw [(hf _).2, (hf _).2, e, Real.sin_add_pi]
      ring
  have hx0 : (f 0).x = x0 + r := by rw [(hf 0).1]; simp
  have hxn : (f n).x = x0 - r := by
    rw [(hf n).1, show 2 * Real.pi * (n : ℝ) / ((2 * n : ℕ) : ℝ) = Real.pi by push_cast; field_simp, Real.cos_pi]
    ring
  have hyn : ∃ s ∈ c.cols, y0 + r / 2 ≤ s.y := by
    have hm : (n : ℝ) / 3 ≤ ((n / 2 : ℕ) : ℝ) := by
      have : n ≤ 3 * (n / 2) := by omega
      have : (n : ℝ) ≤ 3 * ((n / 2 : ℕ) : ℝ) := by exact_mod_cast this
      linarith
    have hm' : ((n / 2 : ℕ) : ℝ) ≤ n / 2 := Nat.cast_div_le
    have e1 : 2 * Real.pi * ((n / 2 : ℕ) : ℝ) / ((2 * n : ℕ) : ℝ) = Real.pi * (((n / 2 : ℕ) : ℝ) / n) := by
      push_cast; field_simp
    have t1 : (1 : ℝ) / 3 ≤ ((n / 2 : ℕ) : ℝ) / n := by rw [le_div_iff₀ hNr]; linarith
    have t2 : ((n / 2 : ℕ) : ℝ) / n ≤ 1 / 2 := by rw [div_le_iff₀ hNr]; linarith
    have hs : 1 / 2 ≤ Real.sin (Real.pi * (((n / 2 : ℕ) : ℝ) / n)) := by
      rw [← Real.sin_pi_div_six]
      apply Real.sin_le_sin_of_le_of_le_pi_div_two <;> nlinarith
    rcases hσ with rfl | rfl
    · refine ⟨f (n / 2), hmem _ (by omega), ?_⟩
      rw [(hf _).2, e1]
      nlinarith
    · obtain ⟨s, hs1, hs2⟩ := hopp (f (n / 2)) (hmem _ (by omega))
      refine ⟨s, hs1, ?_⟩
      rw [hs2, (hf _).2, e1]
      nlinarith
  have hnil : c.cols ≠ [] := List.ne_nil_of_mem (hmem 0 (by omega))
  obtain ⟨xa, -, hxa⟩ := np_min (l := c.cols.map Sample.x) (by simpa using hnil)
  obtain ⟨xb, -, hxb⟩ := np_max (l := c.cols.map Sample.x) (by simpa using hnil)
  obtain ⟨ya, -, hya⟩ := np_min (l := c.cols.map Sample.y) (by simpa using hnil)
  obtain ⟨yb, -, hyb⟩ := np_max (l := c.cols.map Sample.y) (by simpa using hnil)
  have exa : xa = x0 - r := by
    apply le_antisymm (hxn ▸ hxa.2 _ (List.mem_map_of_mem (hmem n (by omega))))
    obtain ⟨s, hs, rfl⟩ := List.mem_map.1 hxa.1
    have := hall s hs
    nlinarith [sq_nonneg (s.y - y0)]
  have exb : xb = x0 + r := by
    apply le_antisymm _ (hx0 ▸ hxb.2 _ (List.mem_map_of_mem (hmem 0 (by omega))))
    obtain ⟨s, hs, rfl⟩ := List.mem_map.1 hxb.1
    have := hall s hs
    nlinarith [sq_nonneg (s.y - y0)]
  have hyb1 : y0 + r / 2 ≤ yb := by
    obtain ⟨s, hs, h1⟩ := hyn
    exact h1.trans (hyb.2 _ (List.mem_map_of_mem hs))
  have hyb2 : yb ≤ y0 + r := by
    obtain ⟨s, hs, rfl⟩ := List.mem_map.1 hyb.1
    have := hall s hs
    nlinarith [sq_nonneg (s.x - x0)]
  have hsym : ya = 2 * y0 - yb := by
    apply le_antisymm
    · obtain ⟨s, hs, rfl⟩ := List.mem_map.1 hyb.1
      obtain ⟨s', hs', e⟩ := hopp s hs
      rw [← e]
      exact hya.2 _ (List.mem_map_of_mem hs')
    · obtain ⟨s, hs, rfl⟩ := List.mem_map.1 hya.1
      obtain ⟨s', hs', e⟩ := hopp s hs
      have := hyb.2 _ (List.mem_map_of_mem hs')
      linarith
  have hbox : getBoundingBox (c.cols.map Sample.x) (c.cols.map Sample.y) = .ok (xa, xb, ya, yb) := by
    refine C56_tight hxa hxb hya hyb ?_ ?_ <;> norm_num at hr ⊢ <;> linarith
  -- the values at the points of the grid
  have hcen : distVal inside c (x0, y0) = ((r : ℝ) : WithTop ℝ) := by
    obtain ⟨d, hd, ⟨-, s, hs, hds⟩, -⟩ := distance_spec h.sampled hne x0 y0
    unfold distVal
    rw [if_pos hin]
    simp only [hd, hds]
    rw [hsam] at hs
    obtain ⟨j, -, rfl⟩ := List.mem_map.1 hs
    rw [sampleDist, hnorm, Real.sqrt_sq hr0.le]
  have hoth : ∀ p : ℝ × ℝ, p ≠ (x0, y0) → |p.1 - x0| ≤ r → |p.2 - y0| ≤ r → distVal inside c p < ((r : ℝ) : WithTop ℝ) := by
    intro p hp0 hp1 hp2
    unfold distVal
    split
    · obtain ⟨d, hd, ⟨hd1, -⟩, -⟩ := distance_spec h.sampled hne p.1 p.2
      simp only [hd]
      obtain ⟨j, hj, hlt⟩ := nearest_sample (n := n) (by omega) hr0 (x := p.1 - x0) (y := σ * (p.2 - y0)) (by
        by_contra hcon
        push Not at hcon
        have h2 : p.2 - y0 = 0 := (mul_eq_zero.1 hcon.2).resolve_left (by rcases hσ with rfl | rfl <;> norm_num)
        exact hp0 (Prod.ext (by simpa using sub_eq_zero.1 hcon.1) (by simpa using sub_eq_zero.1 h2))) hp1 (by
        rcases hσ with rfl | rfl
        · simpa using hp2
        · rw [neg_one_mul, abs_neg]; exact hp2)
      have h1 := hd1 (f j) (by rw [hsam]; exact List.mem_map.2 ⟨j, List.mem_range.2 (by omega), rfl⟩)
      refine WithTop.coe_lt_coe.2 (h1.trans_lt ?_)
      rw [sampleDist, Real.sqrt_lt' hr0]
      refine lt_of_eq_of_lt ?_ hlt
      have eg : gridPt (2 * n) j = 2 * Real.pi * j / (2 * n : ℕ) := by unfold gridPt; ring
      rw [(hf j).1, (hf j).2, eg]
      rcases hσ with rfl | rfl <;> ring
    · exact_mod_cast hr0
  have hlin : ∀ {a b : ℝ} (t : ℝ), a + b = 2 * t → Np.linspace a b 9 4 = t := by
    intro a b t hab
    unfold Np.linspace
    norm_num
    linarith
  have hlin' : ∀ {a b : ℝ} (t : ℝ) (k : ℕ), a < b → a + b = 2 * t → Np.linspace a b 9 k = t → k = 4 := by
    intro a b t k hlt hab hk
    unfold Np.linspace at hk
    norm_num at hk
    have : ((k : ℝ) - 4) * (b - a) = 0 := by linarith
    have := (mul_eq_zero.1 this).resolve_right (by linarith)
    exact_mod_cast sub_eq_zero.1 this
  have hg40 : ContourG.gridPt (xa, xb, ya, yb) 9 40 = (x0, y0) := by
    simp only [ContourG.gridPt]
    norm_num only
    rw [hlin x0 (by rw [exa, exb]; ring), hlin y0 (by rw [hsym]; ring)]
  have hpass : ∃ k, ContourG.gridPt (xa, xb, ya, yb) 9 k = (x0, y0) ∧
      ContourG.mapPy (fun k => ContourG.distEntry inside c (ContourG.gridPt (xa, xb, ya, yb) 9 k)) (List.range (9 * 9)) =
        .ok ((List.range (9 * 9)).map fun k => distVal inside c (ContourG.gridPt (xa, xb, ya, yb) 9 k)) ∧
      Np.argmax ((List.range (9 * 9)).map fun k => distVal inside c (ContourG.gridPt (xa, xb, ya, yb) 9 k)) = .ok k ∧
      ((List.range (9 * 9)).map fun k => distVal inside c (ContourG.gridPt (xa, xb, ya, yb) 9 k)).getD k 0 = ((r : ℝ) : WithTop ℝ) := by
    obtain ⟨k, hk, h1, h2, h3, h4⟩ := pass_spec h hne inside (xa, xb, ya, yb) (m := 9) (by norm_num)
    have h5 := h4 40 (by norm_num)
    rw [hg40, hcen] at h5
    have h6 : ContourG.gridPt (xa, xb, ya, yb) 9 k = (x0, y0) := by
      by_contra hne'
      have m1 := linspace_mem (a := xa) (b := xb) (by rw [exa, exb]; linarith) (m := 9) (k := k % 9) (by norm_num) (Nat.mod_lt _ (by norm_num))
      have m2 := linspace_mem (a := ya) (b := yb) (by rw [hsym]; linarith) (m := 9) (k := k / 9) (by norm_num) (by omega)
      refine absurd h5 (not_le.2 (hoth _ hne' ?_ ?_))
      · rw [abs_le]
        exact ⟨by simp only [ContourG.gridPt]; linarith [m1.1], by simp only [ContourG.gridPt]; linarith [m1.2]⟩
      · rw [abs_le]
        exact ⟨by simp only [ContourG.gridPt]; linarith [m2.1], by simp only [ContourG.gridPt]; linarith [m2.2]⟩
    exact ⟨k, h6, h1, h2, by rw [h3, h6, hcen]⟩
  obtain ⟨k, p1, p2, p3, p4⟩ := hpass
  have htol : ¬ ((r : ℝ) : WithTop ℝ) < ((0.01 * min (xb - xa) (yb - ya) : ℝ) : WithTop ℝ) := by
    rw [WithTop.coe_lt_coe, not_lt]
    have := min_le_left (xb - xa) (yb - ya)
    norm_num
    linarith
  have htol0 : (0 : WithTop ℝ) < ((0.01 * min (xb - xa) (yb - ya) : ℝ) : WithTop ℝ) := by
    have : (0 : ℝ) < 0.01 * min (xb - xa) (yb - ya) := mul_pos (by norm_num) (lt_min (by linarith) (by linarith))
    exact_mod_cast this
  obtain ⟨m, rfl⟩ : ∃ m, fuel = m + 2 := ⟨fuel - 2, by omega⟩
  simp only [ContourG.findInteriorPoint, h.guard, h.getSampledPoints, bind, Except.bind, hbox]
  have hloop : ContourG.searchLoop inside c (xa, xb, ya, yb) (0.01 * min (xb - xa) (yb - ya)) (m + 2) 9 0 c.interior =
      some (.ok (some (Vert.mk' x0 y0))) := by
    unfold ContourG.searchLoop
    rw [if_pos htol0, p2]
    simp only [p3, p4, p1]
    rw [if_neg (by norm_num)]
    unfold ContourG.searchLoop
    rw [if_neg htol]
  rw [hloop]

end PFEM
