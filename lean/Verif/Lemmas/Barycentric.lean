import Verif.Model.Barycentric
import Verif.Spec.Plane
import Verif.Lemmas.Tensor
import Verif.Props.PolyValue

set_option linter.unusedSectionVars false

namespace PFEM
open Poly

/-! ### Heron's formula -/

theorem heron (a b c : ℝ × ℝ) (d0 d1 d2 : ℝ) (h0 : d0 ^ 2 = (a.1 - c.1) ^ 2 + (a.2 - c.2) ^ 2)
    (h1 : d1 ^ 2 = (b.1 - a.1) ^ 2 + (b.2 - a.2) ^ 2) (h2 : d2 ^ 2 = (c.1 - b.1) ^ 2 + (c.2 - b.2) ^ 2) :
    ((d0 + d1 + d2) / 2) * ((d0 + d1 + d2) / 2 - d0) * ((d0 + d1 + d2) / 2 - d1) * ((d0 + d1 + d2) / 2 - d2) =
      (orient a b c / 2) ^ 2 := by
  have e : ((d0 + d1 + d2) / 2) * ((d0 + d1 + d2) / 2 - d0) * ((d0 + d1 + d2) / 2 - d1) *
      ((d0 + d1 + d2) / 2 - d2) = (4 * d0 ^ 2 * d1 ^ 2 - (d0 ^ 2 + d1 ^ 2 - d2 ^ 2) ^ 2) / 16 := by ring
  rw [e, h0, h1, h2]
  unfold orient
  ring

theorem baryDist_sq (z : Fin 3 → ℝ × ℝ) (j : Fin 3) :
    baryDist z j ^ 2 = ((z j).1 - (z (j - 1)).1) ^ 2 + ((z j).2 - (z (j - 1)).2) ^ 2 := by
  unfold baryDist
  rw [Real.sq_sqrt (by positivity)]

theorem baryH_eq (z : Fin 3 → ℝ × ℝ) : baryH z = |orient (z 0) (z 1) (z 2)| := by
  have h0 := baryDist_sq z 0
  have h1 := baryDist_sq z 1
  have h2 := baryDist_sq z 2
  have := heron (z 0) (z 1) (z 2) _ _ _ h0 h1 h2
  unfold baryH
  simp only
  rw [this, Real.sqrt_sq_eq_abs, abs_div, abs_two]
  ring

/-! ### the polynomial that is computed -/

/-- the result of `baryEll` without exceptions -/
noncomputable def ellP (zj p n : ℝ × ℝ) (h : ℝ) : Poly ℝ :=
  iadd (smul (sub (smul (add [⟨⟨1, 0⟩, 1⟩] [⟨⟨0, 0⟩, -1 * zj.1⟩]) (p.2 - n.2))
    (smul (add [⟨⟨0, 1⟩, 1⟩] [⟨⟨0, 0⟩, -1 * zj.2⟩]) (p.1 - n.1))) (-1 / h)) [⟨⟨0, 0⟩, 1⟩]

theorem baryEll_ok (z : Fin 3 → ℝ × ℝ) (h : ℝ) (j : Fin 3) :
    baryEll z h j = .ok (ellP (z j) (z (j - 1)) (z (j + 1)) h) := by
  have hx := set_mono (K := ℝ) (m := ⟨⟨1, 0⟩, 1⟩) (by simp [tol_lt_one.le])
  have hy := set_mono (K := ℝ) (m := ⟨⟨0, 1⟩, 1⟩) (by simp [tol_lt_one.le])
  simp only [Nat.cast_one, Nat.cast_zero] at hx hy
  unfold baryEll
  rw [hx, hy]
  simp only [bind, Except.bind, subScalar, addScalar_ok, iaddScalar_ok]
  rfl

/-- the three index rules -/
theorem fin3_sub (j : Fin 3) : j - 1 = j + 2 := by fin_cases j <;> rfl

/-- only constant and linear terms -/
def Lin (p : Poly ℝ) : Prop := ∀ m ∈ p, m.alpha = ⟨0, 0⟩ ∨ m.alpha = ⟨1, 0⟩ ∨ m.alpha = ⟨0, 1⟩

theorem Lin.bound {p : Poly ℝ} (h : Lin p) {x y B : ℝ} (h1 : 1 ≤ B) (hx : |x| ≤ B) (hy : |y| ≤ B) :
    MonoBound p x y B := by
  intro m hm
  rcases h m hm with e | e | e <;> rw [e] <;> simpa

theorem Lin.nz {p : Poly ℝ} (h : Lin p) : Lin (nz p) := fun m hm => h m (List.mem_filter.1 hm).1

theorem Lin.consolidate {p : Poly ℝ} (h : Lin p) : Lin (consolidate p) := by
  intro m hm
  have := (consolidate_perm p).mem_iff.1 hm
  obtain ⟨n, hn, e⟩ := collect_alpha_mem p m (List.mem_filter.1 this).1
  rw [← e]; exact h n hn

theorem Lin.append {p q : Poly ℝ} (h : Lin p) (h' : Lin q) : Lin (p ++ q) := by
  intro m hm
  rcases List.mem_append.1 hm with hm | hm
  · exact h m hm
  · exact h' m hm

theorem Lin.add {p q : Poly ℝ} (h : Lin p) (h' : Lin q) : Lin (add p q) := by
  rw [add_eq]; exact (h.append h').nz.consolidate

theorem Lin.smul {p : Poly ℝ} (h : Lin p) (c : ℝ) : Lin (smul p c) := by
  rw [smul_eq]
  refine Lin.nz ?_
  intro m hm
  simp only [List.mem_map] at hm
  obtain ⟨n, hn, rfl⟩ := hm
  exact h n hn

theorem length_add_le (p q : Poly ℝ) : (add p q).length ≤ p.length + q.length := by
  rw [add_eq]
  refine (consolidate_length_le _).trans ?_
  exact (List.length_filter_le _ _).trans (by simp)

theorem length_smul_le (p : Poly ℝ) (c : ℝ) : (smul p c).length ≤ p.length := by
  rw [smul_eq]
  exact (List.length_filter_le _ _).trans (by simp)

theorem ellP_error (zj p n : ℝ × ℝ) (h : ℝ) (hh : 0 < h) (x y B D : ℝ) (h1 : 1 ≤ B) (hx : |x| ≤ B)
    (hy : |y| ≤ B) (d1 : |p.1 - n.1| ≤ D) (d2 : |p.2 - n.2| ≤ D) :
    |eval (ellP zj p n h) x y - (1 - ((x - zj.1) * (p.2 - n.2) - (y - zj.2) * (p.1 - n.1)) / h)| ≤
      1 / 10 ^ 12 * B * ((8 + 4 * D) / h + 9) := by
  unfold ellP
  have lx : Lin [⟨⟨1, 0⟩, 1⟩] := by intro m hm; simp at hm; subst hm; simp
  have ly : Lin [⟨⟨0, 1⟩, 1⟩] := by intro m hm; simp at hm; subst hm; simp
  have lc : ∀ c : ℝ, Lin [⟨⟨0, 0⟩, c⟩] := by intro c m hm; simp at hm; subst hm; simp
  have ec : ∀ c : ℝ, eval [⟨⟨0, 0⟩, c⟩] x y = c := by intro c; simp [eval_cons, eval_nil, Mono.eval_eq]
  have ex : eval ([⟨⟨1, 0⟩, 1⟩] : Poly ℝ) x y = x := by simp [eval_cons, eval_nil, Mono.eval_eq]
  have ey : eval ([⟨⟨0, 1⟩, 1⟩] : Poly ℝ) x y = y := by simp [eval_cons, eval_nil, Mono.eval_eq]
  have hε : (0 : ℝ) ≤ 1 / 10 ^ 12 * B := by positivity
  set ε := (1 : ℝ) / 10 ^ 12 * B with hεd
  have bound : ∀ (l : Poly ℝ) (k : ℕ) (t : ℝ), l.length ≤ k → t ≤ (l.length : ℝ) * (1 / 10 ^ 12) * B → t ≤ k * ε := by
    intro l k t hl ht
    have : (l.length : ℝ) ≤ k := by exact_mod_cast hl
    rw [mul_assoc] at ht
    exact ht.trans (mul_le_mul_of_nonneg_right this hε)
  generalize ha : add [⟨⟨1, 0⟩, 1⟩] [⟨⟨0, 0⟩, -1 * zj.1⟩] = a
  generalize hb : add [⟨⟨0, 1⟩, 1⟩] [⟨⟨0, 0⟩, -1 * zj.2⟩] = b
  have La : Lin a := ha ▸ lx.add (lc _)
  have Lb : Lin b := hb ▸ ly.add (lc _)
  have na : a.length ≤ 2 := ha ▸ length_add_le _ _
  have nb : b.length ≤ 2 := hb ▸ length_add_le _ _
  have Ea : |eval a x y - (x - zj.1)| ≤ 2 * ε := by
    have := C05_add_error [⟨⟨1, 0⟩, 1⟩] [⟨⟨0, 0⟩, -1 * zj.1⟩] x y B (lx.bound h1 hx hy) ((lc _).bound h1 hx hy)
    rw [ha, ex, ec] at this
    norm_num at this
    rw [sub_eq_add_neg x]
    refine this.trans (by rw [hεd]; norm_num; linarith)
  have Eb : |eval b x y - (y - zj.2)| ≤ 2 * ε := by
    have := C05_add_error [⟨⟨0, 1⟩, 1⟩] [⟨⟨0, 0⟩, -1 * zj.2⟩] x y B (ly.bound h1 hx hy) ((lc _).bound h1 hx hy)
    rw [hb, ey, ec] at this
    norm_num at this
    rw [sub_eq_add_neg y]
    refine this.trans (by rw [hεd]; norm_num; linarith)
  generalize hu : p.2 - n.2 = u at *
  generalize hv : p.1 - n.1 = v at *
  have Esa := C05_smul_error a u x y B (La.bound h1 hx hy)
  have Esb := C05_smul_error b v x y B (Lb.bound h1 hx hy)
  have Esa := bound a 2 _ na Esa
  have Esb := bound b 2 _ nb Esb
  generalize hsa : smul a u = sa at *
  generalize hsb : smul b v = sb at *
  have Lsa : Lin sa := hsa ▸ La.smul u
  have Lsb : Lin sb := hsb ▸ Lb.smul v
  have nsa : sa.length ≤ 2 := hsa ▸ (length_smul_le a u).trans na
  have nsb : sb.length ≤ 2 := hsb ▸ (length_smul_le b v).trans nb
  have Es := C05_sub_error sa sb x y B (Lsa.bound h1 hx hy) (Lsb.bound h1 hx hy)
  have Es : |eval (sub sa sb) x y - (eval sa x y - eval sb x y)| ≤ 4 * ε := by
    have h4 : ((sa.length + sb.length : ℕ) : ℝ) ≤ 4 := by exact_mod_cast (by omega : sa.length + sb.length ≤ 4)
    rw [mul_assoc] at Es
    exact Es.trans (mul_le_mul_of_nonneg_right h4 hε)
  have Ls : Lin (sub sa sb) := Lsa.add (Lsb.smul _)
  have ns : (sub sa sb).length ≤ 4 := by
    refine (length_add_le _ _).trans ?_
    have := length_smul_le sb (-1)
    omega
  generalize sub sa sb = s at *
  have Et := bound s 4 _ ns (C05_smul_error s (-1 / h) x y B (Ls.bound h1 hx hy))
  have Lt : Lin (smul s (-1 / h)) := Ls.smul _
  have nt := (length_smul_le s (-1 / h)).trans ns
  generalize smul s (-1 / h) = t at *
  have Ei := C05_iadd_error t [⟨⟨0, 0⟩, 1⟩] x y B (Lt.bound h1 hx hy) ((lc _).bound h1 hx hy)
  have Ei : |eval (iadd t [⟨⟨0, 0⟩, 1⟩]) x y - (eval t x y + 1)| ≤ 5 * ε := by
    rw [ec] at Ei
    have h5 : ((t.length + [(⟨⟨0, 0⟩, 1⟩ : Mono ℝ)].length : ℕ) : ℝ) ≤ 5 := by
      simp only [List.length_singleton]
      exact_mod_cast (by omega : t.length + 1 ≤ 5)
    rw [mul_assoc] at Ei
    exact Ei.trans (mul_le_mul_of_nonneg_right h5 hε)
  generalize eval (iadd t [⟨⟨0, 0⟩, 1⟩]) x y = r at *
  have hD : 0 ≤ D := (abs_nonneg _).trans d1
  -- errors of the scaled terms
  have F1 : |eval sa x y - u * (x - zj.1)| ≤ 2 * ε + D * (2 * ε) := by
    have : eval sa x y - u * (x - zj.1) = (eval sa x y - u * eval a x y) + u * (eval a x y - (x - zj.1)) := by ring
    rw [this]
    refine (abs_add_le _ _).trans (add_le_add (by simpa using Esa) ?_)
    rw [abs_mul]
    exact mul_le_mul d2 Ea (abs_nonneg _) hD
  have F2 : |eval sb x y - v * (y - zj.2)| ≤ 2 * ε + D * (2 * ε) := by
    have : eval sb x y - v * (y - zj.2) = (eval sb x y - v * eval b x y) + v * (eval b x y - (y - zj.2)) := by ring
    rw [this]
    refine (abs_add_le _ _).trans (add_le_add (by simpa using Esb) ?_)
    rw [abs_mul]
    exact mul_le_mul d1 Eb (abs_nonneg _) hD
  have F3 : |eval s x y - (u * (x - zj.1) - v * (y - zj.2))| ≤ (8 + 4 * D) * ε := by
    have : eval s x y - (u * (x - zj.1) - v * (y - zj.2)) = (eval s x y - (eval sa x y - eval sb x y)) +
        (eval sa x y - u * (x - zj.1)) - (eval sb x y - v * (y - zj.2)) := by ring
    rw [this]
    have q := abs_sub ((eval s x y - (eval sa x y - eval sb x y)) + (eval sa x y - u * (x - zj.1)))
      (eval sb x y - v * (y - zj.2))
    have q2 := abs_add_le (eval s x y - (eval sa x y - eval sb x y)) (eval sa x y - u * (x - zj.1))
    linarith
  have F4 : |eval t x y - (-1 / h) * (u * (x - zj.1) - v * (y - zj.2))| ≤ 4 * ε + (8 + 4 * D) * ε / h := by
    have : eval t x y - (-1 / h) * (u * (x - zj.1) - v * (y - zj.2)) = (eval t x y - (-1 / h) * eval s x y) +
        (-1 / h) * (eval s x y - (u * (x - zj.1) - v * (y - zj.2))) := by ring
    rw [this]
    refine (abs_add_le _ _).trans (add_le_add (by simpa using Et) ?_)
    rw [abs_mul, abs_div, abs_neg, abs_one, abs_of_pos hh]
    rw [div_mul_eq_mul_div, one_mul]
    exact div_le_div_of_nonneg_right F3 hh.le
  have F5 : r - (1 - ((x - zj.1) * u - (y - zj.2) * v) / h) = (r - (eval t x y + 1)) +
      (eval t x y - (-1 / h) * (u * (x - zj.1) - v * (y - zj.2))) := by ring
  rw [F5]
  refine (abs_add_le _ _).trans ?_
  have : ε * ((8 + 4 * D) / h + 9) = 5 * ε + (4 * ε + (8 + 4 * D) * ε / h) := by ring
  rw [this]
  exact add_le_add Ei F4

/-! ### exactness on lattices -/

/-- multiples of `α` for the constant term, of `β` for the others -/
def lat2 (α β : ℝ) : MultiIndex → AddSubgroup ℝ := fun a =>
  if a = ⟨0, 0⟩ then AddSubgroup.zmultiples α else AddSubgroup.zmultiples β

theorem mem_zm {δ c : ℝ} : c ∈ AddSubgroup.zmultiples δ ↔ ∃ n : ℤ, c = n * δ :=
  mem_lat (δ := δ) (a := ⟨0, 0⟩)

theorem sep_lat2 {α β : ℝ} (hα : tol ℝ ≤ α) (hβ : tol ℝ ≤ β) : Sep (lat2 α β) := by
  intro a c hc
  unfold lat2 at hc
  split at hc
  · exact lat_clean hα (mem_zm.1 hc)
  · exact lat_clean hβ (mem_zm.1 hc)

theorem lat2_mul {α β γ α' β' : ℝ} (c : ℝ) (hc : ∃ n : ℤ, c = n * γ) (h1 : α' = α * γ) (h2 : β' = β * γ)
    (a : MultiIndex) (d : ℝ) (hd : d ∈ lat2 α β a) : d * c ∈ lat2 α' β' a := by
  obtain ⟨n, rfl⟩ := hc
  unfold lat2 at *
  split at hd
  · rename_i h
    rw [if_pos h, mem_zm]
    obtain ⟨k, rfl⟩ := mem_zm.1 hd
    exact ⟨k * n, by rw [h1]; push_cast; ring⟩
  · rename_i h
    rw [if_neg h, mem_zm]
    obtain ⟨k, rfl⟩ := mem_zm.1 hd
    exact ⟨k * n, by rw [h2]; push_cast; ring⟩

theorem mul_sub_lat {δ a b : ℝ} (ha : ∃ n : ℤ, a = n * δ) (hb : ∃ n : ℤ, b = n * δ) : ∃ n : ℤ, a - b = n * δ := by
  obtain ⟨m, rfl⟩ := ha
  obtain ⟨n, rfl⟩ := hb
  exact ⟨m - n, by push_cast; ring⟩

theorem ellP_exact (zj p n : ℝ × ℝ) (h δ : ℝ) (h0 : 1 / 10 ^ 6 ≤ δ) (h1 : δ ≤ 1) (hj : OnGrid δ zj)
    (hp : OnGrid δ p) (hn : OnGrid δ n) (hh : 0 < h) (hl : h ≤ δ ^ 2 * 10 ^ 12) (hN : ∃ k : ℤ, h = k * δ ^ 2)
    (x y : ℝ) :
    eval (ellP zj p n h) x y = 1 - ((x - zj.1) * (p.2 - n.2) - (y - zj.2) * (p.1 - n.1)) / h := by
  have hδ : 0 < δ := lt_of_lt_of_le (by norm_num) h0
  have t1 : tol ℝ ≤ δ := le_trans (by unfold tol; norm_num) h0
  have t2 : tol ℝ ≤ δ ^ 2 := by
    have := pow_le_pow_left₀ (by norm_num) h0 2
    refine le_trans ?_ this
    unfold tol; norm_num
  have t3 : tol ℝ ≤ δ ^ 2 / h := by
    rw [le_div_iff₀ hh]; unfold tol
    rw [div_mul_eq_mul_div, one_mul, div_le_iff₀ (by norm_num)]; exact hl
  have t4 : tol ℝ ≤ δ / h := t3.trans (div_le_div_of_nonneg_right (by nlinarith) hh.le)
  have SA : Sep (lat2 δ 1) := sep_lat2 t1 tol_lt_one.le
  have SB : Sep (lat2 (δ ^ 2) δ) := sep_lat2 t2 t1
  have SC : Sep (lat2 (δ ^ 2 / h) (δ / h)) := sep_lat2 t3 t4
  have neg : ∀ c : ℝ, (∃ n : ℤ, c = n * δ) → ∃ n : ℤ, -1 * c = n * δ := by
    rintro c ⟨n, rfl⟩; exact ⟨-n, by push_cast; ring⟩
  have ic : ∀ c : ℝ, (∃ n : ℤ, c = n * δ) → InA (lat2 δ 1) [⟨⟨0, 0⟩, c⟩] := by
    intro c hc m hm; simp at hm; subst hm
    simpa [lat2] using mem_zm.2 hc
  have ix : InA (lat2 δ 1) [⟨⟨1, 0⟩, 1⟩] := by
    intro m hm; simp at hm; subst hm
    simp [lat2]
  have iy : InA (lat2 δ 1) [⟨⟨0, 1⟩, 1⟩] := by
    intro m hm; simp at hm; subst hm
    simp [lat2]
  obtain ⟨ea, ia⟩ := add_A SA ix (ic _ (neg _ hj.1))
  obtain ⟨eb, ib⟩ := add_A SA iy (ic _ (neg _ hj.2))
  obtain ⟨esa, isa⟩ := smul_A SB ia (p.2 - n.2) (lat2_mul _ (mul_sub_lat hp.2 hn.2) (by ring) (by ring))
  obtain ⟨esb, isb⟩ := smul_A SB ib (p.1 - n.1) (lat2_mul _ (mul_sub_lat hp.1 hn.1) (by ring) (by ring))
  obtain ⟨en, inn⟩ := smul_A SB isb (-1) (lat2_mul (γ := 1) _ ⟨-1, by simp⟩ (by ring) (by ring))
  obtain ⟨es, is⟩ := add_A SB isa inn
  obtain ⟨et, it⟩ := smul_A SC is (-1 / h) (lat2_mul (γ := 1 / h) _ ⟨-1, by push_cast; ring⟩ (by ring) (by ring))
  have i1 : InA (lat2 (δ ^ 2 / h) (δ / h)) [⟨⟨0, 0⟩, 1⟩] := by
    intro m hm; simp at hm; subst hm
    obtain ⟨k, hk⟩ := hN
    have : (1 : ℝ) ∈ AddSubgroup.zmultiples (δ ^ 2 / h) := mem_zm.2 ⟨k, by
      rw [mul_div_assoc', ← hk, div_self hh.ne']⟩
    simpa [lat2] using this
  obtain ⟨er, -⟩ := iadd_A SC it i1
  have ec : ∀ c : ℝ, eval [⟨⟨0, 0⟩, c⟩] x y = c := by intro c; simp [eval_cons, eval_nil, Mono.eval_eq]
  have ex : eval ([⟨⟨1, 0⟩, 1⟩] : Poly ℝ) x y = x := by simp [eval_cons, eval_nil, Mono.eval_eq]
  have ey : eval ([⟨⟨0, 1⟩, 1⟩] : Poly ℝ) x y = y := by simp [eval_cons, eval_nil, Mono.eval_eq]
  unfold ellP
  rw [eval_toMv]
  unfold sub
  rw [er, et, es, esa, en, esb, ea, eb]
  simp only [map_add, map_mul, MvPolynomial.eval_C, ← eval_toMv, ec, ex, ey]
  ring

theorem orient_grid {δ : ℝ} {a b c : ℝ × ℝ} (ha : OnGrid δ a) (hb : OnGrid δ b) (hc : OnGrid δ c) :
    ∃ k : ℤ, |orient a b c| = k * δ ^ 2 := by
  obtain ⟨⟨a1, ha1⟩, a2, ha2⟩ := ha
  obtain ⟨⟨b1, hb1⟩, b2, hb2⟩ := hb
  obtain ⟨⟨c1, hc1⟩, c2, hc2⟩ := hc
  refine ⟨|(b1 - a1) * (c2 - a2) - (b2 - a2) * (c1 - a1)|, ?_⟩
  unfold orient
  rw [ha1, ha2, hb1, hb2, hc1, hc2]
  have : ((b1 : ℝ) * δ - a1 * δ) * (c2 * δ - a2 * δ) - (b2 * δ - a2 * δ) * (c1 * δ - a1 * δ) =
      ((((b1 - a1) * (c2 - a2) - (b2 - a2) * (c1 - a1) : ℤ)) : ℝ) * δ ^ 2 := by push_cast; ring
  rw [this, abs_mul, abs_of_nonneg (sq_nonneg δ), Int.cast_abs]

theorem grid_dist {δ : ℝ} (h0 : 1 / 10 ^ 6 ≤ δ) {a b : ℝ × ℝ} (ha : OnGrid δ a) (hb : OnGrid δ b) (hne : a ≠ b) :
    tol ℝ ≤ Real.sqrt ((a.1 - b.1) ^ 2 + (a.2 - b.2) ^ 2) := by
  have hδ : 0 < δ := lt_of_lt_of_le (by norm_num) h0
  have key : ∀ u v : ℝ, (∃ n : ℤ, u = n * δ) → (∃ n : ℤ, v = n * δ) → u ≠ v → δ ^ 2 ≤ (u - v) ^ 2 := by
    intro u v hu hv huv
    obtain ⟨k, hk⟩ := mul_sub_lat hu hv
    have : k ≠ 0 := by
      rintro rfl
      apply huv
      simp at hk
      linarith
    have : (1 : ℝ) ≤ (k : ℝ) ^ 2 := by
      have : 1 ≤ k ^ 2 := by
        have := sq_pos_of_ne_zero this
        omega
      exact_mod_cast this
    rw [hk, mul_pow]
    nlinarith [sq_nonneg δ]
  have : δ ^ 2 ≤ (a.1 - b.1) ^ 2 + (a.2 - b.2) ^ 2 := by
    by_cases h : a.1 = b.1
    · have h2 : a.2 ≠ b.2 := fun h2 => hne (Prod.ext h h2)
      have := key _ _ ha.2 hb.2 h2
      nlinarith [sq_nonneg (a.1 - b.1)]
    · have := key _ _ ha.1 hb.1 h
      nlinarith [sq_nonneg (a.2 - b.2)]
  refine le_trans ?_ (Real.le_sqrt_of_sq_le this)
  exact le_trans (by unfold tol; norm_num) h0

theorem barycentric_ok {z : Fin 3 → ℝ × ℝ} (hd : ∀ j, tol ℝ ≤ baryDist z j) (ho : orient (z 0) (z 1) (z 2) ≠ 0) :
    barycentric z = .ok (ellP (z 0) (z 2) (z 1) (baryH z), ellP (z 1) (z 0) (z 2) (baryH z),
      ellP (z 2) (z 1) (z 0) (baryH z)) := by
  have h : baryH z ≠ 0 := by rw [baryH_eq]; exact abs_ne_zero.2 ho
  unfold barycentric
  rw [if_neg (not_lt.2 (hd 0)), if_neg (not_lt.2 (hd 1)), if_neg (not_lt.2 (hd 2)), if_neg h,
    baryEll_ok, baryEll_ok, baryEll_ok]
  rfl

end PFEM
