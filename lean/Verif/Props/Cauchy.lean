import Mathlib.Analysis.Complex.RealDeriv
import Mathlib.RingTheory.RootsOfUnity.Complex
import Mathlib.Algebra.Polynomial.Eval.Degree
import Mathlib.Tactic.IntervalCases
import Verif.Props.LocInit
import Verif.Spec.Cauchy

/-!
Property theorems C57: interior values and gradients are Cauchy's formula with the quadrature of the cell.
-/

namespace PFEM
open Nystrom LocPoisson
open ContourG (mapPy)

/-! ### the logarithmic part -/

theorem get_ok {α : Type} {l : List α} {k : ℕ} {a : α} {t : List α} (h : l.drop k = a :: t) : Np.get l k = .ok a ∧ l.drop (k + 1) = t := by
  have h1 : l[k]? = some a := by
    have := congrArg (·[0]?) h
    simpa using this
  refine ⟨by simp only [Np.get, h1], ?_⟩
  rw [← List.drop_drop, h]
  rfl

/-- the logarithmic terms of a list of contours -/
noncomputable def logs (a : List ℝ) (cs : List ContourG) (x y : ℝ) : ℝ :=
  (List.zipWith (fun c (k : ContourG) => c * logDist (k.interior.getD (Vert.mk' 0 0)) x y) a cs).sum

/-- the first components of their gradients -/
noncomputable def logs1 (a : List ℝ) (cs : List ContourG) (x y : ℝ) : ℝ :=
  (List.zipWith (fun c (k : ContourG) => c * (x - (k.interior.getD (Vert.mk' 0 0)).x) / sq (k.interior.getD (Vert.mk' 0 0)) x y) a cs).sum

/-- the second components of their gradients -/
noncomputable def logs2 (a : List ℝ) (cs : List ContourG) (x y : ℝ) : ℝ :=
  (List.zipWith (fun c (k : ContourG) => c * (y - (k.interior.getD (Vert.mk' 0 0)).y) / sq (k.interior.getD (Vert.mk' 0 0)) x y) a cs).sum

theorem logPart_ok (a : List ℝ) (grad : Bool) (y : ℝ × ℝ) : ∀ (cs : List ContourG) (k : ℕ) (v g1 g2 : ℝ), (a.drop k).length = cs.length →
    (∀ c ∈ cs, ∃ p, c.interior = some p ∧ y ∈ away p) →
    LocPoisson.logPart a grad y k cs (v, g1, g2) = .ok (v + logs (a.drop k) cs y.1 y.2,
      if grad then g1 + logs1 (a.drop k) cs y.1 y.2 else g1, if grad then g2 + logs2 (a.drop k) cs y.1 y.2 else g2)
  | [], k, v, g1, g2, hl, hc => by
    simp [LocPoisson.logPart, logs, logs1, logs2]
  | c :: cs, k, v, g1, g2, hl, hc => by
    obtain ⟨p, hp, hy⟩ := hc c (by simp)
    cases hd : a.drop k with
    | nil => rw [hd] at hl; simp at hl
    | cons b t =>
      obtain ⟨hb, ht⟩ := get_ok hd
      have h0 : (y.1 - p.x) ^ 2 + (y.2 - p.y) ^ 2 ≠ 0 := (sq_pos hy).ne'
      have ih := fun v g1 g2 => logPart_ok a grad y cs (k + 1) v g1 g2 (by rw [ht]; rw [hd] at hl; simpa using hl)
        fun c hc' => hc c (by simp [hc'])
      rw [LocPoisson.logPart]
      simp only [hp, Trace.attr, py_ok_bind]
      rw [if_neg h0]
      simp only [hb, py_ok_bind, ih, ht]
      have hlog : ∀ s, v + 0.5 * b * Real.log ((y.1 - p.x) ^ 2 + (y.2 - p.y) ^ 2) + s = v + (b * logDist p y.1 y.2 + s) := fun s => by
        rw [logDist_eq]; unfold sq; ring
      cases grad
      · simp [logs, hp, hlog]
      · simp [logs, logs1, logs2, hp, hlog, sq, add_assoc]

/-! ### the integrands -/

/-- The arithmetic of the integrands: real and imaginary parts of products of complex numbers. -/
theorem cauchy_parts (d1 d2 u v t1 t2 : ℝ) (h0 : d1 ^ 2 + d2 ^ 2 ≠ 0) :
    let e := (d1 * u + d2 * v) / (d1 ^ 2 + d2 ^ 2)
    let e' := (d1 * v - d2 * u) / (d1 ^ 2 + d2 ^ 2)
    let o := (d1 * e + d2 * e') / (d1 ^ 2 + d2 ^ 2)
    let o' := (d1 * e' - d2 * e) / (d1 ^ 2 + d2 ^ 2)
    (⟨u, v⟩ / ⟨d1, d2⟩ * ⟨t1, t2⟩ : ℂ) = ⟨t1 * e - t2 * e', t1 * e' + t2 * e⟩ ∧
      (⟨u, v⟩ / (⟨d1, d2⟩ : ℂ) ^ 2 * ⟨t1, t2⟩ : ℂ) = ⟨t1 * o - t2 * o', t1 * o' + t2 * o⟩ := by
  intro e e' o o'
  have hd : (⟨d1, d2⟩ : ℂ) ≠ 0 := by
    intro h
    have h1 := congrArg Complex.re h
    have h2 := congrArg Complex.im h
    simp only [Complex.zero_re, Complex.zero_im] at h1 h2
    apply h0; rw [h1, h2]; simp
  have he : (⟨u, v⟩ : ℂ) = ⟨e, e'⟩ * ⟨d1, d2⟩ := by
    apply Complex.ext <;> simp only [Complex.mul_re, Complex.mul_im, e, e'] <;> field_simp <;> ring
  have ho : (⟨e, e'⟩ : ℂ) = ⟨o, o'⟩ * ⟨d1, d2⟩ := by
    apply Complex.ext <;> simp only [Complex.mul_re, Complex.mul_im, o, o'] <;> field_simp <;> ring
  constructor
  · rw [he, mul_div_assoc, div_self hd, mul_one]
    apply Complex.ext <;> simp only [Complex.mul_re, Complex.mul_im] <;> ring
  · rw [he, ho, mul_assoc, ← pow_two, mul_div_assoc, div_self (pow_ne_zero 2 hd), mul_one]
    apply Complex.ext <;> simp only [Complex.mul_re, Complex.mul_im] <;> ring

/-- samples with data -/
abbrev Datum := Sample × ℝ × ℝ

namespace Datum

noncomputable def eta (y : ℝ × ℝ) (q : Datum) : ℝ :=
  ((q.1.x - y.1) * q.2.1 + (q.1.y - y.2) * q.2.2) / ((q.1.x - y.1) ^ 2 + (q.1.y - y.2) ^ 2)
noncomputable def eta' (y : ℝ × ℝ) (q : Datum) : ℝ :=
  ((q.1.x - y.1) * q.2.2 - (q.1.y - y.2) * q.2.1) / ((q.1.x - y.1) ^ 2 + (q.1.y - y.2) ^ 2)
noncomputable def om (y : ℝ × ℝ) (q : Datum) : ℝ :=
  ((q.1.x - y.1) * eta y q + (q.1.y - y.2) * eta' y q) / ((q.1.x - y.1) ^ 2 + (q.1.y - y.2) ^ 2)
noncomputable def om' (y : ℝ × ℝ) (q : Datum) : ℝ :=
  ((q.1.x - y.1) * eta' y q - (q.1.y - y.2) * eta y q) / ((q.1.x - y.1) ^ 2 + (q.1.y - y.2) ^ 2)

end Datum
open Datum

theorem integrands_ok (l : List Datum) (y : ℝ × ℝ) (h0 : ∀ q ∈ l, (q.1.x, q.1.y) ≠ y) :
    integrands (l.map fun q => q.1.x) (l.map fun q => q.1.y) (l.map fun q => q.1.tx) (l.map fun q => q.1.ty) (l.map fun q => q.2.1)
      (l.map fun q => q.2.2) y = .ok (l.map fun q => q.1.tx * eta' y q + q.1.ty * eta y q,
        l.map fun q => q.1.tx * om' y q + q.1.ty * om y q, l.map fun q => q.1.tx * om y q - q.1.ty * om' y q) := by
  have hz : (0 : ℝ) ∉ l.map fun q => (q.1.x - y.1) ^ 2 + (q.1.y - y.2) ^ 2 := by
    intro hm
    obtain ⟨q, hq, e⟩ := List.mem_map.1 hm
    refine h0 q hq (Prod.ext ?_ ?_)
    · nlinarith [sq_nonneg (q.1.x - y.1), sq_nonneg (q.1.y - y.2)]
    · nlinarith [sq_nonneg (q.1.x - y.1), sq_nonneg (q.1.y - y.2)]
  have e1 : Np.mul (l.map fun q => q.1.x - y.1) (l.map fun q => q.2.1) = .ok (l.map fun q => (q.1.x - y.1) * q.2.1) := mul_maps _ _ _
  have e2 : Np.mul (l.map fun q => q.1.y - y.2) (l.map fun q => q.2.2) = .ok (l.map fun q => (q.1.y - y.2) * q.2.2) := mul_maps _ _ _
  have e3 := add_maps l (fun q => (q.1.x - y.1) * q.2.1) fun q => (q.1.y - y.2) * q.2.2
  have e4 : Np.bin (· / ·) (l.map fun q => (q.1.x - y.1) * q.2.1 + (q.1.y - y.2) * q.2.2)
    (l.map fun q => (q.1.x - y.1) ^ 2 + (q.1.y - y.2) ^ 2) = .ok (l.map (eta y)) := bin_maps _ _ _ _
  have e5 : Np.mul (l.map fun q => q.1.x - y.1) (l.map fun q => q.2.2) = .ok (l.map fun q => (q.1.x - y.1) * q.2.2) := mul_maps _ _ _
  have e6 : Np.mul (l.map fun q => q.1.y - y.2) (l.map fun q => q.2.1) = .ok (l.map fun q => (q.1.y - y.2) * q.2.1) := mul_maps _ _ _
  have e7 := sub_maps l (fun q => (q.1.x - y.1) * q.2.2) fun q => (q.1.y - y.2) * q.2.1
  have e8 : Np.bin (· / ·) (l.map fun q => (q.1.x - y.1) * q.2.2 - (q.1.y - y.2) * q.2.1)
    (l.map fun q => (q.1.x - y.1) ^ 2 + (q.1.y - y.2) ^ 2) = .ok (l.map (eta' y)) := bin_maps _ _ _ _
  have e9 := mul_maps l (fun q => q.1.tx) (eta' y)
  have e10 := mul_maps l (fun q => q.1.ty) (eta y)
  have e11 := add_maps l (fun q => q.1.tx * eta' y q) fun q => q.1.ty * eta y q
  have e12 := mul_maps l (fun q => q.1.x - y.1) (eta y)
  have e13 := mul_maps l (fun q => q.1.y - y.2) (eta' y)
  have e14 := add_maps l (fun q => (q.1.x - y.1) * eta y q) fun q => (q.1.y - y.2) * eta' y q
  have e15 : Np.bin (· / ·) (l.map fun q => (q.1.x - y.1) * eta y q + (q.1.y - y.2) * eta' y q)
    (l.map fun q => (q.1.x - y.1) ^ 2 + (q.1.y - y.2) ^ 2) = .ok (l.map (om y)) := bin_maps _ _ _ _
  have e16 := mul_maps l (fun q => q.1.x - y.1) (eta' y)
  have e17 := mul_maps l (fun q => q.1.y - y.2) (eta y)
  have e18 := sub_maps l (fun q => (q.1.x - y.1) * eta' y q) fun q => (q.1.y - y.2) * eta y q
  have e19 : Np.bin (· / ·) (l.map fun q => (q.1.x - y.1) * eta' y q - (q.1.y - y.2) * eta y q)
    (l.map fun q => (q.1.x - y.1) ^ 2 + (q.1.y - y.2) ^ 2) = .ok (l.map (om' y)) := bin_maps _ _ _ _
  have e20 := mul_maps l (fun q => q.1.tx) (om' y)
  have e21 := mul_maps l (fun q => q.1.ty) (om y)
  have e22 := add_maps l (fun q => q.1.tx * om' y q) fun q => q.1.ty * om y q
  have e23 := mul_maps l (fun q => q.1.tx) (om y)
  have e24 := mul_maps l (fun q => q.1.ty) (om' y)
  have e25 := sub_maps l (fun q => q.1.tx * om y q) fun q => q.1.ty * om' y q
  have en : Np.bin (fun a b : ℝ => a ^ 2 + b ^ 2) (l.map fun q => q.1.x - y.1) (l.map fun q => q.1.y - y.2) =
    .ok (l.map fun q => (q.1.x - y.1) ^ 2 + (q.1.y - y.2) ^ 2) := bin_maps _ _ _ _
  unfold integrands
  rw [shift_map, shift_map]
  simp only [en, py_ok_bind]
  rw [if_neg hz]
  rw [e1, py_ok_bind, e2, py_ok_bind, e3, py_ok_bind, e4, py_ok_bind, e5, py_ok_bind, e6, py_ok_bind, e7, py_ok_bind, e8, py_ok_bind, e9, py_ok_bind, e10, py_ok_bind, e11, py_ok_bind, e12, py_ok_bind, e13, py_ok_bind, e14, py_ok_bind, e15, py_ok_bind, e16, py_ok_bind, e17, py_ok_bind, e18, py_ok_bind, e19, py_ok_bind, e20, py_ok_bind, e21, py_ok_bind, e22, py_ok_bind, e23, py_ok_bind, e24, py_ok_bind, e25, py_ok_bind]

/-- the contribution of a sample to the Cauchy sum: the weight is `w` times the speed -/
noncomputable def term (w : ℝ) (n : ℕ) (y : ℝ × ℝ) (q : Datum) : ℂ :=
  ⟨q.2.1, q.2.2⟩ / ((⟨q.1.x, q.1.y⟩ : ℂ) - ⟨y.1, y.2⟩) ^ n * ⟨w * q.1.dxNorm * q.1.tx, w * q.1.dxNorm * q.1.ty⟩

theorem sum_re_im {α : Type} (l : List α) (f : α → ℂ) : (l.map f).sum = ⟨(l.map fun a => (f a).re).sum, (l.map fun a => (f a).im).sum⟩ := by
  induction l with
  | nil => rfl
  | cons a l ih => rw [List.map_cons, List.sum_cons, ih]; apply Complex.ext <;> simp

theorem term_parts {w : ℝ} {y : ℝ × ℝ} {q : Datum} (h0 : (q.1.x, q.1.y) ≠ y) :
    (term w 1 y q).im = w * q.1.dxNorm * (q.1.tx * eta' y q + q.1.ty * eta y q) ∧
    (term w 2 y q).im = w * q.1.dxNorm * (q.1.tx * om' y q + q.1.ty * om y q) ∧
    (term w 2 y q).re = w * q.1.dxNorm * (q.1.tx * om y q - q.1.ty * om' y q) := by
  have hne : (q.1.x - y.1) ^ 2 + (q.1.y - y.2) ^ 2 ≠ 0 := by
    intro e
    refine h0 (Prod.ext ?_ ?_)
    · nlinarith [sq_nonneg (q.1.x - y.1), sq_nonneg (q.1.y - y.2)]
    · nlinarith [sq_nonneg (q.1.x - y.1), sq_nonneg (q.1.y - y.2)]
  have hsub : (⟨q.1.x, q.1.y⟩ : ℂ) - ⟨y.1, y.2⟩ = ⟨q.1.x - y.1, q.1.y - y.2⟩ := by apply Complex.ext <;> simp
  have h := cauchy_parts (q.1.x - y.1) (q.1.y - y.2) q.2.1 q.2.2 (w * q.1.dxNorm * q.1.tx) (w * q.1.dxNorm * q.1.ty) hne
  have h1 : term w 1 y q = ⟨w * q.1.dxNorm * q.1.tx * eta y q - w * q.1.dxNorm * q.1.ty * eta' y q,
      w * q.1.dxNorm * q.1.tx * eta' y q + w * q.1.dxNorm * q.1.ty * eta y q⟩ := by
    unfold term; rw [hsub, pow_one]; exact h.1
  have h2 : term w 2 y q = ⟨w * q.1.dxNorm * q.1.tx * om y q - w * q.1.dxNorm * q.1.ty * om' y q,
      w * q.1.dxNorm * q.1.tx * om' y q + w * q.1.dxNorm * q.1.ty * om y q⟩ := by
    unfold term; rw [hsub]; exact h.2
  rw [h1, h2]
  refine ⟨?_, ?_, ?_⟩ <;> dsimp only <;> ring

/-- real and imaginary part of a quotient by `2πi` -/
theorem div_two_pi_I (z : ℂ) : z / (2 * Real.pi * Complex.I) = ⟨z.im * 0.5 / Real.pi, -(z.re * 0.5 / Real.pi)⟩ := by
  have hpi : (Real.pi : ℂ) ≠ 0 := by exact_mod_cast Real.pi_ne_zero
  have hpi' := Real.pi_ne_zero
  rw [div_eq_iff (by simp [hpi, Complex.I_ne_zero])]
  apply Complex.ext
  · simp; field_simp; norm_num; ring
  · simp; field_simp; norm_num; ring

theorem rowSum_ok (l : List Datum) (w : ℝ) (g : Datum → ℝ) :
    rowSum ((l.map fun q => q.1.dxNorm).map (· * w)) (l.map g) = .ok ((l.map fun q => w * q.1.dxNorm * g q).sum * 0.5 / Real.pi) := by
  unfold rowSum
  rw [List.map_map, mul_maps]
  simp only [py_ok_bind, Function.comp_def]
  congr 5
  funext q
  ring

/-! ### the whole computation -/

/-- samples with the entries of two data vectors -/
def CellG.data (K : CellG) (psi psiHat : List ℝ) : List Datum := K.cols.zip (psi.zip psiHat)

theorem data_maps {K : CellG} {psi psiHat : List ℝ} (h1 : psi.length = K.cols.length) (h2 : psiHat.length = K.cols.length) :
    (∀ a : Sample → ℝ, K.cols.map a = (K.data psi psiHat).map fun q => a q.1) ∧ psi = ((K.data psi psiHat).map fun q => q.2.1) ∧
      psiHat = (K.data psi psiHat).map fun q => q.2.2 := by
  have h3 : (psi.zip psiHat).length = K.cols.length := by simp [h1, h2]
  have h4 : K.cols = (K.data psi psiHat).map Prod.fst := (List.map_fst_zip (by rw [h3])).symm
  have h5 : psi.zip psiHat = (K.data psi psiHat).map Prod.snd := (List.map_snd_zip (by rw [h3])).symm
  refine ⟨fun a => ?_, ?_, ?_⟩
  · conv_lhs => rw [h4, List.map_map]
    rfl
  · have := congrArg (List.map Prod.fst) h5
    rwa [List.map_fst_zip (by rw [h1, h2]), List.map_map] at this
  · have := congrArg (List.map Prod.snd) h5
    rwa [List.map_snd_zip (by rw [h1, h2]), List.map_map] at this

theorem ones {K : CellG} (h : K.Ready) (c : ℝ) : List.replicate K.numPts c = K.cols.map fun _ => c := by simp [h.numPts]

theorem unitTangent_ok {K : CellG} (h : K.Ready) : K.unitTangent = .ok (K.cols.map Sample.tx, K.cols.map Sample.ty) := by
  unfold CellG.unitTangent
  rw [ones h, ones h, tangent_map h, tangent_map h]
  simp [py_ok_bind]

theorem dxNorm_ok {K : CellG} (h : K.Ready) : K.dxNorm = .ok (K.cols.map Sample.dxNorm) := by
  unfold CellG.dxNorm
  rw [ones h, dx_map h]
  simp

/-- the sums are real and imaginary parts of Cauchy sums -/
theorem rows_ok {K : CellG} {psi psiHat : List ℝ} (h1 : psi.length = K.cols.length) (h2 : psiHat.length = K.cols.length) {w : ℝ} {y : ℝ × ℝ}
    (hy : ∀ s ∈ K.cols, (s.x, s.y) ≠ y) {C : ℕ → ℂ} (hC : ∀ n, C n = ((K.data psi psiHat).map (term w n y)).sum / (2 * Real.pi * Complex.I)) :
    ∃ f g1 g2, integrands (K.cols.map Sample.x) (K.cols.map Sample.y) (K.cols.map Sample.tx) (K.cols.map Sample.ty) psi psiHat y = .ok (f, g1, g2) ∧
      rowSum ((K.cols.map Sample.dxNorm).map (· * w)) f = .ok (C 1).re ∧ rowSum ((K.cols.map Sample.dxNorm).map (· * w)) g1 = .ok (C 2).re ∧
      rowSum ((K.cols.map Sample.dxNorm).map (· * w)) g2 = .ok (-(C 2).im) := by
  obtain ⟨hm, e1, e2⟩ := data_maps h1 h2
  have hl : ∀ q ∈ K.data psi psiHat, (q.1.x, q.1.y) ≠ y := fun q hq => hy _ (List.of_mem_zip (a := q.1) (b := q.2) hq).1
  have hi := integrands_ok (K.data psi psiHat) y hl
  rw [← e1, ← e2, ← hm Sample.x, ← hm Sample.y, ← hm Sample.tx, ← hm Sample.ty] at hi
  refine ⟨_, _, _, hi, ?_, ?_, ?_⟩
  all_goals
    rw [hm Sample.dxNorm, rowSum_ok, hC, div_two_pi_I, sum_re_im]
    dsimp only
    congr 1
  · rw [List.map_congr_left fun q hq => ((term_parts (w := w) (hl q hq)).1).symm]
  · rw [List.map_congr_left fun q hq => ((term_parts (w := w) (hl q hq)).2.1).symm]
  · rw [neg_neg, List.map_congr_left fun q hq => ((term_parts (w := w) (hl q hq)).2.2).symm]

theorem interiorAt_ok {K : CellG} {p : LocPoly} {q1 q2 : Poly ℝ} (hq1 : p.grad1 = some q1) (hq2 : p.grad2 = some q2) {a psi psiHat : List ℝ}
    (ha : a.length = K.numHoles) (h1 : psi.length = K.cols.length) (h2 : psiHat.length = K.cols.length)
    (hh : ∀ c ∈ K.components.tail, ∃ p, c.interior = some p) {w : ℝ} {y : ℝ × ℝ} (hy : K.Off y)
    {C : ℕ → ℂ} (hC : ∀ n, C n = ((K.data psi psiHat).map (term w n y)).sum / (2 * Real.pi * Complex.I)) (grad : Bool) :
    interiorAt K p a psi psiHat (K.cols.map Sample.x) (K.cols.map Sample.y) (K.cols.map Sample.tx) (K.cols.map Sample.ty)
      ((K.cols.map Sample.dxNorm).map (· * w)) grad y = .ok (p.exact.eval y.1 y.2 + logs a K.components.tail y.1 y.2 + (C 1).re,
        if grad then q1.eval y.1 y.2 + logs1 a K.components.tail y.1 y.2 + (C 2).re else 0,
        if grad then q2.eval y.1 y.2 + logs2 a K.components.tail y.1 y.2 - (C 2).im else 0) := by
  obtain ⟨f, g1, g2, hi, r1, r2, r3⟩ := rows_ok h1 h2 hy.1 hC
  have hlog := fun grad v g1 g2 => logPart_ok a grad y K.components.tail 0 v g1 g2 (by simpa [CellG.numHoles] using ha) fun c hc => by
    obtain ⟨p, hp⟩ := hh c hc
    exact ⟨p, hp, hy.2 c hc p hp⟩
  unfold interiorAt
  rw [hq1, hq2]
  cases grad
  · simp only [Bool.false_eq_true, if_false, py_ok_bind, hlog, hi, r1, List.drop_zero]
  · simp only [if_true, Trace.attr, py_ok_bind, hlog, hi, r1, r2, r3, List.drop_zero]
    rfl

theorem flatMap_cols {α : Type} (N : ℕ) (g : ℕ → Sample → α) : ∀ l : List EdgeG, (∀ e ∈ l, e.cols.length = N) →
    (l.flatMap fun e => e.cols.map (g e.cols.length)) = (l.flatMap EdgeG.cols).map (g N) ∧ (l.flatMap EdgeG.cols).length = l.length * N
  | [], _ => by simp
  | e :: l, h => by
    obtain ⟨h1, h2⟩ := flatMap_cols N g l fun e he => h e (by simp [he])
    have := h e (by simp)
    constructor
    · rw [List.flatMap_cons, List.flatMap_cons, List.map_append, h1, this]
    · rw [List.flatMap_cons, List.length_append, h2, this, List.length_cons]; ring

theorem cauchySum_eq {K : CellG} (h : K.Ready) {N : ℕ} (hN : K.EqualEdges N) (psi psiHat : List ℝ) (n : ℕ) (y : ℝ × ℝ) :
    K.numPts ≠ 0 ∧ cauchySum K.nodes (List.zipWith Complex.mk psi psiHat) n ⟨y.1, y.2⟩ =
      ((K.data psi psiHat).map (term (2 * Real.pi * K.getEdges.length / K.numPts) n y)).sum / (2 * Real.pi * Complex.I) := by
  have hc := flatMap_cols N (fun m s => (((⟨s.x, s.y⟩ : ℂ), (⟨2 * Real.pi / (m : ℝ) * s.dxNorm * s.tx, 2 * Real.pi / (m : ℝ) * s.dxNorm * s.ty⟩ : ℂ))))
    K.getEdges hN.2
  rw [getEdges_cols] at hc
  obtain ⟨e, t, he⟩ := List.exists_cons_of_ne_nil hN.1
  obtain ⟨L, hL, hL2⟩ := getEdges_sampled h e (by simp [he])
  have hNpos : 0 < N := by
    rw [← hN.2 e (by simp [he]), cols_length hL]; omega
  have hE : K.getEdges.length ≠ 0 := by simp [he]
  have hnum : K.numPts = K.getEdges.length * N := by rw [h.numPts, hc.2]
  have hw : 2 * Real.pi * K.getEdges.length / K.numPts = 2 * Real.pi / N := by
    have h1 : (K.getEdges.length : ℝ) ≠ 0 := by exact_mod_cast hE
    have h2 : (N : ℝ) ≠ 0 := by exact_mod_cast hNpos.ne'
    rw [hnum]
    push_cast
    field_simp
  refine ⟨by rw [hnum]; exact Nat.mul_ne_zero hE hNpos.ne', ?_⟩
  unfold cauchySum CellG.nodes CellG.data
  rw [hc.1, hw, ← List.map_uncurry_zip_eq_zipWith (f := Complex.mk), List.zipWith_map, ← List.map_uncurry_zip_eq_zipWith]
  rfl

theorem computeInterior_ok {K : CellG} (h : K.Ready) {N : ℕ} (hN : K.EqualEdges N) {f : LocPoisson} {P q1 q2 : Poly ℝ} {a psi psiHat : List ℝ}
    (hf : f.Parts K P q1 q2 a psi psiHat) (grad : Bool) :
    f.computeInterior grad = .ok ⟨f.cell, f.poly, f.harm, some (K.interior.map fun y => cauchyValue K P.eval a psi psiHat y.1 y.2),
      some (K.interior.map fun y => if grad then q1.eval y.1 y.2 + logs1 a K.components.tail y.1 y.2 +
        (cauchySum K.nodes (List.zipWith Complex.mk psi psiHat) 2 ⟨y.1, y.2⟩).re else 0),
      some (K.interior.map fun y => if grad then q2.eval y.1 y.2 + logs2 a K.components.tail y.1 y.2 -
        (cauchySum K.nodes (List.zipWith Complex.mk psi psiHat) 2 ⟨y.1, y.2⟩).im else 0)⟩ := by
  obtain ⟨hK, ⟨p, hp, rfl, hq1, hq2⟩, ⟨u, t, t', hu, ha, ht, hv, ht', hv'⟩, hal, hl, hl', hh, hy⟩ := hf
  have h0 := (cauchySum_eq h hN psi psiHat 1 (0, 0)).1
  have hk : (if K.numHoles = 0 then .ok [] else .ok a : Py (List ℝ)) = .ok a := by
    split
    · have : a = [] := List.length_eq_zero_iff.1 (by omega)
      rw [this]
    · rfl
  have hrows := mapPy_eq (l := K.interior) (f := interiorAt K p a psi psiHat (K.cols.map Sample.x) (K.cols.map Sample.y) (K.cols.map Sample.tx)
      (K.cols.map Sample.ty) ((K.cols.map Sample.dxNorm).map (· * (2 * Real.pi * K.getEdges.length / K.numPts))) grad)
    fun y hym => interiorAt_ok hq1 hq2 hal (by rw [hl, h.numPts]) (by rw [hl', h.numPts]) hh (hy y hym)
      (fun n => (cauchySum_eq h hN psi psiHat n y).2) grad
  unfold computeInterior
  rw [hK, hp, hu]
  simp only [Trace.attr, py_ok_bind, ha, hk, ht, hv, ht', hv', h.getBoundaryPoints, unitTangent_ok h, dxNorm_ok h]
  rw [if_neg h0, hrows, py_ok_bind]
  simp only [List.map_map, Function.comp_def]
  congr 4
  funext y
  simp only [cauchyValue, withLogs, logs]
  ring

/-- C57: `compute_interior_values` succeeds and yields, at every interior point `y`: the value of the polynomial part, plus `a_k log|y - ξ_k|`
for every hole, plus the real part of the quadrature sum for `(1 / 2πi) ∮ (ψ + i ψ') / (z - y) dz`; and as its gradient the gradients of the
polynomial part and of the logarithms plus real and negative imaginary part of the sum for `(1 / 2πi) ∮ (ψ + i ψ') / (z - y)² dz`. -/
theorem C57_values {K : CellG} (h : K.Ready) {N : ℕ} (hN : K.EqualEdges N) {f : LocPoisson} {P q1 q2 : Poly ℝ} {a psi psiHat : List ℝ}
    (hf : f.Parts K P q1 q2 a psi psiHat) :
    ∃ r, f.computeInterior true = .ok r ∧ r.cell = f.cell ∧ r.poly = f.poly ∧ r.harm = f.harm ∧
      r.intVals = some (K.interior.map fun y => cauchyValue K P.eval a psi psiHat y.1 y.2) ∧
      r.intGrad1 = some (K.interior.map fun y => q1.eval y.1 y.2 +
        (List.zipWith (fun b (c : ContourG) => b * ((y.1 - (c.interior.getD (Vert.mk' 0 0)).x) /
          ((y.1 - (c.interior.getD (Vert.mk' 0 0)).x) ^ 2 + (y.2 - (c.interior.getD (Vert.mk' 0 0)).y) ^ 2))) a K.components.tail).sum +
        (cauchySum K.nodes (List.zipWith Complex.mk psi psiHat) 2 ⟨y.1, y.2⟩).re) ∧
      r.intGrad2 = some (K.interior.map fun y => q2.eval y.1 y.2 +
        (List.zipWith (fun b (c : ContourG) => b * ((y.2 - (c.interior.getD (Vert.mk' 0 0)).y) /
          ((y.1 - (c.interior.getD (Vert.mk' 0 0)).x) ^ 2 + (y.2 - (c.interior.getD (Vert.mk' 0 0)).y) ^ 2))) a K.components.tail).sum -
        (cauchySum K.nodes (List.zipWith Complex.mk psi psiHat) 2 ⟨y.1, y.2⟩).im) := by
  refine ⟨_, computeInterior_ok h hN hf true, rfl, rfl, rfl, rfl, ?_, ?_⟩
  · simp only [if_true, logs1, sq, mul_div_assoc]
  · simp only [if_true, logs2, sq, mul_div_assoc]

/-! ### the gradient is the gradient of the values -/

theorem zipWith_grad {α β : Type} {F : α → β → ℝ → ℝ → ℝ} {G1 G2 : α → β → ℝ} {x y : ℝ} : ∀ (as : List α) (bs : List β),
    (∀ b ∈ bs, ∀ a, HasGrad (F a b) x y (G1 a b) (G2 a b)) →
    HasGrad (fun x y => (List.zipWith (fun a b => F a b x y) as bs).sum) x y (List.zipWith G1 as bs).sum (List.zipWith G2 as bs).sum
  | [], _, _ => by simpa [HasGrad] using ⟨hasDerivAt_const x (0 : ℝ), hasDerivAt_const y (0 : ℝ)⟩
  | _ :: _, [], _ => by simpa [HasGrad] using ⟨hasDerivAt_const x (0 : ℝ), hasDerivAt_const y (0 : ℝ)⟩
  | a :: as, b :: bs, h => by
    obtain ⟨h1, h2⟩ := zipWith_grad as bs fun b hb => h b (by simp [hb])
    obtain ⟨k1, k2⟩ := h b (by simp) a
    simp only [List.zipWith_cons_cons, List.sum_cons]
    exact ⟨k1.fun_add h1, k2.fun_add h2⟩

theorem logs_grad {K : CellG} (a : List ℝ) {y : ℝ × ℝ} (hh : ∀ c ∈ K.components.tail, ∃ p, c.interior = some p) (hy : K.Off y) :
    HasGrad (logs a K.components.tail) y.1 y.2 (logs1 a K.components.tail y.1 y.2) (logs2 a K.components.tail y.1 y.2) := by
  refine zipWith_grad (F := fun c (k : ContourG) x y => c * logDist (k.interior.getD (Vert.mk' 0 0)) x y) _ _ fun c hc b => ?_
  obtain ⟨p, hp⟩ := hh c hc
  have := logDist_grad (hy.2 c hc p hp)
  simp only [hp, Option.getD_some, mul_div_assoc]
  exact ⟨this.1.const_mul b, this.2.const_mul b⟩

theorem cauchySum_deriv (nodes : List (ℂ × ℂ)) (n : ℕ) {ζ : ℂ} (hz : ∀ p ∈ nodes, p.1 ≠ ζ) : ∀ F : List ℂ,
    HasDerivAt (cauchySum nodes F n) (n * cauchySum nodes F (n + 1) ζ) ζ := by
  intro F
  have key : ∀ (ns : List (ℂ × ℂ)) (F : List ℂ), (∀ p ∈ ns, p.1 ≠ ζ) →
      HasDerivAt (fun ζ => (List.zipWith (fun p f => f / (p.1 - ζ) ^ n * p.2) ns F).sum)
        (n * (List.zipWith (fun p f => f / (p.1 - ζ) ^ (n + 1) * p.2) ns F).sum) ζ := by
    intro ns
    induction ns with
    | nil => intro F _; simpa using hasDerivAt_const ζ (0 : ℂ)
    | cons p ns ih =>
      intro F hz
      cases F with
      | nil => simpa using hasDerivAt_const ζ (0 : ℂ)
      | cons f F =>
        have h0 : p.1 - ζ ≠ 0 := sub_ne_zero.2 (hz p (by simp))
        have h1 := ((((hasDerivAt_id ζ).const_sub p.1).fun_pow n).fun_inv (pow_ne_zero n h0)).const_mul (f * p.2)
        have h2 := h1.fun_add (ih F fun q hq => hz q (by simp [hq]))
        simp only [List.zipWith_cons_cons, List.sum_cons]
        refine (h2.congr_of_eventuallyEq (Filter.Eventually.of_forall fun z => ?_)).congr_deriv ?_
        · simp only [id]; ring
        · simp only [id, mul_add]
          congr 1
          cases n with
          | zero => simp
          | succ m =>
            simp only [Nat.add_sub_cancel]
            field_simp
            ring
  have h := (key nodes F hz).div_const (2 * Real.pi * Complex.I)
  refine h.congr_deriv ?_
  unfold cauchySum
  ring

/-- partial derivatives of the real part of a holomorphic function -/
theorem re_grad {F : ℂ → ℂ} {d : ℂ} {x y : ℝ} (h : HasDerivAt F d ⟨x, y⟩) : HasGrad (fun x y => (F ⟨x, y⟩).re) x y d.re (-d.im) := by
  constructor
  · have h1 : HasDerivAt (fun s : ℂ => F (s + ⟨0, y⟩)) d (x : ℂ) := by
      have e : (x : ℂ) + ⟨0, y⟩ = ⟨x, y⟩ := by apply Complex.ext <;> simp
      exact HasDerivAt.comp_add_const (x : ℂ) ⟨0, y⟩ (by rw [e]; exact h)
    have := h1.real_of_complex
    refine this.congr_of_eventuallyEq (Filter.Eventually.of_forall fun s => ?_)
    have e : (s : ℂ) + ⟨0, y⟩ = ⟨s, y⟩ := by apply Complex.ext <;> simp
    simp only [e]
  · have h1 : HasDerivAt (fun s : ℂ => F (s * Complex.I + x)) (d * Complex.I) (y : ℂ) := by
      have e : (y : ℂ) * Complex.I + x = ⟨x, y⟩ := by apply Complex.ext <;> simp
      have h2 : HasDerivAt (fun s : ℂ => s * Complex.I + x) Complex.I (y : ℂ) := by
        simpa using ((hasDerivAt_id (y : ℂ)).mul_const Complex.I).add_const (x : ℂ)
      exact HasDerivAt.comp (y : ℂ) (by rw [e]; exact h) h2
    have := h1.real_of_complex
    have e2 : (d * Complex.I).re = -d.im := by simp
    rw [e2] at this
    refine this.congr_of_eventuallyEq (Filter.Eventually.of_forall fun s => ?_)
    have e : (s : ℂ) * Complex.I + x = ⟨x, s⟩ := by apply Complex.ext <;> simp
    simp only [e]

theorem nodes_off {K : CellG} {y : ℝ × ℝ} (hy : K.Off y) : ∀ p ∈ K.nodes, p.1 ≠ (⟨y.1, y.2⟩ : ℂ) := by
  intro p hp e
  obtain ⟨d, hd, hp⟩ := List.mem_flatMap.1 hp
  obtain ⟨s, hs, rfl⟩ := List.mem_map.1 hp
  have hs' : s ∈ K.cols := by rw [← getEdges_cols]; exact List.mem_flatMap.2 ⟨d, hd, hs⟩
  exact hy.1 s hs' (Prod.ext (congrArg Complex.re e) (congrArg Complex.im e))

/-- C57: The gradient returned is the gradient of the values: wherever the polynomials `q1`, `q2` are the partial derivatives of the
polynomial part, the entries of `int_grad1`, `int_grad2` at an interior point are the partial derivatives there of the function that the
entries of `int_vals` are the values of. -/
theorem C57_gradient {K : CellG} (h : K.Ready) {N : ℕ} (hN : K.EqualEdges N) {f : LocPoisson} {P q1 q2 : Poly ℝ} {a psi psiHat : List ℝ}
    (hf : f.Parts K P q1 q2 a psi psiHat) (hg : HasGradOn Set.univ P.eval q1.eval q2.eval) :
    ∃ r, ∃ U g1 g2 : ℝ → ℝ → ℝ, f.computeInterior true = .ok r ∧ U = cauchyValue K P.eval a psi psiHat ∧
      r.intVals = some (K.interior.map fun y => U y.1 y.2) ∧ r.intGrad1 = some (K.interior.map fun y => g1 y.1 y.2) ∧
      r.intGrad2 = some (K.interior.map fun y => g2 y.1 y.2) ∧ ∀ y, K.Off y → HasGrad U y.1 y.2 (g1 y.1 y.2) (g2 y.1 y.2) := by
  refine ⟨_, _, fun x y => q1.eval x y + logs1 a K.components.tail x y +
        (cauchySum K.nodes (List.zipWith Complex.mk psi psiHat) 2 ⟨x, y⟩).re, fun x y => q2.eval x y + logs2 a K.components.tail x y -
        (cauchySum K.nodes (List.zipWith Complex.mk psi psiHat) 2 ⟨x, y⟩).im, computeInterior_ok h hN hf true, rfl, rfl, by simp, by simp,
    fun y hy => ?_⟩
  have h1 := hg y.1 y.2 trivial
  have h2 := logs_grad a hf.holes hy
  have h3 := re_grad (cauchySum_deriv K.nodes 1 (nodes_off hy) (List.zipWith Complex.mk psi psiHat))
  simp only [Nat.cast_one, one_mul, Nat.reduceAdd] at h3
  refine ⟨(((h1.1.fun_add h2.1).fun_add h3.1).congr_of_eventuallyEq (Filter.Eventually.of_forall fun s => ?_)),
    ((((h1.2.fun_add h2.2).fun_add h3.2).congr_of_eventuallyEq (Filter.Eventually.of_forall fun s => ?_))).congr_deriv (sub_eq_add_neg _ _).symm⟩
  · simp only [cauchyValue, withLogs, logs]; ring
  · simp only [cauchyValue, withLogs, logs]; ring

/-! ### the Laplacian of the values -/

theorem re_harmonic {F d d' : ℂ → ℂ} {S : Set (ℝ × ℝ)} (h : ∀ x y, (x, y) ∈ S → HasDerivAt F (d ⟨x, y⟩) ⟨x, y⟩)
    (h' : ∀ x y, (x, y) ∈ S → HasDerivAt d (d' ⟨x, y⟩) ⟨x, y⟩) : HasLaplacian S (fun x y => (F ⟨x, y⟩).re) fun _ _ => 0 := by
  refine ⟨fun x y => (d ⟨x, y⟩).re, fun x y => -(d ⟨x, y⟩).im, fun x y hS => ⟨re_grad (h x y hS), _, _, (re_grad (h' x y hS)).1,
    ((re_grad ((h' x y hS).const_mul Complex.I)).2.congr_of_eventuallyEq (Filter.Eventually.of_forall fun s => ?_)), ?_⟩⟩
  · simp
  · simp

theorem logs_harmonic {K : CellG} (a : List ℝ) (hh : ∀ c ∈ K.components.tail, ∃ p, c.interior = some p) :
    HasLaplacian {y | K.Off y} (logs a K.components.tail) fun _ _ => 0 := by
  have key : ∀ (a : List ℝ) (cs : List ContourG), (∀ c ∈ cs, c ∈ K.components.tail) →
      HasLaplacian {y | K.Off y} (logs a cs) fun _ _ => 0 := by
    intro a
    induction a with
    | nil => intro cs _; exact ⟨fun _ _ => 0, fun _ _ => 0, fun x y _ => ⟨⟨by simpa [logs] using hasDerivAt_const x (0 : ℝ),
        by simpa [logs] using hasDerivAt_const y (0 : ℝ)⟩, 0, 0, hasDerivAt_const _ _, hasDerivAt_const _ _, by simp⟩⟩
    | cons b a ih =>
      intro cs hcs
      cases cs with
      | nil => exact ⟨fun _ _ => 0, fun _ _ => 0, fun x y _ => ⟨⟨by simpa [logs] using hasDerivAt_const x (0 : ℝ),
        by simpa [logs] using hasDerivAt_const y (0 : ℝ)⟩, 0, 0, hasDerivAt_const _ _, hasDerivAt_const _ _, by simp⟩⟩
      | cons c cs =>
        obtain ⟨p, hp⟩ := hh c (hcs c (by simp))
        have h1 : HasLaplacian {y | K.Off y} (logDist p) fun _ _ => 0 :=
          (logDist_harmonic p).mono fun y hy => hy.2 c (hcs c (by simp)) p hp
        have h2 := ((h1.const_mul b).add (ih cs fun c hc => hcs c (by simp [hc]))).congr (g := fun _ _ => 0) (by simp)
        have : logs (b :: a) (c :: cs) = fun x y => b * logDist p x y + logs a cs x y := by
          funext x y
          simp [logs, hp]
        rw [this]
        exact h2
  exact key a _ fun _ h => h

/-- C57: The values are those of a function with the right Laplacian: off the samples and the poles, the function that `int_vals` samples has
the Laplacian of the polynomial part, whatever the boundary data are. -/
theorem C57_laplacian {K : CellG} (h : K.Ready) {N : ℕ} (hN : K.EqualEdges N) {f : LocPoisson} {P q1 q2 : Poly ℝ} {a psi psiHat : List ℝ}
    (hf : f.Parts K P q1 q2 a psi psiHat) {L : ℝ → ℝ → ℝ} (hL : HasLaplacian Set.univ P.eval L) :
    ∃ r, ∃ U : ℝ → ℝ → ℝ, f.computeInterior true = .ok r ∧ r.intVals = some (K.interior.map fun y => U y.1 y.2) ∧ HasLaplacian {y | K.Off y} U L := by
  refine ⟨_, cauchyValue K P.eval a psi psiHat, computeInterior_ok h hN hf true, rfl, ?_⟩
  have h1 := re_harmonic (S := {y | K.Off y}) (F := cauchySum K.nodes (List.zipWith Complex.mk psi psiHat) 1)
    (d := fun ζ => (1 : ℕ) * cauchySum K.nodes (List.zipWith Complex.mk psi psiHat) 2 ζ)
    (d' := fun ζ => (1 : ℕ) * ((2 : ℕ) * cauchySum K.nodes (List.zipWith Complex.mk psi psiHat) 3 ζ))
    (fun x y hy => cauchySum_deriv K.nodes 1 (nodes_off (y := (x, y)) hy) (List.zipWith Complex.mk psi psiHat))
    fun x y hy => (cauchySum_deriv K.nodes 2 (nodes_off (y := (x, y)) hy) (List.zipWith Complex.mk psi psiHat)).const_mul _
  have h2 := ((hL.mono (Set.subset_univ {y | K.Off y})).add (h1.add (logs_harmonic a hf.holes))).congr (g := L) (by simp)
  exact h2

/-! ### accuracy on a disc -/

open Polynomial in
/-- The trapezoidal rule for Cauchy's formula on a circle of radius `r` about the origin, `N` nodes, for a power less than `N`. -/
theorem circle_power {N k : ℕ} (hk : k < N) {ω : ℂ} (hω : IsPrimitiveRoot ω N) {r d : ℂ} (hd : ∀ j < N, r * ω ^ j ≠ d) :
    (∑ j ∈ Finset.range N, (r * ω ^ j) ^ k / (r * ω ^ j - d) * (r * ω ^ j)) * (r ^ N - d ^ N) = N * r ^ N * d ^ k := by
  have hN : 0 < N := by omega
  have h1 : ∀ j ∈ Finset.range N, (r * ω ^ j) ^ k / (r * ω ^ j - d) * (r * ω ^ j) * (r ^ N - d ^ N) =
      ∑ m ∈ Finset.range N, d ^ (N - 1 - m) * r ^ (k + 1 + m) * (ω ^ (k + 1 + m)) ^ j := by
    intro j hj
    have hne : r * ω ^ j - d ≠ 0 := sub_ne_zero.2 (hd j (Finset.mem_range.1 hj))
    have hpow : r ^ N = (r * ω ^ j) ^ N := by
      rw [mul_pow, ← pow_mul, mul_comm j, pow_mul, hω.pow_eq_one, one_pow, mul_one]
    have hg := (Commute.all (r * ω ^ j) d).geom_sum₂_mul N
    rw [hpow, ← hg]
    have : (r * ω ^ j) ^ k / (r * ω ^ j - d) * (r * ω ^ j) * ((∑ i ∈ Finset.range N, (r * ω ^ j) ^ i * d ^ (N - 1 - i)) * (r * ω ^ j - d)) =
        (r * ω ^ j) ^ (k + 1) * ∑ i ∈ Finset.range N, (r * ω ^ j) ^ i * d ^ (N - 1 - i) := by
      field_simp
      ring
    rw [this, Finset.mul_sum]
    refine Finset.sum_congr rfl fun m _ => ?_
    rw [← pow_mul, mul_comm (k + 1 + m) j, pow_mul, ← mul_assoc, ← pow_add, mul_pow]
    ring
  rw [Finset.sum_mul, Finset.sum_congr rfl h1, Finset.sum_comm]
  have h2 : ∀ m ∈ Finset.range N, ∑ j ∈ Finset.range N, d ^ (N - 1 - m) * r ^ (k + 1 + m) * (ω ^ (k + 1 + m)) ^ j =
      if m = N - 1 - k then N * r ^ N * d ^ k else 0 := by
    intro m hm
    have hm := Finset.mem_range.1 hm
    rw [← Finset.mul_sum]
    split
    · next e =>
      have e1 : k + 1 + m = N := by omega
      have e2 : N - 1 - m = k := by omega
      rw [e1, hω.pow_eq_one, e2]
      simp
      ring
    · next e =>
      have hnd : ¬ N ∣ k + 1 + m := by
        rintro ⟨q, hq⟩
        have : q < 2 := by
          by_contra hq2
          have := Nat.mul_le_mul_left N (show 2 ≤ q by omega)
          omega
        interval_cases q <;> omega
      have hne : ω ^ (k + 1 + m) ≠ 1 := fun h => hnd ((hω.pow_eq_one_iff_dvd _).1 h)
      have := geom_sum_mul (ω ^ (k + 1 + m)) N
      rw [← pow_mul, mul_comm (k + 1 + m), pow_mul, hω.pow_eq_one, one_pow, sub_self, mul_eq_zero] at this
      rw [this.resolve_right (sub_ne_zero.2 hne), mul_zero]
  rw [Finset.sum_congr rfl h2, Finset.sum_ite_eq' , if_pos (Finset.mem_range.2 (by omega))]

theorem list_range_sum {α : Type} [AddCommMonoid α] (f : ℕ → α) : ∀ N, ((List.range N).map f).sum = ∑ j ∈ Finset.range N, f j
  | 0 => rfl
  | N + 1 => by rw [List.range_succ, List.map_append, List.sum_append, list_range_sum f N, Finset.sum_range_succ]; simp

/-- C57: On a circle with `N` equispaced nodes the quadrature for Cauchy's formula has a relative error that is geometric in `N`: from the
values of a polynomial of degree less than `N` it yields exactly `Q(ζ) / (1 - ((ζ - c) / r)^N)` at every point of the disc. -/
theorem C57_circle {N : ℕ} {c : ℂ} {r : ℝ} (hr : 0 < r) {Q : Polynomial ℂ} (hQ : Q.natDegree < N) {ζ : ℂ} (hζ : ‖ζ - c‖ < r) :
    cauchySum (circleNodes c r N) ((circleNodes c r N).map fun p => Q.eval p.1) 1 ζ = Q.eval ζ / (1 - ((ζ - c) / r) ^ N) := by
  have hN : N ≠ 0 := by omega
  have hω := Complex.isPrimitiveRoot_exp N hN
  set ω := Complex.exp (2 * Real.pi * Complex.I / N) with hωdef
  have hexp : ∀ j : ℕ, Complex.exp (2 * Real.pi * Complex.I * (j / N)) = ω ^ j := by
    intro j
    rw [hωdef, ← Complex.exp_nat_mul]
    congr 1
    ring
  have hnorm : ∀ j : ℕ, ‖(r : ℂ) * ω ^ j‖ = r := by
    intro j
    rw [norm_mul, norm_pow, hω.norm'_eq_one hN, one_pow, mul_one, Complex.norm_real, Real.norm_of_nonneg hr.le]
  have hd : ∀ j < N, (r : ℂ) * ω ^ j ≠ ζ - c := fun j _ e => by
    have := hnorm j
    rw [e] at this
    linarith
  have hrc : (r : ℂ) ≠ 0 := by exact_mod_cast hr.ne'
  have hNc : (N : ℂ) ≠ 0 := by exact_mod_cast hN
  have hpi : (Real.pi : ℂ) ≠ 0 := by exact_mod_cast Real.pi_ne_zero
  have hden : (r : ℂ) ^ N - (ζ - c) ^ N ≠ 0 := by
    intro e
    have h1 : ‖(r : ℂ) ^ N‖ = ‖(ζ - c) ^ N‖ := by rw [sub_eq_zero.1 e]
    rw [norm_pow, norm_pow, Complex.norm_real, Real.norm_of_nonneg hr.le] at h1
    have := pow_lt_pow_left₀ hζ (norm_nonneg _) hN
    linarith
  have hsum : cauchySum (circleNodes c r N) ((circleNodes c r N).map fun p => Q.eval p.1) 1 ζ =
      (∑ j ∈ Finset.range N, Q.eval (c + r * ω ^ j) / (r * ω ^ j - (ζ - c)) * (r * ω ^ j)) / N := by
    unfold cauchySum circleNodes
    rw [List.zipWith_map_right, List.zipWith_self, List.map_map, list_range_sum, Finset.sum_div, Finset.sum_div]
    refine Finset.sum_congr rfl fun j hj => ?_
    have hne : (r : ℂ) * ω ^ j - (ζ - c) ≠ 0 := sub_ne_zero.2 (hd j (Finset.mem_range.1 hj))
    have hI := Complex.I_ne_zero
    simp only [Function.comp, hexp, pow_one]
    rw [show c + (r : ℂ) * ω ^ j - ζ = r * ω ^ j - (ζ - c) by ring]
    field_simp
  -- powers of `z - c`
  have hpow : ∀ k < N, (∑ j ∈ Finset.range N, ((r : ℂ) * ω ^ j) ^ k / (r * ω ^ j - (ζ - c)) * (r * ω ^ j)) / N =
      (ζ - c) ^ k / (1 - ((ζ - c) / r) ^ N) := by
    intro k hk
    have h1 := circle_power hk hω hd
    have h2 : 1 - ((ζ - c) / (r : ℂ)) ^ N = ((r : ℂ) ^ N - (ζ - c) ^ N) / (r : ℂ) ^ N := by
      rw [div_pow]; field_simp
    rw [h2, div_eq_iff hNc, eq_div_of_mul_eq hden h1]
    field_simp
  have hQc : ∀ z : ℂ, Q.eval (c + z) = ∑ k ∈ Finset.range N, (Q.comp (Polynomial.X + Polynomial.C c)).coeff k * z ^ k := by
    intro z
    have hdeg : (Q.comp (Polynomial.X + Polynomial.C c)).natDegree < N := by
      rw [Polynomial.natDegree_comp, Polynomial.natDegree_X_add_C, mul_one]; exact hQ
    rw [← Polynomial.eval_eq_sum_range' hdeg, Polynomial.eval_comp]
    simp [add_comm]
  rw [hsum, show ζ = c + (ζ - c) by ring, hQc, Finset.sum_div]
  simp only [add_sub_cancel_left]
  have h3 : ∀ k ∈ Finset.range N, (Q.comp (Polynomial.X + Polynomial.C c)).coeff k * (ζ - c) ^ k / (1 - ((ζ - c) / (r : ℂ)) ^ N) =
      ∑ j ∈ Finset.range N, (Q.comp (Polynomial.X + Polynomial.C c)).coeff k *
        (((r : ℂ) * ω ^ j) ^ k / (r * ω ^ j - (ζ - c)) * (r * ω ^ j)) / N := by
    intro k hk
    rw [mul_div_assoc, ← hpow k (Finset.mem_range.1 hk), Finset.sum_div, Finset.mul_sum]
    refine Finset.sum_congr rfl fun j _ => ?_
    ring
  rw [Finset.sum_div _ (fun k => (Q.comp (Polynomial.X + Polynomial.C c)).coeff k * (ζ - c) ^ k), Finset.sum_congr rfl h3, Finset.sum_comm]
  refine Finset.sum_congr rfl fun j _ => ?_
  rw [hQc, Finset.sum_div, Finset.sum_mul, Finset.sum_div]
  refine Finset.sum_congr rfl fun k _ => ?_
  ring

/-- the values of a complex polynomial at the nodes, from the samples of its real and imaginary parts -/
theorem nodes_values {K : CellG} {N : ℕ} (hN : K.EqualEdges N) {l : List (ℂ × ℂ)} (hK : K.nodes = l) (Q : Polynomial ℂ) :
    List.zipWith Complex.mk (K.samplesOf fun x y => (Q.eval ⟨x, y⟩).re) (K.samplesOf fun x y => (Q.eval ⟨x, y⟩).im) = l.map fun p => Q.eval p.1 := by
  rw [← hK]
  unfold CellG.samplesOf
  rw [List.zipWith_map, List.zipWith_self]
  have := flatMap_cols N (fun m s => (((⟨s.x, s.y⟩ : ℂ), (⟨2 * Real.pi / (m : ℝ) * s.dxNorm * s.tx, 2 * Real.pi / (m : ℝ) * s.dxNorm * s.ty⟩ : ℂ))))
    K.getEdges hN.2
  rw [getEdges_cols] at this
  unfold CellG.nodes
  rw [this.1, List.map_map]
  rfl

/-- C57: On a disc with `N` equispaced samples, for a local function whose conjugate pair `ψ`, `ψ'` is real and imaginary part of a polynomial
`Q` of degree less than `N`: at every interior point `y`, with `ρ = |y - c| / r`, the computed value differs from `P(y) + ψ(y)` by at most
`|Q(y)| ρ^N / (1 - ρ^N)`. -/
theorem C57_disc {K : CellG} (h : K.Ready) {N : ℕ} (hN : K.EqualEdges N) {c : ℂ} {r : ℝ} (hr : 0 < r) (hK : K.nodes = circleNodes c r N)
    {Q : Polynomial ℂ} (hQ : Q.natDegree < N) {f : LocPoisson} {P q1 q2 : Poly ℝ}
    (hf : f.Parts K P q1 q2 [] (K.samplesOf fun x y => (Q.eval ⟨x, y⟩).re) (K.samplesOf fun x y => (Q.eval ⟨x, y⟩).im)) :
    ∃ U : ℝ → ℝ → ℝ, (∀ grad, ∃ s, f.computeInterior grad = .ok s ∧ s.intVals = some (K.interior.map fun y => U y.1 y.2)) ∧
      ∀ x y : ℝ, ‖(⟨x, y⟩ : ℂ) - c‖ < r →
      |U x y - (P.eval x y + (Q.eval ⟨x, y⟩).re)| ≤ ‖Q.eval ⟨x, y⟩‖ * ((‖(⟨x, y⟩ : ℂ) - c‖ / r) ^ N / (1 - (‖(⟨x, y⟩ : ℂ) - c‖ / r) ^ N)) := by
  refine ⟨cauchyValue K P.eval [] _ _, fun grad => ⟨_, computeInterior_ok h hN hf grad, rfl⟩, fun x y hy => ?_⟩
  have hF := nodes_values hN hK Q
  have hval : cauchyValue K P.eval [] (K.samplesOf fun x y => (Q.eval ⟨x, y⟩).re) (K.samplesOf fun x y => (Q.eval ⟨x, y⟩).im) x y =
      P.eval x y + (Q.eval ⟨x, y⟩ / (1 - (((⟨x, y⟩ : ℂ) - c) / r) ^ N)).re := by
    unfold cauchyValue withLogs
    beta_reduce
    rw [hF, hK, C57_circle hr hQ hy]
    simp
  rw [hval]
  have hN0 : N ≠ 0 := by omega
  set ζ : ℂ := ⟨x, y⟩
  set e : ℂ := ((ζ - c) / r) ^ N with he
  have hnorm : ‖e‖ = (‖ζ - c‖ / r) ^ N := by
    rw [he, norm_pow, norm_div, Complex.norm_real, Real.norm_of_nonneg hr.le]
  have hlt : ‖e‖ < 1 := by
    rw [hnorm]
    exact pow_lt_one₀ (by positivity) ((div_lt_one hr).2 hy) hN0
  have hden : (1 : ℂ) - e ≠ 0 := by
    intro e0
    rw [← sub_eq_zero.1 e0] at hlt
    simp at hlt
  have hge : 1 - ‖e‖ ≤ ‖(1 : ℂ) - e‖ := by
    have := norm_sub_norm_le (1 : ℂ) e
    simpa using this
  have e1 : P.eval x y + (Q.eval ζ / (1 - e)).re - (P.eval x y + (Q.eval ζ).re) = (Q.eval ζ * (e / (1 - e))).re := by
    have : Q.eval ζ * (e / (1 - e)) = Q.eval ζ / (1 - e) - Q.eval ζ := by field_simp; ring
    rw [this, Complex.sub_re]
    ring
  rw [e1, ← hnorm]
  calc |(Q.eval ζ * (e / (1 - e))).re| ≤ ‖Q.eval ζ * (e / (1 - e))‖ := Complex.abs_re_le_norm _
    _ = ‖Q.eval ζ‖ * (‖e‖ / ‖(1 : ℂ) - e‖) := by rw [norm_mul, norm_div]
    _ ≤ ‖Q.eval ζ‖ * (‖e‖ / (1 - ‖e‖)) := by
      apply mul_le_mul_of_nonneg_left _ (norm_nonneg _)
      exact div_le_div_of_nonneg_left (norm_nonneg _) (by linarith) hge

/-- C57: Without a cell, a polynomial part or a harmonic part (as for a function made without a solver) `AttributeError` is raised. -/
theorem C57_missing (f : LocPoisson) (grad : Bool) (h : f.cell = none ∨ f.poly = none ∨ f.harm = none) :
    f.computeInterior grad = .error .attributeError := by
  obtain ⟨cell, poly, harm, a, b, c⟩ := f
  simp only at h
  cases cell <;> cases poly <;> cases harm <;> first | rfl | simp at h

/-! ### examples: four samples on the unit circle, the interior point `(1/2, 0)` -/

/-- the disc with an interior point -/
noncomputable def discIn : CellG := { discCell with interior := [(1 / 2, 0)] }

theorem discIn_cols : discIn.cols = crossPt 1 1 := by simp [discIn, discCell, CellG.cols, cross_cols]

theorem discIn_ready : discIn.Ready := ⟨disc_ready.1.ready, disc_ready.1.numPts, disc_ready.1.startIdx⟩

theorem discIn_equal : discIn.EqualEdges 4 := by
  refine ⟨by simp [discIn, discCell, CellG.getEdges, crossContour], fun e he => ?_⟩
  simp only [discIn, discCell, CellG.getEdges, List.flatMap_cons, List.flatMap_nil, List.append_nil, crossContour, List.mem_singleton] at he
  subst he
  simp [EdgeG.cols, crossPt]

theorem discIn_nodes : discIn.nodes = circleNodes 0 1 4 := by
  have e1 : Complex.exp (2 * Real.pi * Complex.I * (1 / 4)) = Complex.I := by
    rw [show (2 * Real.pi * Complex.I * (1 / 4) : ℂ) = Real.pi / 2 * Complex.I by ring]; exact Complex.exp_pi_div_two_mul_I
  have e2 : Complex.exp (2 * Real.pi * Complex.I * (1 / 2)) = -1 := by
    rw [show (2 * Real.pi * Complex.I * (1 / 2) : ℂ) = Real.pi * Complex.I by ring]; exact Complex.exp_pi_mul_I
  have e3 : Complex.exp (2 * Real.pi * Complex.I * (3 / 4)) = -Complex.I := by
    rw [show (2 * Real.pi * Complex.I * (3 / 4) : ℂ) = Real.pi * Complex.I + Real.pi / 2 * Complex.I by ring, Complex.exp_add,
      Complex.exp_pi_mul_I, Complex.exp_pi_div_two_mul_I]
    ring
  have hc := flatMap_cols 4 (fun m s => (((⟨s.x, s.y⟩ : ℂ), (⟨2 * Real.pi / (m : ℝ) * s.dxNorm * s.tx, 2 * Real.pi / (m : ℝ) * s.dxNorm * s.ty⟩ : ℂ))))
    discIn.getEdges discIn_equal.2
  unfold CellG.nodes
  rw [hc.1, getEdges_cols, discIn_cols]
  simp only [circleNodes, crossPt, List.range_succ, List.range_zero, List.nil_append, List.map_cons, List.map_nil, List.cons_append]
  norm_num [e1, e2, e3, Complex.ext_iff]

theorem discIn_off : ∀ y ∈ discIn.interior, discIn.Off y := by
  intro y hy
  simp only [discIn, List.mem_singleton] at hy
  subst hy
  refine ⟨fun s hs => ?_, fun c hc => ?_⟩
  · rw [discIn_cols] at hs
    simp only [crossPt, List.map_cons, List.map_nil, List.mem_cons, List.not_mem_nil, or_false] at hs
    rcases hs with rfl | rfl | rfl | rfl <;> norm_num
  · simp [discIn, discCell] at hc

/-- the function with polynomial part `P` whose conjugate pair has the boundary values `psi`, `psiHat` -/
noncomputable def discFun (p : LocPoly) (psi psiHat : List ℝ) : LocPoisson where
  cell := some discIn
  poly := some p
  harm := some ⟨Trace.bare [], some (Trace.made [] (some psi) none none), some (Trace.made [] (some psiHat) none none), some [], none⟩

theorem discFun_parts (P : Poly ℝ) {psi psiHat : List ℝ} (h1 : psi.length = 4) (h2 : psiHat.length = 4) :
    ∃ p, LocPoly.init P (some discIn) = .ok p ∧
      (discFun p psi psiHat).Parts discIn P (Poly.nz (P.map Mono.dx)) (Poly.nz (P.map Mono.dy)) [] psi psiHat := by
  refine ⟨_, polyInit_eq discIn_ready (grad_eq P) (Poly.antiLaplacian_ok P) (grad_eq _), rfl, ⟨_, rfl, rfl, rfl, rfl⟩,
    ⟨_, _, _, rfl, rfl, rfl, rfl, rfl, rfl⟩, ?_, h1, h2, ?_, discIn_off⟩
  · simp [discIn, discCell, CellG.numHoles]
  · simp [discIn, discCell]

/-- `1 + x` on the disc: `Q(z) = z`, so the value at `(1/2, 0)` is at most `1/2 · 1/15` off. -/
example : ∃ f s : LocPoisson, ∃ U : ℝ → ℝ → ℝ, f.computeInterior true = .ok s ∧ s.intVals = some [U (1 / 2) 0] ∧
    |U (1 / 2) 0 - 3 / 2| ≤ 1 / 30 := by
  obtain ⟨p, -, hp⟩ := discFun_parts onePoly (psi := discIn.samplesOf fun x y => ((Polynomial.X : Polynomial ℂ).eval ⟨x, y⟩).re)
    (psiHat := discIn.samplesOf fun x y => ((Polynomial.X : Polynomial ℂ).eval ⟨x, y⟩).im) (by simp [CellG.samplesOf, discIn_cols, crossPt])
    (by simp [CellG.samplesOf, discIn_cols, crossPt])
  obtain ⟨U, hU, h3⟩ := C57_disc discIn_ready discIn_equal one_pos discIn_nodes (Q := Polynomial.X) (by simp) hp
  have hz : ‖(⟨1 / 2, 0⟩ : ℂ)‖ = 1 / 2 := by
    rw [show (⟨1 / 2, 0⟩ : ℂ) = ((1 / 2 : ℝ) : ℂ) from rfl, Complex.norm_real]; norm_num
  have h4 := h3 (1 / 2) 0 (by rw [sub_zero, hz]; norm_num)
  obtain ⟨s, h1, h2⟩ := hU true
  refine ⟨_, s, U, h1, by simpa [discIn] using h2, ?_⟩
  rw [Polynomial.eval_X, sub_zero, hz] at h4
  refine le_trans (le_of_eq ?_) (h4.trans (by norm_num))
  congr 1
  simp [onePoly, Poly.eval, Mono.eval]
  norm_num

/-! ### C73: what is stored without a request for gradients -/

theorem logPart_false (a : List ℝ) (y : ℝ × ℝ) : ∀ (cs : List ContourG) (k : ℕ) (v g1 g2 : ℝ) {r : ℝ × ℝ × ℝ},
    LocPoisson.logPart a false y k cs (v, g1, g2) = .ok r → r.2 = (g1, g2)
  | [], k, v, g1, g2, r, h => by
    cases h
    rfl
  | c :: cs, k, v, g1, g2, r, h => by
    rw [LocPoisson.logPart] at h
    obtain ⟨p, hp, h⟩ := bind_ok h
    dsimp only at h
    split at h
    · cases h
    · obtain ⟨b, hb, h⟩ := bind_ok h
      exact logPart_false a y cs (k + 1) _ g1 g2 h

theorem interiorAt_false {K : CellG} {p : LocPoly} {a psi psiHat x1 x2 t1 t2 w : List ℝ} {y : ℝ × ℝ} {r : ℝ × ℝ × ℝ}
    (h : interiorAt K p a psi psiHat x1 x2 t1 t2 w false y = .ok r) : r.2 = (0, 0) := by
  unfold interiorAt at h
  simp only [Bool.false_eq_true, if_false, py_ok_bind] at h
  obtain ⟨⟨v, g1, g2⟩, hl, h⟩ := bind_ok h
  obtain ⟨⟨f, h1, h2⟩, -, h⟩ := bind_ok h
  obtain ⟨s, -, h⟩ := bind_ok h
  have := logPart_false _ _ _ _ _ _ _ hl
  cases h
  exact this

theorem zero_rows {α β : Type} {R : α → β → Prop} {g : β → ℝ} : ∀ {l : List α} {r : List β}, List.Forall₂ R l r → (∀ a b, R a b → g b = 0) →
    r.map g = l.map fun _ => 0
  | _, _, .nil, _ => rfl
  | _, _, .cons h hs, hg => by rw [List.map_cons, List.map_cons, hg _ _ h, zero_rows hs hg]

/-- C73 as stated is false: when gradients are not asked for, `int_grad1` and `int_grad2` hold zeros for every function, instead of being
unset. -/
theorem C73_zeros {f r : LocPoisson} (h : f.computeInterior false = .ok r) :
    ∃ K, f.cell = some K ∧ r.intGrad1 = some (K.interior.map fun _ => 0) ∧ r.intGrad2 = some (K.interior.map fun _ => 0) := by
  unfold computeInterior at h
  obtain ⟨K, hK, h⟩ := bind_ok h
  obtain ⟨p, hp, h⟩ := bind_ok h
  obtain ⟨u, hu, h⟩ := bind_ok h
  obtain ⟨a, ha, h⟩ := bind_ok h
  obtain ⟨t, ht, h⟩ := bind_ok h
  obtain ⟨psi, hpsi, h⟩ := bind_ok h
  obtain ⟨t', ht', h⟩ := bind_ok h
  obtain ⟨psiHat, hpsi', h⟩ := bind_ok h
  obtain ⟨⟨x1, x2⟩, hx, h⟩ := bind_ok h
  obtain ⟨⟨t1, t2⟩, htt, h⟩ := bind_ok h
  obtain ⟨dx, hdx, h⟩ := bind_ok h
  dsimp only at h
  split at h
  · cases h
  · obtain ⟨rows, hr, h⟩ := bind_ok h
    cases h
    have hc : f.cell = some K := by
      cases hf : f.cell with
      | none => rw [hf] at hK; cases hK
      | some K' => rw [hf] at hK; cases hK; rfl
    refine ⟨K, hc, congrArg some ?_, congrArg some ?_⟩
    · exact zero_rows (mapPy_forall₂ hr) fun _ _ h1 => by rw [interiorAt_false h1]
    · exact zero_rows (mapPy_forall₂ hr) fun _ _ h1 => by rw [interiorAt_false h1]

/-- C73 as stated is false: this is the default when a local Poisson function is made. -/
theorem C73_default {gmres : Gmres} {s : Solver} {laplacian : Poly ℝ} {trace : TraceOr} {r : LocPoisson}
    (h : LocPoisson.init gmres (some s) laplacian trace = .ok r) :
    r.intGrad1 = some (s.ops.K.interior.map fun _ => 0) ∧ r.intGrad2 = some (s.ops.K.interior.map fun _ => 0) := by
  unfold LocPoisson.init at h
  obtain ⟨P, -, h⟩ := bind_ok h
  obtain ⟨p, -, h⟩ := bind_ok h
  obtain ⟨t, -, h⟩ := bind_ok h
  obtain ⟨a, -, h⟩ := bind_ok h
  obtain ⟨pt, -, h⟩ := bind_ok h
  obtain ⟨b, -, h⟩ := bind_ok h
  obtain ⟨d, -, h⟩ := bind_ok h
  obtain ⟨ht, -, h⟩ := bind_ok h
  obtain ⟨u, -, h⟩ := bind_ok h
  obtain ⟨K, hK, h1, h2⟩ := C73_zeros (f := { cell := some s.ops.K, poly := some p, harm := some u }) (r := r) (by simpa using h)
  cases hK
  exact ⟨h1, h2⟩

/-- C73: a witness.  On the disc, for `(x² + y²) / 4` (no harmonic part), the stored derivative in `x` at `(1/2, 0)` is `0` when gradients are
not asked for, and `1/4` when they are; and adding the two objects gives half the gradient of the sum. -/
theorem C73_witness : ∃ f r s : LocPoisson, ∃ p, LocPoly.init [⟨⟨2, 0⟩, 1/4⟩, ⟨⟨0, 2⟩, 1/4⟩] (some discIn) = .ok p ∧ f.poly = some p ∧
    f.computeInterior false = .ok r ∧ f.computeInterior true = .ok s ∧ r.intVals = s.intVals ∧
    r.intGrad1 = some [0] ∧ s.intGrad1 = some [1 / 4] ∧ LocPoisson.both r.intGrad1 s.intGrad1 = .ok (some [1 / 4]) := by
  obtain ⟨p, hi, hp⟩ := discFun_parts [⟨⟨2, 0⟩, 1/4⟩, ⟨⟨0, 2⟩, 1/4⟩] (psi := [0, 0, 0, 0]) (psiHat := [0, 0, 0, 0]) rfl rfl
  have hg : (Poly.nz (List.map Mono.dx ([⟨⟨2, 0⟩, 1/4⟩, ⟨⟨0, 2⟩, 1/4⟩] : Poly ℝ))).eval (1 / 2) 0 = 1 / 4 := by
    norm_num [Poly.nz, Mono.dx, Mono.isZero, tol, Poly.eval, Mono.eval, abs_of_pos]
  have hc : ∀ ζ, cauchySum discIn.nodes (List.zipWith Complex.mk [0, 0, 0, 0] [0, 0, 0, 0]) 2 ζ = 0 := by
    intro ζ
    have h0 : (⟨0, 0⟩ : ℂ) = 0 := rfl
    have : ∀ ns : List (ℂ × ℂ), ∀ F : List ℂ, (∀ f ∈ F, f = 0) → (List.zipWith (fun p f => f / (p.1 - ζ) ^ 2 * p.2) ns F).sum = 0 := by
      intro ns
      induction ns with
      | nil => simp
      | cons q ns ih =>
        intro F hF
        cases F with
        | nil => simp
        | cons f F =>
          rw [List.zipWith_cons_cons, List.sum_cons, ih F fun f hf => hF f (by simp [hf]), hF f (by simp)]
          simp
    unfold cauchySum
    rw [this _ _ (by simp [h0]), zero_div]
  have hs : some (discIn.interior.map fun y => if true = true then (Poly.nz (List.map Mono.dx ([⟨⟨2, 0⟩, 1/4⟩, ⟨⟨0, 2⟩, 1/4⟩] : Poly ℝ))).eval y.1 y.2 +
      logs1 [] discIn.components.tail y.1 y.2 + (cauchySum discIn.nodes (List.zipWith Complex.mk [0, 0, 0, 0] [0, 0, 0, 0]) 2 ⟨y.1, y.2⟩).re else 0) =
      some [1 / 4] := by
    simp only [hc]
    rw [show discIn.interior = [(1 / 2, 0)] from rfl, List.map_singleton]
    simp only [if_true]
    rw [hg]
    simp [logs1]
  have hr : some (discIn.interior.map fun y => if false = true then (Poly.nz (List.map Mono.dx ([⟨⟨2, 0⟩, 1/4⟩, ⟨⟨0, 2⟩, 1/4⟩] : Poly ℝ))).eval y.1 y.2 +
      logs1 [] discIn.components.tail y.1 y.2 + (cauchySum discIn.nodes (List.zipWith Complex.mk [0, 0, 0, 0] [0, 0, 0, 0]) 2 ⟨y.1, y.2⟩).re else 0) =
      some [0] := by
    simp [discIn]
  refine ⟨discFun p [0, 0, 0, 0] [0, 0, 0, 0], _, _, p, hi, rfl, computeInterior_ok discIn_ready discIn_equal hp false,
    computeInterior_ok discIn_ready discIn_equal hp true, rfl, hr, hs, ?_⟩
  dsimp only
  rw [hr, hs]
  norm_num [LocPoisson.both, Trace.both, Np.bin]
  rfl

/-- C73, the part that holds: when gradients are asked for, `int_grad1` and `int_grad2` hold the partial derivatives of the function that
`int_vals` samples.  Missing: the case above, where they hold zeros. -/
theorem C73_requested_partial {K : CellG} (h : K.Ready) {N : ℕ} (hN : K.EqualEdges N) {f : LocPoisson} {P q1 q2 : Poly ℝ}
    {a psi psiHat : List ℝ} (hf : f.Parts K P q1 q2 a psi psiHat) (hg : HasGradOn Set.univ P.eval q1.eval q2.eval) :
    ∃ r, ∃ U g1 g2 : ℝ → ℝ → ℝ, f.computeInterior true = .ok r ∧ r.intVals = some (K.interior.map fun y => U y.1 y.2) ∧
      r.intGrad1 = some (K.interior.map fun y => g1 y.1 y.2) ∧ r.intGrad2 = some (K.interior.map fun y => g2 y.1 y.2) ∧
      ∀ y ∈ K.interior, HasGrad U y.1 y.2 (g1 y.1 y.2) (g2 y.1 y.2) := by
  obtain ⟨r, U, g1, g2, h1, -, h2, h3, h4, h5⟩ := C57_gradient h hN hf hg
  exact ⟨r, U, g1, g2, h1, h2, h3, h4, fun y hy => h5 y (hf.off y hy)⟩

end PFEM
