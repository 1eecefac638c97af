import Verif.Model.EdgeSpace
import Verif.Spec.EdgeSpace
import Verif.Props.Legendre
import Verif.Props.Barycentric
import Verif.Props.EdgeQuad
import Verif.Props.PolyValue
import Verif.Props.Interior

/-!
The spanning set of an edge space: success of every step and size of the values at the end points.
-/

namespace PFEM
open Poly
namespace EdgeSpaceG

theorem set_ok2 (a b : ℝ) (i j k l : ℕ) : ∃ r, Poly.set [(a, (i : ℤ), (j : ℤ)), (b, (k : ℤ), (l : ℤ))] = .ok r :=
  ⟨_, Poly.set_ok [(a, i, j), (b, k, l)]⟩

theorem set_ok3 (a b c : ℝ) (i j k l m n : ℕ) :
    ∃ r, Poly.set [(a, (i : ℤ), (j : ℤ)), (b, (k : ℤ), (l : ℤ)), (c, (m : ℤ), (n : ℤ))] = .ok r :=
  ⟨_, Poly.set_ok [(a, i, j), (b, k, l), (c, m, n)]⟩

theorem pySet_ok {α : Type} {l : List α} {i : ℕ} (h : i < l.length) (a : α) : pySet l i a = .ok (l.set i a) := by
  simp [pySet, h]

theorem pyDel_ok {α : Type} {l : List α} {i : ℕ} (h : i < l.length) : pyDel l i = .ok (l.eraseIdx i) := by
  simp [pyDel, h]

theorem redoLinear_ok {deg : ℕ} {fs : List (Poly ℝ)} (h0 : 1 < fs.length) (h1 : deg + 1 < fs.length) :
    ∃ gs, redoLinear deg fs = .ok gs ∧ gs.length = fs.length := by
  obtain ⟨a, ha⟩ := set_ok3 1 1 1 0 0 1 0 0 1
  obtain ⟨b, hb⟩ := set_ok3 1 (-1) (-1) 0 0 1 0 0 1
  obtain ⟨c, hc⟩ := set_ok2 1 (-1) 1 0 0 1
  simp only [Nat.cast_zero, Nat.cast_one] at ha hb hc
  refine ⟨((fs.set 0 a).set 1 b).set (deg + 1) c, ?_, by simp⟩
  simp only [redoLinear, ha, hb, hc, bind, Except.bind, pySet_ok (l := fs) (i := 0) (by omega),
    pySet_ok (l := fs.set 0 a) (i := 1) (by simpa using h0),
    pySet_ok (l := (fs.set 0 a).set 1 b) (i := deg + 1) (by simpa using h1)]

theorem composeAt_ok (y1 y2 : Poly ℝ) {i : ℕ} {fs : List (Poly ℝ)} (h : i < fs.length) :
    ∃ gs, composeAt y1 y2 i fs = .ok gs ∧ gs.length = fs.length := by
  have hg : pyGet fs i = .ok fs[i] := pyGet_ok (by simp [h])
  refine ⟨fs.set i (fs[i].foldl (compStep y1 y2) []), ?_, by simp⟩
  simp only [composeAt, hg, bind, Except.bind, compose_ok, pySet_ok h]

variable {e : EdgeG} {L : List Sample}

theorem sampled_ok (hp : e.pts = some L) : e.sampled = .ok L := by simp [EdgeG.sampled, hp]

theorem integrate_ok (hp : e.pts = some L) (h2 : 2 ≤ L.length) {v : List ℝ} (hv : v.length = L.length) :
    ∃ r, e.integrate v = .ok r := ⟨_, integrate_eq hp h2 hv⟩

theorem centerLinear_ok (hp : e.pts = some L) (h2 : 2 ≤ L.length) {len : ℝ}
    (hlen : e.integrate (L.map fun _ => 1) = .ok len) (h0 : len ≠ 0) {deg : ℕ} {fs : List (Poly ℝ)} (hl : 1 < fs.length)
    (hd : deg + 1 < fs.length) : ∃ gs, centerLinear e deg fs = .ok gs ∧ gs.length = fs.length := by
  obtain ⟨i1, h1⟩ := integrate_ok hp h2 (v := L.map Sample.x) (by simp)
  obtain ⟨i2, h3⟩ := integrate_ok hp h2 (v := L.map Sample.y) (by simp)
  obtain ⟨y1, hy1⟩ := set_ok2 1 (-(i1 / len)) 1 0 0 0
  obtain ⟨y2, hy2⟩ := set_ok2 1 (-(i2 / len)) 0 1 0 0
  simp only [Nat.cast_zero, Nat.cast_one] at hy1 hy2
  obtain ⟨g1, hg1, l1⟩ := composeAt_ok y1 y2 (i := 0) (fs := fs) (by omega)
  obtain ⟨g2, hg2, l2⟩ := composeAt_ok y1 y2 (i := 1) (fs := g1) (by omega)
  obtain ⟨g3, hg3, l3⟩ := composeAt_ok y1 y2 (i := deg + 1) (fs := g2) (by omega)
  refine ⟨g3, ?_, by omega⟩
  simp only [centerLinear, sampled_ok hp, hlen, h1, h3, bind, Except.bind, h0, if_false, hy1, hy2, hg1, hg2, hg3]

theorem div_ok (p : Poly ℝ) {c : ℝ} (h : c ≠ 0) : ∃ r, Poly.div p c = .ok r := by
  obtain ⟨r, hr, _⟩ := (C05_div_error p c).2 h
  exact ⟨r, hr⟩

theorem toBox_ok {x0 x1 y0 y1 : ℝ} (hb : e.boundingBox = .ok (x0, x1, y0, y1)) (hx : x0 < x1) (hy : y0 < y1)
    (fs : List (Poly ℝ)) : ∃ gs, toBox e fs = .ok gs ∧ gs.length = fs.length := by
  obtain ⟨px, hpx⟩ := set_ok2 1 (-((x1 + x0) / 2)) 1 0 0 0
  obtain ⟨py, hpy⟩ := set_ok2 1 (-((y1 + y0) / 2)) 0 1 0 0
  simp only [Nat.cast_zero, Nat.cast_one] at hpx hpy
  obtain ⟨qx, hqx⟩ := div_ok px (c := (x1 - x0) / 2) (by linarith [hx])
  obtain ⟨qy, hqy⟩ := div_ok py (c := (y1 - y0) / 2) (by linarith [hy])
  refine ⟨fs.map fun f => f.foldl (compStep qx qy) [], ?_, by simp⟩
  simp only [toBox, hb, bind, Except.bind, hpx, hqx, hpy, hqy]
  exact mapPy_ok fun f _ => compose_ok f qx qy

theorem mapPy_total {α β : Type} {f : α → Py β} : ∀ {l : List α}, (∀ a ∈ l, ∃ b, f a = .ok b) →
    ∃ r, ContourG.mapPy f l = .ok r
  | [], _ => ⟨[], rfl⟩
  | a :: l, h => by
    obtain ⟨b, hb⟩ := h a (by simp)
    obtain ⟨r, hr⟩ := mapPy_total fun c hc => h c (List.mem_cons_of_mem _ hc)
    exact ⟨b :: r, by simp only [ContourG.mapPy, hb, hr, bind, Except.bind]⟩

theorem mapPy_mem {α β : Type} {f : α → Py β} : ∀ {l : List α} {r : List β}, ContourG.mapPy f l = .ok r →
    r.length = l.length ∧ ∀ b ∈ r, ∃ a ∈ l, f a = .ok b
  | [], r, h => by
    simp only [ContourG.mapPy, Except.ok.injEq] at h
    subst h; simp
  | a :: l, r, h => by
    unfold ContourG.mapPy at h
    obtain ⟨b, hb, h⟩ := bind_ok h
    obtain ⟨s, hs, h⟩ := bind_ok h
    simp only [Except.ok.injEq] at h
    subst h
    obtain ⟨hl, hm⟩ := mapPy_mem hs
    refine ⟨by simp [hl], fun c hc => ?_⟩
    rcases List.mem_cons.1 hc with rfl | hc
    · exact ⟨a, by simp, hb⟩
    · obtain ⟨a', ha', h'⟩ := hm c hc
      exact ⟨a', by simp [ha'], h'⟩

theorem rescale_ok (hp : e.pts = some L) {len : ℝ} (hlen : e.integrate (L.map fun _ => 1) = .ok len) (h0 : 0 < len)
    (fs : List (Poly ℝ)) : rescale e fs = .ok fs := by
  obtain ⟨r, hr⟩ := mapPy_total (l := fs) (f := fun f => Poly.div f (Real.sqrt len))
    (fun a _ => div_ok a (Real.sqrt_pos.2 h0).ne')
  simp only [rescale, sampled_ok hp, hlen, bind, Except.bind, hr]

theorem tri_le {deg : ℕ} (h : 1 ≤ deg) : deg + 1 < (deg + 1) * (deg + 2) / 2 ∧ 1 < (deg + 1) * (deg + 2) / 2 := by
  have : 2 * (deg + 2) ≤ (deg + 1) * (deg + 2) := Nat.mul_le_mul_right _ (by omega)
  omega

/-- the spanning set is found for every parameterized edge of positive length -/
theorem spanning_ok (hp : e.pts = some L) (h2 : 2 ≤ L.length) {len : ℝ}
    (hlen : e.integrate (L.map fun _ => 1) = .ok len) (h0 : 0 < len) {x0 x1 y0 y1 : ℝ}
    (hb : e.boundingBox = .ok (x0, x1, y0, y1)) (hx : x0 < x1) (hy : y0 < y1) {deg : ℕ} (h1 : 1 ≤ deg)
    (hd : deg ≤ 1000) : ∃ gs, spanning e deg = .ok gs ∧ gs.length = (deg + 1) * (deg + 2) / 2 := by
  obtain ⟨T, hT, lT, _⟩ := C14_integrated deg hd
  have ht := tri_le h1
  obtain ⟨g1, hg1, l1⟩ := redoLinear_ok (deg := deg) (fs := T) (by omega) (by omega)
  obtain ⟨g2, hg2, l2⟩ := centerLinear_ok hp h2 hlen h0.ne' (deg := deg) (fs := g1) (by omega) (by omega)
  obtain ⟨g3, hg3, l3⟩ := toBox_ok hb hx hy g2
  refine ⟨g3, ?_, by omega⟩
  simp only [spanning, hT, hg1, hg2, hg3, bind, Except.bind, rescale_ok hp hlen h0]

theorem mean_ok (hp : e.pts = some L) (h2 : 2 ≤ L.length) (f : Poly ℝ) : ∃ r, mean e f = .ok r := by
  obtain ⟨r, hr⟩ := integrate_ok hp h2 (v := L.map fun s => Poly.eval f s.x s.y) (by simp)
  refine ⟨r, ?_⟩
  simp only [mean, EdgeG.evaluateFunction, sampled_ok hp, bind, Except.bind, Bool.false_eq_true, if_false, hr]

theorem correct_ok (hp : e.pts = some L) (h2 : 2 ≤ L.length) (z0 z1 : ℝ × ℝ) (l0 l1 f : Poly ℝ) :
    ∃ r, correct e z0 z1 l0 l1 f = .ok r := by
  obtain ⟨r, hr⟩ := mean_ok hp h2 (Poly.sub f (Poly.add (Poly.smul l0 (Poly.eval f z0.1 z0.2))
    (Poly.smul l1 (Poly.eval f z1.1 z1.2))))
  simp only [correct, hr, bind, Except.bind]
  exact ⟨_, rfl⟩

/-- a corrected function is, up to its sign, the function minus its end values times the vertex functions -/
theorem correct_form {z0 z1 : ℝ × ℝ} {l0 l1 f r : Poly ℝ} (h : correct e z0 z1 l0 l1 f = .ok r) :
    ∃ s : ℝ, |s| = 1 ∧ ∀ x y, Poly.eval r x y = s * Poly.eval (Poly.sub f (Poly.add
      (Poly.smul l0 (Poly.eval f z0.1 z0.2)) (Poly.smul l1 (Poly.eval f z1.1 z1.2)))) x y := by
  unfold correct at h
  dsimp only at h
  obtain ⟨avg, _, h⟩ := bind_ok h
  simp only [Except.ok.injEq] at h
  split at h
  · subst h
    refine ⟨-1, by simp, fun x y => ?_⟩
    have := C05_neg_exact (Poly.sub f (Poly.add (Poly.smul l0 (Poly.eval f z0.1 z0.2))
      (Poly.smul l1 (Poly.eval f z1.1 z1.2)))) (by
        rw [Poly.sub_eq]; exact (consolidate_canonical _).2) x y
    rw [neg_one_mul, ← this]; rfl
  · subst h
    exact ⟨1, by simp, fun x y => by rw [one_mul]⟩

theorem edgeErr_nonneg {d : ℝ} (h : 0 ≤ d) : 0 ≤ edgeErr d := by unfold edgeErr; positivity

theorem ellP_len (a p n : ℝ × ℝ) (h : ℝ) : (ellP a p n h).length ≤ 5 := by
  unfold ellP
  have h1 := length_add_le [⟨⟨1, 0⟩, 1⟩] [⟨⟨0, 0⟩, -1 * a.1⟩]
  have h2 := length_add_le [⟨⟨0, 1⟩, 1⟩] [⟨⟨0, 0⟩, -1 * a.2⟩]
  have h3 := length_smul_le (add [⟨⟨1, 0⟩, 1⟩] [⟨⟨0, 0⟩, -1 * a.1⟩]) (p.2 - n.2)
  have h4 := length_smul_le (add [⟨⟨0, 1⟩, 1⟩] [⟨⟨0, 0⟩, -1 * a.2⟩]) (p.1 - n.1)
  have h5 := length_add_le (smul (add [⟨⟨1, 0⟩, 1⟩] [⟨⟨0, 0⟩, -1 * a.1⟩]) (p.2 - n.2))
    (smul (smul (add [⟨⟨0, 1⟩, 1⟩] [⟨⟨0, 0⟩, -1 * a.2⟩]) (p.1 - n.1)) (-1))
  have h6 := length_smul_le (smul (add [⟨⟨0, 1⟩, 1⟩] [⟨⟨0, 0⟩, -1 * a.2⟩]) (p.1 - n.1)) (-1)
  have h7 := length_smul_le (sub (smul (add [⟨⟨1, 0⟩, 1⟩] [⟨⟨0, 0⟩, -1 * a.1⟩]) (p.2 - n.2))
    (smul (add [⟨⟨0, 1⟩, 1⟩] [⟨⟨0, 0⟩, -1 * a.2⟩]) (p.1 - n.1))) (-1 / h)
  rw [iadd_eq]
  refine (consolidate_length_le _).trans ?_
  rw [List.length_append]
  have h8 : (nz ([⟨⟨0, 0⟩, 1⟩] : Poly ℝ)).length ≤ 1 := (List.length_filter_le _ _).trans (by simp)
  simp only [List.length_cons, List.length_nil] at h1 h2
  have h9 : (sub (smul (add [⟨⟨1, 0⟩, 1⟩] [⟨⟨0, 0⟩, -1 * a.1⟩]) (p.2 - n.2))
    (smul (add [⟨⟨0, 1⟩, 1⟩] [⟨⟨0, 0⟩, -1 * a.2⟩]) (p.1 - n.1))).length ≤ 4 := by
    refine le_trans h5 ?_
    omega
  omega

theorem ellP_lin (a p n : ℝ × ℝ) (h : ℝ) : Lin (ellP a p n h) := by
  have l1 : ∀ m : Mono ℝ, m.alpha = ⟨0, 0⟩ ∨ m.alpha = ⟨1, 0⟩ ∨ m.alpha = ⟨0, 1⟩ → Lin [m] := by
    intro m hm x hx
    simp only [List.mem_singleton] at hx
    rw [hx]; exact hm
  unfold ellP
  rw [iadd_eq]
  refine Lin.consolidate (Lin.append ?_ (Lin.nz (l1 _ (by simp))))
  refine Lin.smul ?_ _
  exact Lin.add (Lin.smul (Lin.add (l1 _ (by simp)) (l1 _ (by simp))) _)
    (Lin.smul (Lin.smul (Lin.add (l1 _ (by simp)) (l1 _ (by simp))) _) _)

/-- the three barycentric coordinates of an edge at its ends -/
theorem ell_at_ends {a b : ℝ × ℝ} (h : 1 / 10 ^ 12 ≤ pdist a b) :
    ∃ l0 l1 l2, barycentricEdge a b = .ok (l0, l1, l2) ∧ (∀ l ∈ [l0, l1, l2], l.length ≤ 5 ∧ Lin l) ∧
      ∀ B, 1 ≤ B → |a.1| ≤ B → |a.2| ≤ B → |b.1| ≤ B → |b.2| ≤ B →
        |eval l0 a.1 a.2 - 1| ≤ 1 / 10 ^ 12 * B * edgeErr (pdist a b) ∧
        |eval l0 b.1 b.2| ≤ 1 / 10 ^ 12 * B * edgeErr (pdist a b) ∧
        |eval l1 a.1 a.2| ≤ 1 / 10 ^ 12 * B * edgeErr (pdist a b) ∧
        |eval l1 b.1 b.2 - 1| ≤ 1 / 10 ^ 12 * B * edgeErr (pdist a b) ∧
        |eval l2 a.1 a.2| ≤ 1 / 10 ^ 12 * B * edgeErr (pdist a b) ∧
        |eval l2 b.1 b.2| ≤ 1 / 10 ^ 12 * B * edgeErr (pdist a b) := by
  obtain ⟨ho, hd, _⟩ := C15_edge a b h
  obtain ⟨l0, l1, l2, hl, herr⟩ := C15_error_partial (edgeTriangle a b) ho (fun i j hij => by rw [hd i j hij]; exact h)
  have hform := barycentric_ok (z := edgeTriangle a b)
    (fun j => by unfold baryDist; rw [hd j (j - 1) (by fin_cases j <;> decide)]; exact h) ho.ne'
  have hor : orient (edgeTriangle a b 0) (edgeTriangle a b 1) (edgeTriangle a b 2) = Real.sqrt 3 / 2 * pdist a b ^ 2 := by
    unfold pdist
    rw [Real.sq_sqrt (by positivity)]
    simp only [orient, edgeTriangle, Matrix.cons_val_zero, Matrix.cons_val_one, Matrix.cons_val, root3over2]
    ring
  refine ⟨l0, l1, l2, hl, ?_, fun B h1 ha1 ha2 hb1 hb2 => ?_⟩
  · rw [hform] at hl
    simp only [Except.ok.injEq, Prod.mk.injEq] at hl
    obtain ⟨rfl, rfl, rfl⟩ := hl
    intro l hm
    simp only [List.mem_cons, List.not_mem_nil, or_false] at hm
    rcases hm with rfl | rfl | rfl <;> exact ⟨ellP_len _ _ _ _, ellP_lin _ _ _ _⟩
  · have hD : ∀ i j, |(edgeTriangle a b i).1 - (edgeTriangle a b j).1| ≤ pdist a b ∧
        |(edgeTriangle a b i).2 - (edgeTriangle a b j).2| ≤ pdist a b := by
      intro i j
      by_cases hij : i = j
      · subst hij; simp [pdist, Real.sqrt_nonneg]
      · unfold pdist
        rw [← hd i j hij]
        exact ⟨Real.abs_le_sqrt (by nlinarith [sq_nonneg ((edgeTriangle a b i).2 - (edgeTriangle a b j).2)]),
          Real.abs_le_sqrt (by nlinarith [sq_nonneg ((edgeTriangle a b i).1 - (edgeTriangle a b j).1)])⟩
    have ea := herr a.1 a.2 B (pdist a b) h1 ha1 ha2 hD
    have eb := herr b.1 b.2 B (pdist a b) h1 hb1 hb2 hD
    have va := fun j => baryCoord_vertex (edgeTriangle a b) ho.ne' 0 j
    have vb := fun j => baryCoord_vertex (edgeTriangle a b) ho.ne' 1 j
    have za : edgeTriangle a b 0 = (a.1, a.2) := rfl
    have zb : edgeTriangle a b 1 = (b.1, b.2) := rfl
    rw [za] at va
    rw [zb] at vb
    simp only [va, hor] at ea
    simp only [vb, hor] at eb
    have e0 := ea 0; have e1 := ea 1; have e2 := ea 2
    have f0 := eb 0; have f1 := eb 1; have f2 := eb 2
    simp at e0 e1 e2 f0 f1 f2
    unfold edgeErr
    norm_num at e0 e1 e2 f0 f1 f2 ⊢
    exact ⟨e0, f0, e1, f1, e2, f2⟩

/-- values at the ends of a function corrected by vertex functions that are nearly 0 and 1 there -/
theorem correct_small {z0 z1 : ℝ × ℝ} {l0 l1 f r : Poly ℝ} (h : correct e z0 z1 l0 l1 f = .ok r) (h0 : l0.length ≤ 5)
    (h1 : l1.length ≤ 5) (k0 : Lin l0) (k1 : Lin l1) {x y B E t0 t1 : ℝ} (hB : 1 ≤ B) (hx : |x| ≤ B) (hy : |y| ≤ B)
    (hf : MonoBound f x y B) (e0 : |eval l0 x y - t0| ≤ E) (e1 : |eval l1 x y - t1| ≤ E)
    (hfx : eval f x y = t0 * eval f z0.1 z0.2 + t1 * eval f z1.1 z1.2) :
    |eval r x y| ≤ (|eval f z0.1 z0.2| + |eval f z1.1 z1.2|) * E + 1 / 10 ^ 12 * B * (f.length + 30) := by
  obtain ⟨s, hs, hr⟩ := correct_form h
  rw [hr, abs_mul, hs, one_mul]
  set a0 := eval f z0.1 z0.2
  set a1 := eval f z1.1 z1.2
  have s0 := C05_smul_error l0 a0 x y B (k0.bound hB hx hy)
  have s1 := C05_smul_error l1 a1 x y B (k1.bound hB hx hy)
  have len0 : (smul l0 a0).length ≤ 5 := (length_smul_le l0 a0).trans h0
  have len1 : (smul l1 a1).length ≤ 5 := (length_smul_le l1 a1).trans h1
  have sa := C05_add_error (smul l0 a0) (smul l1 a1) x y B ((k0.smul a0).bound hB hx hy) ((k1.smul a1).bound hB hx hy)
  have lena : (add (smul l0 a0) (smul l1 a1)).length ≤ 10 := (length_add_le _ _).trans (by omega)
  have ss := C05_sub_error f (add (smul l0 a0) (smul l1 a1)) x y B hf
    (((k0.smul a0).add (k1.smul a1)).bound hB hx hy)
  have tB : (0 : ℝ) ≤ 1 / 10 ^ 12 * B := by positivity
  have c0 : ((l0.length : ℕ) : ℝ) * (1 / 10 ^ 12) * B ≤ 5 * (1 / 10 ^ 12 * B) := by
    rw [mul_assoc]; exact mul_le_mul_of_nonneg_right (by exact_mod_cast h0) tB
  have c1 : ((l1.length : ℕ) : ℝ) * (1 / 10 ^ 12) * B ≤ 5 * (1 / 10 ^ 12 * B) := by
    rw [mul_assoc]; exact mul_le_mul_of_nonneg_right (by exact_mod_cast h1) tB
  have ca : (((smul l0 a0).length + (smul l1 a1).length : ℕ) : ℝ) * (1 / 10 ^ 12) * B ≤ 10 * (1 / 10 ^ 12 * B) := by
    rw [mul_assoc]; exact mul_le_mul_of_nonneg_right (by exact_mod_cast (by omega)) tB
  have cs : ((f.length + (add (smul l0 a0) (smul l1 a1)).length : ℕ) : ℝ) * (1 / 10 ^ 12) * B ≤
      (f.length + 10) * (1 / 10 ^ 12 * B) := by
    rw [mul_assoc]
    refine mul_le_mul_of_nonneg_right ?_ tB
    have : f.length + (add (smul l0 a0) (smul l1 a1)).length ≤ f.length + 10 := by omega
    exact_mod_cast this
  have m0 : |a0 * eval l0 x y - a0 * t0| ≤ |a0| * E := by
    rw [← mul_sub, abs_mul]; exact mul_le_mul_of_nonneg_left e0 (abs_nonneg _)
  have m1 : |a1 * eval l1 x y - a1 * t1| ≤ |a1| * E := by
    rw [← mul_sub, abs_mul]; exact mul_le_mul_of_nonneg_left e1 (abs_nonneg _)
  rw [abs_le] at s0 s1 sa ss m0 m1 ⊢
  constructor <;> nlinarith [s0.1, s0.2, s1.1, s1.2, sa.1, sa.2, ss.1, ss.2, m0.1, m0.2, m1.1, m1.2]

end EdgeSpaceG
end PFEM
