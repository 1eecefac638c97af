import Verif.Spec.InnerProd
import Verif.Props.LocInit
import Verif.Props.IntegratePoly
import Verif.Props.Augmented

/-!
Property theorems C48: inner products are bilinear, and symmetric where they must be.
-/

namespace PFEM
open Nystrom (arr)
open Trace (attr)

/-! ### the boundary integral of a product -/

/-- the boundary integral of a product of data -/
noncomputable def pair (K : CellG) (u v : List ℝ) : ℝ := dot (List.zipWith (· * ·) u v) (steps K)

theorem pair_ok {K : CellG} (h : K.Ready) (hne : ∀ c ∈ K.components, c.edges ≠ []) {u v : List ℝ} (hu : u.length = K.numPts)
    (hv : v.length = K.numPts) : (do let p ← Np.mul u v; K.integratePreweighted p) = .ok (pair K u v) := by
  rw [Np.mul, bin_eq _ (hu.trans hv.symm), py_ok_bind]
  exact cell_preweighted h hne (by rw [List.length_zipWith, hu, hv, Nat.min_self, h.numPts])

/-- the array `a u + b v` -/
abbrev comb₂ (a b : ℝ) (u v : List ℝ) : List ℝ := List.zipWith (fun x y => a * x + b * y) u v

theorem pair_comm (K : CellG) (u v : List ℝ) : pair K u v = pair K v u := by
  unfold pair; rw [List.zipWith_comm_of_comm (fun _ _ => mul_comm _ _)]

theorem pair_left (K : CellG) (a b : ℝ) {u v w : List ℝ} (h : u.length = v.length) :
    pair K (comb₂ a b u v) w = a * pair K u w + b * pair K v w := by
  have : ∀ (u v w s : List ℝ), u.length = v.length → dot (List.zipWith (· * ·) (comb₂ a b u v) w) s =
      a * dot (List.zipWith (· * ·) u w) s + b * dot (List.zipWith (· * ·) v w) s := by
    intro u
    induction u with
    | nil => intro v w s h; cases v <;> simp_all [dot, entrywise]
    | cons x u ih =>
      intro v w s h
      match v, w, s, h with
      | [], _, _, h => simp at h
      | y :: v, [], _, _ => simp [dot, entrywise]
      | y :: v, z :: w, [], _ => simp [dot, entrywise]
      | y :: v, z :: w, t :: s, h =>
        have := ih v w s (by simpa using h)
        simp only [dot, entrywise, List.zipWith_cons_cons, List.sum_cons] at this ⊢
        rw [this]; ring
  exact this u v w _ h

theorem pair_right (K : CellG) (a b : ℝ) {u v w : List ℝ} (h : u.length = v.length) :
    pair K w (comb₂ a b u v) = a * pair K w u + b * pair K w v := by
  rw [pair_comm, pair_left K a b h, pair_comm K u, pair_comm K v]

/-! ### what a complete object holds -/

theorem on_len {K : CellG} (h : K.Ready) {t : Trace} (ht : t.On K.getEdges) : t.sizes.sum = K.numPts := by
  rw [← getEdges_sizes h, Trace.sizes, ht.edges, Trace.sizes, Trace.edges_bare]

theorem on_values {K : CellG} (h : K.Ready) {t : Trace} (ht : t.On K.getEdges) : ∃ v, t.values = some v ∧ v.length = K.numPts := by
  obtain ⟨v, hv⟩ := ht.values
  exact ⟨v, hv, (ht.good.values v hv).trans (on_len h ht)⟩

theorem on_wnd {K : CellG} (h : K.Ready) {t : Trace} (ht : t.On K.getEdges) {w : List ℝ} (hw : t.wnd = some w) : w.length = K.numPts :=
  (ht.good.wnd w hw).trans (on_len h ht)

theorem LocHarm.Full.arrays {K : CellG} (h : K.Ready) {m : ℕ} {φ : LocHarm} (hf : φ.Full K.getEdges m) : ∃ v n V N, HarmArrays K φ v n V N := by
  obtain ⟨v, hv, vl⟩ := on_values h hf.trace
  obtain ⟨n, hn⟩ := hf.wnd
  obtain ⟨b, hb, ob⟩ := hf.biharm
  obtain ⟨b', N, hb', hN⟩ := hf.bwnd
  rw [hb] at hb'; cases hb'
  obtain ⟨V, hV, Vl⟩ := on_values h ob
  exact ⟨v, n, V, N, hv, hn, ⟨b, hb, hV, hN⟩, vl, on_wnd h hf.trace hn, Vl, on_wnd h ob hN⟩

theorem LocPoly.Full.arrays {K : CellG} (h : K.Ready) {p : LocPoly} (hf : p.Full K.getEdges) : ∃ v V N g1 g2, PolyArrays K p v V N g1 g2 := by
  obtain ⟨t, ht, ot⟩ := hf.trace
  obtain ⟨v, hv, vl⟩ := on_values h ot
  obtain ⟨g1, hg1⟩ := hf.grad1
  obtain ⟨g2, hg2⟩ := hf.grad2
  obtain ⟨b, hb, ob⟩ := hf.antilapTrace
  obtain ⟨b', N, hb', hN⟩ := hf.awnd
  rw [hb] at hb'; cases hb'
  obtain ⟨V, hV, Vl⟩ := on_values h ob
  exact ⟨v, V, N, g1, g2, ⟨t, ht, hv⟩, ⟨b, hb, hV, hN⟩, hg1, hg2, vl, Vl, on_wnd h ob hN⟩

theorem HarmArrays.comb {K : CellG} {φ ψ r : LocHarm} {a b : ℝ} {v n V N v' n' V' N' : List ℝ} (h : HarmArrays K φ v n V N)
    (h' : HarmArrays K ψ v' n' V' N') (hr : LocHarm.Comb a b φ ψ r) :
    HarmArrays K r (comb₂ a b v v') (comb₂ a b n n') (comb₂ a b V V') (comb₂ a b N N') := by
  obtain ⟨t, ht, hV, hN⟩ := h.eB
  obtain ⟨t', ht', hV', hN'⟩ := h'.eB
  obtain ⟨u, v, w, hu, hv, hw, hc⟩ := hr.biharm
  rw [ht] at hu; cases hu
  rw [ht'] at hv; cases hv
  obtain ⟨u, v, z, hu, hv, hz, hc⟩ := hc
  cases hu; cases hv; subst hz
  refine ⟨?_, ?_, ⟨z, hw, ?_, ?_⟩, ?_, ?_, ?_, ?_⟩
  · rw [hr.trace.values, h.ev, h'.ev]; rfl
  · rw [hr.trace.wnd, h.en, h'.en]; rfl
  · rw [hc.values, hV, hV']; rfl
  · rw [hc.wnd, hN, hN']; rfl
  · rw [List.length_zipWith, h.vl, h'.vl, Nat.min_self]
  · rw [List.length_zipWith, h.nl, h'.nl, Nat.min_self]
  · rw [List.length_zipWith, h.Vl, h'.Vl, Nat.min_self]
  · rw [List.length_zipWith, h.Nl, h'.Nl, Nat.min_self]

theorem PolyArrays.comb {K : CellG} {p q r : LocPoly} {a b : ℝ} {v V N v' V' N' : List ℝ} {g1 g2 g1' g2' : Poly ℝ}
    (h : PolyArrays K p v V N g1 g2) (h' : PolyArrays K q v' V' N' g1' g2') (hr : LocPoly.Comb (PolyComb a b) a b p q r) :
    ∃ k1 k2, PolyComb a b g1 g1' k1 ∧ PolyComb a b g2 g2' k2 ∧
      PolyArrays K r (comb₂ a b v v') (comb₂ a b V V') (comb₂ a b N N') k1 k2 := by
  obtain ⟨t, ht, hV, hN⟩ := h.eB
  obtain ⟨t', ht', hV', hN'⟩ := h'.eB
  obtain ⟨s, hs, hv1⟩ := h.ev
  obtain ⟨s', hs', hv2⟩ := h'.ev
  obtain ⟨u, v, w, hu, hv, hw, hc⟩ := hr.antilapTrace
  rw [ht] at hu; cases hu
  rw [ht'] at hv; cases hv
  obtain ⟨u, v, z, hu, hv, hz, hd⟩ := hr.trace
  rw [hs] at hu; cases hu
  rw [hs'] at hv; cases hv
  obtain ⟨u, v, k1, hu, hv, hk1, h1⟩ := hr.grad1
  rw [h.e1] at hu; cases hu
  rw [h'.e1] at hv; cases hv
  obtain ⟨u, v, k2, hu, hv, hk2, h2⟩ := hr.grad2
  rw [h.e2] at hu; cases hu
  rw [h'.e2] at hv; cases hv
  refine ⟨k1, k2, h1, h2, ⟨z, hz, ?_⟩, ⟨w, hw, ?_, ?_⟩, hk1, hk2, ?_, ?_, ?_⟩
  · rw [hd.values, hv1, hv2]; rfl
  · rw [hc.values, hV, hV']; rfl
  · rw [hc.wnd, hN, hN']; rfl
  · rw [List.length_zipWith, h.vl, h'.vl, Nat.min_self]
  · rw [List.length_zipWith, h.Vl, h'.Vl, Nat.min_self]
  · rw [List.length_zipWith, h.Nl, h'.Nl, Nat.min_self]

/-! ### the six formulas -/

section
variable {K : CellG} (h : K.Ready) (hne : ∀ c ∈ K.components, c.edges ≠ [])
include h hne

theorem h1hh_ok {φ ψ : LocHarm} {v n V N v' n' V' N' : List ℝ} (a : HarmArrays K φ v n V N) (b : HarmArrays K ψ v' n' V' N') :
    h1HarmHarm φ ψ K = .ok (pair K n v') := by
  have := pair_ok h hne a.nl b.vl
  simp only [h1HarmHarm, a.en, b.ev, arr, attr, py_ok_bind]
  exact this

theorem h1hp_ok {φ : LocHarm} {q : LocPoly} {v n V N v' V' N' : List ℝ} {g1 g2 : Poly ℝ} (a : HarmArrays K φ v n V N)
    (b : PolyArrays K q v' V' N' g1 g2) : h1HarmPoly φ q K = .ok (pair K n v') := by
  have := pair_ok h hne a.nl b.vl
  obtain ⟨t, ht, hv⟩ := b.ev
  simp only [h1HarmPoly, a.en, ht, hv, arr, attr, py_ok_bind]
  exact this

theorem l2hh_ok {φ ψ : LocHarm} {v n V N v' n' V' N' : List ℝ} (a : HarmArrays K φ v n V N) (b : HarmArrays K ψ v' n' V' N') :
    l2HarmHarm φ ψ K = .ok (pair K N v' - pair K V n') := by
  have h1 := pair_ok h hne a.Nl b.vl
  have h2 := pair_ok h hne a.Vl b.nl
  obtain ⟨t, ht, hv, hn⟩ := a.eB
  obtain ⟨t', ht', -, -⟩ := b.eB
  rw [Np.mul, bin_eq _ (a.Nl.trans b.vl.symm), py_ok_bind] at h1
  rw [Np.mul, bin_eq _ (a.Vl.trans b.nl.symm), py_ok_bind] at h2
  simp only [l2HarmHarm, ht, ht', hv, hn, b.ev, b.en, arr, attr, py_ok_bind]
  rw [Np.mul, bin_eq _ (a.Nl.trans b.vl.symm), py_ok_bind, h1, py_ok_bind, Np.mul, bin_eq _ (a.Vl.trans b.nl.symm), py_ok_bind, h2, py_ok_bind]

theorem l2hp_ok {φ : LocHarm} {q : LocPoly} {v n V N v' V' N' : List ℝ} {g1 g2 : Poly ℝ} (a : HarmArrays K φ v n V N)
    (b : PolyArrays K q v' V' N' g1 g2) : l2HarmPoly φ q K = .ok (pair K v N' - pair K n V') := by
  have h1 := pair_ok h hne a.vl b.Nl
  have h2 := pair_ok h hne a.nl b.Vl
  obtain ⟨t, ht, hv, hn⟩ := b.eB
  rw [Np.mul, bin_eq _ (a.vl.trans b.Nl.symm), py_ok_bind] at h1
  rw [Np.mul, bin_eq _ (a.nl.trans b.Vl.symm), py_ok_bind] at h2
  simp only [l2HarmPoly, ht, hv, hn, a.ev, a.en, arr, attr, py_ok_bind]
  rw [Np.mul, bin_eq _ (a.vl.trans b.Nl.symm), py_ok_bind, h1, py_ok_bind, Np.mul, bin_eq _ (a.nl.trans b.Vl.symm), py_ok_bind, h2, py_ok_bind]

end

/-- the product of two polynomials on lattices -/
theorem mul_lattice {p q : Poly ℝ} {δ ε : ℝ} (h : 1 / 10 ^ 12 ≤ δ * ε) (hp : Poly.OnLattice δ p) (hq : Poly.OnLattice ε q) :
    ∃ r, p.mul q = .ok r ∧ Poly.OnLattice (δ * ε) r ∧ ∀ x y, r.eval x y = p.eval x y * q.eval x y := by
  obtain ⟨r, hr, he⟩ := C06_mul_exact p q δ ε h hp hq
  refine ⟨r, hr, ?_, he⟩
  rw [Poly.mul_eq] at hr
  cases hr
  exact Poly.onLattice_iff.2 (Poly.mul_A (Poly.sep_lat h) (Poly.onLattice_iff.1 hp) (Poly.onLattice_iff.1 hq)
    (fun _ _ _ hc _ hd => Poly.lat_mul hc hd)).2

theorem h1pp_ok {K : CellG} {p q : LocPoly} {v V N v' V' N' : List ℝ} {g1 g2 k1 k2 : Poly ℝ} (a : PolyArrays K p v V N g1 g2)
    (b : PolyArrays K q v' V' N' k1 k2) {δ ε : ℝ} (hδ : 1 / 10 ^ 12 ≤ δ * ε) (hp : ∀ u ∈ p.polys, Poly.OnLattice δ u)
    (hq : ∀ u ∈ q.polys, Poly.OnLattice ε u) :
    ∃ s, h1PolyPoly p q K = integratePoly s K ∧ ∀ x y, s.eval x y = g1.eval x y * k1.eval x y + g2.eval x y * k2.eval x y := by
  obtain ⟨m1, e1, l1, v1⟩ := mul_lattice hδ (hp g1 (by simp [LocPoly.polys, a.e1])) (hq k1 (by simp [LocPoly.polys, b.e1]))
  obtain ⟨m2, e2, l2, v2⟩ := mul_lattice hδ (hp g2 (by simp [LocPoly.polys, a.e2])) (hq k2 (by simp [LocPoly.polys, b.e2]))
  refine ⟨m1.add m2, ?_, fun x y => ?_⟩
  · simp only [h1PolyPoly, a.e1, a.e2, b.e1, b.e2, attr, py_ok_bind, e1, e2]
  · rw [(C05_exact m1 m2 _ hδ l1 l2 x y).1, v1, v2]

theorem l2pp_ok {K : CellG} {p q : LocPoly} {δ ε : ℝ} (hδ : 1 / 10 ^ 12 ≤ δ * ε) (hp : ∀ u ∈ p.polys, Poly.OnLattice δ u)
    (hq : ∀ u ∈ q.polys, Poly.OnLattice ε u) :
    ∃ s, l2PolyPoly p q K = integratePoly s K ∧ ∀ x y, s.eval x y = p.exact.eval x y * q.exact.eval x y := by
  obtain ⟨m1, e1, l1, v1⟩ := mul_lattice hδ (hp p.exact (by simp [LocPoly.polys])) (hq q.exact (by simp [LocPoly.polys]))
  exact ⟨m1, by simp only [l2PolyPoly, e1, py_ok_bind], v1⟩

/-! ### symmetry -/

/-- C48: a harmonic function and a polynomial may be swapped. -/
theorem C48_swap (φ : LocHarm) (q : LocPoly) (K : CellG) :
    h1 (.harm φ) (.poly q) K = h1 (.poly q) (.harm φ) K ∧ l2 (.harm φ) (.poly q) K = l2 (.poly q) (.harm φ) K := ⟨rfl, rfl⟩

/-- C48: products of two polynomials are symmetric, for all polynomials. -/
theorem C48_polynomials (p q : LocPoly) (K : CellG) :
    h1 (.poly p) (.poly q) K = h1 (.poly q) (.poly p) K ∧ l2 (.poly p) (.poly q) K = l2 (.poly q) (.poly p) K := by
  have hc : ∀ a b : Poly ℝ, Poly.mulP a b = Poly.mulP b a := fun a b => by
    have := C06_mul_comm a b
    rw [Poly.mul_eq, Poly.mul_eq] at this
    exact Except.ok.inj this
  constructor
  · obtain ⟨_, _, p1, p2, _, _⟩ := p
    obtain ⟨_, _, q1, q2, _, _⟩ := q
    rcases p1 with - | p1
    · rcases q1 with - | q1 <;> rfl
    rcases q1 with - | q1
    · rfl
    rcases p2 with - | p2
    · rcases q2 with - | q2 <;> simp only [h1, h1PolyPoly, attr, py_ok_bind, py_error_bind, Poly.mul_eq]
    rcases q2 with - | q2
    · simp only [h1, h1PolyPoly, attr, py_ok_bind, py_error_bind, Poly.mul_eq]
    simp only [h1, h1PolyPoly, attr, py_ok_bind, Poly.mul_eq]
    rw [hc p1, hc p2]
  · simp only [l2, l2PolyPoly]
    rw [C06_mul_comm]

theorem pair_integral {K : CellG} (h : K.Ready) (hne : ∀ c ∈ K.components, c.edges ≠ []) {u v : List ℝ} (hu : u.length = K.numPts)
    (hv : v.length = K.numPts) {I : ℝ} (hI : Integral K u v I) : I = pair K u v := by
  obtain ⟨p, hp, hi⟩ := hI
  have := pair_ok h hne hu hv
  rw [hp, py_ok_bind, hi] at this
  exact Except.ok.inj this

/-- C48: products of two harmonic functions are symmetric if and only if Green's identity holds for the stored data: the boundary integral of
the normal derivative of the first times the second is that with the two exchanged; for the L2 product, with `V`, `N` the values and normal
derivatives of the anti-Laplacians, `∫ N v' - V n' = ∫ N' v - V' n`. -/
theorem C48_green {K : CellG} (h : K.Ready) (hne : ∀ c ∈ K.components, c.edges ≠ []) {φ ψ : LocHarm} {v n V N v' n' V' N' : List ℝ}
    (a : HarmArrays K φ v n V N) (b : HarmArrays K ψ v' n' V' N') {I1 I2 I3 I4 I5 I6 : ℝ} (h1' : Integral K n v' I1) (h2' : Integral K n' v I2)
    (h3' : Integral K N v' I3) (h4' : Integral K V n' I4) (h5' : Integral K N' v I5) (h6' : Integral K V' n I6) :
    (h1 (.harm φ) (.harm ψ) K = h1 (.harm ψ) (.harm φ) K ↔ I1 = I2) ∧
    (l2 (.harm φ) (.harm ψ) K = l2 (.harm ψ) (.harm φ) K ↔ I3 - I4 = I5 - I6) := by
  rw [pair_integral h hne a.nl b.vl h1', pair_integral h hne b.nl a.vl h2', pair_integral h hne a.Nl b.vl h3',
    pair_integral h hne a.Vl b.nl h4', pair_integral h hne b.Nl a.vl h5', pair_integral h hne b.Vl a.nl h6']
  simp only [h1, l2]
  rw [h1hh_ok h hne a b, h1hh_ok h hne b a, l2hh_ok h hne a b, l2hh_ok h hne b a, Except.ok.injEq, Except.ok.injEq]
  exact ⟨Iff.rfl, Iff.rfl⟩

/-! ### bilinearity -/

theorem Linear.mk' {a b I J L : ℝ} {x y z : Py ℝ} (hx : x = .ok I) (hy : y = .ok J) (hz : z = .ok L) (h : L = a * I + b * J) :
    Linear a b x y z := ⟨I, J, hx, hy, by rw [hz, h]⟩

theorem Linear.integral {K : CellG} (h : K.Ready) (hne : ∀ c ∈ K.components, c.edges ≠ []) {a b : ℝ} {p q r : Poly ℝ} {x y z : Py ℝ}
    (hx : x = integratePoly p K) (hy : y = integratePoly q K) (hz : z = integratePoly r K)
    (hr : ∀ x y, r.eval x y = a * p.eval x y + b * q.eval x y) : Linear a b x y z := by
  obtain ⟨I, J, h1, h2, h3⟩ := C17_linear h hne p q r a b hr
  exact ⟨I, J, by rw [hx, h1], by rw [hy, h2], by rw [hz, h3]⟩

section
variable {K : CellG} (h : K.Ready) (hne : ∀ c ∈ K.components, c.edges ≠ [])
include h hne

/-- C48: the two products of harmonic functions and polynomials are linear in the first and in the second argument.  Coefficients of
polynomials lie on lattices whose product is not below the tolerance `1e-12` with which the code drops terms. -/
theorem C48_bilinear_parts_partial {a b : ℝ} {u v r w : Obj} (hu : u.Full K) (hv : v.Full K) (hw : w.Full K) (hr : Obj.Comb a b u v r)
    (pu : u.IsPart) (pw : w.IsPart) {δ ε : ℝ} (hδ : 1 / 10 ^ 12 ≤ δ * ε)
    (hl : ∀ p ∈ u.polys ++ v.polys ++ r.polys, Poly.OnLattice δ p) (hl' : ∀ p ∈ w.polys, Poly.OnLattice ε p) :
    Linear a b (h1 u w K) (h1 v w K) (h1 r w K) ∧ Linear a b (h1 w u K) (h1 w v K) (h1 w r K) ∧
    Linear a b (l2 u w K) (l2 v w K) (l2 r w K) ∧ Linear a b (l2 w u K) (l2 w v K) (l2 w r K) := by
  simp only [List.mem_append] at hl
  cases hr with
  | @harm φ ψ r hr =>
    obtain ⟨v1, n1, V1, N1, a1⟩ := LocHarm.Full.arrays h hu
    obtain ⟨v2, n2, V2, N2, a2⟩ := LocHarm.Full.arrays h hv
    have a3 := a1.comb a2 hr
    have ev := a1.vl.trans a2.vl.symm
    have en := a1.nl.trans a2.nl.symm
    have eV := a1.Vl.trans a2.Vl.symm
    have eN := a1.Nl.trans a2.Nl.symm
    cases w with
    | harm χ =>
      obtain ⟨v, n, V, N, c⟩ := LocHarm.Full.arrays h hw
      refine ⟨.mk' (h1hh_ok h hne a1 c) (h1hh_ok h hne a2 c) (h1hh_ok h hne a3 c) (pair_left K a b en),
        .mk' (h1hh_ok h hne c a1) (h1hh_ok h hne c a2) (h1hh_ok h hne c a3) (pair_right K a b ev),
        .mk' (l2hh_ok h hne a1 c) (l2hh_ok h hne a2 c) (l2hh_ok h hne a3 c) ?_,
        .mk' (l2hh_ok h hne c a1) (l2hh_ok h hne c a2) (l2hh_ok h hne c a3) ?_⟩
      · rw [pair_left K a b eN, pair_left K a b eV]; ring
      · rw [pair_right K a b ev, pair_right K a b en]; ring
    | poly q =>
      obtain ⟨v, V, N, g1, g2, c⟩ := LocPoly.Full.arrays h hw
      have H := Linear.mk' (h1hp_ok h hne a1 c) (h1hp_ok h hne a2 c) (h1hp_ok h hne a3 c) (pair_left K a b en)
      have L := Linear.mk' (a := a) (b := b) (l2hp_ok h hne a1 c) (l2hp_ok h hne a2 c) (l2hp_ok h hne a3 c) (by
        rw [pair_left K a b ev, pair_left K a b en]; ring)
      exact ⟨H, H, L, L⟩
    | _ => exact pw.elim
  | @poly p q r hr =>
    obtain ⟨v1, V1, N1, g1, g2, a1⟩ := LocPoly.Full.arrays h hu
    obtain ⟨v2, V2, N2, k1, k2, a2⟩ := LocPoly.Full.arrays h hv
    obtain ⟨l1, l2, c1, c2, a3⟩ := a1.comb a2 hr
    have ev := a1.vl.trans a2.vl.symm
    have eV := a1.Vl.trans a2.Vl.symm
    have eN := a1.Nl.trans a2.Nl.symm
    cases w with
    | harm χ =>
      obtain ⟨v, n, V, N, c⟩ := LocHarm.Full.arrays h hw
      have H := Linear.mk' (h1hp_ok h hne c a1) (h1hp_ok h hne c a2) (h1hp_ok h hne c a3) (pair_right K a b ev)
      have L := Linear.mk' (a := a) (b := b) (l2hp_ok h hne c a1) (l2hp_ok h hne c a2) (l2hp_ok h hne c a3) (by
        rw [pair_right K a b eN, pair_right K a b eV]; ring)
      exact ⟨H, H, L, L⟩
    | poly w =>
      obtain ⟨v, V, N, m1, m2, c⟩ := LocPoly.Full.arrays h hw
      have P := fun x hx => hl x (.inl (.inl hx))
      have Q := fun x hx => hl x (.inl (.inr hx))
      have R := fun x hx => hl x (.inr hx)
      obtain ⟨s1, e1, f1⟩ := h1pp_ok a1 c hδ P hl'
      obtain ⟨s2, e2, f2⟩ := h1pp_ok a2 c hδ Q hl'
      obtain ⟨s3, e3, f3⟩ := h1pp_ok a3 c hδ R hl'
      obtain ⟨t1, e4, f4⟩ := l2pp_ok (K := K) hδ P hl'
      obtain ⟨t2, e5, f5⟩ := l2pp_ok (K := K) hδ Q hl'
      obtain ⟨t3, e6, f6⟩ := l2pp_ok (K := K) hδ R hl'
      have H := Linear.integral h hne (a := a) (b := b) e1 e2 e3 fun x y => by
        rw [f1, f2, f3, c1 x y, c2 x y]; ring
      have L := Linear.integral h hne (a := a) (b := b) e4 e5 e6 fun x y => by
        rw [f4, f5, f6, hr.exact x y]; ring
      refine ⟨H, ?_, L, ?_⟩
      · rw [(C48_polynomials w p K).1, (C48_polynomials w q K).1, (C48_polynomials w r K).1]; exact H
      · rw [(C48_polynomials w p K).2, (C48_polynomials w q K).2, (C48_polynomials w r K).2]; exact L
    | _ => exact pw.elim
  | poisson => exact pu.elim

end

/-! ### Poisson functions -/

theorem Linear.add {a b : ℝ} {x y z x' y' z' X Y Z : Py ℝ} (h : Linear a b x y z) (h' : Linear a b x' y' z')
    (hX : ∀ I J, x = .ok I → x' = .ok J → X = .ok (I + J)) (hY : ∀ I J, y = .ok I → y' = .ok J → Y = .ok (I + J))
    (hZ : ∀ I J, z = .ok I → z' = .ok J → Z = .ok (I + J)) : Linear a b X Y Z := by
  obtain ⟨I, J, e1, e2, e3⟩ := h
  obtain ⟨I', J', e1', e2', e3'⟩ := h'
  exact ⟨_, _, hX _ _ e1 e1', hY _ _ e2 e2', by rw [hZ _ _ e3 e3']; congr 1; ring⟩

/-- the sum of two results -/
noncomputable def plus (x y : Py ℝ) : Py ℝ := do
  let a ← x
  let b ← y
  .ok (a + b)

theorem plus_ok {x y : Py ℝ} (I J : ℝ) (hx : x = .ok I) (hy : y = .ok J) : plus x y = .ok (I + J) := by
  rw [hx, hy]; rfl

theorem Linear.plus {a b : ℝ} {x y z x' y' z' : Py ℝ} (h : Linear a b x y z) (h' : Linear a b x' y' z') :
    Linear a b (plus x x') (PFEM.plus y y') (PFEM.plus z z') := h.add h' plus_ok plus_ok plus_ok

/-- the sum of the products of the parts -/
theorem getH1_part {K : CellG} {f : LocPoisson} {h : LocHarm} {p : LocPoly} (ec : f.cell = some K) (eh : f.harm = some h) (ep : f.poly = some p)
    {w : Obj} (hw : w.IsPart) : f.getH1 w = plus (h1 (.harm h) w K) (h1 (.poly p) w K) ∧
      f.getL2 w = plus (l2 (.harm h) w K) (l2 (.poly p) w K) := by
  cases w with
  | harm χ => simp only [LocPoisson.getH1, LocPoisson.getL2, ec, eh, ep, attr, py_ok_bind, plus, and_self]
  | poly q => simp only [LocPoisson.getH1, LocPoisson.getL2, ec, eh, ep, attr, py_ok_bind, plus, and_self]
  | _ => exact hw.elim

theorem getH1_poisson {K : CellG} {f g : LocPoisson} {h k : LocHarm} {p q : LocPoly} (ec : f.cell = some K) (eh : f.harm = some h)
    (ep : f.poly = some p) (eh' : g.harm = some k) (ep' : g.poly = some q) {I1 I2 I3 I4 J1 J2 J3 J4 : ℝ}
    (h1' : h1 (.harm h) (.harm k) K = .ok I1) (h2' : h1 (.harm h) (.poly q) K = .ok I2) (h3' : h1 (.poly p) (.harm k) K = .ok I3)
    (h4' : h1 (.poly p) (.poly q) K = .ok I4) (g1' : l2 (.harm h) (.harm k) K = .ok J1) (g2' : l2 (.harm h) (.poly q) K = .ok J2)
    (g3' : l2 (.poly p) (.harm k) K = .ok J3) (g4' : l2 (.poly p) (.poly q) K = .ok J4) :
    f.getH1 (.poisson g) = .ok (I1 + I2 + (I3 + I4)) ∧ f.getL2 (.poisson g) = .ok (J1 + J2 + (J3 + J4)) := by
  constructor
  · simp only [LocPoisson.getH1, ec, eh, ep, eh', ep', attr, py_ok_bind, h1', h2', h3', h4', Except.ok.injEq]; ring
  · simp only [LocPoisson.getL2, ec, eh, ep, eh', ep', attr, py_ok_bind, g1', g2', g3', g4', Except.ok.injEq]; ring

/-- the parts of a combination -/
theorem LocPoisson.Comb.parts {a b : ℝ} {f g r : LocPoisson} {K : CellG} (hf : f.Full K) (hg : g.Full K)
    (hr : LocPoisson.Comb (PolyComb a b) a b f g r) : ∃ h p k q s t, f.cell = some K ∧ f.harm = some h ∧ f.poly = some p ∧ g.cell = some K ∧
      g.harm = some k ∧ g.poly = some q ∧ r.cell = some K ∧ r.harm = some s ∧ r.poly = some t ∧ h.Full K.getEdges K.numHoles ∧
      p.Full K.getEdges ∧ k.Full K.getEdges K.numHoles ∧ q.Full K.getEdges ∧ LocHarm.Comb a b h k s ∧
      LocPoly.Comb (PolyComb a b) a b p q t := by
  obtain ⟨h, eh, fh⟩ := hf.harm
  obtain ⟨p, ep, fp⟩ := hf.poly
  obtain ⟨k, ek, fk⟩ := hg.harm
  obtain ⟨q, eq, fq⟩ := hg.poly
  obtain ⟨h', k', s, e1, e2, es, c1⟩ := hr.harm
  obtain ⟨p', q', t, e3, e4, et, c2⟩ := hr.poly
  rw [eh] at e1; cases e1
  rw [ek] at e2; cases e2
  rw [ep] at e3; cases e3
  rw [eq] at e4; cases e4
  exact ⟨h, p, k, q, s, t, hf.cell, eh, ep, hg.cell, ek, eq, hr.cell.trans hf.cell, es, et, fh, fp, fk, fq, c1, c2⟩

theorem poisson_polys {f : LocPoisson} {p : LocPoly} (h : f.poly = some p) : f.polys = p.polys := by simp [LocPoisson.polys, h]

section
variable {K : CellG} (h : K.Ready) (hne : ∀ c ∈ K.components, c.edges ≠ [])
include h hne

/-- C48: `get_h1_semi_inner_prod` and `get_l2_inner_prod` are linear in the function on which they are called; the argument may be of any
kind.  The restriction on polynomials is the same as before. -/
theorem C48_bilinear_left_partial {a b : ℝ} {f g r : LocPoisson} (hf : f.Full K) (hg : g.Full K)
    (hr : LocPoisson.Comb (PolyComb a b) a b f g r) {w : Obj} (hw : w.Full K) {δ ε : ℝ} (hδ : 1 / 10 ^ 12 ≤ δ * ε)
    (hl : ∀ p ∈ f.polys ++ g.polys ++ r.polys, Poly.OnLattice δ p) (hl' : ∀ p ∈ w.polys, Poly.OnLattice ε p) :
    Linear a b (f.getH1 w) (g.getH1 w) (r.getH1 w) ∧ Linear a b (f.getL2 w) (g.getL2 w) (r.getL2 w) := by
  obtain ⟨φ, p, ψ, q, s, t, ec, eh, ep, ec', eh', ep', ec'', eh'', ep'', fh, fp, fk, fq, c1, c2⟩ := hr.parts hf hg
  rw [poisson_polys ep, poisson_polys ep', poisson_polys ep''] at hl
  have key : ∀ w : Obj, w.IsPart → w.Full K → (∀ p ∈ w.polys, Poly.OnLattice ε p) → _ ∧ _ := fun w pw hw hl' =>
    And.intro (C48_bilinear_parts_partial h hne (u := .harm φ) (v := .harm ψ) (w := w) fh fk hw (.harm c1) trivial pw hδ (by simp [Obj.polys]) hl')
      (C48_bilinear_parts_partial h hne (u := .poly p) (v := .poly q) (w := w) fp fq hw (.poly c2) trivial pw hδ hl hl')
  cases w with
  | harm χ =>
    obtain ⟨⟨a1, -, a2, -⟩, b1, -, b2, -⟩ := key (.harm χ) trivial hw hl'
    rw [(getH1_part ec eh ep (w := .harm χ) trivial).1, (getH1_part ec' eh' ep' (w := .harm χ) trivial).1,
      (getH1_part ec'' eh'' ep'' (w := .harm χ) trivial).1, (getH1_part ec eh ep (w := .harm χ) trivial).2,
      (getH1_part ec' eh' ep' (w := .harm χ) trivial).2, (getH1_part ec'' eh'' ep'' (w := .harm χ) trivial).2]
    exact ⟨a1.plus b1, a2.plus b2⟩
  | poly χ =>
    obtain ⟨⟨a1, -, a2, -⟩, b1, -, b2, -⟩ := key (.poly χ) trivial hw hl'
    rw [(getH1_part ec eh ep (w := .poly χ) trivial).1, (getH1_part ec' eh' ep' (w := .poly χ) trivial).1,
      (getH1_part ec'' eh'' ep'' (w := .poly χ) trivial).1, (getH1_part ec eh ep (w := .poly χ) trivial).2,
      (getH1_part ec' eh' ep' (w := .poly χ) trivial).2, (getH1_part ec'' eh'' ep'' (w := .poly χ) trivial).2]
    exact ⟨a1.plus b1, a2.plus b2⟩
  | poisson w =>
    obtain ⟨χ, ew, fw⟩ := LocPoisson.Full.harm hw
    obtain ⟨o, eo, fo⟩ := LocPoisson.Full.poly hw
    obtain ⟨⟨a1, -, a2, -⟩, b1, -, b2, -⟩ := key (.harm χ) trivial fw (by simp [Obj.polys])
    obtain ⟨⟨a3, -, a4, -⟩, b3, -, b4, -⟩ := key (.poly o) trivial fo (by simpa [Obj.polys, poisson_polys eo] using hl')
    obtain ⟨A1, B1, x1, y1, z1⟩ := a1
    obtain ⟨A2, B2, x2, y2, z2⟩ := a2
    obtain ⟨A3, B3, x3, y3, z3⟩ := a3
    obtain ⟨A4, B4, x4, y4, z4⟩ := a4
    obtain ⟨C1, D1, u1, v1, w1⟩ := b1
    obtain ⟨C2, D2, u2, v2, w2⟩ := b2
    obtain ⟨C3, D3, u3, v3, w3⟩ := b3
    obtain ⟨C4, D4, u4, v4, w4⟩ := b4
    have e1 := getH1_poisson ec eh ep ew eo x1 x3 u1 u3 x2 x4 u2 u4
    have e2 := getH1_poisson ec' eh' ep' ew eo y1 y3 v1 v3 y2 y4 v2 v4
    have e3 := getH1_poisson ec'' eh'' ep'' ew eo z1 z3 w1 w3 z2 z4 w2 w4
    exact ⟨.mk' e1.1 e2.1 e3.1 (by ring), .mk' e1.2 e2.2 e3.2 (by ring)⟩
  | _ => exact hw.elim

/-- C48: … and linear in the argument. -/
theorem C48_bilinear_right_partial {a b : ℝ} {f : LocPoisson} (hf : f.Full K) {u v r : Obj} (hu : u.Full K) (hv : v.Full K)
    (hr : Obj.Comb a b u v r) {δ ε : ℝ} (hδ : 1 / 10 ^ 12 ≤ δ * ε) (hl : ∀ p ∈ u.polys ++ v.polys ++ r.polys, Poly.OnLattice δ p)
    (hl' : ∀ p ∈ f.polys, Poly.OnLattice ε p) :
    Linear a b (f.getH1 u) (f.getH1 v) (f.getH1 r) ∧ Linear a b (f.getL2 u) (f.getL2 v) (f.getL2 r) := by
  obtain ⟨χ, ew, fw⟩ := hf.harm
  obtain ⟨o, eo, fo⟩ := hf.poly
  rw [poisson_polys eo] at hl'
  have key : ∀ {u v r : Obj}, u.Full K → v.Full K → Obj.Comb a b u v r → u.IsPart → (∀ p ∈ u.polys ++ v.polys ++ r.polys, Poly.OnLattice δ p) →
      _ ∧ _ := fun {u v r} hu hv hr pu hl =>
    And.intro (C48_bilinear_parts_partial h hne (w := .harm χ) hu hv fw hr pu trivial hδ hl (by simp [Obj.polys]))
      (C48_bilinear_parts_partial h hne (w := .poly o) hu hv fo hr pu trivial hδ hl hl')
  cases hr with
  | harm hr =>
    obtain ⟨⟨-, a1, -, a2⟩, -, b1, -, b2⟩ := key hu hv (.harm hr) trivial hl
    have e : ∀ k : LocHarm, _ := fun k => getH1_part hf.cell ew eo (w := .harm k) trivial
    rw [(e _).1, (e _).1, (e _).1, (e _).2, (e _).2, (e _).2]
    exact ⟨a1.plus b1, a2.plus b2⟩
  | poly hr =>
    obtain ⟨⟨-, a1, -, a2⟩, -, b1, -, b2⟩ := key hu hv (.poly hr) trivial hl
    have e : ∀ k : LocPoly, _ := fun k => getH1_part hf.cell ew eo (w := .poly k) trivial
    rw [(e _).1, (e _).1, (e _).1, (e _).2, (e _).2, (e _).2]
    exact ⟨a1.plus b1, a2.plus b2⟩
  | poisson hr =>
    obtain ⟨φ, p, ψ, q, s, t, ec, eh, ep, ec', eh', ep', ec'', eh'', ep'', fh, fp, fk, fq, c1, c2⟩ := hr.parts hu hv
    simp only [Obj.polys] at hl
    rw [poisson_polys ep, poisson_polys ep', poisson_polys ep''] at hl
    obtain ⟨⟨-, a1, -, a2⟩, -, b1, -, b2⟩ := key (u := .harm φ) (v := .harm ψ) fh fk (.harm c1) trivial (by simp [Obj.polys])
    obtain ⟨⟨-, a3, -, a4⟩, -, b3, -, b4⟩ := key (u := .poly p) (v := .poly q) fp fq (.poly c2) trivial hl
    obtain ⟨A1, B1, x1, y1, z1⟩ := a1
    obtain ⟨A2, B2, x2, y2, z2⟩ := a2
    obtain ⟨A3, B3, x3, y3, z3⟩ := a3
    obtain ⟨A4, B4, x4, y4, z4⟩ := a4
    obtain ⟨C1, D1, u1, v1, w1⟩ := b1
    obtain ⟨C2, D2, u2, v2, w2⟩ := b2
    obtain ⟨C3, D3, u3, v3, w3⟩ := b3
    obtain ⟨C4, D4, u4, v4, w4⟩ := b4
    have e1 := getH1_poisson hf.cell ew eo eh ep x1 x3 u1 u3 x2 x4 u2 u4
    have e2 := getH1_poisson hf.cell ew eo eh' ep' y1 y3 v1 v3 y2 y4 v2 v4
    have e3 := getH1_poisson hf.cell ew eo eh'' ep'' z1 z3 w1 w3 z2 z4 w2 w4
    exact ⟨.mk' e1.1 e2.1 e3.1 (by ring), .mk' e1.2 e2.2 e3.2 (by ring)⟩

end

/-! ### rejected arguments -/

/-- C48: mismatched types are rejected: the functions of inner_prod.py take harmonic functions and polynomials only, the methods of a local
Poisson function take those and local Poisson functions. -/
theorem C48_types (v w : Obj) (K : CellG) (f : LocPoisson) :
    (¬ (v.IsPart ∧ w.IsPart) → h1 v w K = .error .typeError ∧ l2 v w K = .error .typeError) ∧
    ((∀ g, w ≠ .poisson g) → ¬ w.IsPart → f.getH1 w = .error .typeError ∧ f.getL2 w = .error .typeError) := by
  constructor
  · intro h
    cases v <;> cases w <;> simp_all [Obj.IsPart, h1, l2]
  · intro h1 h2
    cases w <;> simp_all [Obj.IsPart, LocPoisson.getH1, LocPoisson.getL2]

/-- C48: an L2 product with a harmonic function whose anti-Laplacian is `None`, or with a polynomial whose anti-Laplacian has no normal
derivative, is rejected with `ValueError`. -/
theorem C48_missing (φ ψ : LocHarm) (q : LocPoly) (K : CellG) :
    (φ.biharm = some none → l2 (.harm φ) (.harm ψ) K = .error .valueError) ∧
    (∀ b, φ.biharm = some (some b) → ψ.biharm = some none → l2 (.harm φ) (.harm ψ) K = .error .valueError) ∧
    (∀ t, q.antilapTrace = some t → t.wnd = none → l2 (.harm φ) (.poly q) K = .error .valueError) := by
  refine ⟨fun h => ?_, fun b h h' => ?_, fun t h h' => ?_⟩
  · simp only [l2, l2HarmHarm, h, attr, py_ok_bind]
  · simp only [l2, l2HarmHarm, h, h', attr, py_ok_bind]
  · simp only [l2, l2HarmPoly, h, h', attr, py_ok_bind]

/-! ### examples and counterexamples -/

theorem LocHarm.Holds.full {K : CellG} {S : Set (ℝ × ℝ)} {h : LocHarm} {φ : ℝ → ℝ → ℝ} {es : List EdgeG} {m : ℕ} (ho : h.On es m)
    (hh : h.Holds K S φ) : h.Full es m := by
  obtain ⟨-, -, -, g1, g2, -, hw, -⟩ := hh.trace
  obtain ⟨b, v, w, hb, -, hw', -⟩ := hh.biharm
  exact ⟨ho, ⟨_, hw⟩, b, w, hb, hw'⟩

theorem LocPoly.Holds.full {K : CellG} {p : LocPoly} {P : ℝ → ℝ → ℝ} {es : List EdgeG} (ho : p.On es) (hh : p.Holds K P) : p.Full es := by
  obtain ⟨q, -, -, t, ht, -, -, -, g1, g2, -, hw, -⟩ := hh.antilap
  exact ⟨ho, t, _, ht, hw⟩

theorem LocPoisson.Holds.full {K : CellG} {S : Set (ℝ × ℝ)} {f : LocPoisson} {u : ℝ → ℝ → ℝ} (ho : f.On K) (hh : f.Holds K S u) : f.Full K := by
  obtain ⟨h, p, φ, P, eh, ep, hh, hp, -⟩ := hh
  obtain ⟨h', eh', oh⟩ := ho.harm
  obtain ⟨p', ep', op⟩ := ho.poly
  rw [eh] at eh'; cases eh'
  rw [ep] at ep'; cases ep'
  exact ⟨ho.cell, ⟨p, ep, hp.full op⟩, h, eh, hh.full oh⟩

theorem disc_edges : ∀ c ∈ discCell.components, c.edges ≠ [] := fun c hc => (disc_ready.2 c hc).1

/-- linearity for `x + 1` on the disc: the products of `f + f` -/
example : ∃ f r : LocPoisson, f.Full discCell ∧ f.Holds discCell Set.univ (fun x _ => x + 1) ∧ f.add (.poisson f) = .ok r ∧
    Linear 1 1 (f.getH1 (.poisson f)) (f.getH1 (.poisson f)) (f.getH1 (.poisson r)) := by
  obtain ⟨f, ho, hh, hl⟩ := disc_poisson
  obtain ⟨r, hr, -, -, hc⟩ := C47_add_partial ho ho
  have hc := hc (1 / 4) (by norm_num) (by simpa using hl)
  have hf := hh.full ho
  have hrl : ∀ p ∈ r.polys, Poly.OnLattice (1 / 4) p := by
    obtain ⟨r', hr', -, rc⟩ := poisson_add ho ho
    rw [hr] at hr'
    cases hr'
    obtain ⟨p, q, t, ep, eq, et, c⟩ := rc.poly
    obtain ⟨u1, v1, w1, a1, b1, c1, d1⟩ := c.grad1
    obtain ⟨u2, v2, w2, a2, b2, c2, d2⟩ := c.grad2
    obtain ⟨u3, v3, w3, a3, b3, c3, d3⟩ := c.antilap
    rw [ep] at eq; cases eq
    rw [poisson_polys ep] at hl
    have add : ∀ u v : Poly ℝ, u ∈ p.polys → v ∈ p.polys → Poly.OnLattice (1 / 4) (u.add v) := fun u v hu hv =>
      Poly.onLattice_iff.2 (Poly.add_A (Poly.sep_lat (by norm_num [tol])) (Poly.onLattice_iff.1 (hl u hu)) (Poly.onLattice_iff.1 (hl v hv))).2
    rw [poisson_polys et]
    intro o ho
    simp only [LocPoly.polys, c1, c2, c3, Option.toList_some, List.mem_cons, List.mem_append, List.not_mem_nil, or_false] at ho
    rcases ho with rfl | (rfl | rfl) | rfl
    · rw [c.exact]; exact add _ _ (by simp [LocPoly.polys]) (by simp [LocPoly.polys])
    · rw [d1]; exact add _ _ (by simp [LocPoly.polys, a1]) (by simp [LocPoly.polys, b1])
    · rw [d2]; exact add _ _ (by simp [LocPoly.polys, a2]) (by simp [LocPoly.polys, b2])
    · rw [d3]; exact add _ _ (by simp [LocPoly.polys, a3]) (by simp [LocPoly.polys, b3])
  exact ⟨f, r, hf, hh, hr, (C48_bilinear_right_partial disc_ready.1 disc_edges hf (u := .poisson f) (v := .poisson f) hf hf (.poisson hc)
    (δ := 1 / 4) (ε := 1 / 4) (by norm_num) (by simp only [Obj.polys, List.mem_append]; rintro p ((h | h) | h); exacts [hl p h, hl p h, hrl p h]) hl).1⟩

/-- the harmonic function `Re z^3` -/
def cube (x y : ℝ) : ℝ := x ^ 3 - 3 * x * y ^ 2

theorem cube_grad : HasGradOn Set.univ cube (fun x y => 3 * x ^ 2 - 3 * y ^ 2) fun x y => -(6 * x * y) := by
  intro x y _
  constructor
  · exact (((hasDerivAt_pow 3 x).fun_sub (((hasDerivAt_id x).const_mul 3).mul_const (y ^ 2))).congr_deriv (by norm_num))
  · exact (((hasDerivAt_pow 2 y).const_mul (3 * x)).const_sub (x ^ 3)).congr_deriv (by norm_num; ring)

/-- the trace of `Re z^3` on the disc -/
noncomputable def cubeHarm : LocHarm where
  trace := Trace.made discCell.getEdges (some (discCell.samplesOf cube))
    (some (discCell.normalOf (fun x y => 3 * x ^ 2 - 3 * y ^ 2) fun x y => -(6 * x * y)))
    (some (discCell.tangentOf (fun x y => 3 * x ^ 2 - 3 * y ^ 2) fun x y => -(6 * x * y)))

theorem disc_cols : discCell.cols = crossPt 1 1 := by simp [discCell, CellG.cols, cross_cols]

theorem disc_steps : steps discCell = [Real.pi / 2, Real.pi / 2, Real.pi / 2, Real.pi / 2] := by
  have e : ((crossContour 1 1).edges.length : ℝ) = 1 := by simp [crossContour]
  have e' : 2 * Real.pi * 1 / (4 : ℝ) = Real.pi / 2 := by ring
  simp only [steps, discCell, List.flatMap_cons, List.flatMap_nil, List.append_nil, cross_cols, e]
  simp [crossPt, ← e']

theorem disc_weights : cellWeights discCell = [Real.pi / 2, Real.pi / 2, Real.pi / 2, Real.pi / 2] := by
  have e : ((crossContour 1 1).edges.length : ℝ) = 1 := by simp [crossContour]
  have e' : 2 * Real.pi * 1 / (4 : ℝ) = Real.pi / 2 := by ring
  simp only [cellWeights, discCell, List.flatMap_cons, List.flatMap_nil, List.append_nil, cross_cols, e]
  simp [crossPt, ← e']

/-- C48: symmetry of the H1 product of harmonic functions can fail, even for exact data: with four samples on the unit circle the product of
`x` and `Re z^3` is `π` in one order and `3 π` in the other. -/
theorem C48_not_symmetric : TraceOf discCell Set.univ (fun x _ => x) true (xHarm discCell).trace ∧
    TraceOf discCell Set.univ cube true cubeHarm.trace ∧ h1 (.harm (xHarm discCell)) (.harm cubeHarm) discCell = .ok Real.pi ∧
    h1 (.harm cubeHarm) (.harm (xHarm discCell)) discCell = .ok (3 * Real.pi) := by
  have h := disc_ready.1
  have hc := disc_cols
  have hs := disc_steps
  refine ⟨⟨Trace.edges_bare _, rfl, fun _ _ => trivial, _, _, grad_x _, rfl, rfl⟩,
    ⟨Trace.edges_bare _, rfl, fun _ _ => trivial, _, _, cube_grad, rfl, rfl⟩, ?_, ?_⟩
  · have := pair_ok h disc_edges (normal_len h (fun _ _ => 1) fun _ _ => 0) (samples_len h cube)
    simp only [h1, h1HarmHarm, xHarm, cubeHarm, Trace.made, arr, attr, py_ok_bind]
    rw [this, pair, CellG.normalOf, CellG.samplesOf, hs, hc]
    simp [crossPt, dot, entrywise, cube]
    ring
  · have := pair_ok h disc_edges (normal_len h (fun x y => 3 * x ^ 2 - 3 * y ^ 2) fun x y => -(6 * x * y)) (samples_len h fun x _ => x)
    simp only [h1, h1HarmHarm, xHarm, cubeHarm, Trace.made, arr, attr, py_ok_bind]
    rw [this, pair, CellG.normalOf, CellG.samplesOf, hs, hc]
    simp [crossPt, dot, entrywise]
    ring

/-- C48 as stated is false for tiny coefficients: the L2 product of the polynomials `1` and `1e-7` on the disc is not zero, but that of `1e-7`
and `1e-7` is. -/
theorem C48_tiny_coefficient : ∃ (p r : LocPoly) (c : ℝ), PolyComb (1 / 10 ^ 7) 0 p.exact p.exact r.exact ∧ c ≠ 0 ∧
    l2 (.poly p) (.poly r) discCell = .ok c ∧ l2 (.poly r) (.poly r) discCell = .ok 0 := by
  refine ⟨{ exact := [⟨⟨0, 0⟩, 1⟩] }, { exact := [⟨⟨0, 0⟩, 1 / 10 ^ 7⟩] }, Real.pi / 10 ^ 7, fun x y => ?_, ?_, ?_, ?_⟩
  · simp [Poly.eval, Mono.eval]
  · have := Real.pi_pos; positivity
  · have hm : Poly.mul [⟨⟨0, 0⟩, 1⟩] [⟨⟨0, 0⟩, 1 / 10 ^ 7⟩] = (.ok [⟨⟨0, 0⟩, 1 / 10 ^ 7⟩] : Py (Poly ℝ)) := by
      have e : Poly.nz (Poly.prods [⟨⟨0, 0⟩, 1⟩] [⟨⟨0, 0⟩, 1 / 10 ^ 7⟩]) = ([⟨⟨0, 0⟩, 1 / 10 ^ 7⟩] : Poly ℝ) := by
        norm_num [Poly.prods, Poly.nz, Mono.times, Mono.isZero, tol, abs_of_pos]
        rfl
      rw [Poly.mul_eq, Poly.mulP, e, Poly.consolidate_eq_self (Poly.canonical_singleton (by norm_num [tol, abs_of_pos]))]
    simp only [l2, l2PolyPoly, hm, py_ok_bind]
    rw [integratePoly_ok disc_ready.1 disc_edges, disc_cols, disc_weights]
    simp [crossPt, dot, entrywise, radial]
    ring
  · have hm : Poly.mul [⟨⟨0, 0⟩, 1 / 10 ^ 7⟩] [⟨⟨0, 0⟩, 1 / 10 ^ 7⟩] = (.ok [] : Py (Poly ℝ)) := by
      have e : Poly.nz (Poly.prods [⟨⟨0, 0⟩, 1 / 10 ^ 7⟩] [⟨⟨0, 0⟩, 1 / 10 ^ 7⟩]) = ([] : Poly ℝ) := by
        norm_num [Poly.prods, Poly.nz, Mono.times, Mono.isZero, tol, abs_of_pos]
      rw [Poly.mul_eq, Poly.mulP, e, Poly.consolidate_eq_self Poly.Canonical.nil]
    simp only [l2, l2PolyPoly, hm, py_ok_bind]
    rw [integratePoly_ok disc_ready.1 disc_edges, disc_cols, disc_weights]
    simp [crossPt, dot, entrywise, radial]

end PFEM
