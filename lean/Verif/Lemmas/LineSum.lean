import Verif.Lemmas.KressRule
import Verif.Props.EdgeGeom
import Verif.Props.CellBoundary
import Verif.Spec.LineIntegral

/-!
Sums over sampled edges as Riemann sums of the integrand along the curve.
-/

namespace PFEM
open EdgeG Set

/-- a change of variables with its derivative, as one of the two rules of the dictionary has it -/
inductive RuleMap (p : ℕ) : String → (ℝ → ℝ) → (ℝ → ℝ) → Prop
  | trap : RuleMap p "trap" (fun t => t) (fun _ => 1)
  | kress : RuleMap p "kress" (Quad.kressT p) (Quad.kressW p)

/-- the nodes and weights of the rules are the values of a change of variables and of its derivative at equispaced points -/
theorem pick_map {n p : ℤ} {d : Quad × Quad} (hd : getQuadDict n p = .ok d) {qt : String} {q : Quad}
    (hq : pickQuad qt d = .ok q) :
    4 ≤ n ∧ 2 ≤ p ∧ ∃ lam W, RuleMap p.toNat qt lam W ∧
      q.t.zip q.wgt = (List.range (2 * n.toNat + 1)).map fun j => (lam ((j : ℕ) * (2 * Real.pi / (2 * n.toNat : ℕ))),
        W ((j : ℕ) * (2 * Real.pi / (2 * n.toNat : ℕ)))) := by
  obtain ⟨hn, hp⟩ := (C21_dict n p).1.1 ⟨d, hd⟩
  refine ⟨hn, hp, ?_⟩
  obtain ⟨a, ha, hd⟩ := bind_ok hd
  obtain ⟨b, hb, hd⟩ := bind_ok hd
  cases hd
  rw [Quad.init, if_neg (by omega)] at ha hb
  simp only [show ¬("trap" = "kress") by decide, show ¬("trap" = "mart") by decide, if_false, if_true] at ha hb
  rw [if_neg (by omega)] at hb
  cases ha
  cases hb
  unfold pickQuad at hq
  split at hq
  · next h =>
    cases hq
    refine ⟨fun t => t, fun _ => 1, by rw [h]; exact .trap, ?_⟩
    rw [show List.replicate (2 * n.toNat + 1) (1 : ℝ) = (List.range (2 * n.toNat + 1)).map fun _ => 1 by simp]
    simp only [Quad.nodes]
    rw [List.zip_map']
  · split at hq
    · next h =>
      cases hq
      refine ⟨Quad.kressT p.toNat, Quad.kressW p.toNat, by rw [h]; exact .kress, ?_⟩
      simp only [Quad.nodes, List.map_map]
      rw [List.zip_map']
      rfl
    · cases hq

/-- The curve that a library edge follows is unique. -/
theorem follows_unique {e : EdgeG} {C C' : PCurve} (h : e.Follows C) (h' : e.Follows C') : C = C' := by
  obtain ⟨γ, g1, g2, rfl⟩ := h
  obtain ⟨γ', g1', g2', rfl⟩ := h'
  have hx : γ.x = γ'.x := by
    funext t
    have := (g2 t).symm.trans (g2' t)
    simp only [Except.ok.injEq, Prod.mk.injEq] at this
    exact this.1
  have hy : γ.y = γ'.y := by
    funext t
    have := (g2 t).symm.trans (g2' t)
    simp only [Except.ok.injEq, Prod.mk.injEq] at this
    exact this.2
  have hdx : γ.dx = γ'.dx := by
    funext t
    exact (g1 t).1.unique (hx ▸ (g1' t).1)
  have hdy : γ.dy = γ'.dy := by
    funext t
    exact (g1 t).2.1.unique (hy ▸ (g1' t).2.1)
  have hddx : γ.ddx = γ'.ddx := by
    funext t
    exact (g1 t).2.2.1.unique (hdx ▸ (g1' t).2.2.1)
  have hddy : γ.ddy = γ'.ddy := by
    funext t
    exact (g1 t).2.2.2.unique (hdy ▸ (g1' t).2.2.2)
  cases γ; cases γ'
  simp only at hx hy hdx hdy hddx hddy
  subst hx hy hdx hdy hddx hddy
  rfl

theorem follows_smooth {e : EdgeG} {C : PCurve} (h : e.Follows C) : C.Smooth := by
  obtain ⟨γ, g1, -, rfl⟩ := h
  have : (γ.retime e.tBounds.1 ((e.tBounds.2 - e.tBounds.1) / (2 * Real.pi))).Smooth := g1.retime _ _
  revert this
  generalize γ.retime e.tBounds.1 ((e.tBounds.2 - e.tBounds.1) / (2 * Real.pi)) = C
  generalize e.diary = l
  intro h
  induction l generalizing C with
  | nil => exact h
  | cons o l ih => exact ih _ (EdgeOp.act_smooth h o)

/-- the sampled arrays of an edge after parameterization and further actions -/
theorem follows_pts {n p : ℤ} {d : Quad × Quad} (hd : getQuadDict n p = .ok d) {e e1 e2 : EdgeG} {C : PCurve}
    (hC : e.Follows C) {acts : List EdgeAct} (hdi : ∀ o ∈ e.diary, o.Good) (hac : ∀ a ∈ acts, a.Good)
    (h1 : e.parameterize d = .ok e1) (h2 : e1.run acts = .ok e2) :
    4 ≤ n ∧ 2 ≤ p ∧ ∃ lam W, RuleMap p.toNat e.quadType lam W ∧
      e2.pts = some ((acts.foldl (fun C a => a.act C) C).samples ((List.range (2 * n.toNat + 1)).map fun j =>
        (lam ((j : ℕ) * (2 * Real.pi / (2 * n.toNat : ℕ))), W ((j : ℕ) * (2 * Real.pi / (2 * n.toNat : ℕ)))))) := by
  obtain ⟨q, γ, hq, g1, g2, g3⟩ := C22_samples_partial hd acts hdi hac h1 h2
  obtain ⟨hn, hp, lam, W, hr, hz⟩ := pick_map hd hq
  refine ⟨hn, hp, lam, W, hr, ?_⟩
  rw [follows_unique hC ⟨γ, g1, g2, rfl⟩, g3, hz]

/-- `G C` is the integrand along the curve `C` of the quantity that the arrays hold as `φ` -/
def Density (φ : Sample → ℝ) (G : PCurve → ℝ → ℝ) : Prop := ∀ (C : PCurve) t g, φ (C.sample t g) * C.speed t = G C t

theorem speed_zero {C : PCurve} {t : ℝ} (h : C.speed t = 0) : C.dx t = 0 ∧ C.dy t = 0 := by
  have h0 : 0 ≤ C.dx t ^ 2 + C.dy t ^ 2 := by positivity
  have := (Real.sqrt_eq_zero h0).1 h
  constructor <;> nlinarith [sq_nonneg (C.dx t), sq_nonneg (C.dy t)]

theorem density_line (f : ℝ → ℝ → ℝ) :
    Density (fun s => f s.x s.y) (fun C s => f (C.x s) (C.y s) * C.speed s) := fun _ _ _ => rfl

theorem density_flux (f g : ℝ → ℝ → ℝ) : Density (fun s => f s.x s.y * s.nx + g s.x s.y * s.ny)
    (fun C s => f (C.x s) (C.y s) * C.dy s - g (C.x s) (C.y s) * C.dx s) := by
  intro C t w
  simp only [PCurve.sample]
  by_cases h : C.speed t = 0
  · obtain ⟨h1, h2⟩ := speed_zero h
    simp [h, h1, h2]
  · field_simp
    ring

theorem density_circulation (f g : ℝ → ℝ → ℝ) : Density (fun s => f s.x s.y * s.tx + g s.x s.y * s.ty)
    (fun C s => f (C.x s) (C.y s) * C.dx s + g (C.x s) (C.y s) * C.dy s) := by
  intro C t w
  simp only [PCurve.sample]
  by_cases h : C.speed t = 0
  · obtain ⟨h1, h2⟩ := speed_zero h
    simp [h, h1, h2]
  · field_simp

/-- the sum that a contour makes over the block of an edge -/
noncomputable def edgeSum (φ : Sample → ℝ) (e : EdgeG) : ℝ := dot (e.cols.map φ) e.weights

theorem edgeSum_eq {φ : Sample → ℝ} {G : PCurve → ℝ → ℝ} (hG : Density φ G) {e : EdgeG} {C : PCurve} {N : ℕ}
    {lam W : ℝ → ℝ} (h : e.pts = some (C.samples ((List.range (N + 1)).map fun j =>
      (lam ((j : ℕ) * (2 * Real.pi / (N : ℕ))), W ((j : ℕ) * (2 * Real.pi / (N : ℕ))))))) :
    edgeSum φ e = lsum (2 * Real.pi) N (fun t => G C (lam t) * W t) := by
  have hc : e.cols = (List.range N).map fun j : ℕ => C.sample (lam ((j : ℕ) * (2 * Real.pi / (N : ℕ))))
      (W ((j : ℕ) * (2 * Real.pi / (N : ℕ)))) := by
    simp only [EdgeG.cols, h, Option.getD_some, PCurve.samples, List.range_succ, List.map_append, List.map_cons, List.map_nil,
      List.dropLast_concat, List.map_map]
    rfl
  rw [edgeSum, dot, entrywise, EdgeG.weights, hc, List.length_map, List.length_range, List.map_map, List.map_map,
    List.zipWith_map, List.zipWith_self, lsum, Finset.mul_sum, ← List.sum_toFinset _ List.nodup_range,
    List.toFinset_range]
  refine Finset.sum_congr rfl fun j _ => ?_
  simp only [Function.comp]
  rw [← hG C _ (W ((j : ℕ) * (2 * Real.pi / (N : ℕ))))]
  simp only [PCurve.sample]
  ring

/-! ### trapezoid sums over one edge -/

theorem trapezoid_concat (h a b : ℝ) : ∀ l : List ℝ, trapezoid h (l ++ [a, b]) = trapezoid h (l ++ [a]) + h * (a + b) / 2
  | [] => by simp [trapezoid]
  | [x] => by simp [trapezoid]
  | x :: y :: l => by
    have := trapezoid_concat h a b (y :: l)
    simp only [List.cons_append, trapezoid] at this ⊢
    rw [this]
    ring

theorem trapezoid_range (h : ℝ) (F : ℕ → ℝ) (N : ℕ) : trapezoid h ((List.range (N + 1)).map F) =
    h * ∑ j ∈ Finset.range N, F j + h * ((F N - F 0) / 2) := by
  induction N with
  | zero => simp [trapezoid]
  | succ N ih =>
    rw [List.range_succ, List.range_succ]
    simp only [List.map_append, List.map_cons, List.map_nil, List.append_assoc, List.cons_append, List.nil_append]
    rw [trapezoid_concat]
    have e : (List.range N).map F ++ [F N] = (List.range (N + 1)).map F := by simp [List.range_succ]
    rw [e, ih, Finset.sum_range_succ]
    ring

theorem edge_tsum {φ : Sample → ℝ} {G : PCurve → ℝ → ℝ} (hG : Density φ G) {e : EdgeG} {C : PCurve} {N : ℕ} (hN : 1 ≤ N)
    {lam W : ℝ → ℝ} (h : e.pts = some (C.samples ((List.range (N + 1)).map fun j =>
      (lam ((j : ℕ) * (2 * Real.pi / (N : ℕ))), W ((j : ℕ) * (2 * Real.pi / (N : ℕ))))))) :
    ∃ L, e.pts = some L ∧ e.integrate (L.map φ) false = .ok (tsum (2 * Real.pi) N (fun t => G C (lam t) * W t)) := by
  refine ⟨_, h, ?_⟩
  rw [(C27_trapezoid h (by simp [PCurve.samples]; omega) _).1 (by simp)]
  congr 1
  have hNp : (N : ℝ) ≠ 0 := by positivity
  have hl : (((C.samples ((List.range (N + 1)).map fun j => (lam ((j : ℕ) * (2 * Real.pi / (N : ℕ))),
      W ((j : ℕ) * (2 * Real.pi / (N : ℕ)))))).length : ℝ) - 1) = N := by
    simp [PCurve.samples]
  rw [hl, entrywise, PCurve.samples, List.map_map, List.map_map, List.map_map, List.map_map, List.zipWith_map,
    List.zipWith_self]
  have e : ((List.range (N + 1)).map fun j => ((φ ∘ fun p : ℝ × ℝ => C.sample p.1 p.2) ∘ fun j : ℕ =>
      (lam ((j : ℕ) * (2 * Real.pi / (N : ℕ))), W ((j : ℕ) * (2 * Real.pi / (N : ℕ))))) j *
      ((Sample.dxNorm ∘ fun p : ℝ × ℝ => C.sample p.1 p.2) ∘ fun j : ℕ =>
      (lam ((j : ℕ) * (2 * Real.pi / (N : ℕ))), W ((j : ℕ) * (2 * Real.pi / (N : ℕ))))) j) =
      (List.range (N + 1)).map fun j : ℕ => (fun t => G C (lam t) * W t) (j * (2 * Real.pi / N)) := by
    refine List.map_congr_left fun j _ => ?_
    simp only [Function.comp]
    rw [← hG C _ (W ((j : ℕ) * (2 * Real.pi / (N : ℕ))))]
    simp only [PCurve.sample]
    ring
  have e' := congrArg (trapezoid (2 * Real.pi / N)) e
  rw [trapezoid_range (2 * Real.pi / N) (fun j : ℕ => (fun t => G C (lam t) * W t) (j * (2 * Real.pi / N)))] at e'
  refine e'.trans ?_
  rw [tsum, lsum]
  have : (N : ℝ) * (2 * Real.pi / N) = 2 * Real.pi := by field_simp
  simp only [this, Nat.cast_zero, zero_mul]

/-! ### sums over the boundary of a cell -/

theorem cell_sum {K : CellG} (h : K.Ready) (hU : Uniform K) (φ : Sample → ℝ) :
    K.integrate (K.cols.map φ) = .ok ((K.components.flatMap ContourG.edges).map (edgeSum φ)).sum := by
  obtain ⟨Is, h1, h2⟩ := C33_integral_components h hU (us := K.components.map fun c => c.cols.map φ) (by
    simp [Fits, Function.comp_def])
  have hf : (K.components.map fun c => c.cols.map φ).flatten = K.cols.map φ := by
    simp [CellG.cols, List.flatMap, List.map_flatten, Function.comp_def]
  rw [hf] at h2
  rw [h2]
  congr 1
  have hc : ∀ c ∈ K.components, c.integrate (c.cols.map φ) = .ok (c.edges.map (edgeSum φ)).sum := by
    intro c hc
    have := (h.ready c hc).integrate (us := c.edges.map fun e => e.cols.map φ) (by simp [Function.comp_def])
    have hf : (c.edges.map fun e => e.cols.map φ).flatten = c.cols.map φ := by
      simp [ContourG.cols, List.flatMap, List.map_flatten, Function.comp_def]
    rw [hf] at this
    rw [this, List.zipWith_map_right, List.zipWith_self]
    rfl
  clear h2 hf h hU
  generalize K.components = l at h1 hc
  induction l generalizing Is with
  | nil =>
    simp only [List.map_nil, List.zip_nil_left, List.forall₂_nil_left_iff] at h1
    simp [h1]
  | cons c l ih =>
    simp only [List.map_cons, List.zip_cons_cons, List.forall₂_cons_left_iff] at h1
    obtain ⟨I, Is', k1, k2, rfl⟩ := h1
    have k3 := hc c (by simp)
    rw [k1, Except.ok.injEq] at k3
    simp only [List.flatMap_cons, List.map_append, List.sum_append, List.sum_cons]
    rw [ih Is' k2 (fun c hc' => hc c (by simp [hc'])), k3]

/-- an edge of a sampled contour -/
def SampledFrom (d : Quad × Quad) (q : EdgeG × ℤ) (e' : EdgeG) : Prop :=
  ∃ e1, q.1.parameterize d = .ok e1 ∧ e' = if q.2 = -1 then e1.reverse else e1

theorem sampleEdges_rel {d : Quad × Quad} : ∀ {es : List EdgeG} {os : List ℤ} {r : List EdgeG}, es.length = os.length →
    ContourG.sampleEdges d es os = .ok r → List.Forall₂ (SampledFrom d) (es.zip os) r
  | [], os, r, hl, h => by
    cases os with
    | nil => cases h; exact .nil
    | cons o os => simp at hl
  | e :: es, [], r, hl, h => by simp at hl
  | e :: es, o :: os, r, hl, h => by
    obtain ⟨e1, h1, h⟩ := bind_ok h
    obtain ⟨r', hr, h⟩ := bind_ok h
    cases h
    exact .cons ⟨e1, h1, rfl⟩ (sampleEdges_rel (by simpa using hl) hr)

theorem contour_rel {d : Quad × Quad} {c c1 : ContourG} (hl : c.edges.length = c.orients.length)
    (h : c.parameterize d = .ok c1) : List.Forall₂ (SampledFrom d) (c.edges.zip c.orients) c1.edges := by
  obtain ⟨es, hes, h⟩ := bind_ok h
  have hr := sampleEdges_rel hl hes
  obtain ⟨ca, ha, h⟩ := bind_ok h
  obtain ⟨-, -, ha⟩ := bind_ok ha
  cases ha
  obtain ⟨cb, hb, h⟩ := bind_ok h
  obtain ⟨-, -, hb⟩ := bind_ok hb
  cases hb
  obtain ⟨-, -, h⟩ := bind_ok h
  obtain ⟨l, -, h⟩ := bind_ok h
  cases h
  exact hr

theorem cell_rel {n p : ℤ} {d : Quad × Quad} (hd : getQuadDict n p = .ok d) {inside : InsideTest} {fuel : ℕ}
    {K K1 : CellG} (hK : K.Shaped) (h : K.parameterize inside fuel d = some (.ok K1)) :
    K1.Ready ∧ Uniform K1 ∧ ∃ es, (K1.components.flatMap ContourG.edges).Perm es ∧
      List.Forall₂ (SampledFrom d) (K.components.flatMap fun c => c.edges.zip c.orients) es := by
  obtain ⟨⟨cs, hp, hF⟩, -, -, h1, h2⟩ := C33_parameterize hd (fun c hc => (hK c hc).2) h
  refine ⟨h1, h2 fun c hc => (hK c hc).1, cs.flatMap ContourG.edges, hp.flatMap_right _, ?_⟩
  unfold CellG.Shaped at hK
  generalize K.components = l at hF hK
  clear hp h1 h2 h
  induction hF with
  | nil => exact .nil
  | @cons c c' l l' hc hl ih =>
    simp only [List.flatMap_cons]
    refine List.rel_append ?_ (ih fun c hc => hK c (by simp [hc]))
    obtain ⟨c1, k1, k2⟩ := hc
    obtain ⟨pt, rfl⟩ := findInterior_fields k2
    exact (contour_rel (hK c (by simp)).2 k1 : _)

end PFEM
