import Verif.Props.LocInit
import Verif.Props.Masks
import Verif.Spec.Plot

/-!
Property theorems C90 (gradients on the boundary in plots), C91 (what a plot of a local function shows) and C92 (plots
leave the function as it is).
-/

namespace PFEM
open Plot

/-! ### the gradient on the boundary -/

theorem getDxNorm_eq {K : CellG} (h : K.Ready) : K.getDxNorm = .ok (K.cols.map Sample.dxNorm) := by
  have e : List.replicate K.numPts (1 : ℝ) = K.cols.map fun _ => (1 : ℝ) := by rw [h.numPts]; simp
  rw [CellG.getDxNorm, e, dx_map h]
  simp

theorem bin_maps' {α β γ δ : Type} (l : List α) (a : α → β) (b : α → γ) (f : β → γ → δ) :
    Np.bin f (l.map a) (l.map b) = .ok (l.map fun s => f (a s) (b s)) := by
  rw [bin_eq _ (by simp), List.zipWith_map, List.zipWith_self]

theorem normal_map {K : CellG} (h : K.Ready) (a b : Sample → ℝ) :
    K.dotWithNormal (K.cols.map a) (K.cols.map b) = .ok (K.cols.map fun s => a s * s.nx + b s * s.ny) := by
  rw [h.dotWithNormal (by simp) (by simp), zip_maps]

/-- C90: `get_unit_tangent`, `get_unit_normal` and `get_dx_norm` return the tangents, normals and weighted speeds of all
samples of the boundary, in their order. -/
theorem C90_frames {K : CellG} (h : K.Ready) : K.getUnitTangent = .ok (K.cols.map Sample.tx, K.cols.map Sample.ty) ∧
    K.getUnitNormal = .ok (K.cols.map Sample.nx, K.cols.map Sample.ny) ∧ K.getDxNorm = .ok (K.cols.map Sample.dxNorm) := by
  have e1 : List.replicate K.numPts (1 : ℝ) = K.cols.map fun _ => (1 : ℝ) := by rw [h.numPts]; simp
  have e0 : List.replicate K.numPts (0 : ℝ) = K.cols.map fun _ => (0 : ℝ) := by rw [h.numPts]; simp
  refine ⟨?_, ?_, getDxNorm_eq h⟩
  · simp only [CellG.getUnitTangent, e1, e0, tangent_map h, py_ok_bind]; simp
  · simp only [CellG.getUnitNormal, e1, e0, normal_map h, py_ok_bind]; simp

/-- the four arrays of derivatives that a gradient plot reads -/
structure PlotDerivs (f : LocPoisson) (K : CellG) (hn ht pn pt : Sample → ℝ) : Prop where
  cell : f.cell = some K
  harm : ∃ h, f.harm = some h ∧ h.trace.wnd = some (K.cols.map hn) ∧ h.trace.wtd = some (K.cols.map ht)
  poly : ∃ p t, f.poly = some p ∧ p.trace = some t ∧ t.wnd = some (K.cols.map pn) ∧ t.wtd = some (K.cols.map pt)

theorem boundaryGradient_eq {f : LocPoisson} {K : CellG} (hK : K.Ready) {hn ht pn pt : Sample → ℝ} (h : PlotDerivs f K hn ht pn pt) :
    boundaryGradient f 1 = .ok (K.cols.map fun s => cut (s.nx * (hn s + pn s) + s.tx * (ht s + pt s)) s.dxNorm) ∧
    boundaryGradient f 2 = .ok (K.cols.map fun s => cut (s.ny * (hn s + pn s) + s.ty * (ht s + pt s)) s.dxNorm) ∧
    ∀ j, j ≠ 1 → j ≠ 2 → boundaryGradient f j = .error .valueError := by
  obtain ⟨hc, ⟨k, hk, h1, h2⟩, p, t, hp, hpt, h3, h4⟩ := h
  have e1 : List.replicate K.numPts (1 : ℝ) = K.cols.map fun _ => (1 : ℝ) := by rw [hK.numPts]; simp
  have e0 : List.replicate K.numPts (0 : ℝ) = K.cols.map fun _ => (0 : ℝ) := by rw [hK.numPts]; simp
  refine ⟨?_, ?_, fun j j1 j2 => ?_⟩
  · simp only [boundaryGradient, hk, hp, hpt, hc, Trace.attr, h1, h2, h3, h4, getDeriv, py_ok_bind, e1, e0, if_true,
      normal_map hK, tangent_map hK, bin_maps', getDxNorm_eq hK]
    simp
  · simp only [boundaryGradient, hk, hp, hpt, hc, Trace.attr, h1, h2, h3, h4, getDeriv, py_ok_bind, e1, e0, if_true,
      normal_map hK, tangent_map hK, bin_maps', getDxNorm_eq hK, show ¬(2 : ℤ) = 1 by decide, if_false]
    simp
  · simp only [boundaryGradient, hk, hp, hpt, hc, Trace.attr, h1, h2, h3, h4, getDeriv, py_ok_bind, j1, j2, if_false,
      py_error_bind]

theorem cut_shown (s : Sample) (g : ℝ) : cut (g * s.dxNorm) s.dxNorm = shown s g := by
  unfold cut shown
  split
  · rfl
  · rename_i h
    have : s.dxNorm ≠ 0 := by
      intro h0; rw [h0] at h; exact h (by positivity)
    rw [mul_div_cancel_right₀ _ this]

theorem grad_congr {S : Set (ℝ × ℝ)} (hS : IsOpen S) {u v : ℝ → ℝ → ℝ} (h : ∀ x y, (x, y) ∈ S → u x y = v x y) {x y g1 g2 : ℝ}
    (hx : (x, y) ∈ S) (hg : HasGrad v x y g1 g2) : HasGrad u x y g1 g2 := by
  have c1 : Continuous fun s : ℝ => (s, y) := by fun_prop
  have c2 : Continuous fun s : ℝ => (x, s) := by fun_prop
  constructor
  · refine hg.1.congr_of_eventuallyEq ?_
    filter_upwards [c1.continuousAt.preimage_mem_nhds (hS.mem_nhds hx)] with s hs
    exact h s y hs
  · refine hg.2.congr_of_eventuallyEq ?_
    filter_upwards [c2.continuousAt.preimage_mem_nhds (hS.mem_nhds hx)] with s hs
    exact h x s hs

/-- the derivatives of an object that holds `u` are those of `u` -/
theorem Holds.derivs {K : CellG} {S : Set (ℝ × ℝ)} (hS : IsOpen S) {f : LocPoisson} (hc : f.cell = some K) {u g1 g2 : ℝ → ℝ → ℝ}
    (hf : f.Holds K S u) (hg : HasGradOn S u g1 g2) : ∃ hn ht pn pt, PlotDerivs f K hn ht pn pt ∧ ∀ s ∈ K.cols,
      hn s + pn s = (g1 s.x s.y * s.nx + g2 s.x s.y * s.ny) * s.dxNorm ∧
      ht s + pt s = (g1 s.x s.y * s.tx + g2 s.x s.y * s.ty) * s.dxNorm := by
  obtain ⟨h, p, φ, P, hh, hp, Hh, Hp, hu⟩ := hf
  obtain ⟨-, -, hs, a1, a2, ha, hn, ht⟩ := Hh.trace
  obtain ⟨t, htr, -, -, -, b1, b2, hb, pn, pt⟩ := Hp.trace
  refine ⟨_, _, _, _, ⟨hc, ⟨h, hh, hn, ht⟩, p, t, hp, htr, pn, pt⟩, fun s hsm => ?_⟩
  have hm := hs s hsm
  have hA := ha _ _ hm
  have hB := hb s.x s.y trivial
  have hsum : HasGrad (fun x y => φ x y + P x y) s.x s.y (a1 s.x s.y + b1 s.x s.y) (a2 s.x s.y + b2 s.x s.y) :=
    ⟨hA.1.add hB.1, hA.2.add hB.2⟩
  have hU := grad_congr hS hu hm hsum
  have e1 := (hg _ _ hm).1.unique hU.1
  have e2 := (hg _ _ hm).2.unique hU.2
  rw [e1, e2]
  constructor <;> ring

/-- C90 (in part): let `f` hold a function `u` with gradient `(g1, g2)` near the samples of a cell.  Then the gradient
components that the plots use on the boundary are `g1` and `g2` at the samples, left out where the weighted speed is below
`10⁻⁸` or the component above `1000`.  Missing: that components below `-1000` are left out, too (`C90_violated`). -/
theorem C90_gradient_partial {K : CellG} (hK : K.Ready) (hF : K.Frames) {S : Set (ℝ × ℝ)} (hS : IsOpen S) {f : LocPoisson}
    (hc : f.cell = some K) {u g1 g2 : ℝ → ℝ → ℝ} (hf : f.Holds K S u) (hg : HasGradOn S u g1 g2) :
    boundaryGradient f 1 = .ok (K.cols.map fun s => shown s (g1 s.x s.y)) ∧
    boundaryGradient f 2 = .ok (K.cols.map fun s => shown s (g2 s.x s.y)) := by
  obtain ⟨hn, ht, pn, pt, hD, he⟩ := Holds.derivs hS hc hf hg
  obtain ⟨h1, h2, -⟩ := boundaryGradient_eq hK hD
  rw [h1, h2]
  refine ⟨congrArg _ (List.map_congr_left fun s hs => ?_), congrArg _ (List.map_congr_left fun s hs => ?_)⟩
  · obtain ⟨t1, n1, n2⟩ := hF s hs
    rw [(he s hs).1, (he s hs).2, ← cut_shown]
    congr 1
    rw [n1, n2]
    linear_combination (g1 s.x s.y * s.dxNorm) * t1
  · obtain ⟨t1, n1, n2⟩ := hF s hs
    rw [(he s hs).1, (he s hs).2, ← cut_shown]
    congr 1
    rw [n1, n2]
    linear_combination (g2 s.x s.y * s.dxNorm) * t1

/-- the errors: a missing derivative, or another component than the first and the second -/
theorem C90_errors {f : LocPoisson} {h : LocHarm} {p : LocPoly} {t : Trace} (hh : f.harm = some h) (hp : f.poly = some p)
    (ht : p.trace = some t) (j : ℤ) :
    ((h.trace.wnd = none ∨ h.trace.wtd = none ∨ t.wnd = none ∨ t.wtd = none) → boundaryGradient f j = .error .valueError) ∧
    (∀ K, f.cell = some K → j ≠ 1 → j ≠ 2 → boundaryGradient f j = .error .valueError) := by
  constructor
  · intro hn
    unfold boundaryGradient
    cases e1 : h.trace.wnd <;> cases e2 : h.trace.wtd <;> cases e3 : t.wnd <;> cases e4 : t.wtd <;>
      simp_all [Trace.attr, getDeriv, py_ok_bind, py_error_bind]
  · intro K hK j1 j2
    unfold boundaryGradient
    cases e1 : h.trace.wnd <;> cases e2 : h.trace.wtd <;> cases e3 : t.wnd <;> cases e4 : t.wtd <;>
      simp_all [Trace.attr, getDeriv, py_ok_bind, py_error_bind]

theorem disc_frames : discCell.Frames := by
  intro s hs
  simp [discCell, CellG.cols, cross_cols, crossPt] at hs
  rcases hs with rfl | rfl | rfl | rfl <;> norm_num

/-- C90 is violated: of the functions `2000 (x + 1)` and `-2000 (x + 1)` on a disc, the first has no gradient on the boundary
in a plot, the second one has. -/
theorem C90_violated : ∃ f g : LocPoisson, f.Holds discCell Set.univ (fun x _ => 2000 * (x + 1)) ∧
    g.Holds discCell Set.univ (fun x _ => -2000 * (x + 1)) ∧
    boundaryGradient f 1 = .ok (discCell.cols.map fun _ => none) ∧
    boundaryGradient g 1 = .ok (discCell.cols.map fun _ => some (-2000)) := by
  obtain ⟨f, ho, hh, hl⟩ := disc_poisson
  have key : ∀ c : ℝ, 4 / 10 ^ 12 ≤ |c| → ∃ r : LocPoisson, r.Holds discCell Set.univ (fun x _ => c * (x + 1)) ∧
      boundaryGradient r 1 = .ok (discCell.cols.map fun s => shown s c) := by
    intro c hc
    obtain ⟨r, hr, h1⟩ := (C47_multiples_partial ho hh (δ := 1 / 4) (by norm_num) hl c).1 (by linarith)
    obtain ⟨r', hr', ho', -⟩ := poisson_mul ho c
    rw [hr] at hr'; cases hr'
    have hg : HasGradOn Set.univ (fun x _ => c * (x + 1)) (fun _ _ => c) fun _ _ => 0 := fun x y _ =>
      ⟨(((hasDerivAt_id x).add_const 1).const_mul c).congr_deriv (by simp), hasDerivAt_const _ _⟩
    exact ⟨r, h1, (C90_gradient_partial disc_ready.1 disc_frames isOpen_univ ho'.cell h1 hg).1⟩
  have hs : ∀ s ∈ discCell.cols, ¬s.dxNorm < 1 / 10 ^ 8 := by
    intro s hs
    simp [discCell, CellG.cols, cross_cols, crossPt] at hs
    rcases hs with rfl | rfl | rfl | rfl <;> norm_num
  obtain ⟨r, h1, h2⟩ := key 2000 (by norm_num)
  obtain ⟨r', h1', h2'⟩ := key (-2000) (by norm_num)
  refine ⟨r, r', h1, h1', h2.trans (congrArg _ (List.map_congr_left fun s hm => ?_)),
    h2'.trans (congrArg _ (List.map_congr_left fun s hm => ?_))⟩
  · rw [shown, if_neg (hs s hm), if_pos (by norm_num)]
  · rw [shown, if_neg (hs s hm), if_neg (by norm_num)]

/-! ### what is drawn -/

/-- a corner of the triangle has no value -/
def badT (vals : List (Option ℝ)) (t : ℕ × ℕ × ℕ) : Bool :=
  (vals.getD t.1 none).isNone || (vals.getD t.2.1 none).isNone || (vals.getD t.2.2 none).isNone

theorem badTriangle_eq {vals : List (Option ℝ)} {t : ℕ × ℕ × ℕ} (h : t.1 < vals.length ∧ t.2.1 < vals.length ∧ t.2.2 < vals.length) :
    badTriangle vals t = .ok (badT vals t) := by
  simp [badTriangle, badT, Np.get, h.1, h.2.1, h.2.2, py_ok_bind, List.getD]

theorem badT_iff {vals : List (Option ℝ)} {t : ℕ × ℕ × ℕ} (h : t.1 < vals.length ∧ t.2.1 < vals.length ∧ t.2.2 < vals.length) :
    badT vals t = true ↔ ∃ a ∈ [t.1, t.2.1, t.2.2], vals[a]? = some none := by
  simp [badT, List.getD, h.1, h.2.1, h.2.2, or_assoc]

theorem applyMasks_interp {K : CellG} {R : Triangulated} (hR : R.Of K) {vals : List (Option ℝ)} (hv : vals.length = K.cloud.length) :
    applyMasks R true vals = .ok (List.zipWith (· || ·) R.holeMask (R.tri.triangles.map (badT vals))) := by
  have h1 : ContourG.mapPy (badTriangle vals) R.tri.triangles = .ok (R.tri.triangles.map (badT vals)) :=
    mapPy_ok fun t ht => badTriangle_eq (by rw [hv]; exact hR.corners t ht)
  simp only [applyMasks, h1, py_ok_bind, bin_eq (· || ·) (show R.holeMask.length = (R.tri.triangles.map (badT vals)).length by
    rw [List.length_map, hR.holes]), if_true, hR.x, List.length_map, hv]

/-- what the masks do: a triangle is left out exactly if it lies in a hole or a corner has no value -/
theorem masks_iff {K : CellG} {R : Triangulated} (hR : R.Of K) {vals : List (Option ℝ)} (hv : vals.length = K.cloud.length) {k : ℕ}
    {t : ℕ × ℕ × ℕ} (hk : R.tri.triangles[k]? = some t) :
    (List.zipWith (· || ·) R.holeMask (R.tri.triangles.map (badT vals)))[k]? = some true ↔
      R.holeMask[k]? = some true ∨ ∃ a ∈ [t.1, t.2.1, t.2.2], vals[a]? = some none := by
  obtain ⟨hk', rfl⟩ := List.getElem?_eq_some_iff.1 hk
  have hm : k < R.holeMask.length := by rw [hR.holes]; exact hk'
  rw [← badT_iff (by rw [hv]; exact hR.corners _ (List.getElem_mem hk'))]
  simp [hm, hk']

theorem boundaryValues_eq {K : CellG} {S : Set (ℝ × ℝ)} {f : LocPoisson} {u : ℝ → ℝ → ℝ} (hf : f.Holds K S u) :
    boundaryValues f = .ok (K.cols.map fun s => some (u s.x s.y)) := by
  obtain ⟨h, p, φ, P, hh, hp, Hh, Hp, hu⟩ := hf
  obtain ⟨-, hv, hs, -⟩ := Hh.trace
  obtain ⟨t, htr, -, pv, -⟩ := Hp.trace
  simp only [boundaryValues, hh, hp, htr, hv, pv, Trace.attr, py_ok_bind, CellG.samplesOf, bin_maps', List.map_map,
    Function.comp_def]
  refine congrArg _ (List.map_congr_left fun s hsm => ?_)
  rw [hu _ _ (hs s hsm)]

theorem full_mask {K : CellG} {R : Triangulated} (hR : R.Of K) (g : ℝ × ℝ → ℝ) :
    List.zipWith (· || ·) R.holeMask (R.tri.triangles.map (badT (K.cloud.map fun p => some (g p)))) = R.holeMask := by
  apply List.ext_getElem
  · simp [hR.holes]
  · intro k h1 h2
    simp only [List.getElem_zipWith, List.getElem_map]
    have hk : k < R.tri.triangles.length := by rw [← hR.holes]; exact h2
    have hc := hR.corners _ (List.getElem_mem hk)
    simp [badT, List.getD, hc.1, hc.2.1, hc.2.2]

/-- C91 (in part): with `use_interp`, a plot of the values of `u` shows at every triangulated point the value of `u` there,
on all triangles outside the holes; with `use_log10` it shows the logarithm, values below `10⁻¹⁶` counting as `10⁻¹⁶`.
Missing: plots without `use_interp` (`C91_violated`). -/
theorem C91_values_partial {K : CellG} {R : Triangulated} (hR : R.Of K) {S : Set (ℝ × ℝ)} {f : LocPoisson}
    {u : ℝ → ℝ → ℝ} (hf : f.Holds K S u) (hi : f.intVals = some (K.interiorOf u)) :
    drawLocal f R true "values" false = (f, .ok (K.cloud.map fun p => some (u p.1 p.2), R.holeMask)) ∧
    drawLocal f R true "values" true =
      (f, .ok (K.cloud.map fun p => some (Real.logb 10 (max (u p.1 p.2) (1 / 10 ^ 16))), R.holeMask)) := by
  have hval : (K.interiorOf u).map some ++ (K.cols.map fun s => some (u s.x s.y)) = K.cloud.map fun p => some (u p.1 p.2) := by
    simp [CellG.interiorOf, CellG.cloud, Function.comp_def]
  have hclip : ∀ x : ℝ, clip x = max x (1 / 10 ^ 16) := by
    intro x
    rw [clip]
    split_ifs with hx
    · rw [max_eq_right hx.le]
    · rw [max_eq_left (not_lt.1 hx)]
  have hd : plotVals f true "values" false = (f, .ok (K.cloud.map fun p => some (u p.1 p.2))) := by
    simp [plotVals, plotData, boundaryValues_eq hf, hi, Except.map, py_ok_bind, ← hval]
  have hd' : plotVals f true "values" true = (f, .ok (K.cloud.map fun p => some (Real.logb 10 (max (u p.1 p.2) (1 / 10 ^ 16))))) := by
    simp only [plotVals, plotData, boundaryValues_eq hf, hi, Except.map, py_ok_bind, if_true, hval, List.map_map, Function.comp_def,
      Option.map_some, hclip]
  constructor
  · simp only [drawLocal, hd, py_ok_bind, applyMasks_interp hR (vals := K.cloud.map fun p => some (u p.1 p.2)) (by simp),
      full_mask hR fun p => u p.1 p.2]
  · simp only [drawLocal, hd', py_ok_bind, applyMasks_interp hR
      (vals := K.cloud.map fun p => some (Real.logb 10 (max (u p.1 p.2) (1 / 10 ^ 16)))) (by simp),
      full_mask hR fun p => Real.logb 10 (max (u p.1 p.2) (1 / 10 ^ 16))]

/-- the values of a gradient plot at the triangulated points: the gradient inside, what is shown of it on the boundary -/
noncomputable def gradValues (K : CellG) (g : ℝ → ℝ → ℝ) : List (Option ℝ) :=
  (K.interior.map fun p => some (g p.1 p.2)) ++ K.cols.map fun s => shown s (g s.x s.y)

/-- the same for the norm of the gradient -/
noncomputable def normValues (K : CellG) (g1 g2 : ℝ → ℝ → ℝ) : List (Option ℝ) :=
  (K.interior.map fun p => some (Real.sqrt (g1 p.1 p.2 ^ 2 + g2 p.1 p.2 ^ 2))) ++
    K.cols.map fun s => if shown s (g1 s.x s.y) = none ∨ shown s (g2 s.x s.y) = none then none
      else some (Real.sqrt (g1 s.x s.y ^ 2 + g2 s.x s.y ^ 2))

theorem hypot_shown (s : Sample) (a b : ℝ) : hypot (shown s a) (shown s b) =
    if shown s a = none ∨ shown s b = none then none else some (Real.sqrt (a ^ 2 + b ^ 2)) := by
  unfold shown
  split_ifs <;> simp_all [hypot]

/-- C91 (in part): with `use_interp`, a plot of the gradient of `u` shows at every triangulated point the component (or the
norm) of the gradient there, on all triangles outside the holes whose corners have a value. -/
theorem C91_gradient_partial {K : CellG} (hK : K.Ready) (hF : K.Frames) {R : Triangulated} (hR : R.Of K) {S : Set (ℝ × ℝ)}
    (hS : IsOpen S) {f : LocPoisson} (hc : f.cell = some K) {u g1 g2 : ℝ → ℝ → ℝ} (hf : f.Holds K S u)
    (hg : HasGradOn S u g1 g2) (h1 : f.intGrad1 = some (K.interiorOf g1)) (h2 : f.intGrad2 = some (K.interiorOf g2))
    {ty : String} {vals : List (Option ℝ)} (hty : (ty, vals) ∈ [("grad_x1", gradValues K g1), ("grad_x2", gradValues K g2),
      ("grad_norm", normValues K g1 g2)]) :
    ∃ mask, drawLocal f R true ty false = (f, .ok (vals, mask)) ∧ mask.length = R.tri.triangles.length ∧
      ∀ (k : ℕ) t, R.tri.triangles[k]? = some t →
        (mask[k]? = some true ↔ R.holeMask[k]? = some true ∨ ∃ a ∈ [t.1, t.2.1, t.2.2], vals[a]? = some none) := by
  obtain ⟨b1, b2⟩ := C90_gradient_partial hK hF hS hc hf hg
  have hlen : vals.length = K.cloud.length := by
    simp only [List.mem_cons, Prod.mk.injEq, List.not_mem_nil, or_false] at hty
    rcases hty with ⟨-, rfl⟩ | ⟨-, rfl⟩ | ⟨-, rfl⟩ <;> simp [gradValues, normValues, CellG.cloud]
  have hd : plotVals f true ty false = (f, .ok vals) := by
    simp only [List.mem_cons, Prod.mk.injEq, List.not_mem_nil, or_false] at hty
    rcases hty with ⟨rfl, rfl⟩ | ⟨rfl, rfl⟩ | ⟨rfl, rfl⟩
    · simp [plotVals, plotData, b1, h1, Except.map, py_ok_bind, gradValues, CellG.interiorOf, Function.comp_def]
    · simp [plotVals, plotData, b2, h2, Except.map, py_ok_bind, gradValues, CellG.interiorOf, Function.comp_def]
    · simp [plotVals, plotData, b1, b2, h1, h2, Except.map, py_ok_bind, normValues, CellG.interiorOf, Function.comp_def, bin_maps', hypot_shown]
  refine ⟨_, ?_, ?_, fun k t hk => masks_iff hR hlen hk⟩
  · simp only [drawLocal, hd, py_ok_bind, applyMasks_interp hR hlen]
  · simp [hR.holes]

theorem applyMasks_len {R : Triangulated} {b : Bool} {vals : List (Option ℝ)} {m : List Bool} (h : applyMasks R b vals = .ok m) :
    vals.length = R.tri.x.length := by
  unfold applyMasks at h
  obtain ⟨_, -, h⟩ := bind_ok h
  obtain ⟨_, -, h⟩ := bind_ok h
  by_contra hne
  simp only [if_neg hne, py_ok_bind, py_error_bind] at h
  split_ifs at h

theorem mapPy_error {α β : Type} {f : α → Py β} {e : PyErr} : ∀ {l : List α}, (∀ x ∈ l, (∃ b, f x = .ok b) ∨ f x = .error e) →
    (∃ x ∈ l, f x = .error e) → ContourG.mapPy f l = .error e
  | [], _, ⟨x, hx, _⟩ => by simp at hx
  | a :: l, h, ⟨x, hx, hxe⟩ => by
    rcases h a (by simp) with ⟨b, hb⟩ | hb
    · have hxl : x ∈ l := by
        rcases List.mem_cons.1 hx with rfl | h'
        · rw [hb] at hxe; cases hxe
        · exact h'
      have ih := mapPy_error (fun y hy => h y (by simp [hy])) ⟨x, hxl, hxe⟩
      simp only [ContourG.mapPy, hb, py_ok_bind, ih, py_error_bind]
    · simp only [ContourG.mapPy, hb, py_error_bind]

theorem badTriangle_cases (vals : List (Option ℝ)) (t : ℕ × ℕ × ℕ) :
    ((∃ b, badTriangle vals t = .ok b) ∨ badTriangle vals t = .error .indexError) ∧
    ((∃ a ∈ [t.1, t.2.1, t.2.2], vals.length ≤ a) → badTriangle vals t = .error .indexError) := by
  have hg : ∀ a, (∃ v, Np.get vals a = .ok v ∧ a < vals.length) ∨ Np.get vals a = .error .indexError := by
    intro a
    by_cases h : a < vals.length
    · exact Or.inl ⟨vals[a], by simp [Np.get, h], h⟩
    · exact Or.inr (by simp [Np.get, h])
  unfold badTriangle
  rcases hg t.1 with ⟨v1, h1, l1⟩ | h1
  · rcases hg t.2.1 with ⟨v2, h2, l2⟩ | h2
    · rcases hg t.2.2 with ⟨v3, h3, l3⟩ | h3
      · simp only [h1, h2, h3, py_ok_bind]
        refine ⟨Or.inl ⟨_, rfl⟩, ?_⟩
        rintro ⟨a, ha, hl⟩
        simp only [List.mem_cons, List.not_mem_nil, or_false] at ha
        omega
      · simp [h1, h2, h3, py_ok_bind, py_error_bind]
    · simp [h1, h2, py_ok_bind, py_error_bind]
  · simp [h1, py_error_bind]

/-- the interior values of a plot without boundary values -/
theorem plotData_without {K : CellG} {f : LocPoisson} (hf : f.On K) {ty : String} {i : List ℝ} {src : Src} {b : Option (List (Option ℝ))}
    (h : plotData f false ty = .ok (some i, src, b)) : b = none ∧ i.length = K.interior.length := by
  simp only [plotData, Bool.false_eq_true, if_false, py_ok_bind] at h
  split_ifs at h
  · simp only [Except.ok.injEq, Prod.mk.injEq] at h
    exact ⟨h.2.2.symm, hf.intVals i h.1⟩
  · simp only [Except.ok.injEq, Prod.mk.injEq] at h
    exact ⟨h.2.2.symm, hf.intGrad1 i h.1⟩
  · simp only [Except.ok.injEq, Prod.mk.injEq] at h
    exact ⟨h.2.2.symm, hf.intGrad2 i h.1⟩
  · cases e1 : f.intGrad1 with
    | none => simp [e1] at h
    | some g1 =>
      cases e2 : f.intGrad2 with
      | none => simp [e1, e2] at h
      | some g2 =>
        have l1 := hf.intGrad1 g1 e1
        have l2 := hf.intGrad2 g2 e2
        simp only [e1, e2, py_ok_bind, bin_eq _ (l1.trans l2.symm), Except.ok.injEq, Prod.mk.injEq, Option.some.injEq] at h
        exact ⟨h.2.2.symm, by rw [← h.1]; simp [l1, l2]⟩

/-- without boundary values there is one value for each interior point, no more -/
theorem plotVals_without {K : CellG} {f : LocPoisson} (hf : f.On K) {ty : String} {b : Bool} {vals : List (Option ℝ)}
    (h : (plotVals f false ty b).2 = .ok vals) : vals.length = K.interior.length := by
  unfold plotVals at h
  split at h
  · cases h
  · cases h
  · rename_i i src bd hd
    obtain ⟨rfl, hl⟩ := plotData_without hf hd
    simp only at h
    split_ifs at h
    · simp only [Except.ok.injEq] at h
      rw [← h]; simp [hl]
    · simp only [Except.ok.injEq] at h
      rw [← h]; simp [hl]

/-- C91 is violated: without `use_interp` no function can be drawn on any cell, whatever is plotted. -/
theorem C91_violated {K : CellG} (hne : K.cols ≠ []) {R : Triangulated} (hR : R.Of K) {f : LocPoisson} (hf : f.On K) (ty : String)
    (useLog10 : Bool) : ∃ e, (drawLocal f R false ty useLog10).2 = .error e := by
  cases h : (drawLocal f R false ty useLog10).2 with
  | error e => exact ⟨e, rfl⟩
  | ok r =>
    exfalso
    simp only [drawLocal] at h
    obtain ⟨vals, hv, h⟩ := bind_ok h
    obtain ⟨m, hm, -⟩ := bind_ok h
    have h1 := plotVals_without hf hv
    have h2 := applyMasks_len hm
    rw [h1, hR.x] at h2
    have := List.length_pos_iff.2 hne
    simp [CellG.cloud] at h2
    exact hne h2

/-- C91 is violated: … in particular the values, on a cell with a triangle that has a corner on the boundary: `IndexError`. -/
theorem C91_violated_index {K : CellG} {R : Triangulated} {t : ℕ × ℕ × ℕ} (ht : t ∈ R.tri.triangles)
    (hb : ∃ a ∈ [t.1, t.2.1, t.2.2], K.interior.length ≤ a) {f : LocPoisson} (hf : f.On K) {i : List ℝ} (hi : f.intVals = some i) :
    (drawLocal f R false "values" false).2 = .error .indexError := by
  have hl := hf.intVals i hi
  have hd : plotVals f false "values" false = (f, .ok (i.map some)) := by
    simp [plotVals, plotData, hi, py_ok_bind]
  have hm : ContourG.mapPy (badTriangle (i.map some)) R.tri.triangles = .error .indexError :=
    mapPy_error (fun x _ => (badTriangle_cases _ x).1) ⟨t, ht, (badTriangle_cases _ t).2 (by simpa [hl] using hb)⟩
  simp only [drawLocal, hd, py_ok_bind, applyMasks, hm, py_error_bind]

/-! ### drawing and the function -/

theorem plotData_with {f : LocPoisson} {ty : String} {i : List ℝ} {src : Src} {b : Option (List (Option ℝ))}
    (h : plotData f true ty = .ok (some i, src, b)) : ∃ l, b = some l := by
  have hm : ∀ {x : Py (List (Option ℝ))} {c}, x.map some = .ok c → ∃ l, c = some l := by
    intro x c hc
    cases x with
    | error e => cases hc
    | ok l => exact ⟨l, by cases hc; rfl⟩
  simp only [plotData, if_true] at h
  split_ifs at h
  · obtain ⟨c, hc, h⟩ := bind_ok h
    simp only [Except.ok.injEq, Prod.mk.injEq] at h
    rw [← h.2.2]; exact hm hc
  · obtain ⟨c, hc, h⟩ := bind_ok h
    simp only [Except.ok.injEq, Prod.mk.injEq] at h
    rw [← h.2.2]; exact hm hc
  · obtain ⟨c, hc, h⟩ := bind_ok h
    simp only [Except.ok.injEq, Prod.mk.injEq] at h
    rw [← h.2.2]; exact hm hc
  · split at h
    · obtain ⟨_, -, h⟩ := bind_ok h
      obtain ⟨_, -, h⟩ := bind_ok h
      obtain ⟨c, hc, h⟩ := bind_ok h
      obtain ⟨_, -, h⟩ := bind_ok h
      cases h; exact hm hc
    · cases h

/-- C92 (in part): with `use_interp`, or without the logarithm, drawing leaves the function as it is. -/
theorem C92_unchanged_partial (f : LocPoisson) (R : Triangulated) (ty : String) {useInterp useLog10 : Bool}
    (h : useInterp = true ∨ useLog10 = false) : (drawLocal f R useInterp ty useLog10).1 = f := by
  unfold drawLocal plotVals
  cases hd : plotData f useInterp ty with
  | error e => rfl
  | ok r =>
    obtain ⟨i, src, b⟩ := r
    cases i with
    | none => rfl
    | some i =>
      cases useInterp with
      | true =>
        obtain ⟨l, rfl⟩ := plotData_with hd
        rfl
      | false =>
        rcases h with h | rfl
        · cases h
        · rfl

/-- C92 is violated: without `use_interp`, drawing the logarithm of the values replaces the interior values below `10⁻¹⁶`
by `10⁻¹⁶`, even though nothing is drawn. -/
theorem C92_violated {K : CellG} (hne : K.cols ≠ []) {R : Triangulated} (hR : R.Of K) {f : LocPoisson} (hf : f.On K) {i : List ℝ}
    (hi : f.intVals = some i) : (drawLocal f R false "values" true).1.intVals = some (i.map fun x => max x (1 / 10 ^ 16)) ∧
    ((∃ x ∈ i, x < 1 / 10 ^ 16) → (drawLocal f R false "values" true).1 ≠ f) ∧
    ∃ e, (drawLocal f R false "values" true).2 = .error e := by
  have h1 : (drawLocal f R false "values" true).1.intVals = some (i.map fun x => max x (1 / 10 ^ 16)) := by
    simp only [drawLocal, plotVals, plotData, hi, if_true, Bool.false_eq_true, if_false, py_ok_bind, Src.write]
    congr 1
    refine List.map_congr_left fun x _ => ?_
    rw [clip]
    split_ifs with hx
    · rw [max_eq_right hx.le]
    · rw [max_eq_left (not_lt.1 hx)]
  refine ⟨h1, fun ⟨x, hx, hlt⟩ he => ?_, C91_violated hne hR hf "values" true⟩
  rw [he, hi] at h1
  have hall : ∀ y ∈ i, y = max y (1 / 10 ^ 16) := by
    have := Option.some.inj h1
    intro y hy
    obtain ⟨n, hn, rfl⟩ := List.getElem_of_mem hy
    have := congrArg (fun l => l[n]?) this
    simpa [hn] using this
  have := hall x hx
  rw [max_eq_right hlt.le] at this
  linarith

/-- C92, what exactly is changed: without `use_interp`, drawing a logarithm replaces the entries below `10⁻¹⁶` of the array that is drawn, and nothing
else; the norm of the gradient is drawn from a new array, so that nothing is changed. -/
theorem C92_changed (f : LocPoisson) (R : Triangulated) :
    (∀ i, f.intVals = some i → (drawLocal f R false "values" true).1 = { f with intVals := some (i.map fun x => max x (1 / 10 ^ 16)) }) ∧
    (∀ i, f.intGrad1 = some i → (drawLocal f R false "grad_x1" true).1 = { f with intGrad1 := some (i.map fun x => max x (1 / 10 ^ 16)) }) ∧
    (∀ i, f.intGrad2 = some i → (drawLocal f R false "grad_x2" true).1 = { f with intGrad2 := some (i.map fun x => max x (1 / 10 ^ 16)) }) ∧
    (drawLocal f R false "grad_norm" true).1 = f := by
  have hc : ∀ i : List ℝ, i.map clip = i.map fun x => max x (1 / 10 ^ 16) := fun i => by
    refine List.map_congr_left fun x _ => ?_
    rw [clip]
    split_ifs with hx
    · rw [max_eq_right hx.le]
    · rw [max_eq_left (not_lt.1 hx)]
  refine ⟨fun i hi => ?_, fun i hi => ?_, fun i hi => ?_, ?_⟩
  · rw [← hc]
    simp [drawLocal, plotVals, plotData, hi, py_ok_bind, Src.write]
  · rw [← hc]
    simp [drawLocal, plotVals, plotData, hi, py_ok_bind, Src.write]
  · rw [← hc]
    simp [drawLocal, plotVals, plotData, hi, py_ok_bind, Src.write]
  · cases h1 : f.intGrad1 with
    | none => simp [drawLocal, plotVals, plotData, h1]
    | some g1 =>
      cases h2 : f.intGrad2 with
      | none => simp [drawLocal, plotVals, plotData, h1, h2]
      | some g2 =>
        cases h3 : Np.bin (fun x y => Real.sqrt (x ^ 2 + y ^ 2)) g1 g2 with
        | error e => simp [drawLocal, plotVals, plotData, h1, h2, h3, bind, Except.bind]
        | ok l => simp [drawLocal, plotVals, plotData, h1, h2, h3, py_ok_bind, Src.write]

/-- the hypotheses are met by every function with interior values and gradients -/
example : ∃ f : LocPoisson, f.intVals = some [0, 1] ∧ f.intGrad1 = some [1, 0] ∧ f.intGrad2 = some [0, 0] := ⟨⟨none, none, none, some [0, 1], some [1, 0], some [0, 0]⟩, rfl, rfl, rfl⟩

/-! ### the triangulation of a cell meets the hypotheses -/

/-- what `_build_triangulation` stores belongs to the cell -/
theorem built_of {K : CellG} (h : K.Ready) {c : ContourG} {cs : List ContourG} (hK : K.components = c :: cs) (test : PathTest)
    {delaunay : List ℝ → List ℝ → Py (List (ℕ × ℕ × ℕ))} {ts : List (ℕ × ℕ × ℕ)} (ht : K.Triangulable delaunay ts) :
    ∃ R, K.buildTriangulation test delaunay = .ok R ∧ R.Of K ∧ R.tri.triangles = ts := by
  obtain ⟨R, hR, hT, hB, hH⟩ := build_ok h hK test ht
  refine ⟨R, hR, ⟨by rw [hT], by rw [hT], by rw [hT]; exact ht.2, by rw [hT]; exact hH.length_eq.symm,
    by rw [hT]; exact hB.length_eq.symm⟩, by rw [hT]⟩

/-- the disc with its centre as interior point -/
noncomputable def centredDisc : CellG := { discCell with interior := [(0, 0)] }

theorem centred_ready : centredDisc.Ready := ⟨disc_ready.1.ready, disc_ready.1.numPts, disc_ready.1.startIdx⟩

/-- the function `x + 1` on this disc, with the given interior values -/
theorem centred_poisson (a : ℝ) : ∃ f : LocPoisson, f.On centredDisc ∧ f.Holds centredDisc Set.univ (fun x _ => x + 1) ∧
    f.intVals = some [a] ∧ f.intGrad1 = some [1] ∧ f.intGrad2 = some [0] := by
  obtain ⟨p, hp, ho, hh⟩ := one_holds centred_ready
  obtain ⟨xo, xh⟩ := xHarm_holds centred_ready (by simp [centredDisc, discCell, CellG.numHoles])
  refine ⟨⟨some centredDisc, some p, some (xHarm centredDisc), some [a], some [1], some [0]⟩,
    ⟨rfl, ⟨_, rfl, ho⟩, ⟨_, rfl, xo⟩, ?_, ?_, ?_⟩,
    ⟨_, _, _, _, rfl, rfl, xh, hh, fun x y _ => by simp [onePoly, Poly.eval, Mono.eval]⟩, rfl, rfl, rfl⟩ <;>
  · rintro i ⟨⟩; rfl

/-- the hypotheses of the theorems on plots are met by `x + 1` on the disc and one triangle at its centre -/
example (test : PathTest) : ∃ R, R.Of centredDisc ∧ R.tri.triangles = [(0, 1, 2)] ∧
    (∃ f : LocPoisson, drawLocal f R true "values" false = (f, .ok (centredDisc.cloud.map fun p => some (p.1 + 1), R.holeMask)) ∧
      (drawLocal f R false "values" false).2 = .error .indexError) ∧
    ∃ f : LocPoisson, f.intVals = some [0] ∧ (drawLocal f R false "values" true).1.intVals = some [1 / 10 ^ 16] := by
  have hlen : centredDisc.cloud.length = 5 := by simp [centredDisc, CellG.cloud, discCell, CellG.cols, cross_cols, crossPt]
  have hne : centredDisc.cols ≠ [] := by simp [centredDisc, discCell, CellG.cols, cross_cols, crossPt]
  obtain ⟨R, -, hR, hT⟩ := built_of centred_ready rfl test (delaunay := fun _ _ => .ok [(0, 1, 2)]) (ts := [(0, 1, 2)])
    ⟨rfl, by simp [hlen]⟩
  obtain ⟨f, ho, hh, hi, -⟩ := centred_poisson 1
  obtain ⟨g, go, -, gi, -⟩ := centred_poisson 0
  refine ⟨R, hR, hT, ⟨f, (C91_values_partial hR hh (by rw [hi]; simp [CellG.interiorOf, centredDisc])).1,
    C91_violated_index (t := (0, 1, 2)) (by simp [hT]) ⟨1, by simp [centredDisc]⟩ ho hi⟩, g, gi, ?_⟩
  rw [(C92_violated hne hR go gi).1]
  norm_num

end PFEM
