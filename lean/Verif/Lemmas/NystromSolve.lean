import Verif.Model.NystromSolve
import Verif.Spec.Calculus
import Verif.Spec.Nystrom
import Verif.Props.NystromOps
import Verif.Props.Trace

/-!
Lemmas about the logarithmic terms: traces of sampled functions, integrals of preweighted data.
-/

namespace PFEM
open Nystrom
open ContourG (mapPy)

/-! ### traces on a cell -/

theorem getEdges_cols (K : CellG) : K.getEdges.flatMap EdgeG.cols = K.cols := by
  simp only [CellG.getEdges, CellG.cols, List.flatMap_assoc]
  rfl

theorem getEdges_sampled {K : CellG} (h : K.Ready) : ∀ e ∈ K.getEdges, ∃ L, e.pts = some L ∧ 2 ≤ L.length := by
  intro e he
  obtain ⟨c, hc, he⟩ := List.mem_flatMap.1 he
  exact (h.ready c hc).sampled e he

theorem getEdges_sizes {K : CellG} (h : K.Ready) : (Trace.bare K.getEdges).sizes.sum = K.numPts := by
  rw [Trace.sizes_bare, h.numPts, ← getEdges_cols, List.length_flatMap]

theorem bare_data (es : List EdgeG) : (Trace.bare es).values = none ∧ (Trace.bare es).wnd = none ∧ (Trace.bare es).wtd = none := by
  unfold Trace.bare; dsimp only; split <;> exact ⟨rfl, rfl, rfl⟩

theorem init_arr {K : CellG} (h : K.Ready) {v : List ℝ} (hv : v.length = K.numPts) :
    Trace.init K.getEdges (values := some (.one (.arr v))) = .ok (Trace.made K.getEdges (some v) none none) := by
  have hb := Trace.good_bare (getEdges_sampled h)
  have h1 := (Trace.C46_set_values hb).1 v (by rw [getEdges_sizes h]; exact hv)
  obtain ⟨-, h2, h3⟩ := bare_data K.getEdges
  simp only [Trace.init, Bool.false_eq_true, if_false, h1, Except.map, Trace.made]
  rw [h2, h3]

theorem made_sized {K : CellG} (h : K.Ready) (v w d : Option (List ℝ)) : (Trace.made K.getEdges v w d).Sized := by
  have hb := Trace.sized_bare (getEdges_sampled h)
  exact ⟨hb.sampled, hb.numEdges, hb.numPts, hb.idx⟩

theorem made_sizes {K : CellG} (h : K.Ready) (v w d : Option (List ℝ)) : (Trace.made K.getEdges v w d).sizes.sum = K.numPts :=
  getEdges_sizes h

theorem made_setWnd {K : CellG} (h : K.Ready) (v w d : Option (List ℝ)) {a : List ℝ} (ha : a.length = K.numPts) :
    Trace.after ((Trace.made K.getEdges v w d).setWnd (.one (.arr a))) = .ok (Trace.made K.getEdges v (some a) d) := by
  rw [Trace.setWnd_arr (made_sized h v w d) (by rw [made_sizes h]; exact ha)]
  rfl

theorem made_setWtd {K : CellG} (h : K.Ready) (v w d : Option (List ℝ)) {a : List ℝ} (ha : a.length = K.numPts) :
    Trace.after ((Trace.made K.getEdges v w d).setWtd (.one (.arr a))) = .ok (Trace.made K.getEdges v w (some a)) := by
  rw [Trace.setWtd_arr (made_sized h v w d) (by rw [made_sizes h]; exact ha)]
  rfl

/-! ### loops -/

theorem mapPy_eq {α β : Type} {f : α → Py β} {g : α → β} : ∀ {l : List α}, (∀ a ∈ l, f a = .ok (g a)) → mapPy f l = .ok (l.map g)
  | [], _ => rfl
  | a :: l, h => by
    have ih : mapPy f l = .ok (l.map g) := mapPy_eq fun b hb => h b (by simp [hb])
    simp only [mapPy, h a (by simp), ih, bind, Except.bind, List.map_cons]

theorem mapPy_forall₂ {α β : Type} {f : α → Py β} : ∀ {l : List α} {r : List β}, mapPy f l = .ok r →
    List.Forall₂ (fun a b => f a = .ok b) l r
  | [], r, h => by cases h; exact .nil
  | a :: l, r, h => by
    obtain ⟨b, hb, h⟩ := bind_ok h
    obtain ⟨s, hs, h⟩ := bind_ok h
    cases h
    exact .cons hb (mapPy_forall₂ hs)

/-! ### preweighted integrals -/

/-- the step of the quadrature at every sample -/
noncomputable def steps (K : CellG) : List ℝ :=
  K.components.flatMap fun c => c.cols.map fun _ => 2 * Real.pi * (c.edges.length : ℝ) / (c.cols.length : ℝ)

theorem steps_length (K : CellG) : (steps K).length = K.cols.length := by
  simp [steps, CellG.cols, List.length_flatMap]

theorem cell_preweighted {K : CellG} (h : K.Ready) (hne : ∀ c ∈ K.components, c.edges ≠ []) {w : List ℝ}
    (hw : w.length = K.cols.length) : K.integratePreweighted w = .ok (dot w (steps K)) := by
  obtain ⟨ws, rfl, hws⟩ := exists_split (K.components.map fun c => c.cols.length) w (by
    rw [hw]; simp [CellG.cols, List.length_flatMap])
  rw [h.integratePreweighted hne hws]
  congr 1
  unfold steps
  clear hw hne
  generalize K.components = l at *
  induction l generalizing ws with
  | nil => simp [dot, entrywise]
  | cons a l ih =>
    match ws, hws with
    | u :: ws, hws =>
      simp only [List.map_cons, List.cons.injEq] at hws
      have ih := ih ws hws.2
      simp only [dot, entrywise] at ih ⊢
      simp only [List.zipWith_cons_cons, List.sum_cons, List.flatten_cons, List.flatMap_cons]
      rw [List.zipWith_append (by simp [hws.1]), List.sum_append, ih]
      congr 1
      rw [ContourG.mul_sum_list]
      congr 1
      refine List.ext_getElem (by simp [hws.1]) fun i h1 h2 => ?_
      simp only [List.getElem_map, List.getElem_zipWith]
      ring

end PFEM
