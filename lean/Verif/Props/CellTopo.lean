import Mathlib.Algebra.Order.Field.Rat
import Mathlib.Algebra.Field.Rat
import Mathlib.Data.List.GetD
import Mathlib.Tactic.Ring
import Verif.Lemmas.Incidence
import Verif.Spec.Mesh

/-!
C29: a cell boundary is rejected or decomposed into closed contours.  The `while` loops of the constructor are run
with fuel; the theorems show that `n + 1` steps are enough for `n` edges, so the constructor always terminates.
-/

set_option linter.unusedSectionVars false

namespace PFEM
namespace CellTopo

variable {K : Type} [Field K] [LinearOrder K]

theorem orients_ok (st : EdgeStore K) (c : ℤ) (es : List ℕ) (h : ∀ e ∈ es, c = (st e).pos ∨ c = (st e).neg) :
    orients st c es = .ok (es.map fun e => side c (st e)) := by
  induction es with
  | nil => rfl
  | cons e es ih =>
    have he : orient st c e = .ok (side c (st e)) := by
      unfold orient side
      by_cases hp : c = (st e).pos
      · rw [if_pos hp, if_pos hp]
      · rw [if_neg hp, if_neg hp, if_pos ((h e (by simp)).resolve_left hp)]
    rw [orients, he, ih (fun e he => h e (by simp [he]))]
    rfl

theorem orients_error (st : EdgeStore K) (c : ℤ) (es : List ℕ) (h : ¬ ∀ e ∈ es, c = (st e).pos ∨ c = (st e).neg) :
    orients st c es = .error .embedding := by
  induction es with
  | nil => exact absurd (by simp) h
  | cons e es ih =>
    by_cases he : c = (st e).pos ∨ c = (st e).neg
    · have : ¬ ∀ e ∈ es, c = (st e).pos ∨ c = (st e).neg := by
        intro hh
        exact h (by simpa using ⟨he, hh⟩)
      rw [orients]
      have ho : ∃ o, orient st c e = .ok o := by
        unfold orient
        by_cases hp : c = (st e).pos
        · rw [if_pos hp]; exact ⟨_, rfl⟩
        · rw [if_neg hp, if_pos (he.resolve_left hp)]; exact ⟨_, rfl⟩
      obtain ⟨o, ho⟩ := ho
      rw [ho, ih this]
      rfl
    · rw [not_or] at he
      rw [orients, orient, if_neg he.1, if_neg he.2]
      rfl

theorem addLoop_ok (l : List (ℕ × ℤ)) (c : Contour) (ho : ∀ p ∈ l, p.2 = 1 ∨ p.2 = -1)
    (hn : (c.edges ++ l.map Prod.fst).Nodup) (hc : c.numEdges = c.edges.length) :
    Contour.addLoop c l = .ok ⟨c.edges ++ l.map Prod.fst, c.orients ++ l.map Prod.snd, (c.edges ++ l.map Prod.fst).length⟩ := by
  induction l generalizing c with
  | nil => simp [Contour.addLoop, ← hc]
  | cons p l ih =>
    obtain ⟨e, o⟩ := p
    have he : e ∉ c.edges := by
      intro hmem
      rw [List.nodup_append] at hn
      exact hn.2.2 e hmem e (by simp) rfl
    rw [Contour.addLoop, Contour.addEdge, if_neg (not_not.2 (ho (e, o) (by simp))), if_neg he]
    simp only [bind, Except.bind]
    rw [ih]
    · simp
    · exact fun p hp => ho p (by simp [hp])
    · simpa using hn
    · simp [hc]

theorem contours_ok (c : ℤ) (hc : 0 ≤ c) (edges : List ℕ) (os : List ℤ) (hlen : os.length = edges.length)
    (ho : ∀ o ∈ os, o = 1 ∨ o = -1) (hn : edges.Nodup) (cs : List (List ℕ)) (hlt : ∀ ci ∈ cs, ∀ i ∈ ci, i < edges.length)
    (hnd : ∀ ci ∈ cs, ci.Nodup) :
    contours c edges os cs =
      .ok (cs.map fun ci => ⟨ci.map fun i => edges.getD i 0, ci.map fun i => os.getD i 0, ci.length⟩) := by
  induction cs with
  | nil => rfl
  | cons ci cs ih =>
    rw [contours, ih (fun x hx => hlt x (by simp [hx])) (fun x hx => hnd x (by simp [hx]))]
    have hi : Contour.init c (ci.map fun i => edges.getD i 0) (ci.map fun i => os.getD i 0) =
        .ok ⟨ci.map fun i => edges.getD i 0, ci.map fun i => os.getD i 0, ci.length⟩ := by
      unfold Contour.init
      rw [if_neg (by omega), if_neg (by simp), addLoop_ok]
      · simp [List.map_fst_zip, List.map_snd_zip]
      · intro p hp
        have h2 := (List.of_mem_zip hp).2
        obtain ⟨i, hi, e⟩ := List.mem_map.1 h2
        rw [← e, List.getD_eq_getElem _ _ (by rw [hlen]; exact hlt ci (by simp) i hi)]
        exact ho _ (List.getElem_mem _)
      · simp only [List.nil_append]
        rw [List.map_fst_zip (by simp)]
        refine List.Nodup.map_on ?_ (hnd ci (by simp))
        intro a ha b hb e
        have ha' := hlt ci (by simp) a ha
        have hb' := hlt ci (by simp) b hb
        rw [List.getD_eq_getElem _ _ ha', List.getD_eq_getElem _ _ hb'] at e
        exact (hn.getElem_inj_iff).1 e
      · rfl
    rw [hi]
    rfl

/-- entry and exit points in the model -/
theorem near_iff (st : EdgeStore K) (c : ℤ) (e e' : ℕ) :
    near st (e, side c (st e)) (e', side c (st e')) = true ↔ Meets (entryPt c (st e)) (exitPt c (st e')) := by
  unfold near sp ep Meets side entryPt exitPt
  rw [decide_eq_true_iff]
  by_cases h1 : c = (st e).pos <;> by_cases h2 : c = (st e').pos <;> simp [h1, h2, PVert.dist2, incTol]

theorem zip_getElem (st : EdgeStore K) (c : ℤ) (es : List ℕ) (i : ℕ)
    (hi : i < (es.zip (es.map fun e => side c (st e))).length) :
    (es.zip (es.map fun e => side c (st e)))[i] =
      (es[i]'(by simpa using hi), side c (st (es[i]'(by simpa using hi)))) := by
  simp

/-- the matching condition of the property, in terms of positions -/
def MatchedSpec (st : EdgeStore K) (c : ℤ) (es : List ℕ) : Prop :=
  (∀ i < es.length, ExactlyOne es.length fun j => Meets (entryPt c (st (es.getD i 0))) (exitPt c (st (es.getD j 0)))) ∧
  (∀ j < es.length, ExactlyOne es.length fun i => Meets (entryPt c (st (es.getD i 0))) (exitPt c (st (es.getD j 0))))

theorem matched_iff (st : EdgeStore K) (c : ℤ) (es : List ℕ) :
    Matched st (es.zip (es.map fun e => side c (st e))) ↔ MatchedSpec st c es := by
  have hl : (es.zip (es.map fun e => side c (st e))).length = es.length := by simp
  have key : ∀ i j (hi : i < es.length) (hj : j < es.length),
      near st ((es.zip (es.map fun e => side c (st e)))[i]'(by omega)) ((es.zip (es.map fun e => side c (st e)))[j]'(by omega))
        = true ↔ Meets (entryPt c (st (es.getD i 0))) (exitPt c (st (es.getD j 0))) := by
    intro i j hi hj
    rw [zip_getElem, zip_getElem, near_iff, List.getD_eq_getElem _ _ hi, List.getD_eq_getElem _ _ hj]
  unfold Matched MatchedSpec ExactlyOne
  simp only [hl]
  refine and_congr (forall₂_congr fun i hi => exists_congr fun j => and_congr_right fun hj => ?_)
    (forall₂_congr fun i hi => exists_congr fun j => and_congr_right fun hj => ?_)
  · constructor
    · intro h
      exact ⟨(key i j hi hj).1 ((h j hj).2 rfl), fun k hk hm => (h k hk).1 ((key i k hi hk).2 hm)⟩
    · rintro ⟨h1, h2⟩ k hk
      rw [key i k hi hk]
      exact ⟨h2 k hk, fun e => e ▸ h1⟩
  · constructor
    · intro h
      exact ⟨(key j i hj hi).1 ((h j hj).2 rfl), fun k hk hm => (h k hk).1 ((key k i hk hi).2 hm)⟩
    · rintro ⟨h1, h2⟩ k hk
      rw [key k i hk hi]
      exact ⟨h2 k hk, fun e => e ▸ h1⟩

/-- a point closer than the tolerance to ... : a matched list has no repetitions -/
theorem matched_nodup (st : EdgeStore K) (c : ℤ) (es : List ℕ) (h : MatchedSpec st c es) : es.Nodup := by
  rw [List.nodup_iff_injective_get]
  intro a b hab
  obtain ⟨i, hi, h1, h2⟩ := h.1 a.1 a.2
  obtain ⟨k, hk, h3, h4⟩ := h.2 i hi
  have e : es.getD a.1 0 = es.getD b.1 0 := by
    rw [List.getD_eq_getElem _ _ a.2, List.getD_eq_getElem _ _ b.2]; exact hab
  have ha := h4 a.1 a.2 h1
  have hb := h4 b.1 b.2 (by
    simp only at h1 ⊢
    rw [← e]; exact h1)
  exact Fin.ext (ha.trans hb.symm)

end CellTopo

variable {K : Type} [Field K] [LinearOrder K]

/-- The constructor finishes within `n + 1` rounds for `n` edges, whatever the input. -/
theorem C29_terminates (st : EdgeStore K) (c : ℤ) (es : List ℕ) (fuel : ℕ) (hf : es.length < fuel) :
    CellTopo.init st fuel c es ≠ none := by
  unfold CellTopo.init
  by_cases hc : c < 0
  · simp [hc]
  rw [if_neg hc]
  by_cases hb : ∀ e ∈ es, c = (st e).pos ∨ c = (st e).neg
  · rw [CellTopo.orients_ok st c es hb]
    simp only
    have ho : CellTopo.Oriented (es.zip (es.map fun e => side c (st e))) := by
      intro p hp
      obtain ⟨e, -, he⟩ := List.mem_map.1 (List.of_mem_zip hp).2
      rw [← he]; unfold side; split <;> simp
    by_cases hm : CellTopo.Matched st (es.zip (es.map fun e => side c (st e)))
    · obtain ⟨inc, h1, h2, -⟩ := CellTopo.incidence_ok st _ ho hm
      rw [h1]
      simp only
      have hl : (es.zip (es.map fun e => side c (st e))).length = es.length := by simp
      rw [hl] at h2
      obtain ⟨cs, h3, -⟩ := CellTopo.contourLoop_spec inc es.length h2 fuel (List.replicate es.length false) []
        (by simp) (by simp [List.getElem?_replicate]) (by simp) (by simp) (by simp) (by simp) (by simpa using hf)
      simp only [List.flatten_nil, List.length_nil] at h3
      rw [h3]
      simp only
      cases CellTopo.contours c es (es.map fun e => side c (st e)) cs <;> simp
    · rw [CellTopo.incidence_error st _ ho hm]; simp
  · rw [CellTopo.orients_error st c es hb]; simp

/-- Exactly which edge collections are accepted: a nonnegative cell index, every edge borders the cell, and every
edge is entered where exactly one edge is left and left where exactly one edge is entered. -/
theorem C29_accepts_iff (st : EdgeStore K) (c : ℤ) (es : List ℕ) (fuel : ℕ) (hf : es.length < fuel) :
    (∃ k, CellTopo.init st fuel c es = some (.ok k)) ↔
      0 ≤ c ∧ (∀ e ∈ es, c = (st e).pos ∨ c = (st e).neg) ∧
      (∀ i < es.length, ExactlyOne es.length fun j =>
        Meets (entryPt c (st (es.getD i 0))) (exitPt c (st (es.getD j 0)))) ∧
      (∀ j < es.length, ExactlyOne es.length fun i =>
        Meets (entryPt c (st (es.getD i 0))) (exitPt c (st (es.getD j 0)))) := by
  have ho : CellTopo.Oriented (es.zip (es.map fun e => side c (st e))) := by
    intro p hp
    obtain ⟨e, -, he⟩ := List.mem_map.1 (List.of_mem_zip hp).2
    rw [← he]; unfold side; split <;> simp
  constructor
  · rintro ⟨k, hk⟩
    unfold CellTopo.init at hk
    split at hk
    · simp at hk
    · rename_i hc
      by_cases hb : ∀ e ∈ es, c = (st e).pos ∨ c = (st e).neg
      · refine ⟨by omega, hb, ?_⟩
        rw [CellTopo.orients_ok st c es hb] at hk
        simp only at hk
        by_cases hm : CellTopo.Matched st (es.zip (es.map fun e => side c (st e)))
        · exact (CellTopo.matched_iff st c es).1 hm
        · rw [CellTopo.incidence_error st _ ho hm] at hk; simp at hk
      · rw [CellTopo.orients_error st c es hb] at hk; simp at hk
  · rintro ⟨hc, hb, hm⟩
    have hm' : CellTopo.MatchedSpec st c es := hm
    obtain ⟨inc, h1, h2, -⟩ := CellTopo.incidence_ok st _ ho ((CellTopo.matched_iff st c es).2 hm')
    have hl : (es.zip (es.map fun e => side c (st e))).length = es.length := by simp
    rw [hl] at h2
    obtain ⟨cs, h3, h4, h5⟩ := CellTopo.contourLoop_spec inc es.length h2 fuel (List.replicate es.length false) []
      (by simp) (by simp [List.getElem?_replicate]) (by simp) (by simp) (by simp) (by simp) (by simpa using hf)
    simp only [List.flatten_nil, List.length_nil] at h3
    have h6 := CellTopo.contours_ok c hc es (es.map fun e => side c (st e)) (by simp)
      (by intro o ho; obtain ⟨e, -, he⟩ := List.mem_map.1 ho; rw [← he]; unfold side; split <;> simp)
      (CellTopo.matched_nodup st c es hm') cs
      (fun ci hci i hi => List.mem_range.1 (h4.mem_iff.1 (List.mem_flatten.2 ⟨ci, hci, hi⟩)))
      (fun ci hci => by
        have : cs.flatten.Nodup := h4.nodup_iff.2 List.nodup_range
        exact (List.nodup_flatten.1 this).1 ci hci)
    unfold CellTopo.init
    rw [if_neg (by omega), CellTopo.orients_ok st c es hb]
    simp only
    rw [h1]
    simp only
    rw [h3]
    simp only
    rw [h6]
    exact ⟨_, rfl⟩

/-- Everything else is rejected with `EmbeddingError` (or `ValueError` for a negative cell index). -/
theorem C29_rejects (st : EdgeStore K) (c : ℤ) (es : List ℕ) (fuel : ℕ) (x : PyErr)
    (h : CellTopo.init st fuel c es = some (.error x)) (hf : es.length < fuel) :
    (c < 0 ∧ x = .valueError) ∨ (0 ≤ c ∧ x = .embedding) := by
  have hnot : ¬ ∃ k, CellTopo.init st fuel c es = some (.ok k) := by
    rintro ⟨k, hk⟩; rw [h] at hk; simp at hk
  rw [C29_accepts_iff st c es fuel hf] at hnot
  unfold CellTopo.init at h
  by_cases hc : c < 0
  · rw [if_pos hc] at h
    simp only [Option.some.injEq, Except.error.injEq] at h
    exact Or.inl ⟨hc, h.symm⟩
  · refine Or.inr ⟨by omega, ?_⟩
    rw [if_neg hc] at h
    by_cases hb : ∀ e ∈ es, c = (st e).pos ∨ c = (st e).neg
    · rw [CellTopo.orients_ok st c es hb] at h
      have ho : CellTopo.Oriented (es.zip (es.map fun e => side c (st e))) := by
        intro p hp
        obtain ⟨e, -, he⟩ := List.mem_map.1 (List.of_mem_zip hp).2
        rw [← he]; unfold side; split <;> simp
      have hm : ¬ CellTopo.Matched st (es.zip (es.map fun e => side c (st e))) := by
        intro hm
        exact hnot ⟨by omega, hb, (CellTopo.matched_iff st c es).1 hm⟩
      simp only at h
      rw [CellTopo.incidence_error st _ ho hm] at h
      simp only [Option.some.injEq, Except.error.injEq] at h
      exact h.symm
    · rw [CellTopo.orients_error st c es hb] at h
      simp only [Option.some.injEq, Except.error.injEq] at h
      exact h.symm

/-- The contours of an accepted cell: together they hold every given edge exactly once; each is nonempty, records
the direction in which the boundary runs along its edges, and is a closed chain (each edge is left where the
cyclically next one is entered); the number of holes is one less than the number of contours. -/
theorem C29_contours (st : EdgeStore K) (c : ℤ) (es : List ℕ) (fuel : ℕ) (k : CellTopo)
    (h : CellTopo.init st fuel c es = some (.ok k)) (hf : es.length < fuel) :
    k.getEdges.Perm es ∧ es.Nodup ∧ k.numHoles = k.components.length - 1 ∧ k.numEdges = es.length ∧ k.idx = c ∧
      ∀ γ ∈ k.components, γ.edges ≠ [] ∧ γ.numEdges = γ.edges.length ∧
        γ.orients = γ.edges.map (fun e => side c (st e)) ∧
        ∀ i < γ.edges.length, Meets (entryPt c (st (γ.edges.getD ((i + 1) % γ.edges.length) 0)))
          (exitPt c (st (γ.edges.getD i 0))) := by
  obtain ⟨hc, hb, hm⟩ := (C29_accepts_iff st c es fuel hf).1 ⟨k, h⟩
  have hm' : CellTopo.MatchedSpec st c es := hm
  have hnd := CellTopo.matched_nodup st c es hm'
  have ho : CellTopo.Oriented (es.zip (es.map fun e => side c (st e))) := by
    intro p hp
    obtain ⟨e, -, he⟩ := List.mem_map.1 (List.of_mem_zip hp).2
    rw [← he]; unfold side; split <;> simp
  obtain ⟨inc, h1, h2, h2'⟩ := CellTopo.incidence_ok st _ ho ((CellTopo.matched_iff st c es).2 hm')
  have hl : (es.zip (es.map fun e => side c (st e))).length = es.length := by simp
  rw [hl] at h2
  obtain ⟨cs, h3, h4, h5⟩ := CellTopo.contourLoop_spec inc es.length h2 fuel (List.replicate es.length false) []
    (by simp) (by simp [List.getElem?_replicate]) (by simp) (by simp) (by simp) (by simp) (by simpa using hf)
  simp only [List.flatten_nil, List.length_nil] at h3
  have hltc : ∀ ci ∈ cs, ∀ i ∈ ci, i < es.length :=
    fun ci hci i hi => List.mem_range.1 (h4.mem_iff.1 (List.mem_flatten.2 ⟨ci, hci, hi⟩))
  have h6 := CellTopo.contours_ok c hc es (es.map fun e => side c (st e)) (by simp)
    (by intro o ho; obtain ⟨e, -, he⟩ := List.mem_map.1 ho; rw [← he]; unfold side; split <;> simp)
    hnd cs hltc
    (fun ci hci => by
      have : cs.flatten.Nodup := h4.nodup_iff.2 List.nodup_range
      exact (List.nodup_flatten.1 this).1 ci hci)
  unfold CellTopo.init at h
  rw [if_neg (by omega), CellTopo.orients_ok st c es hb] at h
  simp only at h
  rw [h1] at h
  simp only at h
  rw [h3] at h
  simp only at h
  rw [h6] at h
  simp only [Option.some.injEq, Except.ok.injEq] at h
  subst h
  have hget : es = (List.range es.length).map fun i => es.getD i 0 := by
    apply List.ext_getElem
    · simp
    · intro i hi _
      rw [List.getElem_map, List.getElem_range, List.getD_eq_getElem _ _ hi]
  refine ⟨?_, hnd, ?_, ?_, rfl, ?_⟩
  · unfold CellTopo.getEdges
    simp only [List.flatMap_map]
    have : (cs.flatMap fun a => a.map fun i => es.getD i 0) = cs.flatten.map fun i => es.getD i 0 := by
      rw [List.flatMap_def, List.map_flatten]
    rw [this]
    conv_rhs => rw [hget]
    exact h4.map _
  · simp; ring
  · have e1 : ((cs.map fun ci => (⟨ci.map fun i => es.getD i 0, ci.map fun i => (es.map fun e => side c (st e)).getD i 0,
        ci.length⟩ : Contour)).map Contour.numEdges) = cs.map List.length := by simp
    simp only [e1]
    rw [← List.length_flatten, h4.length_eq, List.length_range]
  · intro γ hγ
    obtain ⟨ci, hci, rfl⟩ := List.mem_map.1 hγ
    obtain ⟨hne, hcyc⟩ := h5 ci hci
    refine ⟨by simpa using hne, by simp, ?_, ?_⟩
    · simp only [List.map_map]
      apply List.map_congr_left
      intro i hi
      have hi' := hltc ci hci i hi
      simp only [Function.comp]
      rw [List.getD_eq_getElem _ _ (by simpa using hi'), List.getD_eq_getElem _ _ hi', List.getElem_map]
    · intro i hi
      simp only [List.length_map] at hi ⊢
      have hpos : 0 < ci.length := by omega
      have hmod : (i + 1) % ci.length < ci.length := Nat.mod_lt _ hpos
      have hi' : ci[i] < es.length := hltc ci hci _ (List.getElem_mem hi)
      have hcy := hcyc i hi
      have hj' : ci[(i + 1) % ci.length] < es.length := hltc ci hci _ (List.getElem_mem hmod)
      have hnear := h2' ci[i] (by simpa using hi') (by rw [hl]; rw [hcy] at hj'; exact hj')
      rw [CellTopo.zip_getElem, CellTopo.zip_getElem, CellTopo.near_iff] at hnear
      have e1 : (ci.map fun i => es.getD i 0).getD ((i + 1) % ci.length) 0 = es.getD ci[(i + 1) % ci.length] 0 := by
        rw [List.getD_eq_getElem _ _ (by simpa using hmod), List.getElem_map]
      have e2 : (ci.map fun i => es.getD i 0).getD i 0 = es.getD ci[i] 0 := by
        rw [List.getD_eq_getElem _ _ (by simpa using hi), List.getElem_map]
      rw [e1, e2, List.getD_eq_getElem _ _ hi', List.getD_eq_getElem _ _ hj']
      convert hnear using 5

section examples

/-- a square with a square-shaped two-edge hole -/
def exCell : EdgeStore ℚ := fun k =>
  match k with
  | 0 => ⟨⟨0, 0, 0⟩, ⟨1, 0, 1⟩, 5, -1, none⟩
  | 1 => ⟨⟨1, 1, 2⟩, ⟨1, 0, 1⟩, -1, 5, none⟩
  | 2 => ⟨⟨1, 1, 2⟩, ⟨0, 1, 3⟩, 5, -1, none⟩
  | 3 => ⟨⟨0, 1, 3⟩, ⟨0, 0, 0⟩, 5, -1, none⟩
  | 4 => ⟨⟨1/4, 1/4, 4⟩, ⟨3/4, 3/4, 5⟩, -1, 5, none⟩
  | 5 => ⟨⟨3/4, 3/4, 5⟩, ⟨1/4, 1/4, 4⟩, -1, 5, none⟩
  | _ => ⟨⟨1/2, 1/2, 6⟩, ⟨1/2, 1/2, 6⟩, 7, 5, none⟩

example : CellTopo.init exCell 8 5 [2, 4, 0, 3, 5, 1, 6] =
    some (.ok ⟨5, [1, -1, 1, 1, -1, -1, -1],
      [⟨[2, 3, 0, 1], [1, 1, 1, -1], 4⟩, ⟨[4, 5], [-1, -1], 2⟩, ⟨[6], [-1], 1⟩], 2, 7⟩) := by decide +kernel
/-- an open chain -/
example : CellTopo.init exCell 8 5 [0, 2, 3] = some (.error .embedding) := by decide +kernel
/-- an edge given twice -/
example : CellTopo.init exCell 8 5 [6, 6] = some (.error .embedding) := by decide +kernel

end examples

end PFEM
