import Mathlib.Tactic.Ring
import Verif.Lemmas.Py
import Verif.Spec.Boundary

/-!
Filling an array block by block.
-/

namespace PFEM

/-- the block starts, from `last` on, if the block of `a` has `w a` entries -/
def offsets {α : Type} (w : α → ℕ) (last : ℕ) : List α → List ℕ
  | [] => [last]
  | a :: l => last :: offsets w (last + w a) l

theorem vertIdxLoop_eq (last : ℕ) (es : List EdgeG) :
    ContourG.vertIdxLoop last es = offsets (fun e => ContourG.npts e - 1) last es := by
  induction es generalizing last with
  | nil => rfl
  | cons e es ih => simp [ContourG.vertIdxLoop, offsets, ih]

theorem startLoop_eq (last : ℕ) (cs : List ContourG) : CellG.startLoop last cs = offsets ContourG.numPts last cs := by
  induction cs generalizing last with
  | nil => rfl
  | cons c cs ih => simp [CellG.startLoop, offsets, ih]

theorem offsets_eq {α : Type} (w : α → ℕ) (last : ℕ) (l : List α) :
    offsets w last l = (List.range (l.length + 1)).map fun i => last + blockStart (l.map w) i := by
  induction l generalizing last with
  | nil => simp [offsets, blockStart]
  | cons a l ih =>
    rw [offsets, ih, List.length_cons, List.range_succ_eq_map (n := l.length + 1)]
    simp only [List.map_cons, List.map_map]
    congr 1
    refine List.map_congr_left fun i _ => ?_
    simp only [Function.comp, blockStart, List.take_succ_cons, List.sum_cons]
    ring

theorem offsets_zero {α : Type} (w : α → ℕ) (l : List α) :
    offsets w 0 l = (List.range (l.length + 1)).map (blockStart (l.map w)) := by
  rw [offsets_eq]
  refine List.map_congr_left fun i _ => ?_
  simp

/-- the blocks computed one after the other -/
def blocks {α β : Type} (f : α → ℕ → ℕ → Py (List β)) (w : α → ℕ) (last : ℕ) : List α → Py (List (List β))
  | [] => .ok []
  | a :: l => do
    let v ← f a last (last + w a)
    let r ← blocks f w (last + w a) l
    .ok (v :: r)

theorem setSlice_block {β : Type} (done rest v : List β) (m : ℕ) (hm : m ≤ rest.length) (hv : v.length = m) :
    Np.setSlice (done ++ rest) done.length (done.length + m) v = .ok ((done ++ v) ++ rest.drop m) := by
  have hs : (Np.slice (done ++ rest) done.length (done.length + m)).length = m := by
    simp [Np.slice]; omega
  simp only [Np.setSlice, hs, hv, if_true]
  congr 1
  simp [List.drop_append]

theorem get_append {α : Type} (pre l : List α) (a : α) : Np.get (pre ++ a :: l) pre.length = .ok a := by
  simp [Np.get]

theorem offsets_head {α : Type} (w : α → ℕ) (last : ℕ) (l : List α) : ∃ r, offsets w last l = last :: r := by
  cases l <;> exact ⟨_, rfl⟩

theorem blockLoop_eq {α β : Type} (f : α → ℕ → ℕ → Py (List β)) (w : α → ℕ) : ∀ (l : List α) (pre : List ℕ) (done rest : List β)
    (vs : List (List β)), rest.length = (l.map w).sum → blocks f w done.length l = .ok vs → vs.map List.length = l.map w →
    Np.blockLoop f (pre ++ offsets w done.length l) pre.length (done ++ rest) l = .ok (done ++ vs.flatten)
  | [], pre, done, rest, vs, hr, hb, hl => by
    cases hb
    have : rest = [] := List.eq_nil_of_length_eq_zero (by simpa using hr)
    simp [Np.blockLoop, this]
  | a :: l, pre, done, rest, vs, hr, hb, hl => by
    obtain ⟨v, hv, hb⟩ := bind_ok hb
    obtain ⟨r, hr2, hb⟩ := bind_ok hb
    cases hb
    simp only [List.map_cons, List.cons.injEq] at hl
    obtain ⟨hvl, hrl⟩ := hl
    simp only [List.map_cons, List.sum_cons] at hr
    obtain ⟨q, hq⟩ := offsets_head w (done.length + w a) l
    have g1 : Np.get (pre ++ offsets w done.length (a :: l)) pre.length = .ok done.length := get_append _ _ _
    have g2 : Np.get (pre ++ offsets w done.length (a :: l)) (pre.length + 1) = .ok (done.length + w a) := by
      have := get_append (pre ++ [done.length]) q (done.length + w a)
      rw [← this]
      simp [offsets, hq]
    have hlen : (done ++ v).length = done.length + w a := by simp [hvl]
    have ih := blockLoop_eq f w l (pre ++ [done.length]) (done ++ v) (rest.drop (w a)) r (by simp; omega)
      (by rw [hlen]; exact hr2) hrl
    simp only [Np.blockLoop, g1, g2, bind, Except.bind, hv]
    rw [setSlice_block done rest v (w a) (by omega) hvl]
    simp only
    rw [hlen] at ih
    simp only [List.append_assoc, List.length_append, List.length_singleton, List.cons_append, List.nil_append] at ih ⊢
    exact ih

theorem blockLoop_start {α β : Type} (f : α → ℕ → ℕ → Py (List β)) (w : α → ℕ) (l : List α) (acc : List β) {vs : List (List β)}
    (hr : acc.length = (l.map w).sum) (hb : blocks f w 0 l = .ok vs) (hl : vs.map List.length = l.map w) :
    Np.blockLoop f (offsets w 0 l) 0 acc l = .ok vs.flatten :=
  blockLoop_eq f w l [] [] acc vs hr hb hl

/-- blocks that do not depend on their place -/
theorem blocks_const {α β : Type} (g : α → Py (List β)) (w : α → ℕ) (h : α → List β) :
    ∀ (l : List α) (last : ℕ), (∀ a ∈ l, g a = .ok (h a)) → blocks (fun a _ _ => g a) w last l = .ok (l.map h)
  | [], _, _ => rfl
  | a :: l, last, hl => by
    simp only [blocks, hl a (by simp), bind, Except.bind, blocks_const g w h l (last + w a) (fun b hb => hl b (by simp [hb])),
      List.map_cons]

/-- cutting a list into blocks of given sizes -/
theorem exists_split {γ : Type} : ∀ (ws : List ℕ) (d : List γ), d.length = ws.sum →
    ∃ us : List (List γ), d = us.flatten ∧ us.map List.length = ws
  | [], d, h => ⟨[], by simpa using h, rfl⟩
  | w :: ws, d, h => by
    simp only [List.sum_cons] at h
    obtain ⟨us, h1, h2⟩ := exists_split ws (d.drop w) (by simp; omega)
    refine ⟨d.take w :: us, ?_, ?_⟩
    · rw [List.flatten_cons, ← h1, List.take_append_drop]
    · simp [h2]; omega

theorem slice_block {γ : Type} (pre u rest : List γ) : Np.slice (pre ++ (u ++ rest)) pre.length (pre.length + u.length) = u := by
  rw [Np.slice, ← List.append_assoc, List.take_left' (by simp), List.drop_left]

/-- blocks that read the same places of a data array -/
theorem blocks_data {α β γ : Type} (f : α → ℕ → ℕ → Py (List β)) (w : α → ℕ) (g : α → List γ → List β) (d : List γ) :
    ∀ (l : List α) (pre : List γ) (us : List (List γ)), d = pre ++ us.flatten → us.map List.length = l.map w →
    (∀ a ∈ l, ∀ j, j + w a ≤ d.length → f a j (j + w a) = .ok (g a (Np.slice d j (j + w a)))) →
    blocks f w pre.length l = .ok (List.zipWith g l us)
  | [], pre, us, _, _, _ => by simp [blocks]
  | a :: l, pre, us, hd, hu, hf => by
    match us, hu with
    | u :: us, hu =>
      simp only [List.map_cons, List.cons.injEq] at hu
      have hd' : d = (pre ++ u) ++ us.flatten := by rw [hd]; simp
      have ih := blocks_data f w g d l (pre ++ u) us hd' hu.2 (fun b hb => hf b (by simp [hb]))
      have hfa := hf a (by simp) pre.length (by rw [hd]; simp; omega)
      have hs : Np.slice d pre.length (pre.length + w a) = u := by
        rw [hd, List.flatten_cons, ← hu.1]; exact slice_block _ _ _
      rw [hs] at hfa
      rw [List.length_append, hu.1] at ih
      simp only [blocks, hfa, bind, Except.bind, ih, List.zipWith_cons_cons]

/-- entrywise work on blocks is entrywise work on the whole -/
theorem zipWith_flatten {α β γ δ : Type} (f : δ → γ → β) (cols : α → List δ) : ∀ (l : List α) (us : List (List γ)),
    us.map List.length = l.map (fun a => (cols a).length) →
    (List.zipWith (fun a u => List.zipWith f (cols a) u) l us).flatten = List.zipWith f (l.flatMap cols) us.flatten
  | [], us, h => by simp
  | a :: l, us, h => by
    match us, h with
    | u :: us, h =>
      simp only [List.map_cons, List.cons.injEq] at h
      simp only [List.zipWith_cons_cons, List.flatten_cons, List.flatMap_cons]
      rw [zipWith_flatten f cols l us h.2, List.zipWith_append h.1.symm]

theorem slice_zip {α β : Type} (a : List α) (b : List β) (i j : ℕ) :
    Np.slice (a.zip b) i j = (Np.slice a i j).zip (Np.slice b i j) := by
  simp [Np.slice, List.zip, List.take_zipWith, List.drop_zipWith]

theorem slice_length {α : Type} (a : List α) {i w : ℕ} (h : i + w ≤ a.length) : (Np.slice a i (i + w)).length = w := by
  simp [Np.slice]; omega

end PFEM
