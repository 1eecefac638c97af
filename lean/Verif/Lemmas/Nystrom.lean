import Mathlib.Tactic.Linarith
import Mathlib.Tactic.FieldSimp
import Mathlib.Analysis.SpecialFunctions.Trigonometric.Bounds
import Verif.Lemmas.Boundary
import Verif.Model.Nystrom
import Verif.Spec.Nystrom

/-!
Filling matrices entry by entry and block by block.
-/

namespace PFEM
namespace Nystrom

theorem mem_pairs {n j0 m i j : ℕ} : (i, j) ∈ pairs n j0 m ↔ i < n ∧ j0 ≤ j ∧ j < m := by
  simp [pairs]
  omega

/-- the matrix with one entry changed -/
def put (B : Mat) (i j : ℕ) (v : ℝ) : Mat := { B with at' := fun a b => if a = i ∧ b = j then v else B.at' a b }

theorem set_eq {B : Mat} {i j : ℕ} (h : i < B.rows ∧ j < B.cols) (v : ℝ) : B.set i j v = .ok (put B i j v) := by
  simp [Mat.set, h, put]

theorem get_eq {B : Mat} {i j : ℕ} (h : i < B.rows ∧ j < B.cols) : B.get i j = .ok (B.at' i j) := by
  simp [Mat.get, h]

theorem put_put (B : Mat) (i j : ℕ) (v w : ℝ) : put (put B i j v) i j w = put B i j w := by
  unfold put
  congr 1
  funext a b
  by_cases h : a = i ∧ b = j <;> simp [h]

theorem put_at (B : Mat) (i j : ℕ) (v : ℝ) : (put B i j v).at' i j = v := by simp [put]

/-- entries written one after the other -/
theorem fill_list (step : Mat → ℕ × ℕ → Py Mat) (f : ℕ → ℕ → ℝ) (n m : ℕ) : ∀ (ps : List (ℕ × ℕ)) (B : Mat), B.rows = n → B.cols = m →
    (∀ (B : Mat) (i j : ℕ), (i, j) ∈ ps → B.rows = n → B.cols = m → step B (i, j) = .ok (put B i j (f i j))) →
    ps.foldlM step B = .ok { B with at' := fun a b => if (a, b) ∈ ps then f a b else B.at' a b }
  | [], B, _, _, _ => by simp [pure, Except.pure]
  | (i, j) :: ps, B, hr, hc, h => by
    rw [List.foldlM_cons, h B i j (by simp) hr hc]
    simp only [bind, Except.bind]
    rw [fill_list step f n m ps (put B i j (f i j)) hr hc fun B i' j' hm => h B i' j' (by simp [hm])]
    simp only [put]
    congr 2
    funext a b
    by_cases h1 : (a, b) ∈ ps
    · simp [h1]
    · by_cases h2 : a = i ∧ b = j
      · simp [h2.1, h2.2]
      · have h3 : ¬ ((a, b) = (i, j)) := by simpa [Prod.ext_iff] using h2
        simp [h1, h2]

theorem fill (step : Mat → ℕ × ℕ → Py Mat) (f : ℕ → ℕ → ℝ) (n j0 m : ℕ)
    (h : ∀ (B : Mat) (i j : ℕ), i < n → j0 ≤ j → j < m → B.rows = n → B.cols = m → step B (i, j) = .ok (put B i j (f i j))) :
    (pairs n j0 m).foldlM step (Mat.zeros n m) = .ok ⟨n, m, fun a b => if a < n ∧ j0 ≤ b ∧ b < m then f a b else 0⟩ := by
  rw [fill_list step f n m _ _ rfl rfl fun B i j hm => ?_]
  · simp only [Mat.zeros, mem_pairs]
  · obtain ⟨h1, h2, h3⟩ := mem_pairs.1 hm
    exact h B i j h1 h2 h3

/-- if a loop does not raise then none of its rounds does -/
theorem foldlM_rounds {σ α : Type} (step : σ → α → Py σ) (I : σ → Prop) (hI : ∀ s a s', I s → step s a = .ok s' → I s') :
    ∀ (l : List α) (s s' : σ), I s → l.foldlM step s = .ok s' → ∀ a ∈ l, ∃ t t', I t ∧ step t a = .ok t'
  | [], _, _, _, _, _, ha => by simp at ha
  | b :: l, s, s', hs, h, a, ha => by
    rw [List.foldlM_cons] at h
    obtain ⟨t, h1, h2⟩ := bind_ok h
    rcases List.mem_cons.1 ha with rfl | ha
    · exact ⟨s, t, hs, h1⟩
    · exact foldlM_rounds step I hI l t s' (hI _ _ _ hs h1) h2 a ha

theorem foldlM_keeps {σ α : Type} (step : σ → α → Py σ) (I : σ → Prop) (hI : ∀ s a s', I s → step s a = .ok s' → I s') :
    ∀ (l : List α) (s s' : σ), I s → l.foldlM step s = .ok s' → I s'
  | [], s, s', hs, h => by
    simp [pure, Except.pure] at h
    exact h ▸ hs
  | b :: l, s, s', hs, h => by
    rw [List.foldlM_cons] at h
    obtain ⟨t, h1, h2⟩ := bind_ok h
    exact foldlM_keeps step I hI l t s' (hI _ _ _ hs h1) h2

theorem off_mono {off w : ℕ → ℕ} {n : ℕ} (h : ∀ l < n, off (l + 1) = off l + w l) : ∀ {l m : ℕ}, l ≤ m → m ≤ n → off l ≤ off m := by
  intro l m hlm
  induction m, hlm using Nat.le_induction with
  | base => intro; exact le_rfl
  | succ m hlm ih =>
    intro hm
    have := h m (by omega)
    have := ih (by omega)
    omega

/-- a row of blocks written one after the other -/
theorem rowFill (step : Mat → ℕ → Py Mat) (off w : ℕ → ℕ) (E : ℕ → Mat) (r1 r2 R C : ℕ) (n : ℕ) (hr : r1 ≤ r2) (hR : r2 ≤ R)
    (hoff : ∀ l < n, off (l + 1) = off l + w l) (hC : off n ≤ C)
    (hE : ∀ l < n, (E l).rows = r2 - r1 ∧ (E l).cols = w l)
    (hstep : ∀ (B : Mat) (l : ℕ), l < n → B.rows = R → B.cols = C → step B l = B.setBlock r1 r2 (off l) (off (l + 1)) (E l))
    (M : Mat) (hMr : M.rows = R) (hMc : M.cols = C) :
    ∃ M' : Mat, (List.range n).foldlM step M = .ok M' ∧ M'.rows = R ∧ M'.cols = C ∧
      (∀ l < n, ∀ b < w l, ∀ a, r1 + a < r2 → M'.at' (r1 + a) (off l + b) = (E l).at' a b) ∧
      ∀ p q, ¬ (r1 ≤ p ∧ p < r2) → M'.at' p q = M.at' p q := by
  induction n with
  | zero => exact ⟨M, rfl, hMr, hMc, by simp, fun _ _ _ => rfl⟩
  | succ n ih =>
    have hn := hoff n (by omega)
    obtain ⟨M', h1, h2, h3, h4, h5⟩ := ih (fun l hl => hoff l (by omega)) (by omega) (fun l hl => hE l (by omega))
      (fun B l hl => hstep B l (by omega))
    rw [List.range_succ, List.foldlM_append, h1]
    simp only [bind, Except.bind, List.foldlM_cons, List.foldlM_nil, pure, Except.pure]
    rw [hstep M' n (by omega) h2 h3]
    have hs : (E n).rows = min r2 M'.rows - r1 ∧ (E n).cols = min (off (n + 1)) M'.cols - off n := by
      rw [h2, h3, (hE n (by omega)).1, (hE n (by omega)).2]
      constructor <;> omega
    simp only [Mat.setBlock]
    rw [if_pos hs]
    refine ⟨_, rfl, h2, h3, fun l hl b hb a ha => ?_, fun p q hp => ?_⟩
    · dsimp only
      rcases Nat.lt_succ_iff_lt_or_eq.1 hl with hl | rfl
      · have h6 := hoff l (by omega)
        have h7 := off_mono hoff (show l + 1 ≤ n by omega) (by omega)
        rw [if_neg (by omega)]
        exact h4 l hl b hb a ha
      · rw [if_pos (by omega)]
        congr 1 <;> omega
    · dsimp only
      rw [if_neg (by omega)]
      exact h5 p q hp

/-- rows of blocks written one after the other -/
theorem gridFill (step : Mat → ℕ → Py Mat) (offr wr off w : ℕ → ℕ) (W : ℕ → ℕ → ℕ → ℕ → ℝ → Prop) (R C m : ℕ) (n : ℕ)
    (hoff : ∀ k < n, offr (k + 1) = offr k + wr k)
    (hstep : ∀ (B : Mat) (k : ℕ), k < n → B.rows = R → B.cols = C → ∃ B' : Mat, step B k = .ok B' ∧ B'.rows = R ∧ B'.cols = C ∧
      (∀ l < m, ∀ b < w l, ∀ a, a < wr k → W k l a b (B'.at' (offr k + a) (off l + b))) ∧
      ∀ p q, ¬ (offr k ≤ p ∧ p < offr (k + 1)) → B'.at' p q = B.at' p q)
    (M : Mat) (hMr : M.rows = R) (hMc : M.cols = C) :
    ∃ M' : Mat, (List.range n).foldlM step M = .ok M' ∧ M'.rows = R ∧ M'.cols = C ∧
      ∀ k < n, ∀ l < m, ∀ a < wr k, ∀ b < w l, W k l a b (M'.at' (offr k + a) (off l + b)) := by
  induction n with
  | zero => exact ⟨M, rfl, hMr, hMc, by simp⟩
  | succ n ih =>
    obtain ⟨M', h1, h2, h3, h4⟩ := ih (fun l hl => hoff l (by omega)) (fun B l hl => hstep B l (by omega))
    rw [List.range_succ, List.foldlM_append, h1]
    simp only [bind, Except.bind, List.foldlM_cons, List.foldlM_nil, pure, Except.pure]
    obtain ⟨B', h5, h6, h7, h8, h9⟩ := hstep M' n (by omega) h2 h3
    rw [h5]
    refine ⟨B', rfl, h6, h7, fun k hk l hl a ha b hb => ?_⟩
    rcases Nat.lt_succ_iff_lt_or_eq.1 hk with hk | rfl
    · have h10 := hoff k (by omega)
      have h11 := off_mono hoff (show k + 1 ≤ n by omega) (by omega)
      rw [h9 _ _ (by omega)]
      exact h4 k hk l hl a ha b hb
    · exact h8 l hl b hb a ha

/-! ### blocks of two edges -/

open ContourG (npts)

/-- the spec of an entry of the single layer matrix in terms of edges -/
noncomputable def sEntry (same : Bool) (f : EdgeG) (a b : ℕ) (s t : Sample) : ℝ :=
  let N := f.cols.length
  if f.IsKress ∧ b = 0 then 0
  else if same then
    (if a = b then (if t.dxNorm < 1 / 10 ^ 14 then 0 else -(1 / N) * Real.log t.dxNorm)
     else -(1 / (2 * N)) * Real.log (sqDist s t / (2 * Real.sin (Real.pi * (a - b) / N)) ^ 2)) +
      martensenWeight N (max a b - min a b)
  else -(1 / (2 * N)) * Real.log (sqDist s t)

/-- the spec of an entry of the double layer matrix in terms of edges -/
noncomputable def dEntry (same : Bool) (f : EdgeG) (b : ℕ) (s t : Sample) : ℝ :=
  let N := f.cols.length
  if f.IsKress ∧ b = 0 then 0
  else (if same ∧ sqDist s t < 1 / 10 ^ 12 then t.curv / 2
    else ((s.x - t.x) * t.nx + (s.y - t.y) * t.ny) / sqDist s t) * t.dxNorm / N

theorem dist2_eq (s t : Sample) : dist2 s t = sqDist s t := by unfold dist2 sqDist; ring

theorem jStart_eq (f : EdgeG) : jStart f = if f.IsKress then 1 else 0 := by
  unfold jStart
  have : (f.quadType.toList.take 5 = "kress".toList) ↔ f.IsKress := by
    rw [EdgeG.IsKress, List.prefix_iff_eq_take]
    exact eq_comm
  by_cases h : f.IsKress
  · rw [if_pos (this.2 h), if_pos h]
  · rw [if_neg (fun h' => h (this.1 h')), if_neg h]

theorem skipped_iff (f : EdgeG) (b : ℕ) : jStart f ≤ b ↔ ¬ (f.IsKress ∧ b = 0) := by
  rw [jStart_eq]
  split_ifs with h
  · simp [h]; omega
  · simp [h]

theorem get_cols {e : EdgeG} {L : List Sample} (h : e.pts = some L) {i : ℕ} (hi : i < e.cols.length) :
    Np.get L i = .ok (e.cols[i]'hi) := by
  have : L[i]? = some (e.cols[i]'hi) := by
    simp only [EdgeG.cols, h, Option.getD_some, List.getElem_dropLast]
    rw [List.getElem?_eq_getElem]
  simp [Np.get, this]

/-- a sample of an edge, the zero sample outside -/
def smp (e : EdgeG) (i : ℕ) : Sample := (e.cols[i]?).getD ⟨0, 0, 0, 0, 0, 0, 0, 0⟩

theorem get_smp {e : EdgeG} {L : List Sample} (h : e.pts = some L) {i : ℕ} (hi : i < e.cols.length) :
    Np.get L i = .ok (smp e i) := by
  rw [get_cols h hi, smp, List.getElem?_eq_getElem hi, Option.getD_some]

theorem smp_eq {e : EdgeG} {i : ℕ} {s : Sample} (h : e.cols[i]? = some s) : smp e i = s := by simp [smp, h]

/-- an edge with at least two samples -/
def Sampled (e : EdgeG) : Prop := ∃ L, e.pts = some L ∧ 2 ≤ L.length

theorem Sampled.npts {e : EdgeG} (h : Sampled e) : npts e = e.cols.length + 1 := by
  obtain ⟨L, hL, h2⟩ := h
  rw [cols_length hL, ContourG.npts, hL, Option.getD_some]
  omega

theorem Sampled.pos {e : EdgeG} (h : Sampled e) : 0 < e.cols.length := by
  obtain ⟨L, hL, h2⟩ := h
  rw [cols_length hL]
  omega

/-- the block of two different edges in the single layer matrix -/
theorem singleEdge_distinct {e f : EdgeG} (he : Sampled e) (hf : Sampled f) (qm : Quad)
    (hsep : ∀ (a b : ℕ) (s t : Sample), e.cols[a]? = some s → f.cols[b]? = some t → ¬ (f.IsKress ∧ b = 0) → sqDist s t ≠ 0) :
    ∃ E : Mat, singleEdge false e f qm = .ok E ∧ E.rows = e.cols.length ∧ E.cols = f.cols.length ∧
      ∀ (a b : ℕ) (s t : Sample), e.cols[a]? = some s → f.cols[b]? = some t → E.at' a b = sEntry false f a b s t := by
  have hne := he.npts
  have hnf := hf.npts
  have hpos := hf.pos
  obtain ⟨Le, hLe, -⟩ := he
  obtain ⟨Lf, hLf, -⟩ := hf
  simp only [singleEdge, EdgeG.sampled, hLe, hLf, bind, Except.bind, hne, hnf, Bool.false_eq_true, if_false]
  rw [if_neg (by omega)]
  simp only [singleDistinct, Nat.add_sub_cancel]
  have hfill := fill (singleDistinctStep Le Lf (-0.5 / (((f.cols.length + 1 : ℕ) : ℝ) - 1)))
    (fun i j => Real.log (sqDist (smp e i) (smp f j)) * (-0.5 / (((f.cols.length + 1 : ℕ) : ℝ) - 1))) e.cols.length (jStart f) f.cols.length
    (fun B i j hi hj0 hj hr hc => by
      have hs := hsep i j _ _ (List.getElem?_eq_getElem hi) (List.getElem?_eq_getElem hj) ((skipped_iff f j).1 hj0)
      simp only [singleDistinctStep, get_smp hLe hi, get_smp hLf hj, bind, Except.bind, dist2_eq]
      rw [if_neg (by rw [smp_eq (List.getElem?_eq_getElem hi), smp_eq (List.getElem?_eq_getElem hj)]; exact hs)]
      exact set_eq ⟨by omega, by omega⟩ _)
  rw [hfill]
  refine ⟨_, rfl, rfl, rfl, fun a b s t ha hb => ?_⟩
  have ha' := (List.getElem?_eq_some_iff.1 ha).1
  have hb' := (List.getElem?_eq_some_iff.1 hb).1
  dsimp only
  rw [sEntry]
  by_cases hk : f.IsKress ∧ b = 0
  · rw [if_pos hk, if_neg]
    intro h
    exact (skipped_iff f b).1 h.2.1 hk
  · rw [if_neg hk, if_pos ⟨ha', (skipped_iff f b).2 hk, hb'⟩, smp_eq ha, smp_eq hb]
    simp only [Bool.false_eq_true, if_false]
    push_cast
    rw [add_sub_cancel_right]
    have : (f.cols.length : ℝ) ≠ 0 := by positivity
    field_simp
    norm_num
    ring

/-- the entries that are made for two different edges are finite -/
theorem singleEdge_distinct_sep {e f : EdgeG} (he : Sampled e) (hf : Sampled f) {qm : Quad} {E : Mat}
    (h : singleEdge false e f qm = .ok E) (a b : ℕ) (s t : Sample) (ha : e.cols[a]? = some s) (hb : f.cols[b]? = some t)
    (hk : ¬ (f.IsKress ∧ b = 0)) : sqDist s t ≠ 0 := by
  have hne := he.npts
  have hnf := hf.npts
  have hpos := hf.pos
  obtain ⟨Le, hLe, -⟩ := he
  obtain ⟨Lf, hLf, -⟩ := hf
  simp only [singleEdge, EdgeG.sampled, hLe, hLf, bind, Except.bind, hne, hnf, Bool.false_eq_true, if_false] at h
  rw [if_neg (by omega)] at h
  simp only [singleDistinct, Nat.add_sub_cancel] at h
  have ha' := (List.getElem?_eq_some_iff.1 ha).1
  have hb' := (List.getElem?_eq_some_iff.1 hb).1
  obtain ⟨B, B', -, h1⟩ := foldlM_rounds _ (fun _ => True) (fun _ _ _ _ _ => trivial) _ _ _ trivial h (a, b)
    (mem_pairs.2 ⟨ha', (skipped_iff f b).2 hk, hb'⟩)
  simp only [singleDistinctStep, get_smp hLe ha', get_smp hLf hb', bind, Except.bind, dist2_eq, smp_eq ha, smp_eq hb] at h1
  intro h0
  rw [if_pos h0] at h1
  cases h1

/-- the block of two different edges in the double layer matrix -/
theorem doubleEdge_distinct {e f : EdgeG} (he : Sampled e) (hf : Sampled f)
    (hsep : ∀ (a b : ℕ) (s t : Sample), e.cols[a]? = some s → f.cols[b]? = some t → ¬ (f.IsKress ∧ b = 0) → sqDist s t ≠ 0) :
    ∃ E : Mat, doubleEdge false e f = .ok E ∧ E.rows = e.cols.length ∧ E.cols = f.cols.length ∧
      ∀ (a b : ℕ) (s t : Sample), e.cols[a]? = some s → f.cols[b]? = some t → E.at' a b = dEntry false f b s t := by
  have hne := he.npts
  have hnf := hf.npts
  have hpos := hf.pos
  obtain ⟨Le, hLe, -⟩ := he
  obtain ⟨Lf, hLf, -⟩ := hf
  simp only [doubleEdge, EdgeG.sampled, hLe, hLf, bind, Except.bind, hne, hnf, Bool.false_eq_true, if_false]
  rw [if_neg (by omega)]
  simp only [doubleDistinct, Nat.add_sub_cancel]
  have hfill := fill (doubleDistinctStep Le Lf (1 / (((f.cols.length + 1 : ℕ) : ℝ) - 1)))
    (fun i j => (smp f j).dxNorm * (1 / (((f.cols.length + 1 : ℕ) : ℝ) - 1)) *
      (((smp e i).x - (smp f j).x) * (smp f j).nx + ((smp e i).y - (smp f j).y) * (smp f j).ny) / sqDist (smp e i) (smp f j))
    e.cols.length (jStart f) f.cols.length
    (fun B i j hi hj0 hj hr hc => by
      have hs := hsep i j _ _ (List.getElem?_eq_getElem hi) (List.getElem?_eq_getElem hj) ((skipped_iff f j).1 hj0)
      simp only [doubleDistinctStep, get_smp hLe hi, get_smp hLf hj, bind, Except.bind, dist2_eq]
      rw [if_neg (by rw [smp_eq (List.getElem?_eq_getElem hi), smp_eq (List.getElem?_eq_getElem hj)]; exact hs)]
      exact set_eq ⟨by omega, by omega⟩ _)
  rw [hfill]
  refine ⟨_, rfl, rfl, rfl, fun a b s t ha hb => ?_⟩
  have ha' := (List.getElem?_eq_some_iff.1 ha).1
  have hb' := (List.getElem?_eq_some_iff.1 hb).1
  dsimp only
  rw [dEntry]
  by_cases hk : f.IsKress ∧ b = 0
  · rw [if_pos hk, if_neg]
    intro h
    exact (skipped_iff f b).1 h.2.1 hk
  · rw [if_neg hk, if_pos ⟨ha', (skipped_iff f b).2 hk, hb'⟩, smp_eq ha, smp_eq hb]
    simp only [Bool.false_eq_true, false_and, if_false]
    push_cast
    rw [add_sub_cancel_right]
    have : (f.cols.length : ℝ) ≠ 0 := by positivity
    have := hsep a b s t ha hb hk
    field_simp

theorem doubleEdge_distinct_sep {e f : EdgeG} (he : Sampled e) (hf : Sampled f) {E : Mat}
    (h : doubleEdge false e f = .ok E) (a b : ℕ) (s t : Sample) (ha : e.cols[a]? = some s) (hb : f.cols[b]? = some t)
    (hk : ¬ (f.IsKress ∧ b = 0)) : sqDist s t ≠ 0 := by
  have hne := he.npts
  have hnf := hf.npts
  have hpos := hf.pos
  obtain ⟨Le, hLe, -⟩ := he
  obtain ⟨Lf, hLf, -⟩ := hf
  simp only [doubleEdge, EdgeG.sampled, hLe, hLf, bind, Except.bind, hne, hnf, Bool.false_eq_true, if_false] at h
  rw [if_neg (by omega)] at h
  simp only [doubleDistinct, Nat.add_sub_cancel] at h
  have ha' := (List.getElem?_eq_some_iff.1 ha).1
  have hb' := (List.getElem?_eq_some_iff.1 hb).1
  obtain ⟨B, B', -, h1⟩ := foldlM_rounds _ (fun _ => True) (fun _ _ _ _ _ => trivial) _ _ _ trivial h (a, b)
    (mem_pairs.2 ⟨ha', (skipped_iff f b).2 hk, hb'⟩)
  simp only [doubleDistinctStep, get_smp hLe ha', get_smp hLf hb', bind, Except.bind, dist2_eq, smp_eq ha, smp_eq hb] at h1
  intro h0
  rw [if_pos h0] at h1
  cases h1

/-- the block of an edge with itself in the double layer matrix -/
theorem doubleEdge_same {e : EdgeG} (he : Sampled e) :
    ∃ E : Mat, doubleEdge true e e = .ok E ∧ E.rows = e.cols.length ∧ E.cols = e.cols.length ∧
      ∀ (a b : ℕ) (s t : Sample), e.cols[a]? = some s → e.cols[b]? = some t → E.at' a b = dEntry true e b s t := by
  have hne := he.npts
  have hpos := he.pos
  obtain ⟨Le, hLe, -⟩ := he
  simp only [doubleEdge, EdgeG.sampled, hLe, bind, Except.bind, hne, if_true]
  rw [if_neg (by omega)]
  simp only [doubleSame, Nat.add_sub_cancel]
  have hfill := fill (doubleSameStep Le (1 / (((e.cols.length + 1 : ℕ) : ℝ) - 1)))
    (fun i j => (if sqDist (smp e i) (smp e j) < 1 / 10 ^ 12 then 0.5 * (smp e j).curv else
      (((smp e i).x - (smp e j).x) * (smp e j).nx + ((smp e i).y - (smp e j).y) * (smp e j).ny) / sqDist (smp e i) (smp e j)) *
      ((smp e j).dxNorm * (1 / (((e.cols.length + 1 : ℕ) : ℝ) - 1))))
    e.cols.length (jStart e) e.cols.length
    (fun B i j hi hj0 hj hr hc => by
      simp only [doubleSameStep, get_smp hLe hi, get_smp hLe hj, bind, Except.bind, dist2_eq]
      have hij : i < B.rows ∧ j < B.cols := ⟨by omega, by omega⟩
      split_ifs with hd
      · rw [set_eq hij]
        simp only
        rw [get_eq (B := put B i j _) (by exact hij)]
        simp only [put_at]
        rw [set_eq (B := put B i j _) (by exact hij), put_put]
      · rw [set_eq hij]
        simp only
        rw [get_eq (B := put B i j _) (by exact hij)]
        simp only [put_at]
        rw [set_eq (B := put B i j _) (by exact hij), put_put])
  rw [hfill]
  refine ⟨_, rfl, rfl, rfl, fun a b s t ha hb => ?_⟩
  have ha' := (List.getElem?_eq_some_iff.1 ha).1
  have hb' := (List.getElem?_eq_some_iff.1 hb).1
  dsimp only
  rw [dEntry]
  by_cases hk : e.IsKress ∧ b = 0
  · rw [if_pos hk, if_neg]
    intro h
    exact (skipped_iff e b).1 h.2.1 hk
  · rw [if_neg hk, if_pos ⟨ha', (skipped_iff e b).2 hk, hb'⟩, smp_eq ha, smp_eq hb]
    simp only [true_and]
    push_cast
    rw [add_sub_cancel_right]
    have : (e.cols.length : ℝ) ≠ 0 := by positivity
    split_ifs with hd
    · field_simp
      norm_num
      ring
    · field_simp

/-! ### Martensen's rule -/

theorem foldl_add (g : ℕ → ℝ) (n : ℕ) : (List.range n).foldl (fun w k => w + g k) 0 = ∑ k ∈ Finset.range n, g k := by
  induction n with
  | zero => simp
  | succ n ih => rw [List.range_succ, List.foldl_append, ih, Finset.sum_range_succ]; rfl

theorem mart_init {n : ℕ} (hn : 4 ≤ n) : ∃ q : Quad, Quad.init "mart" (n : ℤ) 7 = .ok q ∧
    (∀ k ≤ 2 * n, Np.get q.t k = .ok ((2 * Real.sin (Real.pi * k / (2 * n : ℕ))) ^ 2)) ∧
    ∀ k ≤ 2 * n, Np.get q.wgt k = .ok (martensenWeight (2 * n) k) := by
  have h4 : ¬ ((n : ℤ) < 4) := by omega
  have hn0 : (n : ℝ) ≠ 0 := by
    have : n ≠ 0 := by omega
    exact_mod_cast this
  refine ⟨⟨"mart", n, Real.pi / n, (Quad.nodes n).map Quad.martT, (Quad.nodes n).map (Quad.martW n)⟩,
    by simp only [Quad.init, h4, if_false, show ("mart" = "kress") = False by decide, if_true, Int.toNat_natCast],
    fun k hk => ?_, fun k hk => ?_⟩
  · have : k < 2 * n + 1 := by omega
    simp only [Np.get, Quad.nodes, List.map_map, List.getElem?_map, List.getElem?_range this, Option.map_some,
      Function.comp, Quad.martT]
    rw [← pow_two]
    congr 4
    push_cast
    field_simp
  · have : k < 2 * n + 1 := by omega
    simp only [Np.get, Quad.nodes, List.map_map, List.getElem?_map, List.getElem?_range this, Option.map_some,
      Function.comp, Quad.martW]
    rw [foldl_add (fun m => Real.cos (((m : ℕ) + 1 : ℕ) * ((k : ℕ) * (2 * Real.pi / (2 * n : ℕ)))) / ((m : ℕ) + 1 : ℕ)), martensenWeight,
      show 2 * n / 2 = n by omega, div_eq_mul_inv]
    congr 2
    · refine Finset.sum_congr rfl fun m _ => ?_
      push_cast
      congr 2
      field_simp
    · push_cast
      field_simp
      norm_num

theorem mart_large {n k : ℕ} (h1 : 1 ≤ k) (h2 : k < 2 * n) (hn : n ≤ 2 * 10 ^ 7) :
    ¬ ((2 * Real.sin (Real.pi * k / (2 * n : ℕ))) ^ 2 < 1 / 10 ^ 14) := by
  have hn0 : 0 < n := by omega
  have hnr : (0 : ℝ) < n := by exact_mod_cast hn0
  have hnr2 : (n : ℝ) ≤ 2 * 10 ^ 7 := by exact_mod_cast hn
  have key : 1 / (n : ℝ) ≤ Real.sin (Real.pi * k / (2 * n : ℕ)) := by
    push_cast
    by_cases hk : k ≤ n
    · have h := Real.mul_le_sin (x := Real.pi * k / (2 * n)) (by positivity) (by
        rw [div_le_div_iff₀ (by positivity) (by norm_num)]
        have : (k : ℝ) ≤ n := by exact_mod_cast hk
        nlinarith [Real.pi_pos])
      refine le_trans ?_ h
      rw [show 2 / Real.pi * (Real.pi * k / (2 * n)) = (k : ℝ) / n by field_simp [Real.pi_ne_zero]]
      have : (1 : ℝ) ≤ k := by exact_mod_cast h1
      gcongr
    · have hk' : n < k := by omega
      have hkr : (k : ℝ) + 1 ≤ 2 * n := by exact_mod_cast h2
      have hkr' : (n : ℝ) ≤ k := by exact_mod_cast hk'.le
      rw [← Real.sin_pi_sub, show Real.pi - Real.pi * k / (2 * n) = Real.pi * (2 * n - k) / (2 * n) by field_simp]
      have h := Real.mul_le_sin (x := Real.pi * (2 * n - k) / (2 * n)) (by
          apply div_nonneg _ (by positivity)
          exact mul_nonneg Real.pi_pos.le (by linarith)) (by
        rw [div_le_div_iff₀ (by positivity) (by norm_num)]
        nlinarith [Real.pi_pos])
      refine le_trans ?_ h
      rw [show 2 / Real.pi * (Real.pi * (2 * n - k) / (2 * n)) = (2 * n - k : ℝ) / n by field_simp [Real.pi_ne_zero]]
      gcongr
      linarith
  have h5 : 1 / 10 ^ 7 ≤ 2 * Real.sin (Real.pi * k / (2 * n : ℕ)) := by
    have : 1 / (2 * 10 ^ 7 : ℝ) ≤ 1 / n := by gcongr
    have h6 := le_trans this key
    norm_num at h6 ⊢
    linarith
  have h7 : (1 / 10 ^ 7 : ℝ) ^ 2 ≤ (2 * Real.sin (Real.pi * k / (2 * n : ℕ))) ^ 2 := by gcongr
  norm_num at h7 ⊢
  linarith

/-- the block of an edge with itself in the single layer matrix -/
theorem singleEdge_same {e : EdgeG} (he : Sampled e) {n : ℕ} (h4 : 4 ≤ n) (hn : n ≤ 2 * 10 ^ 7) (hlen : e.cols.length = 2 * n)
    {qm : Quad} (hq : Quad.init "mart" (n : ℤ) 7 = .ok qm)
    (hsep : ∀ (a b : ℕ) (s t : Sample), e.cols[a]? = some s → e.cols[b]? = some t → ¬ (e.IsKress ∧ b = 0) → a ≠ b → sqDist s t ≠ 0) :
    ∃ E : Mat, singleEdge true e e qm = .ok E ∧ E.rows = e.cols.length ∧ E.cols = e.cols.length ∧
      ∀ (a b : ℕ) (s t : Sample), e.cols[a]? = some s → e.cols[b]? = some t → E.at' a b = sEntry true e a b s t := by
  have hne := he.npts
  have hpos := he.pos
  obtain ⟨Le, hLe, -⟩ := he
  obtain ⟨q, hq', ht, hw⟩ := mart_init h4
  rw [hq] at hq'
  cases hq'
  simp only [singleEdge, EdgeG.sampled, hLe, bind, Except.bind, hne, if_true]
  rw [if_neg (by omega)]
  simp only [singleSame, Nat.add_sub_cancel]
  have hfill := fill (singleSameStep Le (-0.5 / (((e.cols.length + 1 : ℕ) : ℝ) - 1)) qm.wgt qm.t)
    (fun i j => (if i = j then (if (smp e j).dxNorm < 1 / 10 ^ 14 then 0 else 2 * Real.log (smp e j).dxNorm) else
      Real.log (sqDist (smp e i) (smp e j) / (2 * Real.sin (Real.pi * (i - j + (j - i) : ℕ) / (2 * n : ℕ))) ^ 2)) *
      (-0.5 / (((e.cols.length + 1 : ℕ) : ℝ) - 1)) + martensenWeight (2 * n) (i - j + (j - i)))
    e.cols.length (jStart e) e.cols.length
    (fun B i j hi hj0 hj hr hc => by
      have hij : i < B.rows ∧ j < B.cols := ⟨by omega, by omega⟩
      simp only [singleSameStep, get_smp hLe hi, get_smp hLe hj, bind, Except.bind, dist2_eq,
        ht (i - j + (j - i)) (by omega), hw (i - j + (j - i)) (by omega)]
      by_cases hd : i = j
      · subst hd
        rw [if_pos (by simp), if_pos rfl]
        split_ifs with hx hx0
        · rw [set_eq hij]
          simp only
          rw [get_eq (B := put B i i _) (by exact hij)]
          simp only [put_at]
          rw [set_eq (B := put B i i _) (by exact hij), put_put]
          simp only
          rw [get_eq (B := put B i i _) (by exact hij)]
          simp only [put_at]
          rw [set_eq (B := put B i i _) (by exact hij), put_put]
        · exact absurd (by rw [hx0]; norm_num) hx
        · rw [set_eq hij]
          simp only
          rw [get_eq (B := put B i i _) (by exact hij)]
          simp only [put_at]
          rw [set_eq (B := put B i i _) (by exact hij), put_put]
          simp only
          rw [get_eq (B := put B i i _) (by exact hij)]
          simp only [put_at]
          rw [set_eq (B := put B i i _) (by exact hij), put_put]
      · have hm := mart_large (n := n) (k := i - j + (j - i)) (by omega) (by omega) hn
        have hm0 : (2 * Real.sin (Real.pi * (i - j + (j - i) : ℕ) / (2 * n : ℕ))) ^ 2 ≠ 0 := by
          intro h0
          rw [h0] at hm
          norm_num at hm
        have hs := hsep i j _ _ (List.getElem?_eq_getElem hi) (List.getElem?_eq_getElem hj) ((skipped_iff e j).1 hj0) hd
        rw [← smp_eq (List.getElem?_eq_getElem hi), ← smp_eq (List.getElem?_eq_getElem hj)] at hs
        rw [if_neg hm, if_neg hd, if_neg (div_ne_zero hs hm0), set_eq hij]
        simp only
        rw [get_eq (B := put B i j _) (by exact hij)]
        simp only [put_at]
        rw [set_eq (B := put B i j _) (by exact hij), put_put]
        simp only
        rw [get_eq (B := put B i j _) (by exact hij)]
        simp only [put_at]
        rw [set_eq (B := put B i j _) (by exact hij), put_put])
  rw [hfill]
  refine ⟨_, rfl, rfl, rfl, fun a b s t ha hb => ?_⟩
  have ha' := (List.getElem?_eq_some_iff.1 ha).1
  have hb' := (List.getElem?_eq_some_iff.1 hb).1
  dsimp only
  rw [sEntry]
  by_cases hk : e.IsKress ∧ b = 0
  · rw [if_pos hk, if_neg]
    intro h
    exact (skipped_iff e b).1 h.2.1 hk
  · rw [if_neg hk, if_pos ⟨ha', (skipped_iff e b).2 hk, hb'⟩, smp_eq ha, smp_eq hb]
    simp only [if_true]
    rw [show max a b - min a b = a - b + (b - a) by omega, hlen]
    push_cast
    rw [add_sub_cancel_right]
    congr 1
    have hn0 : (n : ℝ) ≠ 0 := by
      have : n ≠ 0 := by omega
      exact_mod_cast this
    by_cases hab : a = b
    · rw [if_pos hab, if_pos hab]
      split_ifs with hx
      · simp
      · field_simp
        norm_num
        ring
    · rw [if_neg hab, if_neg hab]
      have hsin : (2 * Real.sin (Real.pi * ((a - b : ℕ) + (b - a : ℕ) : ℝ) / (2 * n))) ^ 2 =
          (2 * Real.sin (Real.pi * (a - b) / (2 * n))) ^ 2 := by
        rcases le_total a b with h | h
        · rw [Nat.sub_eq_zero_of_le h, Nat.cast_sub h]
          push_cast
          rw [show Real.pi * (0 + ((b : ℝ) - a)) / (2 * n) = -(Real.pi * (a - b) / (2 * n)) by ring, Real.sin_neg]
          ring
        · rw [Nat.sub_eq_zero_of_le h, Nat.cast_sub h]
          push_cast
          rw [add_zero]
      rw [hsin]
      field_simp
      norm_num
      ring

theorem singleEdge_same_sep {e : EdgeG} (he : Sampled e) {n : ℕ} (h4 : 4 ≤ n) (hn : n ≤ 2 * 10 ^ 7) (hlen : e.cols.length = 2 * n)
    {qm : Quad} (hq : Quad.init "mart" (n : ℤ) 7 = .ok qm) {E : Mat} (h : singleEdge true e e qm = .ok E)
    (a b : ℕ) (s t : Sample) (ha : e.cols[a]? = some s) (hb : e.cols[b]? = some t) (hk : ¬ (e.IsKress ∧ b = 0)) (hab : a ≠ b) :
    sqDist s t ≠ 0 := by
  have hne := he.npts
  have hpos := he.pos
  obtain ⟨Le, hLe, -⟩ := he
  obtain ⟨q, hq', ht, hw⟩ := mart_init h4
  rw [hq] at hq'
  cases hq'
  simp only [singleEdge, EdgeG.sampled, hLe, bind, Except.bind, hne, if_true] at h
  rw [if_neg (by omega)] at h
  simp only [singleSame, Nat.add_sub_cancel] at h
  have ha' := (List.getElem?_eq_some_iff.1 ha).1
  have hb' := (List.getElem?_eq_some_iff.1 hb).1
  obtain ⟨B, B', -, h1⟩ := foldlM_rounds _ (fun _ => True) (fun _ _ _ _ _ => trivial) _ _ _ trivial h (a, b)
    (mem_pairs.2 ⟨ha', (skipped_iff e b).2 hk, hb'⟩)
  simp only [singleSameStep, get_smp hLe ha', get_smp hLe hb', bind, Except.bind, dist2_eq, smp_eq ha, smp_eq hb,
    ht (a - b + (b - a)) (by omega)] at h1
  intro h0
  rw [if_neg (mart_large (n := n) (k := a - b + (b - a)) (by omega) (by omega) hn), h0, zero_div, if_pos rfl] at h1
  cases h1

/-! ### blocks of two components -/

theorem blockStart_succ {l : List ℕ} {k w : ℕ} (h : l[k]? = some w) : blockStart l (k + 1) = blockStart l k + w := by
  unfold blockStart
  rw [List.take_add_one, h]
  simp

theorem blockStart_length (l : List ℕ) : blockStart l l.length = l.sum := by simp [blockStart]

theorem blockStart_le_sum (l : List ℕ) (k : ℕ) : blockStart l k ≤ l.sum := by
  unfold blockStart
  conv_rhs => rw [← List.take_append_drop k l, List.sum_append]
  omega

theorem get_range_map {f : ℕ → ℕ} {n k : ℕ} (h : k < n) : Np.get ((List.range n).map f) k = .ok (f k) := by
  simp [Np.get, List.getElem?_range h]

/-- where the block of edge `k` starts -/
def es (c : ContourG) (k : ℕ) : ℕ := blockStart (c.edges.map fun e => e.cols.length) k

theorem es_succ {c : ContourG} {k : ℕ} {e : EdgeG} (h : c.edges[k]? = some e) : es c (k + 1) = es c k + e.cols.length :=
  blockStart_succ (by simp [h])

/-- number of samples of edge `k` -/
def ew (c : ContourG) (k : ℕ) : ℕ := ((c.edges[k]?).map fun e => e.cols.length).getD 0

theorem ew_eq {c : ContourG} {k : ℕ} {e : EdgeG} (h : c.edges[k]? = some e) : ew c k = e.cols.length := by simp [ew, h]

theorem es_ew (c : ContourG) : ∀ k < c.edges.length, es c (k + 1) = es c k + ew c k := fun k hk => by
  rw [es_succ (List.getElem?_eq_getElem hk), ew_eq (List.getElem?_eq_getElem hk)]

theorem es_end {c : ContourG} (h : c.Ready) : es c c.edges.length = c.numPts := by
  have := blockStart_length (c.edges.map fun e => e.cols.length)
  rw [List.length_map] at this
  rw [es, this, h.numPts, ContourG.cols_len]

theorem es_le {c : ContourG} (h : c.Ready) (k : ℕ) : es c k ≤ c.numPts := by
  rw [h.numPts, ContourG.cols_len]
  exact blockStart_le_sum _ _

theorem get_es {c : ContourG} (h : c.Ready) {k : ℕ} (hk : k ≤ c.edges.length) : Np.get c.vertIdx k = .ok (es c k) := by
  rw [h.vertIdx, get_range_map (by omega)]
  rfl

theorem get_some {α : Type} {l : List α} {k : ℕ} {a : α} (h : l[k]? = some a) : Np.get l k = .ok a := by simp [Np.get, h]

/-- a row of blocks of edges -/
theorem edgeRow_fill {cj : ContourG} (hj : cj.Ready) (r1 r2 R : ℕ) (hr : r1 ≤ r2) (hR : r2 ≤ R) (block : ℕ → EdgeG → Py Mat)
    (W : ℕ → ℕ → ℕ → ℝ → Prop)
    (hb : ∀ (l : ℕ) (f : EdgeG), cj.edges[l]? = some f → ∃ E : Mat, block l f = .ok E ∧ E.rows = r2 - r1 ∧ E.cols = f.cols.length ∧
      ∀ a < r2 - r1, ∀ b < f.cols.length, W l a b (E.at' a b))
    (B : Mat) (hBr : B.rows = R) (hBc : B.cols = cj.numPts) :
    ∃ B' : Mat, edgeRow cj r1 r2 block B = .ok B' ∧ B'.rows = R ∧ B'.cols = cj.numPts ∧
      (∀ l < cj.edges.length, ∀ b < ew cj l, ∀ a, a < r2 - r1 → W l a b (B'.at' (r1 + a) (es cj l + b))) ∧
      ∀ p q, ¬ (r1 ≤ p ∧ p < r2) → B'.at' p q = B.at' p q := by
  have hex : ∀ l : ℕ, ∃ E : Mat, ∀ f, cj.edges[l]? = some f → block l f = .ok E ∧ E.rows = r2 - r1 ∧ E.cols = f.cols.length ∧
      ∀ a < r2 - r1, ∀ b < f.cols.length, W l a b (E.at' a b) := by
    intro l
    by_cases hl : l < cj.edges.length
    · obtain ⟨E, hE⟩ := hb l _ (List.getElem?_eq_getElem hl)
      refine ⟨E, fun f hf => ?_⟩
      rw [List.getElem?_eq_getElem hl, Option.some.injEq] at hf
      rw [← hf]
      exact hE
    · refine ⟨Mat.zeros 0 0, fun f hf => ?_⟩
      rw [List.getElem?_eq_none (by omega)] at hf
      cases hf
  choose E hE using hex
  have hEl := fun l (hl : l < cj.edges.length) => hE l _ (List.getElem?_eq_getElem hl)
  obtain ⟨M', h1, h2, h3, h4, h5⟩ := rowFill (fun (B : Mat) (ell : ℕ) => do
    let ll1 ← Np.get cj.vertIdx ell
    let ll2 ← Np.get cj.vertIdx (ell + 1)
    let f ← Np.get cj.edges ell
    let E ← block ell f
    B.setBlock r1 r2 ll1 ll2 E) (es cj) (ew cj) E r1 r2 R cj.numPts cj.edges.length hr hR (es_ew cj) (es_le hj _)
    (fun l hl => ⟨(hEl l hl).2.1, by rw [(hEl l hl).2.2.1, ew_eq (List.getElem?_eq_getElem hl)]⟩)
    (fun B l hl _ _ => by
      simp only [get_es hj hl.le, get_es hj (show l + 1 ≤ _ by omega), get_some (List.getElem?_eq_getElem hl), (hEl l hl).1, bind, Except.bind])
    B hBr hBc
  refine ⟨M', h1, h2, h3, fun l hl b hb a ha => ?_, h5⟩
  rw [h4 l hl b hb a (by omega)]
  rw [ew_eq (List.getElem?_eq_getElem hl)] at hb
  exact (hEl l hl).2.2.2 a ha b hb

/-- the block of two components -/
theorem comp_fill {ci cj : ContourG} (hi : ci.Ready) (hj : cj.Ready) (step : Mat → ℕ → Py Mat) (W : ℕ → ℕ → ℕ → ℕ → ℝ → Prop)
    (hstep : ∀ (k : ℕ) (e : EdgeG), ci.edges[k]? = some e → ∃ block : ℕ → EdgeG → Py Mat,
      (∀ B : Mat, step B k = edgeRow cj (es ci k) (es ci (k + 1)) block B) ∧
      ∀ (l : ℕ) (f : EdgeG), cj.edges[l]? = some f → ∃ E : Mat, block l f = .ok E ∧ E.rows = e.cols.length ∧ E.cols = f.cols.length ∧
        ∀ a < e.cols.length, ∀ b < f.cols.length, W k l a b (E.at' a b)) :
    ∃ M : Mat, (List.range ci.edges.length).foldlM step (Mat.zeros ci.numPts cj.numPts) = .ok M ∧ M.rows = ci.numPts ∧
      M.cols = cj.numPts ∧ ∀ k < ci.edges.length, ∀ l < cj.edges.length, ∀ a < ew ci k, ∀ b < ew cj l,
        W k l a b (M.at' (es ci k + a) (es cj l + b)) := by
  refine gridFill step (es ci) (ew ci) (es cj) (ew cj) W ci.numPts cj.numPts cj.edges.length ci.edges.length (es_ew ci)
    (fun B k hk hr hc => ?_) _ rfl rfl
  have hk' := List.getElem?_eq_getElem hk
  obtain ⟨block, h1, h2⟩ := hstep k _ hk'
  have hes := es_succ hk'
  have hle := es_le hi (k + 1)
  obtain ⟨B', h3, h4, h5, h6, h7⟩ := edgeRow_fill hj (es ci k) (es ci (k + 1)) ci.numPts (by omega) hle block (W k)
    (fun l f hf => by
      obtain ⟨E, h8, h9, h10, h11⟩ := h2 l f hf
      exact ⟨E, h8, by rw [h9]; omega, h10, fun a ha b hb => h11 a (by omega) b hb⟩) B hr hc
  refine ⟨B', by rw [h1, h3], h4, h5, fun l hl b hb a ha => h6 l hl b hb a ?_, h7⟩
  rw [ew_eq hk'] at ha
  omega

/-! ### the matrices -/

/-- where the block of component `i` starts -/
def cs (K : CellG) (i : ℕ) : ℕ := blockStart (K.components.map ContourG.numPts) i

/-- number of samples of component `i` -/
def cw (K : CellG) (i : ℕ) : ℕ := ((K.components[i]?).map ContourG.numPts).getD 0

theorem cw_eq {K : CellG} {i : ℕ} {c : ContourG} (h : K.components[i]? = some c) : cw K i = c.numPts := by simp [cw, h]

theorem cs_cw (K : CellG) : ∀ i < K.components.length, cs K (i + 1) = cs K i + cw K i := fun i hi => by
  rw [cw_eq (List.getElem?_eq_getElem hi)]
  exact blockStart_succ (by simp [List.getElem?_eq_getElem hi])

theorem cs_le {K : CellG} (h : K.Ready) (i : ℕ) : cs K i ≤ K.numPts := by
  rw [h.numPts, h.cols_len]
  exact blockStart_le_sum _ _

theorem get_cs {K : CellG} (h : K.Ready) {i : ℕ} (hi : i ≤ K.components.length) : Np.get K.startIdx i = .ok (cs K i) := by
  rw [h.startIdx, get_range_map (by omega)]
  rfl

theorem build_fill {K : CellG} (h : K.Ready) (block : Bool → ContourG → ContourG → Py Mat) (W : ℕ → ℕ → ℕ → ℕ → ℝ → Prop)
    (hb : ∀ (i j : ℕ) (ci cj : ContourG), K.components[i]? = some ci → K.components[j]? = some cj → ∃ E : Mat,
      block (i == j) ci cj = .ok E ∧ E.rows = ci.numPts ∧ E.cols = cj.numPts ∧
      ∀ a < ci.numPts, ∀ b < cj.numPts, W i j a b (E.at' a b)) :
    ∃ M : Mat, buildMat K block = .ok M ∧ M.rows = K.numPts ∧ M.cols = K.numPts ∧
      ∀ i < K.components.length, ∀ j < K.components.length, ∀ a < cw K i, ∀ b < cw K j, W i j a b (M.at' (cs K i + a) (cs K j + b)) := by
  refine gridFill _ (cs K) (cw K) (cs K) (cw K) W K.numPts K.numPts K.components.length K.components.length (cs_cw K)
    (fun B i hi hr hc => ?_) _ rfl rfl
  have hi' := List.getElem?_eq_getElem hi
  have hex : ∀ j : ℕ, ∃ E : Mat, ∀ cj, K.components[j]? = some cj → block (i == j) K.components[i] cj = .ok E ∧
      E.rows = K.components[i].numPts ∧ E.cols = cj.numPts ∧
      ∀ a < K.components[i].numPts, ∀ b < cj.numPts, W i j a b (E.at' a b) := by
    intro j
    by_cases hj : j < K.components.length
    · obtain ⟨E, hE⟩ := hb i j _ _ hi' (List.getElem?_eq_getElem hj)
      refine ⟨E, fun f hf => ?_⟩
      rw [List.getElem?_eq_getElem hj, Option.some.injEq] at hf
      rw [← hf]
      exact hE
    · refine ⟨Mat.zeros 0 0, fun f hf => ?_⟩
      rw [List.getElem?_eq_none (by omega)] at hf
      cases hf
  choose E hE using hex
  have hEl := fun l (hl : l < K.components.length) => hE l _ (List.getElem?_eq_getElem hl)
  have hs := cs_cw K i hi
  rw [cw_eq hi'] at hs ⊢
  obtain ⟨M', h1, h2, h3, h4, h5⟩ := rowFill (fun (M : Mat) (j : ℕ) => do
      let jj1 ← Np.get K.startIdx j
      let jj2 ← Np.get K.startIdx (j + 1)
      let ci ← Np.get K.components i
      let cj ← Np.get K.components j
      let B ← block (i == j) ci cj
      M.setBlock (cs K i) (cs K (i + 1)) jj1 jj2 B) (cs K) (cw K) E (cs K i) (cs K (i + 1)) K.numPts K.numPts K.components.length
    (by omega) (cs_le h _) (cs_cw K) (cs_le h _)
    (fun l hl => ⟨by rw [(hEl l hl).2.1]; omega, by rw [(hEl l hl).2.2.1, cw_eq (List.getElem?_eq_getElem hl)]⟩)
    (fun B l hl _ _ => by
      simp only [get_cs h hl.le, get_cs h (show l + 1 ≤ _ by omega), get_some (List.getElem?_eq_getElem hl), get_some hi', (hEl l hl).1,
        bind, Except.bind])
    B hr hc
  refine ⟨M', ?_, h2, h3, fun l hl b hb a ha => ?_, h5⟩
  · simp only [get_cs h hi.le, get_cs h (show i + 1 ≤ _ by omega)]
    exact h1
  · rw [h4 l hl b hb a (by omega)]
    rw [cw_eq (List.getElem?_eq_getElem hl)] at hb
    exact (hEl l hl).2.2.2 a ha b hb

/-- a block per pair of edges, made by a loop over components -/
theorem node_fill {K : CellG} (h : K.Ready) (block : Bool → ContourG → ContourG → Py Mat) (W : Node K → Node K → ℝ → Prop)
    (hb : ∀ (i j : ℕ) (ci cj : ContourG), K.components[i]? = some ci → K.components[j]? = some cj → ∃ E : Mat,
      block (i == j) ci cj = .ok E ∧ E.rows = ci.numPts ∧ E.cols = cj.numPts ∧
      ∀ P Q : Node K, P.i = i → Q.i = j → W P Q (E.at' (es P.c P.k + P.a) (es Q.c Q.k + Q.a))) :
    ∃ M : Mat, buildMat K block = .ok M ∧ M.rows = K.numPts ∧ M.cols = K.numPts ∧
      ∀ P Q : Node K, W P Q (M.at' P.pos Q.pos) := by
  obtain ⟨M, h1, h2, h3, h4⟩ := build_fill h block
    (fun i j a b v => ∀ P Q : Node K, P.i = i → Q.i = j → a = es P.c P.k + P.a → b = es Q.c Q.k + Q.a → W P Q v)
    (fun i j ci cj hi hj => by
      obtain ⟨E, h1, h2, h3, h4⟩ := hb i j ci cj hi hj
      exact ⟨E, h1, h2, h3, fun a ha b hb P Q hP hQ ha' hb' => by rw [ha', hb']; exact h4 P Q hP hQ⟩)
  refine ⟨M, h1, h2, h3, fun P Q => ?_⟩
  have key : ∀ P : Node K, P.i < K.components.length ∧ es P.c P.k + P.a < cw K P.i := by
    intro P
    have h5 := (List.getElem?_eq_some_iff.1 P.hs).1
    have h6 := es_succ P.he
    have h7 := es_le (h.ready P.c (List.mem_of_getElem? P.hc)) (P.k + 1)
    rw [cw_eq P.hc]
    exact ⟨(List.getElem?_eq_some_iff.1 P.hc).1, by omega⟩
  have := h4 P.i (key P).1 Q.i (key Q).1 _ (key P).2 _ (key Q).2 P Q rfl rfl rfl rfl
  simpa only [Node.pos, ← add_assoc, cs, es] using this

/-! ### what can be raised -/

/-- `ZeroDivisionError` is the only possible exception, and every result has the property `I` -/
def OnlyZ {σ : Type} (I : σ → Prop) : Py σ → Prop
  | .ok s => I s
  | .error er => er = .zeroDivision

theorem OnlyZ.bind {σ τ : Type} {I : σ → Prop} {J : τ → Prop} {x : Py σ} {f : σ → Py τ} (h : OnlyZ I x) (hf : ∀ s, I s → OnlyZ J (f s)) :
    OnlyZ J (x >>= f) := by
  cases x with
  | error er => exact h
  | ok s => exact hf s h

theorem OnlyZ.foldlM {σ α : Type} {I : σ → Prop} {step : σ → α → Py σ} : ∀ {l : List α} {s : σ}, I s →
    (∀ s a, a ∈ l → I s → OnlyZ I (step s a)) → OnlyZ I (l.foldlM step s)
  | [], s, hs, _ => hs
  | a :: l, s, hs, h => by
    rw [List.foldlM_cons]
    exact (h s a (by simp) hs).bind fun s' hs' => OnlyZ.foldlM hs' fun s b hb => h s b (by simp [hb])

/-- the shape of a matrix -/
def Shape (r c : ℕ) (M : Mat) : Prop := M.rows = r ∧ M.cols = c

theorem set_only {r c : ℕ} {B : Mat} (hB : Shape r c B) {i j : ℕ} (hi : i < r) (hj : j < c) (v : ℝ) : OnlyZ (Shape r c) (B.set i j v) := by
  rw [set_eq ⟨by rw [hB.1]; exact hi, by rw [hB.2]; exact hj⟩]
  exact hB

theorem get_only {r c : ℕ} {B : Mat} (hB : Shape r c B) {i j : ℕ} (hi : i < r) (hj : j < c) : OnlyZ (fun _ => True) (B.get i j) := by
  rw [get_eq ⟨by rw [hB.1]; exact hi, by rw [hB.2]; exact hj⟩]
  trivial

theorem singleEdge_only {e f : EdgeG} (he : Sampled e) (hf : Sampled f) (same : Bool) (hsame : same = true → e = f) {n : ℕ} (h4 : 4 ≤ n)
    (hlen : e.cols.length = 2 * n) {qm : Quad} (hq : Quad.init "mart" (n : ℤ) 7 = .ok qm) :
    OnlyZ (Shape e.cols.length f.cols.length) (singleEdge same e f qm) := by
  have hne := he.npts
  have hnf := hf.npts
  have hpos := hf.pos
  obtain ⟨Le, hLe, -⟩ := he
  obtain ⟨Lf, hLf, -⟩ := hf
  obtain ⟨q, hq', ht, hw⟩ := mart_init h4
  rw [hq] at hq'
  cases hq'
  simp only [singleEdge, EdgeG.sampled, hLe, hLf, bind, Except.bind, hne, hnf]
  rw [if_neg (by omega)]
  cases same with
  | true =>
    obtain rfl := hsame rfl
    simp only [if_true, singleSame, Nat.add_sub_cancel]
    refine OnlyZ.foldlM ⟨rfl, rfl⟩ fun B ⟨i, j⟩ hm hB => ?_
    obtain ⟨hi, -, hj⟩ := mem_pairs.1 hm
    simp only [singleSameStep, get_smp hLe hi, get_smp hLe hj, ht (i - j + (j - i)) (by omega), hw (i - j + (j - i)) (by omega)]
    refine OnlyZ.bind (I := Shape e.cols.length e.cols.length) ?_ fun B hB => ?_
    · split_ifs
      · exact set_only hB hi hi _
      · rfl
      · exact set_only hB hi hi _
      · rfl
      · exact set_only hB hi hj _
    · refine (get_only hB hi hj).bind fun b _ => (set_only hB hi hj _).bind fun B hB => (get_only hB hi hj).bind fun b _ => ?_
      exact set_only hB hi hj _
  | false =>
    simp only [Bool.false_eq_true, if_false, singleDistinct, Nat.add_sub_cancel]
    refine OnlyZ.foldlM ⟨rfl, rfl⟩ fun B ⟨i, j⟩ hm hB => ?_
    obtain ⟨hi, -, hj⟩ := mem_pairs.1 hm
    simp only [singleDistinctStep, get_smp hLe hi, get_smp hLf hj, bind, Except.bind]
    split_ifs
    · rfl
    · exact set_only hB hi hj _

theorem doubleEdge_only {e f : EdgeG} (he : Sampled e) (hf : Sampled f) (same : Bool) (hsame : same = true → e = f) :
    OnlyZ (Shape e.cols.length f.cols.length) (doubleEdge same e f) := by
  have hne := he.npts
  have hnf := hf.npts
  have hpos := hf.pos
  obtain ⟨Le, hLe, -⟩ := he
  obtain ⟨Lf, hLf, -⟩ := hf
  simp only [doubleEdge, EdgeG.sampled, hLe, hLf, bind, Except.bind, hne, hnf]
  rw [if_neg (by omega)]
  cases same with
  | true =>
    obtain rfl := hsame rfl
    simp only [if_true, doubleSame, Nat.add_sub_cancel]
    refine OnlyZ.foldlM ⟨rfl, rfl⟩ fun B ⟨i, j⟩ hm hB => ?_
    obtain ⟨hi, -, hj⟩ := mem_pairs.1 hm
    simp only [doubleSameStep, get_smp hLe hi, get_smp hLe hj]
    refine OnlyZ.bind (I := Shape e.cols.length e.cols.length) ?_ fun B hB => (get_only hB hi hj).bind fun b _ => set_only hB hi hj _
    split_ifs
    · exact set_only hB hi hj _
    · exact set_only hB hi hj _
  | false =>
    simp only [Bool.false_eq_true, if_false, doubleDistinct, Nat.add_sub_cancel]
    refine OnlyZ.foldlM ⟨rfl, rfl⟩ fun B ⟨i, j⟩ hm hB => ?_
    obtain ⟨hi, -, hj⟩ := mem_pairs.1 hm
    simp only [doubleDistinctStep, get_smp hLe hi, get_smp hLf hj, bind, Except.bind]
    split_ifs
    · rfl
    · exact set_only hB hi hj _

theorem setBlock_only {R C r c : ℕ} {B E : Mat} (hB : Shape R C B) (hE : Shape r c E) {r1 r2 c1 c2 : ℕ} (hr : r2 = r1 + r)
    (hc : c2 = c1 + c) (hR : r2 ≤ R) (hC : c2 ≤ C) : OnlyZ (Shape R C) (B.setBlock r1 r2 c1 c2 E) := by
  unfold Mat.setBlock
  rw [if_pos ⟨by rw [hE.1, hB.1]; omega, by rw [hE.2, hB.2]; omega⟩]
  exact hB

theorem edgeRow_only {cj : ContourG} (hj : cj.Ready) {r1 r2 R r : ℕ} (hr : r2 = r1 + r) (hR : r2 ≤ R) {block : ℕ → EdgeG → Py Mat}
    (hb : ∀ (l : ℕ) (f : EdgeG), cj.edges[l]? = some f → OnlyZ (Shape r f.cols.length) (block l f))
    {B : Mat} (hB : Shape R cj.numPts B) : OnlyZ (Shape R cj.numPts) (edgeRow cj r1 r2 block B) := by
  unfold edgeRow
  refine OnlyZ.foldlM hB fun B l hl hB => ?_
  have hl := List.mem_range.1 hl
  have hf := List.getElem?_eq_getElem hl
  simp only [get_es hj hl.le, get_es hj (show l + 1 ≤ _ by omega), get_some hf]
  exact (hb l _ hf).bind fun E hE => setBlock_only hB hE hr (es_succ hf) hR (es_le hj _)

theorem buildMat_only {K : CellG} (h : K.Ready) {block : Bool → ContourG → ContourG → Py Mat}
    (hb : ∀ (i j : ℕ) (ci cj : ContourG), K.components[i]? = some ci → K.components[j]? = some cj →
      OnlyZ (Shape ci.numPts cj.numPts) (block (i == j) ci cj)) : OnlyZ (Shape K.numPts K.numPts) (buildMat K block) := by
  unfold buildMat
  refine OnlyZ.foldlM ⟨rfl, rfl⟩ fun B i hi hB => ?_
  have hi := List.mem_range.1 hi
  have hi' := List.getElem?_eq_getElem hi
  simp only [get_cs h hi.le, get_cs h (show i + 1 ≤ _ by omega)]
  refine OnlyZ.foldlM hB fun B j hj hB => ?_
  have hj := List.mem_range.1 hj
  have hj' := List.getElem?_eq_getElem hj
  simp only [get_cs h hj.le, get_cs h (show j + 1 ≤ _ by omega), get_some hi', get_some hj']
  refine (hb i j _ _ hi' hj').bind fun E hE => setBlock_only hB hE ?_ ?_ (cs_le h _) (cs_le h _)
  · rw [cs_cw K i hi, cw_eq hi']
  · rw [cs_cw K j hj, cw_eq hj']

theorem singleMat_only {K : CellG} (h : K.Ready) (hev : K.Even) : OnlyZ (Shape K.numPts K.numPts) (singleMat K) := by
  refine buildMat_only h fun i j ci cj hi hj => ?_
  have hci := h.ready ci (List.mem_of_getElem? hi)
  have hcj := h.ready cj (List.mem_of_getElem? hj)
  unfold singleComp
  refine OnlyZ.foldlM ⟨rfl, rfl⟩ fun B k hk hB => ?_
  have hk := List.mem_range.1 hk
  have he := List.getElem?_eq_getElem hk
  obtain ⟨n, hn4, hn, hlen⟩ := hev ci (List.mem_of_getElem? hi) _ (List.mem_of_getElem? he)
  obtain ⟨qm, hq, -, -⟩ := mart_init hn4
  have hes := hci.sampled _ (List.mem_of_getElem? he)
  have hnm : (ContourG.npts ci.edges[k] - 1) / 2 = n := by
    rw [Sampled.npts hes]
    omega
  simp only [get_es hci hk.le, get_es hci (show k + 1 ≤ _ by omega), get_some he, hnm, hq, bind, Except.bind]
  refine edgeRow_only hcj (r := ci.edges[k].cols.length) (es_succ he) (es_le hci _) (fun l f hf => ?_) hB
  refine singleEdge_only hes (hcj.sampled _ (List.mem_of_getElem? hf)) _ (fun hs => ?_) hn4 hlen hq
  simp only [Bool.and_eq_true, beq_iff_eq] at hs
  have h5 := hj
  rw [← hs.1, hi] at h5
  simp only [Option.some.injEq] at h5
  rw [← h5, ← hs.2, he] at hf
  simpa using hf

theorem doubleMat_only {K : CellG} (h : K.Ready) : OnlyZ (Shape K.numPts K.numPts) (doubleMat K) := by
  refine buildMat_only h fun i j ci cj hi hj => ?_
  have hci := h.ready ci (List.mem_of_getElem? hi)
  have hcj := h.ready cj (List.mem_of_getElem? hj)
  unfold doubleComp
  refine OnlyZ.foldlM ⟨rfl, rfl⟩ fun B k hk hB => ?_
  have hk := List.mem_range.1 hk
  have he := List.getElem?_eq_getElem hk
  have hes := hci.sampled _ (List.mem_of_getElem? he)
  simp only [get_es hci hk.le, get_es hci (show k + 1 ≤ _ by omega), get_some he]
  refine edgeRow_only hcj (r := ci.edges[k].cols.length) (es_succ he) (es_le hci _) (fun l f hf => ?_) hB
  refine doubleEdge_only hes (hcj.sampled _ (List.mem_of_getElem? hf)) _ fun hs => ?_
  simp only [Bool.and_eq_true, beq_iff_eq] at hs
  have h5 := hj
  rw [← hs.1, hi] at h5
  simp only [Option.some.injEq] at h5
  rw [← h5, ← hs.2, he] at hf
  simpa using hf

/-- if the matrix is built then so is every block of two components -/
theorem buildMat_blocks {K : CellG} {block : Bool → ContourG → ContourG → Py Mat} {M : Mat} (h : buildMat K block = .ok M)
    {i j : ℕ} {ci cj : ContourG} (hi : K.components[i]? = some ci) (hj : K.components[j]? = some cj) :
    ∃ E, block (i == j) ci cj = .ok E := by
  unfold buildMat at h
  obtain ⟨B, B', -, h1⟩ := foldlM_rounds _ (fun _ => True) (fun _ _ _ _ _ => trivial) _ _ _ trivial h i
    (List.mem_range.2 (List.getElem?_eq_some_iff.1 hi).1)
  obtain ⟨_, -, h1⟩ := bind_ok h1
  obtain ⟨_, -, h1⟩ := bind_ok h1
  obtain ⟨B, B', -, h1⟩ := foldlM_rounds _ (fun _ => True) (fun _ _ _ _ _ => trivial) _ _ _ trivial h1 j
    (List.mem_range.2 (List.getElem?_eq_some_iff.1 hj).1)
  simp only [get_some hi, get_some hj] at h1
  obtain ⟨_, -, h1⟩ := bind_ok h1
  obtain ⟨_, -, h1⟩ := bind_ok h1
  obtain ⟨_, hc, h1⟩ := bind_ok h1
  cases hc
  obtain ⟨_, hc, h1⟩ := bind_ok h1
  cases hc
  obtain ⟨E, h2, -⟩ := bind_ok h1
  exact ⟨E, h2⟩

/-- if a row of blocks is built then so is every block -/
theorem edgeRow_blocks {cj : ContourG} {r1 r2 : ℕ} {block : ℕ → EdgeG → Py Mat} {B B' : Mat} (h : edgeRow cj r1 r2 block B = .ok B')
    {l : ℕ} {f : EdgeG} (hf : cj.edges[l]? = some f) : ∃ E, block l f = .ok E := by
  unfold edgeRow at h
  obtain ⟨B, B', -, h1⟩ := foldlM_rounds _ (fun _ => True) (fun _ _ _ _ _ => trivial) _ _ _ trivial h l
    (List.mem_range.2 (List.getElem?_eq_some_iff.1 hf).1)
  simp only [get_some hf] at h1
  obtain ⟨_, -, h1⟩ := bind_ok h1
  obtain ⟨_, -, h1⟩ := bind_ok h1
  obtain ⟨_, hc, h1⟩ := bind_ok h1
  cases hc
  obtain ⟨E, h2, -⟩ := bind_ok h1
  exact ⟨E, h2⟩

end Nystrom
end PFEM
