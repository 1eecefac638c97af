import Verif.Lemmas.Nystrom

/-!
Property theorems C51: the matrices of the Nyström solver.
-/

namespace PFEM
open Nystrom

/-! ### places -/

theorem flatMap_get {α β : Type} (g : α → List β) : ∀ (l : List α) (k a : ℕ) (c : α) (x : β), l[k]? = some c → (g c)[a]? = some x →
    (l.flatMap g)[blockStart (l.map fun c => (g c).length) k + a]? = some x
  | [], k, a, c, x, hk, _ => by simp at hk
  | d :: l, 0, a, c, x, hk, ha => by
    simp at hk
    subst hk
    have := (List.getElem?_eq_some_iff.1 ha).1
    simp only [blockStart, List.take_zero, List.sum_nil, Nat.zero_add, List.flatMap_cons]
    rw [List.getElem?_append_left this, ha]
  | d :: l, k + 1, a, c, x, hk, ha => by
    have ih := flatMap_get g l k a c x (by simpa using hk) ha
    simp only [blockStart, List.map_cons, List.take_succ_cons, List.sum_cons, List.flatMap_cons] at ih ⊢
    rw [List.getElem?_append_right (by omega), ← ih]
    congr 1
    omega

theorem flatMap_place {α β : Type} (g : α → List β) : ∀ (l : List α) (p : ℕ) (x : β), (l.flatMap g)[p]? = some x →
    ∃ (k a : ℕ) (c : α), l[k]? = some c ∧ (g c)[a]? = some x ∧ p = blockStart (l.map fun c => (g c).length) k + a
  | [], p, x, h => by simp at h
  | d :: l, p, x, h => by
    rw [List.flatMap_cons] at h
    by_cases hp : p < (g d).length
    · rw [List.getElem?_append_left hp] at h
      exact ⟨0, p, d, by simp, h, by simp [blockStart]⟩
    · rw [List.getElem?_append_right (by omega)] at h
      obtain ⟨k, a, c, h1, h2, h3⟩ := flatMap_place g l _ x h
      refine ⟨k + 1, a, c, by simpa using h1, h2, ?_⟩
      simp only [blockStart, List.map_cons, List.take_succ_cons, List.sum_cons] at h3 ⊢
      omega

theorem flatMap_unique {α β : Type} (g : α → List β) : ∀ (l : List α) (k a : ℕ) (c : α) (k' a' : ℕ) (c' : α), l[k]? = some c →
    a < (g c).length → l[k']? = some c' → a' < (g c').length →
    blockStart (l.map fun c => (g c).length) k + a = blockStart (l.map fun c => (g c).length) k' + a' → k = k' ∧ a = a'
  | [], k, a, c, k', a', c', hk, _, _, _, _ => by simp at hk
  | d :: l, 0, a, c, 0, a', c', hk, ha, hk', ha', h => ⟨rfl, by simpa [blockStart] using h⟩
  | d :: l, 0, a, c, k' + 1, a', c', hk, ha, hk', ha', h => by
    simp at hk
    subst hk
    simp only [blockStart, List.map_cons, List.take_succ_cons, List.sum_cons, List.take_zero, List.sum_nil] at h
    omega
  | d :: l, k + 1, a, c, 0, a', c', hk, ha, hk', ha', h => by
    simp at hk'
    subst hk'
    simp only [blockStart, List.map_cons, List.take_succ_cons, List.sum_cons, List.take_zero, List.sum_nil] at h
    omega
  | d :: l, k + 1, a, c, k' + 1, a', c', hk, ha, hk', ha', h => by
    have := flatMap_unique g l k a c k' a' c' (by simpa using hk) ha (by simpa using hk') ha' (by
      simp only [blockStart, List.map_cons, List.take_succ_cons, List.sum_cons] at h ⊢
      omega)
    omega

theorem comp_sizes {K : CellG} (h : K.Ready) : K.components.map ContourG.numPts = K.components.map fun c => c.cols.length := h.sizes

/-- C51, places: every entry of a vector on a cell belongs to exactly one sample, and the boundary arrays are in that order. -/
theorem C51_places {K : CellG} (h : K.Ready) :
    (∀ P : Node K, K.cols[P.pos]? = some P.s) ∧ (∀ p < K.numPts, ∃ P : Node K, P.pos = p) ∧
    ∀ P Q : Node K, P.pos = Q.pos → P.i = Q.i ∧ P.k = Q.k ∧ P.a = Q.a := by
  have hin : ∀ P : Node K, (P.c.cols)[es P.c P.k + P.a]? = some P.s := fun P =>
    flatMap_get EdgeG.cols P.c.edges P.k P.a P.e P.s P.he P.hs
  have hpos : ∀ P : Node K, P.pos = blockStart (K.components.map fun c => c.cols.length) P.i + (es P.c P.k + P.a) := fun P => by
    rw [Node.pos, comp_sizes h, ← add_assoc]
    rfl
  refine ⟨fun P => ?_, fun p hp => ?_, fun P Q hPQ => ?_⟩
  · rw [hpos]
    exact flatMap_get ContourG.cols K.components P.i _ P.c P.s P.hc (hin P)
  · rw [h.numPts] at hp
    obtain ⟨i, a', c, h1, h2, h3⟩ := flatMap_place ContourG.cols K.components p _ (List.getElem?_eq_getElem hp)
    obtain ⟨k, a, e, h4, h5, h6⟩ := flatMap_place EdgeG.cols c.edges a' _ h2
    refine ⟨⟨i, k, a, c, e, _, h1, h4, h5⟩, ?_⟩
    rw [hpos]
    simp only [es]
    omega
  · rw [hpos, hpos] at hPQ
    have h1 := flatMap_unique ContourG.cols K.components P.i _ P.c Q.i _ Q.c P.hc (List.getElem?_eq_some_iff.1 (hin P)).1 Q.hc
      (List.getElem?_eq_some_iff.1 (hin Q)).1 hPQ
    have hc : P.c = Q.c := by
      have := P.hc
      rw [h1.1, Q.hc] at this
      simpa using this.symm
    have h2 := h1.2
    rw [hc] at h2
    have hP := P.he
    rw [hc] at hP
    have h3 := flatMap_unique EdgeG.cols Q.c.edges P.k P.a P.e Q.k Q.a Q.e hP (List.getElem?_eq_some_iff.1 P.hs).1 Q.he
      (List.getElem?_eq_some_iff.1 Q.hs).1 h2
    exact ⟨h1.1, h3.1, h3.2⟩

/-! ### entries -/

theorem ready_sampled {K : CellG} (h : K.Ready) {i : ℕ} {c : ContourG} (hc : K.components[i]? = some c) {k : ℕ} {e : EdgeG}
    (he : c.edges[k]? = some e) : Sampled e :=
  (h.ready c (List.mem_of_getElem? hc)).sampled e (List.mem_of_getElem? he)

/-! ### blocks -/

/-- the edges of two samples on one edge are the same -/
theorem same_edge {K : CellG} {i j k l : ℕ} {ci cj : ContourG} {e f : EdgeG} (hi : K.components[i]? = some ci)
    (hj : K.components[j]? = some cj) (he : ci.edges[k]? = some e) (hf : cj.edges[l]? = some f)
    (hs : ((i == j) && (k == l)) = true) : e = f := by
  simp only [Bool.and_eq_true, beq_iff_eq] at hs
  have h5 := hj
  rw [← hs.1, hi] at h5
  simp only [Option.some.injEq] at h5
  rw [← h5, ← hs.2, he] at hf
  simpa using hf

/-- C51 as stated, double layer, any number of samples: in the finished matrix the entry for two samples is the entry of the block of
their edges at their places on these edges. -/
theorem C51_blocks_double {K : CellG} (h : K.Ready) {M : Mat} (hM : doubleMat K = .ok M) :
    M.rows = K.numPts ∧ M.cols = K.numPts ∧ ∀ P Q : Node K, ∃ E : Mat,
      doubleEdge (decide (P.SameEdge Q)) P.e Q.e = .ok E ∧ E.rows = P.e.cols.length ∧ E.cols = Q.e.cols.length ∧
      M.at' P.pos Q.pos = E.at' P.a Q.a := by
  have hd : ∀ P Q : Node K, decide (P.SameEdge Q) = ((P.i == Q.i) && (P.k == Q.k)) := fun P Q => by
    rw [Bool.eq_iff_iff, decide_eq_true_iff]
    simp [Node.SameEdge]
  simp only [hd]
  have hex : ∀ (i j k l : ℕ) (ci cj : ContourG) (e f : EdgeG), K.components[i]? = some ci → K.components[j]? = some cj →
      ci.edges[k]? = some e → cj.edges[l]? = some f → ∃ E : Mat, doubleEdge ((i == j) && (k == l)) e f = .ok E ∧
        E.rows = e.cols.length ∧ E.cols = f.cols.length := by
    intro i j k l ci cj e f hi hj he hf
    obtain ⟨E, hE⟩ := buildMat_blocks hM hi hj
    unfold doubleComp at hE
    obtain ⟨B, B', -, h1⟩ := foldlM_rounds _ (fun _ => True) (fun _ _ _ _ _ => trivial) _ _ _ trivial hE k
      (List.mem_range.2 (List.getElem?_eq_some_iff.1 he).1)
    obtain ⟨_, -, h1⟩ := bind_ok h1
    obtain ⟨_, -, h1⟩ := bind_ok h1
    obtain ⟨e', he', h1⟩ := bind_ok h1
    rw [get_some he] at he'
    cases he'
    obtain ⟨E, hE⟩ := edgeRow_blocks h1 hf
    have := doubleEdge_only (ready_sampled h hi he) (ready_sampled h hj hf) _ (same_edge hi hj he hf)
    rw [hE] at this
    exact ⟨E, hE, this.1, this.2⟩
  obtain ⟨M', h1, h2, h3, h4⟩ := node_fill h doubleComp (fun P Q v => ∃ E : Mat,
      doubleEdge ((P.i == Q.i) && (P.k == Q.k)) P.e Q.e = .ok E ∧ E.rows = P.e.cols.length ∧ E.cols = Q.e.cols.length ∧
      v = E.at' P.a Q.a) fun i j ci cj hi hj => by
    obtain ⟨E, h1, h2, h3, h4⟩ := comp_fill (h.ready ci (List.mem_of_getElem? hi)) (h.ready cj (List.mem_of_getElem? hj))
      (fun B k => do
        let kk1 ← Np.get ci.vertIdx k
        let kk2 ← Np.get ci.vertIdx (k + 1)
        let e ← Np.get ci.edges k
        edgeRow cj kk1 kk2 (fun ell f => doubleEdge ((i == j) && (k == ell)) e f) B)
      (fun k l a b v => ∀ e f, ci.edges[k]? = some e → cj.edges[l]? = some f → ∃ E : Mat,
        doubleEdge ((i == j) && (k == l)) e f = .ok E ∧ E.rows = e.cols.length ∧ E.cols = f.cols.length ∧ v = E.at' a b)
      (fun k e he => by
        have hk := (List.getElem?_eq_some_iff.1 he).1
        have hci := h.ready ci (List.mem_of_getElem? hi)
        refine ⟨fun ell f => doubleEdge ((i == j) && (k == ell)) e f, fun B => ?_, fun l f hf => ?_⟩
        · simp only [get_es hci hk.le, get_es hci (show k + 1 ≤ _ by omega), get_some he, bind, Except.bind]
        · obtain ⟨E, h1, h2, h3⟩ := hex i j k l ci cj e f hi hj he hf
          refine ⟨E, h1, h2, h3, fun a _ b _ e' f' he' hf' => ?_⟩
          rw [he] at he'
          rw [hf] at hf'
          cases he'
          cases hf'
          exact ⟨E, h1, h2, h3, rfl⟩)
    refine ⟨E, h1, h2, h3, ?_⟩
    rintro P Q rfl rfl
    have hPc : P.c = ci := by
      have := P.hc
      rw [hi] at this
      simpa using this.symm
    have hQc : Q.c = cj := by
      have := Q.hc
      rw [hj] at this
      simpa using this.symm
    subst hPc hQc
    exact h4 P.k (List.getElem?_eq_some_iff.1 P.he).1 Q.k (List.getElem?_eq_some_iff.1 Q.he).1 P.a
      (by rw [ew_eq P.he]; exact (List.getElem?_eq_some_iff.1 P.hs).1) Q.a
      (by rw [ew_eq Q.he]; exact (List.getElem?_eq_some_iff.1 Q.hs).1) P.e Q.e P.he Q.he
  rw [show doubleMat K = buildMat K doubleComp from rfl, h1] at hM
  cases hM
  exact ⟨h2, h3, h4⟩

/-- C51 as stated, single layer, any number of samples: in the finished matrix the entry for two samples is the entry of the block of
their edges at their places on these edges, made with Martensen's rule for the row edge. -/
theorem C51_blocks_single {K : CellG} (h : K.Ready) (hev : ∀ c ∈ K.components, ∀ e ∈ c.edges, ∃ n : ℕ, 4 ≤ n ∧ e.cols.length = 2 * n)
    {M : Mat} (hM : singleMat K = .ok M) :
    M.rows = K.numPts ∧ M.cols = K.numPts ∧ ∀ P Q : Node K, ∃ (E : Mat) (q : Quad),
      Quad.init "mart" ((P.e.cols.length / 2 : ℕ) : ℤ) 7 = .ok q ∧ singleEdge (decide (P.SameEdge Q)) P.e Q.e q = .ok E ∧
      E.rows = P.e.cols.length ∧ E.cols = Q.e.cols.length ∧ M.at' P.pos Q.pos = E.at' P.a Q.a := by
  have hd : ∀ P Q : Node K, decide (P.SameEdge Q) = ((P.i == Q.i) && (P.k == Q.k)) := fun P Q => by
    rw [Bool.eq_iff_iff, decide_eq_true_iff]
    simp [Node.SameEdge]
  simp only [hd]
  have hq : ∀ (i k : ℕ) (ci : ContourG) (e : EdgeG), K.components[i]? = some ci → ci.edges[k]? = some e → ∃ q : Quad,
      Quad.init "mart" ((e.cols.length / 2 : ℕ) : ℤ) 7 = .ok q ∧ (ContourG.npts e - 1) / 2 = e.cols.length / 2 := by
    intro i k ci e hi he
    obtain ⟨n, hn4, hlen⟩ := hev ci (List.mem_of_getElem? hi) e (List.mem_of_getElem? he)
    obtain ⟨qm, hq, -, -⟩ := mart_init hn4
    refine ⟨qm, by rw [hlen]; simpa using hq, ?_⟩
    rw [(ready_sampled h hi he).npts]
    omega
  have hex : ∀ (i j k l : ℕ) (ci cj : ContourG) (e f : EdgeG), K.components[i]? = some ci → K.components[j]? = some cj →
      ci.edges[k]? = some e → cj.edges[l]? = some f → ∀ q : Quad, Quad.init "mart" ((e.cols.length / 2 : ℕ) : ℤ) 7 = .ok q →
      ∃ E : Mat, singleEdge ((i == j) && (k == l)) e f q = .ok E ∧ E.rows = e.cols.length ∧ E.cols = f.cols.length := by
    intro i j k l ci cj e f hi hj he hf q hq'
    obtain ⟨E, hE⟩ := buildMat_blocks hM hi hj
    unfold singleComp at hE
    obtain ⟨B, B', -, h1⟩ := foldlM_rounds _ (fun _ => True) (fun _ _ _ _ _ => trivial) _ _ _ trivial hE k
      (List.mem_range.2 (List.getElem?_eq_some_iff.1 he).1)
    obtain ⟨_, -, h1⟩ := bind_ok h1
    obtain ⟨_, -, h1⟩ := bind_ok h1
    obtain ⟨e', he', h1⟩ := bind_ok h1
    rw [get_some he] at he'
    cases he'
    obtain ⟨q', hq'', h1⟩ := bind_ok h1
    obtain ⟨-, -, hn⟩ := hq i k ci e hi he
    rw [hn, hq'] at hq''
    cases hq''
    obtain ⟨E, hE⟩ := edgeRow_blocks h1 hf
    obtain ⟨n, hn4, hlen⟩ := hev ci (List.mem_of_getElem? hi) e (List.mem_of_getElem? he)
    rw [hlen] at hq'
    have := singleEdge_only (ready_sampled h hi he) (ready_sampled h hj hf) _ (same_edge hi hj he hf) hn4 hlen
      (qm := q) (by simpa using hq')
    rw [hE] at this
    exact ⟨E, hE, this.1, this.2⟩
  obtain ⟨M', h1, h2, h3, h4⟩ := node_fill h singleComp (fun P Q v => ∃ (E : Mat) (q : Quad),
      Quad.init "mart" ((P.e.cols.length / 2 : ℕ) : ℤ) 7 = .ok q ∧ singleEdge ((P.i == Q.i) && (P.k == Q.k)) P.e Q.e q = .ok E ∧
      E.rows = P.e.cols.length ∧ E.cols = Q.e.cols.length ∧ v = E.at' P.a Q.a) fun i j ci cj hi hj => by
    obtain ⟨E, h1, h2, h3, h4⟩ := comp_fill (h.ready ci (List.mem_of_getElem? hi)) (h.ready cj (List.mem_of_getElem? hj))
      (fun B k => do
        let kk1 ← Np.get ci.vertIdx k
        let kk2 ← Np.get ci.vertIdx (k + 1)
        let e ← Np.get ci.edges k
        let qm ← Quad.init "mart" (((ContourG.npts e - 1) / 2 : ℕ) : ℤ) 7
        edgeRow cj kk1 kk2 (fun ell f => singleEdge ((i == j) && (k == ell)) e f qm) B)
      (fun k l a b v => ∀ e f, ci.edges[k]? = some e → cj.edges[l]? = some f → ∃ (E : Mat) (q : Quad),
        Quad.init "mart" ((e.cols.length / 2 : ℕ) : ℤ) 7 = .ok q ∧ singleEdge ((i == j) && (k == l)) e f q = .ok E ∧
        E.rows = e.cols.length ∧ E.cols = f.cols.length ∧ v = E.at' a b)
      (fun k e he => by
        have hk := (List.getElem?_eq_some_iff.1 he).1
        have hci := h.ready ci (List.mem_of_getElem? hi)
        obtain ⟨q, hq1, hq2⟩ := hq i k ci e hi he
        refine ⟨fun ell f => singleEdge ((i == j) && (k == ell)) e f q, fun B => ?_, fun l f hf => ?_⟩
        · simp only [get_es hci hk.le, get_es hci (show k + 1 ≤ _ by omega), get_some he, bind, Except.bind, hq2, hq1]
        · obtain ⟨E, h1, h2, h3⟩ := hex i j k l ci cj e f hi hj he hf q hq1
          refine ⟨E, h1, h2, h3, fun a _ b _ e' f' he' hf' => ?_⟩
          rw [he] at he'
          rw [hf] at hf'
          cases he'
          cases hf'
          exact ⟨E, q, hq1, h1, h2, h3, rfl⟩)
    refine ⟨E, h1, h2, h3, ?_⟩
    rintro P Q rfl rfl
    have hPc : P.c = ci := by
      have := P.hc
      rw [hi] at this
      simpa using this.symm
    have hQc : Q.c = cj := by
      have := Q.hc
      rw [hj] at this
      simpa using this.symm
    subst hPc hQc
    exact h4 P.k (List.getElem?_eq_some_iff.1 P.he).1 Q.k (List.getElem?_eq_some_iff.1 Q.he).1 P.a
      (by rw [ew_eq P.he]; exact (List.getElem?_eq_some_iff.1 P.hs).1) Q.a
      (by rw [ew_eq Q.he]; exact (List.getElem?_eq_some_iff.1 Q.hs).1) P.e Q.e P.he Q.he
  rw [show singleMat K = buildMat K singleComp from rfl, h1] at hM
  cases hM
  exact ⟨h2, h3, h4⟩

theorem singleEntry_eq {K : CellG} (P Q : Node K) : singleEntry P Q =
    sEntry ((P.i == Q.i) && (P.k == Q.k)) Q.e P.a Q.a P.s Q.s := by
  simp only [singleEntry, sEntry, Node.Skipped, Node.SameEdge, Bool.and_eq_true, beq_iff_eq]

theorem doubleEntry_eq {K : CellG} (P Q : Node K) : doubleEntry P Q =
    dEntry ((P.i == Q.i) && (P.k == Q.k)) Q.e Q.a P.s Q.s := by
  simp only [doubleEntry, dEntry, Node.Skipped, Node.SameEdge, Bool.and_eq_true, beq_iff_eq]
  congr

/-- the entries of a component block, by samples -/
theorem comp_nodes {K : CellG} {i j : ℕ} {ci cj : ContourG} (hi : K.components[i]? = some ci) (hj : K.components[j]? = some cj)
    {E : Mat} {V : EdgeG → Bool → ℕ → ℕ → Sample → Sample → ℝ}
    (hE : ∀ k < ci.edges.length, ∀ l < cj.edges.length, ∀ a < ew ci k, ∀ b < ew cj l, ∀ e f s t, ci.edges[k]? = some e →
      cj.edges[l]? = some f → e.cols[a]? = some s → f.cols[b]? = some t →
      E.at' (es ci k + a) (es cj l + b) = V f ((i == j) && (k == l)) a b s t)
    (P Q : Node K) (hP : P.i = i) (hQ : Q.i = j) :
    E.at' (es P.c P.k + P.a) (es Q.c Q.k + Q.a) = V Q.e ((P.i == Q.i) && (P.k == Q.k)) P.a Q.a P.s Q.s := by
  have h1 : P.c = ci := by
    have := P.hc
    rw [hP, hi] at this
    simpa using this.symm
  have h2 : Q.c = cj := by
    have := Q.hc
    rw [hQ, hj] at this
    simpa using this.symm
  have hPe := P.he
  have hQe := Q.he
  rw [h1] at hPe ⊢
  rw [h2] at hQe ⊢
  rw [hP, hQ]
  exact hE P.k (List.getElem?_eq_some_iff.1 hPe).1 Q.k (List.getElem?_eq_some_iff.1 hQe).1 P.a
    (by rw [ew_eq hPe]; exact (List.getElem?_eq_some_iff.1 P.hs).1) Q.a
    (by rw [ew_eq hQe]; exact (List.getElem?_eq_some_iff.1 Q.hs).1) P.e Q.e P.s Q.s hPe hQe P.hs Q.hs

/-- C51, double layer: on a sampled cell whose edges do not touch outside their ends the matrix is built, and the entry for two
samples is the kernel at these samples. -/
theorem C51_double {K : CellG} (h : K.Ready) (hsep : K.Apart) :
    ∃ M : Mat, doubleMat K = .ok M ∧ M.rows = K.numPts ∧ M.cols = K.numPts ∧
      ∀ P Q : Node K, M.at' P.pos Q.pos = doubleEntry P Q := by
  simp only [doubleEntry_eq]
  refine node_fill h doubleComp (fun P Q v => v = dEntry ((P.i == Q.i) && (P.k == Q.k)) Q.e Q.a P.s Q.s) fun i j ci cj hi hj => ?_
  obtain ⟨E, h1, h2, h3, h4⟩ := comp_fill (h.ready ci (List.mem_of_getElem? hi)) (h.ready cj (List.mem_of_getElem? hj))
    (fun B k => do
      let kk1 ← Np.get ci.vertIdx k
      let kk2 ← Np.get ci.vertIdx (k + 1)
      let e ← Np.get ci.edges k
      edgeRow cj kk1 kk2 (fun ell f => doubleEdge ((i == j) && (k == ell)) e f) B)
    (fun k l a b v => ∀ e f s t, ci.edges[k]? = some e → cj.edges[l]? = some f → e.cols[a]? = some s → f.cols[b]? = some t →
      v = dEntry ((i == j) && (k == l)) f b s t)
    (fun k e he => by
      have hk := (List.getElem?_eq_some_iff.1 he).1
      have hci := h.ready ci (List.mem_of_getElem? hi)
      refine ⟨fun ell f => doubleEdge ((i == j) && (k == ell)) e f, fun B => ?_, fun l f hf => ?_⟩
      · simp only [get_es hci hk.le, get_es hci (show k + 1 ≤ _ by omega), get_some he, bind, Except.bind]
      · by_cases hs : ((i == j) && (k == l)) = true
        · have hs' := hs
          simp only [Bool.and_eq_true, beq_iff_eq] at hs'
          have hef : e = f := by
            have h5 := hj
            rw [← hs'.1, hi] at h5
            simp only [Option.some.injEq] at h5
            rw [← h5, ← hs'.2, he] at hf
            simpa using hf
          subst hef
          obtain ⟨E, h1, h2, h3, h4⟩ := doubleEdge_same (ready_sampled h hi he)
          dsimp only
          rw [hs]
          refine ⟨E, h1, h2, h3, fun a _ b _ e' f' s t he' hf' hs ht => ?_⟩
          rw [he] at he'
          rw [hf] at hf'
          cases he'
          cases hf'
          exact h4 a b s t hs ht
        · rw [Bool.not_eq_true] at hs
          obtain ⟨E, h1, h2, h3, h4⟩ := doubleEdge_distinct (ready_sampled h hi he) (ready_sampled h hj hf)
            (fun a b s t hs' ht hk => hsep ⟨i, k, a, ci, e, s, hi, he, hs'⟩ ⟨j, l, b, cj, f, t, hj, hf, ht⟩ hk (by
              simp only [Node.SameEdge]
              simpa using hs))
          dsimp only
          rw [hs]
          refine ⟨E, h1, h2, h3, fun a _ b _ e' f' s t he' hf' hs ht => ?_⟩
          rw [he] at he'
          rw [hf] at hf'
          cases he'
          cases hf'
          exact h4 a b s t hs ht)
  exact ⟨E, h1, h2, h3, fun P Q hP hQ => comp_nodes (V := fun f b' _ b s t => dEntry b' f b s t) hi hj h4 P Q hP hQ⟩

/-- C51, single layer: on a sampled cell whose boundary does not touch itself the matrix is built, and the entry for two samples is
the kernel at these samples. -/
theorem C51_single {K : CellG} (h : K.Ready) (hev : K.Even) (hsep : K.Simple) :
    ∃ M : Mat, singleMat K = .ok M ∧ M.rows = K.numPts ∧ M.cols = K.numPts ∧
      ∀ P Q : Node K, M.at' P.pos Q.pos = singleEntry P Q := by
  simp only [singleEntry_eq]
  refine node_fill h singleComp (fun P Q v => v = sEntry ((P.i == Q.i) && (P.k == Q.k)) Q.e P.a Q.a P.s Q.s) fun i j ci cj hi hj => ?_
  obtain ⟨E, h1, h2, h3, h4⟩ := comp_fill (h.ready ci (List.mem_of_getElem? hi)) (h.ready cj (List.mem_of_getElem? hj))
    (fun B k => do
      let kk1 ← Np.get ci.vertIdx k
      let kk2 ← Np.get ci.vertIdx (k + 1)
      let e ← Np.get ci.edges k
      let qm ← Quad.init "mart" (((ContourG.npts e - 1) / 2 : ℕ) : ℤ) 7
      edgeRow cj kk1 kk2 (fun ell f => singleEdge ((i == j) && (k == ell)) e f qm) B)
    (fun k l a b v => ∀ e f s t, ci.edges[k]? = some e → cj.edges[l]? = some f → e.cols[a]? = some s → f.cols[b]? = some t →
      v = sEntry ((i == j) && (k == l)) f a b s t)
    (fun k e he => by
      have hk := (List.getElem?_eq_some_iff.1 he).1
      have hci := h.ready ci (List.mem_of_getElem? hi)
      obtain ⟨n, hn4, hn, hlen⟩ := hev ci (List.mem_of_getElem? hi) e (List.mem_of_getElem? he)
      obtain ⟨qm, hq, -, -⟩ := mart_init hn4
      have hnm : (ContourG.npts e - 1) / 2 = n := by
        rw [(ready_sampled h hi he).npts]
        omega
      refine ⟨fun ell f => singleEdge ((i == j) && (k == ell)) e f qm, fun B => ?_, fun l f hf => ?_⟩
      · simp only [get_es hci hk.le, get_es hci (show k + 1 ≤ _ by omega), get_some he, bind, Except.bind, hnm, hq]
      · by_cases hs : ((i == j) && (k == l)) = true
        · have hs' := hs
          simp only [Bool.and_eq_true, beq_iff_eq] at hs'
          have hef : e = f := by
            have h5 := hj
            rw [← hs'.1, hi] at h5
            simp only [Option.some.injEq] at h5
            rw [← h5, ← hs'.2, he] at hf
            simpa using hf
          subst hef
          obtain ⟨E, h1, h2, h3, h4⟩ := singleEdge_same (ready_sampled h hi he) hn4 hn hlen hq
            (fun a b s t hs' ht hk hab => hsep ⟨i, k, a, ci, e, s, hi, he, hs'⟩ ⟨i, k, b, ci, e, t, hi, he, ht⟩ hk (fun h0 => hab h0.2))
          dsimp only
          rw [hs]
          refine ⟨E, h1, h2, h3, fun a _ b _ e' f' s t he' hf' hs ht => ?_⟩
          rw [he] at he'
          rw [hf] at hf'
          cases he'
          cases hf'
          exact h4 a b s t hs ht
        · rw [Bool.not_eq_true] at hs
          obtain ⟨E, h1, h2, h3, h4⟩ := singleEdge_distinct (ready_sampled h hi he) (ready_sampled h hj hf) qm
            (fun a b s t hs' ht hk => hsep ⟨i, k, a, ci, e, s, hi, he, hs'⟩ ⟨j, l, b, cj, f, t, hj, hf, ht⟩ hk (by
              simp only [Node.SameEdge]
              intro h0
              simp [h0.1] at hs))
          dsimp only
          rw [hs]
          refine ⟨E, h1, h2, h3, fun a _ b _ e' f' s t he' hf' hs ht => ?_⟩
          rw [he] at he'
          rw [hf] at hf'
          cases he'
          cases hf'
          exact h4 a b s t hs ht)
  exact ⟨E, h1, h2, h3, fun P Q hP hQ => comp_nodes (V := fun f b' a b s t => sEntry b' f a b s t) hi hj h4 P Q hP hQ⟩

/-- C51, touching edges: if a sample of one edge is also a (used) sample of another edge then neither matrix is built; if a point is
sampled twice on one edge then the single layer matrix is not built.  The exception is `ZeroDivisionError`. -/
theorem C51_touching {K : CellG} (h : K.Ready) :
    (¬ K.Apart → doubleMat K = .error .zeroDivision) ∧ (K.Even → ¬ K.Simple → singleMat K = .error .zeroDivision) := by
  have hcases : ∀ (x : Py Mat) (I : Mat → Prop), OnlyZ I x → (∀ M, x ≠ .ok M) → x = .error .zeroDivision := by
    intro x I hx hn
    cases x with
    | error er => rw [show er = _ from hx]
    | ok M => exact absurd rfl (hn M)
  refine ⟨fun hsep => hcases _ _ (doubleMat_only h) fun M hM => hsep fun P Q hk hne => ?_,
    fun hev hsep => hcases _ _ (singleMat_only h hev) fun M hM => hsep fun P Q hk hne => ?_⟩
  · obtain ⟨E, hE⟩ := buildMat_blocks hM P.hc Q.hc
    unfold doubleComp at hE
    obtain ⟨B, B', -, h1⟩ := foldlM_rounds _ (fun _ => True) (fun _ _ _ _ _ => trivial) _ _ _ trivial hE P.k
      (List.mem_range.2 (List.getElem?_eq_some_iff.1 P.he).1)
    obtain ⟨_, -, h1⟩ := bind_ok h1
    obtain ⟨_, -, h1⟩ := bind_ok h1
    obtain ⟨e, he, h1⟩ := bind_ok h1
    rw [get_some P.he] at he
    cases he
    obtain ⟨E, hE⟩ := edgeRow_blocks h1 Q.he
    have hs : ((P.i == Q.i) && (P.k == Q.k)) = false := by
      rw [Bool.eq_false_iff]
      intro h0
      simp only [Bool.and_eq_true, beq_iff_eq] at h0
      exact hne h0
    rw [hs] at hE
    exact doubleEdge_distinct_sep (ready_sampled h P.hc P.he) (ready_sampled h Q.hc Q.he) hE _ _ _ _ P.hs Q.hs hk
  · obtain ⟨E, hE⟩ := buildMat_blocks hM P.hc Q.hc
    unfold singleComp at hE
    obtain ⟨B, B', -, h1⟩ := foldlM_rounds _ (fun _ => True) (fun _ _ _ _ _ => trivial) _ _ _ trivial hE P.k
      (List.mem_range.2 (List.getElem?_eq_some_iff.1 P.he).1)
    obtain ⟨_, -, h1⟩ := bind_ok h1
    obtain ⟨_, -, h1⟩ := bind_ok h1
    obtain ⟨e, he, h1⟩ := bind_ok h1
    rw [get_some P.he] at he
    cases he
    obtain ⟨qm, hq, h1⟩ := bind_ok h1
    obtain ⟨E, hE⟩ := edgeRow_blocks h1 Q.he
    by_cases hs : ((P.i == Q.i) && (P.k == Q.k)) = true
    · rw [hs] at hE
      simp only [Bool.and_eq_true, beq_iff_eq] at hs
      have hc : P.c = Q.c := by
        have := P.hc
        rw [hs.1, Q.hc] at this
        simpa using this.symm
      have he : P.e = Q.e := by
        have := P.he
        rw [hs.2, hc, Q.he] at this
        simpa using this.symm
      obtain ⟨n, hn4, hn, hlen⟩ := hev Q.c (List.mem_of_getElem? Q.hc) Q.e (List.mem_of_getElem? Q.he)
      have hPs := P.hs
      rw [he] at hq hE hPs
      rw [show (ContourG.npts Q.e - 1) / 2 = n by rw [(ready_sampled h Q.hc Q.he).npts]; omega] at hq
      exact singleEdge_same_sep (ready_sampled h Q.hc Q.he) hn4 hn hlen hq hE _ _ _ _ hPs Q.hs hk fun h0 => hne ⟨hs, h0⟩
    · rw [Bool.not_eq_true] at hs
      rw [hs] at hE
      exact singleEdge_distinct_sep (ready_sampled h P.hc P.he) (ready_sampled h Q.hc Q.he) hE _ _ _ _ P.hs Q.hs hk

end PFEM
