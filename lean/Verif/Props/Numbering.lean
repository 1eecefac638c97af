import Mathlib.Algebra.Order.Field.Rat
import Mathlib.Algebra.Field.Rat
import Verif.Lemmas.GlobFunSp
import Verif.Props.PlanarMesh
import Verif.Spec.Numbering

/-!
C38: the global numbering is a bijection.  C39: its block structure, sharing between cells, and error behaviour.
C35 (last part): boundary flags of global functions.

The full text of C39 ("keys out of range raise IndexError") does not hold: an out-of-range bubble number of one cell
is accepted and gives the number of a function of another cell (`C39_bubble_overflow`), negative edge positions wrap
around (`C39_negative_wraps`), and an unknown vertex raises `ValueError` (`C39_unknown_vertex`).
-/

set_option linter.unusedSectionVars false

namespace PFEM

variable {K : Type} [Field K] [LinearOrder K]

/-- number of edge functions on edge number `e` -/
def dimOf (m : PlanarMesh K) (space : ℕ → EdgeSpace K) (e : ℕ) : ℕ := (space (m.edges.getD e 0)).edgeTraces.length

namespace GlobFunSp

/-- the number of a function -/
def number (m : PlanarMesh K) (p : ℕ) (space : ℕ → EdgeSpace K) : GFun → ℕ
  | .bubb c k => p * (p - 1) / 2 * c + k
  | .vert v => m.numCells * (p * (p - 1) / 2) + m.vertIdxList.idxOf v
  | .edge e k => m.numCells * (p * (p - 1) / 2) + m.numVerts + before (m.edges.map space) e + k

theorem mul_add_lt {c n k d : ℕ} (hc : c < n) (hk : k < d) : d * c + k < n * d := by
  calc d * c + k < d * c + d := by omega
    _ = d * (c + 1) := by ring
    _ ≤ d * n := Nat.mul_le_mul_left d hc
    _ = n * d := by ring

theorem getGlobalIdx_number (m : PlanarMesh K) (hv : m.numVerts = m.vertIdxList.length)
    (hc : m.numCells = m.cellIdxList.length) (deg : ℤ) (space : ℕ → EdgeSpace K) (s : GlobFunSp K)
    (h : init m deg space = .ok s) (f : GFun) (hf : f.Exists m deg.toNat (dimOf m space)) (c : ℕ) (hfrom : f.from c) :
    s.getGlobalIdx f.key c = .ok (number m deg.toNat space f : ℕ) ∧ number m deg.toNat space f < s.numFuns := by
  obtain ⟨h0, h1, h2, h3, h4, h5, h6, h7, h8, h9⟩ := init_spec m deg space s h
  rw [h2] at h6
  cases f with
  | bubb c' k =>
    obtain rfl : c = c' := hfrom
    obtain ⟨hf1, hf2⟩ := hf
    have hlt := mul_add_lt (by rw [hc]; exact hf1 : c < m.numCells) hf2
    have hlt' : deg.toNat * (deg.toNat - 1) / 2 * c + k < s.numBubbFuns := by rw [h6]; exact hlt
    simp only [getGlobalIdx, GFun.key, number, h2]
    constructor
    · rw [if_pos]
      · push_cast; rfl
      · simp only [inRange, decide_eq_true_eq]
        have : (((deg.toNat * (deg.toNat - 1) / 2 * c + k : ℕ)) : ℤ) < (s.numBubbFuns : ℤ) := by exact_mod_cast hlt'
        push_cast at this ⊢
        exact ⟨by positivity, this⟩
    · omega
  | vert v =>
    have hmem : v ∈ m.vertIdxList := hf
    have hlt := List.idxOf_lt_length_of_mem hmem
    simp only [getGlobalIdx, GFun.key, number, h1, pyIndexOf, if_pos hmem, bind, Except.bind, h4]
    constructor
    · rw [if_pos]
      · rw [h6]; push_cast; rfl
      · simp only [inRange, decide_eq_true_eq]
        omega
    · omega
  | edge e k =>
    obtain ⟨hf1, hf2⟩ := hf
    have hcum := cumsum_getElem? (m.edges.map space) e (by simp; omega)
    have hspace : (m.edges.map space)[e]'(by simpa using hf1) = space (m.edges.getD e 0) := by
      rw [List.getElem_map, List.getD_eq_getElem _ _ hf1]
    have hdim : k < ((m.edges.map space)[e]'(by simpa using hf1)).numEdgeFuns := by
      rw [hspace]; exact hf2
    have hs := before_succ (m.edges.map space) e (by simpa using hf1)
    have hle := before_le (m.edges.map space) (e + 1)
    simp only [getGlobalIdx, GFun.key, number, h8, pyGetZ, Int.natCast_nonneg, if_true, Int.toNat_natCast, hcum, bind,
      Except.bind, h4]
    constructor
    · rw [if_pos]
      · rw [h6]; push_cast; rfl
      · simp only [inRange, decide_eq_true_eq]
        omega
    · omega

end GlobFunSp

open GlobFunSp in
/-- Every existing function gets a number below `num_funs`, the same from every cell that may refer to it. -/
theorem C38_total (st : EdgeStore K) (es : List ℕ) (m : PlanarMesh K) (hm : PlanarMesh.init st es = .ok m)
    (deg : ℤ) (space : ℕ → EdgeSpace K) (s : GlobFunSp K) (h : GlobFunSp.init m deg space = .ok s)
    (f : GFun) (hf : f.Exists m deg.toNat (dimOf m space)) :
    ∃ i < s.numFuns, ∀ c, f.from c → s.getGlobalIdx f.key c = .ok (i : ℕ) := by
  obtain ⟨-, -, hv, hc, -⟩ := C34_index_lists st es m hm
  refine ⟨number m deg.toNat space f, ?_, fun c hfc => (getGlobalIdx_number m hv hc deg space s h f hf c hfc).1⟩
  cases f with
  | bubb c k => exact (getGlobalIdx_number m hv hc deg space s h _ hf c rfl).2
  | vert v => exact (getGlobalIdx_number m hv hc deg space s h _ hf 0 trivial).2
  | edge e k => exact (getGlobalIdx_number m hv hc deg space s h _ hf 0 trivial).2

open GlobFunSp in
/-- Different functions get different numbers. -/
theorem C38_injective (st : EdgeStore K) (es : List ℕ) (m : PlanarMesh K) (hm : PlanarMesh.init st es = .ok m)
    (deg : ℤ) (space : ℕ → EdgeSpace K) (s : GlobFunSp K) (h : GlobFunSp.init m deg space = .ok s)
    (f f' : GFun) (hf : f.Exists m deg.toNat (dimOf m space)) (hf' : f'.Exists m deg.toNat (dimOf m space))
    (c c' : ℕ) (hc : f.from c) (hc' : f'.from c') (e : s.getGlobalIdx f.key c = s.getGlobalIdx f'.key c') : f = f' := by
  obtain ⟨-, -, hnv, hnc, -⟩ := C34_index_lists st es m hm
  rw [(getGlobalIdx_number m hnv hnc deg space s h f hf c hc).1,
    (getGlobalIdx_number m hnv hnc deg space s h f' hf' c' hc').1] at e
  simp only [Except.ok.injEq, Nat.cast_inj] at e
  have hb : ∀ c k, GFun.Exists m deg.toNat (dimOf m space) (.bubb c k) →
      deg.toNat * (deg.toNat - 1) / 2 * c + k < m.numCells * (deg.toNat * (deg.toNat - 1) / 2) :=
    fun c k hh => mul_add_lt (by rw [hnc]; exact hh.1) hh.2
  have hvl : ∀ v, GFun.Exists m deg.toNat (dimOf m space) (.vert v) → m.vertIdxList.idxOf v < m.numVerts :=
    fun v hh => by rw [hnv]; exact List.idxOf_lt_length_of_mem hh
  cases f with
  | bubb c1 k1 =>
    have h1 := hb _ _ hf
    cases f' with
    | bubb c2 k2 =>
      simp only [number] at e
      obtain ⟨-, l1⟩ := hf
      obtain ⟨-, l2⟩ := hf'
      have e1 : (deg.toNat * (deg.toNat - 1) / 2 * c1 + k1) / (deg.toNat * (deg.toNat - 1) / 2) = c1 := by
        rw [Nat.mul_add_div (by omega), Nat.div_eq_of_lt l1]; simp
      have e2 : (deg.toNat * (deg.toNat - 1) / 2 * c2 + k2) / (deg.toNat * (deg.toNat - 1) / 2) = c2 := by
        rw [Nat.mul_add_div (by omega), Nat.div_eq_of_lt l2]; simp
      rw [e, e2] at e1
      subst e1
      simp only [GFun.bubb.injEq, true_and]
      omega
    | vert v => simp only [number] at e; omega
    | edge a k => simp only [number] at e; omega
  | vert v =>
    have h1 := hvl _ hf
    cases f' with
    | bubb c2 k2 => have := hb _ _ hf'; simp only [number] at e; omega
    | vert v' =>
      simp only [number] at e
      have : m.vertIdxList.idxOf v = m.vertIdxList.idxOf v' := by omega
      rw [List.idxOf_inj hf] at this
      rw [this]
    | edge a k => simp only [number] at e; omega
  | edge a k =>
    cases f' with
    | bubb c2 k2 => have := hb _ _ hf'; simp only [number] at e; omega
    | vert v => have := hvl _ hf'; simp only [number] at e; omega
    | edge a' k' =>
      simp only [number] at e
      obtain ⟨l1, l2⟩ := hf
      obtain ⟨l1', l2'⟩ := hf'
      have hsp : ∀ a (ha : a < m.edges.length), ((m.edges.map space)[a]'(by simpa using ha)).numEdgeFuns =
          dimOf m space a := by
        intro a ha
        rw [List.getElem_map, dimOf, List.getD_eq_getElem _ _ ha]; rfl
      have := before_inj (m.edges.map space) (i := a) (i' := a') (k := k) (k' := k') (by simpa using l1)
        (by simpa using l1') (by rw [hsp a l1]; exact l2) (by rw [hsp a' l1']; exact l2') (by omega)
      rw [this.1, this.2]

open GlobFunSp in
/-- Every number below `num_funs` is used, and `num_funs` is the number of functions: bubbles of all cells, vertices,
edge functions of all edges. -/
theorem C38_surjective (st : EdgeStore K) (es : List ℕ) (m : PlanarMesh K) (hm : PlanarMesh.init st es = .ok m)
    (deg : ℤ) (space : ℕ → EdgeSpace K) (s : GlobFunSp K) (h : GlobFunSp.init m deg space = .ok s) (i : ℕ)
    (hi : i < s.numFuns) :
    ∃ f : GFun, f.Exists m deg.toNat (dimOf m space) ∧ ∀ c, f.from c → s.getGlobalIdx f.key c = .ok (i : ℕ) := by
  obtain ⟨-, -, hnv, hnc, -⟩ := C34_index_lists st es m hm
  have hnum := getGlobalIdx_number m hnv hnc deg space s h
  obtain ⟨h0, h1, h2, h3, h4, h5, h6, h7, h8, h9⟩ := init_spec m deg space s h
  rw [h2] at h6
  have hp : (m.vertIdxList).Nodup := by
    obtain ⟨hp, -⟩ := C34_index_lists st es m hm
    exact hp.imp (fun h => ne_of_lt h)
  by_cases c1 : i < s.numBubbFuns
  · have hd : 0 < deg.toNat * (deg.toNat - 1) / 2 := by
      rcases Nat.eq_zero_or_pos (deg.toNat * (deg.toNat - 1) / 2) with hz | hz
      · rw [h6, hz] at c1; simp at c1
      · exact hz
    have hdiv : i / (deg.toNat * (deg.toNat - 1) / 2) < m.cellIdxList.length := by
      rw [Nat.div_lt_iff_lt_mul hd, ← hnc, ← h6]; exact c1
    have hex : GFun.Exists m deg.toNat (dimOf m space) (.bubb (i / (deg.toNat * (deg.toNat - 1) / 2))
      (i % (deg.toNat * (deg.toNat - 1) / 2))) := ⟨hdiv, Nat.mod_lt _ hd⟩
    refine ⟨_, hex, fun c hc => ?_⟩
    rw [(hnum _ hex c hc).1]
    simp only [number]
    rw [Nat.div_add_mod]
  · by_cases c2 : i < s.numBubbFuns + s.numVertFuns
    · have hl : i - s.numBubbFuns < m.vertIdxList.length := by omega
      have hex : GFun.Exists m deg.toNat (dimOf m space) (.vert m.vertIdxList[i - s.numBubbFuns]) := List.getElem_mem hl
      refine ⟨_, hex, fun c hc => ?_⟩
      rw [(hnum _ hex c hc).1]
      simp only [number]
      rw [hp.idxOf_getElem, ← h6]
      congr 2; omega
    · obtain ⟨a, k, ha, hk, e⟩ := before_surj (m.edges.map space) (i - (s.numBubbFuns + s.numVertFuns)) (by omega)
      have ha' : a < m.edges.length := by simpa using ha
      have hex : GFun.Exists m deg.toNat (dimOf m space) (.edge a k) := by
        refine ⟨ha', ?_⟩
        rw [List.getElem_map] at hk
        rw [dimOf, List.getD_eq_getElem _ _ ha']
        exact hk
      refine ⟨_, hex, fun c hc => ?_⟩
      rw [(hnum _ hex c hc).1]
      simp only [number]
      congr 2
      omega

theorem C38_dimension (st : EdgeStore K) (es : List ℕ) (m : PlanarMesh K) (hm : PlanarMesh.init st es = .ok m)
    (deg : ℤ) (space : ℕ → EdgeSpace K) (s : GlobFunSp K) (h : GlobFunSp.init m deg space = .ok s) :
    s.numFuns = m.cellIdxList.length * (deg.toNat * (deg.toNat - 1) / 2) + m.vertIdxList.length +
      ((List.range m.edges.length).map (dimOf m space)).sum := by
  obtain ⟨-, -, hnv, hnc, -⟩ := C34_index_lists st es m hm
  obtain ⟨h0, h1, h2, h3, h4, h5, h6, h7, h8, h9⟩ := GlobFunSp.init_spec m deg space s h
  rw [h7, h4, h5, h6, h2, hnv, hnc, GlobFunSp.countEdgeFuns_eq, List.map_map]
  have : (List.range m.edges.length).map (dimOf m space) = m.edges.map (EdgeSpace.numEdgeFuns ∘ space) := by
    apply List.ext_getElem
    · simp
    · intro i h1 h2
      simp only [List.length_map, List.length_range] at h1
      simp only [List.getElem_map, List.getElem_range, dimOf, List.getD_eq_getElem _ _ h1]
      rfl
  rw [this]
  omega

open GlobFunSp in
/-- Bubble functions come first, grouped by cell; then the vertices in the order of the vertex list; then the edge
functions grouped by edge. -/
theorem C39_blocks (st : EdgeStore K) (es : List ℕ) (m : PlanarMesh K) (hm : PlanarMesh.init st es = .ok m)
    (deg : ℤ) (space : ℕ → EdgeSpace K) (s : GlobFunSp K) (h : GlobFunSp.init m deg space = .ok s)
    (f f' : GFun) (hf : f.Exists m deg.toNat (dimOf m space)) (hf' : f'.Exists m deg.toNat (dimOf m space))
    (c c' i i' : ℕ) (hc : f.from c) (hc' : f'.from c')
    (e : s.getGlobalIdx f.key c = .ok (i : ℕ)) (e' : s.getGlobalIdx f'.key c' = .ok (i' : ℕ)) :
    match f, f' with
    | .bubb a k, .bubb a' k' => i < i' ↔ a < a' ∨ (a = a' ∧ k < k')
    | .bubb _ _, .vert _ => i < i'
    | .bubb _ _, .edge _ _ => i < i'
    | .vert _, .edge _ _ => i < i'
    | .vert v, .vert v' => i < i' ↔ v < v'
    | .edge a k, .edge a' k' => i < i' ↔ a < a' ∨ (a = a' ∧ k < k')
    | _, _ => i' < i := by
  obtain ⟨hsort, -, hnv, hnc, -⟩ := C34_index_lists st es m hm
  rw [(getGlobalIdx_number m hnv hnc deg space s h f hf c hc).1] at e
  rw [(getGlobalIdx_number m hnv hnc deg space s h f' hf' c' hc').1] at e'
  simp only [Except.ok.injEq, Nat.cast_inj] at e e'
  have hb : ∀ c k, GFun.Exists m deg.toNat (dimOf m space) (.bubb c k) →
      deg.toNat * (deg.toNat - 1) / 2 * c + k < m.numCells * (deg.toNat * (deg.toNat - 1) / 2) :=
    fun c k hh => mul_add_lt (by rw [hnc]; exact hh.1) hh.2
  have hvl : ∀ v, GFun.Exists m deg.toNat (dimOf m space) (.vert v) → m.vertIdxList.idxOf v < m.numVerts :=
    fun v hh => by rw [hnv]; exact List.idxOf_lt_length_of_mem hh
  have hmono : ∀ v ∈ m.vertIdxList, ∀ w ∈ m.vertIdxList, v < w → m.vertIdxList.idxOf v < m.vertIdxList.idxOf w := by
    intro v hv w hw hvw
    have l1 := List.idxOf_lt_length_of_mem hv
    have l2 := List.idxOf_lt_length_of_mem hw
    by_contra hcon
    rw [not_lt] at hcon
    rcases Nat.lt_or_eq_of_le hcon with hlt | heq
    · have := (List.pairwise_iff_getElem.1 hsort) _ _ l2 l1 hlt
      rw [List.getElem_idxOf, List.getElem_idxOf] at this
      omega
    · rw [List.idxOf_inj hw] at heq
      omega
  have hbm : ∀ d a k a' k' : ℕ, k < d → a < a' → d * a + k < d * a' + k' := by
    intro d a k a' k' hk ha
    have : d * (a + 1) ≤ d * a' := Nat.mul_le_mul_left d ha
    have e : d * (a + 1) = d * a + d := by ring
    omega
  cases f with
  | bubb a k =>
    have h1 := hb _ _ hf
    cases f' with
    | bubb a' k' =>
      simp only [number] at e e'
      obtain ⟨-, l1⟩ := hf
      obtain ⟨-, l2⟩ := hf'
      show i < i' ↔ a < a' ∨ (a = a' ∧ k < k')
      rcases Nat.lt_trichotomy a a' with hlt | heq | hlt
      · have := hbm _ a k a' k' l1 hlt
        omega
      · subst heq; omega
      · have := hbm _ a' k' a k l2 hlt
        omega
    | vert v => simp only [number] at e e'; show i < i'; omega
    | edge a' k' => simp only [number] at e e'; show i < i'; omega
  | vert v =>
    have h1 := hvl _ hf
    cases f' with
    | bubb a' k' => have := hb _ _ hf'; simp only [number] at e e'; show i' < i; omega
    | vert v' =>
      simp only [number] at e e'
      show i < i' ↔ v < v'
      have hv : v ∈ m.vertIdxList := hf
      have hv' : v' ∈ m.vertIdxList := hf'
      rcases lt_trichotomy v v' with hlt | heq | hlt
      · have := hmono v hv v' hv' hlt; omega
      · subst heq; omega
      · have := hmono v' hv' v hv hlt; omega
    | edge a' k' => simp only [number] at e e'; show i < i'; omega
  | edge a k =>
    cases f' with
    | bubb a' k' => have := hb _ _ hf'; simp only [number] at e e'; show i' < i; omega
    | vert v => have := hvl _ hf'; simp only [number] at e e'; show i' < i; omega
    | edge a' k' =>
      simp only [number] at e e'
      show i < i' ↔ a < a' ∨ (a = a' ∧ k < k')
      obtain ⟨l1, l2⟩ := hf
      obtain ⟨l1', l2'⟩ := hf'
      have hsp : ∀ a (ha : a < m.edges.length), ((m.edges.map space)[a]'(by simpa using ha)).numEdgeFuns =
          dimOf m space a := by
        intro a ha
        rw [List.getElem_map, dimOf, List.getD_eq_getElem _ _ ha]; rfl
      have s1 := before_succ (m.edges.map space) a (by simpa using l1)
      have s2 := before_succ (m.edges.map space) a' (by simpa using l1')
      rw [hsp a l1] at s1
      rw [hsp a' l1'] at s2
      rcases Nat.lt_trichotomy a a' with hlt | heq | hlt
      · have := before_mono (m.edges.map space) (show a + 1 ≤ a' by omega); omega
      · subst heq; omega
      · have := before_mono (m.edges.map space) (show a' + 1 ≤ a by omega); omega

theorem getGlobalIdx_bubb (s : GlobFunSp K) (k : ℤ) (c : ℕ) : s.getGlobalIdx (GlobalKey.ofBubb k) c =
    if GlobFunSp.inRange ((s.deg * (s.deg - 1) / 2 : ℕ) * (c : ℤ) + k) 0 s.numBubbFuns = true
    then (.ok ((s.deg * (s.deg - 1) / 2 : ℕ) * (c : ℤ) + k) : Py ℤ) else .error .indexError := rfl

theorem getGlobalIdx_edge (s : GlobFunSp K) (e k : ℤ) (c j : ℕ) (h : pyGetZ s.edgeFunCumsum e = .ok j) :
    s.getGlobalIdx (GlobalKey.ofEdge e k) c =
    if GlobFunSp.inRange ((s.numBubbFuns : ℤ) + s.numVertFuns + j + k) ((s.numBubbFuns : ℤ) + s.numVertFuns)
      s.numFuns = true
    then (.ok ((s.numBubbFuns : ℤ) + s.numVertFuns + j + k) : Py ℤ) else .error .indexError := by
  simp only [GlobFunSp.getGlobalIdx, GlobalKey.ofEdge, h, bind, Except.bind]
  rfl

/-- Vertex and edge functions get the same number whichever cell asks (for every key, existing or not). -/
theorem C39_sharing (s : GlobFunSp K) (key : GlobalKey) (c c' : ℕ) (h : key.funType ≠ .bubb) :
    s.getGlobalIdx key c = s.getGlobalIdx key c' := by
  unfold GlobFunSp.getGlobalIdx
  cases hk : key.funType with
  | bubb => exact absurd hk h
  | vert => rfl
  | edge => rfl

/-- The same bubble number of two different cells gives two different global numbers. -/
theorem C39_bubbles_private (s : GlobFunSp K) (k : ℤ) (c c' : ℕ) (hd : 2 ≤ s.deg) (hcc : c ≠ c') (i i' : ℤ)
    (h : s.getGlobalIdx (GlobalKey.ofBubb k) c = .ok i) (h' : s.getGlobalIdx (GlobalKey.ofBubb k) c' = .ok i') : i ≠ i' := by
  have hpos : 0 < s.deg * (s.deg - 1) / 2 := by
    have : 2 * 1 ≤ s.deg * (s.deg - 1) := Nat.mul_le_mul hd (by omega)
    omega
  rw [getGlobalIdx_bubb] at h h'
  split at h <;> simp only [reduceCtorEq, Except.ok.injEq] at h
  split at h' <;> simp only [reduceCtorEq, Except.ok.injEq] at h'
  intro e
  rw [← h, ← h'] at e
  have e2 : ((s.deg * (s.deg - 1) / 2 : ℕ) : ℤ) * c = ((s.deg * (s.deg - 1) / 2 : ℕ) : ℤ) * c' := by linarith
  have := mul_left_cancel₀ (by exact_mod_cast hpos.ne') e2
  exact hcc (by exact_mod_cast this)

open GlobFunSp in
/-- The part of the range check that does hold: whatever the key, a number that is returned lies in the block of the
key's type, and every other outcome is an error. A bubble number past the last function of the last cell, an edge
position past the last edge, and an edge-function number past the last function are rejected with `IndexError`. -/
theorem C39_range_check_partial (m : PlanarMesh K) (deg : ℤ) (space : ℕ → EdgeSpace K) (s : GlobFunSp K)
    (h : GlobFunSp.init m deg space = .ok s) (key : GlobalKey) (c : ℕ) :
    (∀ i, s.getGlobalIdx key c = .ok i → 0 ≤ i ∧ i < s.numFuns ∧
      (key.funType = .bubb ↔ i < s.numBubbFuns) ∧ (key.funType = .edge ↔ (s.numBubbFuns + s.numVertFuns : ℤ) ≤ i)) ∧
    (key.funType = .bubb → c + 1 = m.numCells → (deg.toNat * (deg.toNat - 1) / 2 : ℕ) ≤ key.bubbSpaceIdx →
      s.getGlobalIdx key c = .error .indexError) ∧
    (key.funType = .edge → (m.edges.length : ℤ) ≤ key.edgeIdx → 0 ≤ key.edgeSpaceIdx →
      s.getGlobalIdx key c = .error .indexError) := by
  obtain ⟨h0, h1, h2, h3, h4, h5, h6, h7, h8, h9⟩ := init_spec m deg space s h
  refine ⟨?_, ?_, ?_⟩
  · intro i hi
    unfold getGlobalIdx at hi
    cases hk : key.funType with
    | bubb =>
      simp only [hk] at hi
      split at hi
      · rename_i hr
        simp only [Except.ok.injEq] at hi
        subst hi
        simp only [inRange, decide_eq_true_eq] at hr
        refine ⟨hr.1, by omega, by simpa using hr.2, ?_⟩
        simp only [reduceCtorEq, false_iff]; omega
      · cases hi
    | vert =>
      simp only [hk] at hi
      cases hp : pyIndexOf s.mesh.vertIdxList key.vertIdx with
      | error x => rw [hp] at hi; simp [bind, Except.bind] at hi
      | ok j =>
        rw [hp] at hi
        simp only [bind, Except.bind] at hi
        split at hi
        · rename_i hr
          simp only [Except.ok.injEq] at hi
          subst hi
          simp only [inRange, decide_eq_true_eq] at hr
          refine ⟨by omega, by omega, ?_, ?_⟩
          · simp only [reduceCtorEq, false_iff]; omega
          · simp only [reduceCtorEq, false_iff]; omega
        · cases hi
    | edge =>
      simp only [hk] at hi
      cases hp : pyGetZ s.edgeFunCumsum key.edgeIdx with
      | error x => rw [hp] at hi; simp [bind, Except.bind] at hi
      | ok j =>
        rw [hp] at hi
        simp only [bind, Except.bind] at hi
        split at hi
        · rename_i hr
          simp only [Except.ok.injEq] at hi
          subst hi
          simp only [inRange, decide_eq_true_eq] at hr
          refine ⟨by omega, by omega, ?_, ?_⟩
          · simp only [reduceCtorEq, false_iff]; omega
          · simpa using hr.1
        · cases hi
  · intro hk hc hb
    unfold getGlobalIdx
    simp only [hk]
    rw [if_neg]
    simp only [inRange, decide_eq_true_eq, not_and, not_lt]
    intro _
    rw [h6, ← hc, h2]
    push_cast
    push_cast at hb
    nlinarith
  · intro hk he hsp
    unfold getGlobalIdx
    simp only [hk]
    have hlen : s.edgeFunCumsum.length = m.edges.length + 1 := by
      rw [h8]; simp [cumsumLoop_length]
    rcases Int.lt_or_eq_of_le he with hlt | heq
    · have : pyGetZ s.edgeFunCumsum key.edgeIdx = .error .indexError := by
        unfold pyGetZ
        rw [if_pos (by omega), List.getElem?_eq_none (by omega)]
      rw [this]; rfl
    · have : pyGetZ s.edgeFunCumsum key.edgeIdx = .ok (countEdgeFuns (m.edges.map space)) := by
        have hc := cumsum_getElem? (m.edges.map space) m.edges.length (by simp)
        unfold pyGetZ
        rw [if_pos (by omega), ← heq, h8]
        simp only [Int.toNat_natCast, hc]
        rw [before, List.take_of_length_le (by simp), countEdgeFuns_eq]
      rw [this]
      simp only [bind, Except.bind]
      rw [if_neg]
      simp only [inRange, decide_eq_true_eq, not_and, not_lt]
      intro _
      omega

/-- The full claim fails: a bubble number that does not exist on a cell, but is small enough, is accepted, and gets the
number of a bubble function of the next cell. -/
theorem C39_bubble_overflow (m : PlanarMesh K) (deg : ℤ) (space : ℕ → EdgeSpace K) (s : GlobFunSp K)
    (h : GlobFunSp.init m deg space = .ok s) (c : ℕ) (hc : c + 1 < m.numCells) (hd : 2 ≤ deg) :
    ∃ i : ℤ, s.getGlobalIdx (GlobalKey.ofBubb (deg.toNat * (deg.toNat - 1) / 2 : ℕ)) c = .ok i ∧
      s.getGlobalIdx (GlobalKey.ofBubb 0) (c + 1) = .ok i := by
  obtain ⟨h0, h1, h2, h3, h4, h5, h6, h7, h8, h9⟩ := GlobFunSp.init_spec m deg space s h
  have hd2 : 2 ≤ deg.toNat := by omega
  have hpos : 0 < deg.toNat * (deg.toNat - 1) / 2 := by
    have : 2 * 1 ≤ deg.toNat * (deg.toNat - 1) := Nat.mul_le_mul hd2 (by omega)
    omega
  have hlt : deg.toNat * (deg.toNat - 1) / 2 * (c + 1) < s.numBubbFuns := by
    rw [h6, h2, Nat.mul_comm m.numCells]
    exact Nat.mul_lt_mul_of_pos_left hc hpos
  refine ⟨((deg.toNat * (deg.toNat - 1) / 2 * (c + 1) : ℕ) : ℤ), ?_, ?_⟩
  all_goals
    rw [getGlobalIdx_bubb, h2, if_pos]
    · congr 1
    · simp only [GlobFunSp.inRange, decide_eq_true_eq]
      have : ((deg.toNat * (deg.toNat - 1) / 2 * (c + 1) : ℕ) : ℤ) < s.numBubbFuns := by exact_mod_cast hlt
      push_cast at this ⊢
      constructor
      · positivity
      · linarith

/-- An unknown vertex raises `ValueError` instead of `IndexError`. -/
theorem C39_unknown_vertex (s : GlobFunSp K) (v : ℤ) (c : ℕ) (hv : v ∉ s.mesh.vertIdxList) :
    s.getGlobalIdx (GlobalKey.ofVert v) c = .error .valueError := by
  simp [GlobFunSp.getGlobalIdx, GlobalKey.ofVert, pyIndexOf, hv, bind, Except.bind]

/-- A key with default (negative) edge fields is taken as the last edge function instead of being rejected. -/
theorem C39_negative_wraps (m : PlanarMesh K) (deg : ℤ) (space : ℕ → EdgeSpace K) (s : GlobFunSp K)
    (h : GlobFunSp.init m deg space = .ok s) (hne : 0 < s.numEdgeFuns) (c : ℕ) :
    s.getGlobalIdx (GlobalKey.ofEdge (-1) (-1)) c = .ok ((s.numFuns - 1 : ℕ) : ℤ) := by
  obtain ⟨h0, h1, h2, h3, h4, h5, h6, h7, h8, h9⟩ := GlobFunSp.init_spec m deg space s h
  have hlen : s.edgeFunCumsum.length = m.edges.length + 1 := by
    rw [h8]; simp [GlobFunSp.cumsumLoop_length]
  have hget : pyGetZ s.edgeFunCumsum (-1) = .ok (GlobFunSp.countEdgeFuns (m.edges.map space)) := by
    have hc := GlobFunSp.cumsum_getElem? (m.edges.map space) m.edges.length (by simp)
    unfold pyGetZ
    rw [if_neg (by omega), if_pos (by omega), hlen, h8]
    have : ((-1 : ℤ) + (m.edges.length + 1 : ℕ)).toNat = m.edges.length := by omega
    rw [this]
    simp only [hc]
    rw [GlobFunSp.before, List.take_of_length_le (by simp), GlobFunSp.countEdgeFuns_eq]
  rw [getGlobalIdx_edge s _ _ c _ hget, if_pos]
  · congr 1; omega
  · simp only [GlobFunSp.inRange, decide_eq_true_eq]; omega

/-- A bubble function is never on the boundary; a vertex or edge function is exactly if its vertex or edge is. -/
theorem C35_functions (st : EdgeStore K) (es : List ℕ) (m : PlanarMesh K) (hm : PlanarMesh.init st es = .ok m)
    (deg : ℤ) (space : ℕ → EdgeSpace K) (s : GlobFunSp K) (h : GlobFunSp.init m deg space = .ok s) :
    (∀ k, s.funIsOnBoundary (GlobalKey.ofBubb k) = .ok false) ∧
    (∀ v, ∃ b, s.funIsOnBoundary (GlobalKey.ofVert v) = .ok b ∧ (b = true ↔
      ∃ e ∈ es, (v = (st e).anchor.idx ∨ v = (st e).endpnt.idx) ∧ ((st e).pos < 0 ∨ (st e).neg < 0))) ∧
    (∀ (k e : ℕ) (j : ℤ), m.edges[k]? = some e → ∃ b, s.funIsOnBoundary (GlobalKey.ofEdge k j) = .ok b ∧
      (b = true ↔ (st e).pos < 0 ∨ (st e).neg < 0)) := by
  obtain ⟨-, h1, -⟩ := GlobFunSp.init_spec m deg space s h
  refine ⟨fun k => rfl, fun v => ⟨m.vertIsOnBoundary v, ?_, C35_vert st es m hm v⟩, fun k e j hk => ?_⟩
  · simp [GlobFunSp.funIsOnBoundary, GlobalKey.ofVert, h1]
  · obtain ⟨b, hb, hb', -⟩ := C35_edge st es m hm k e hk
    exact ⟨b, by simpa [GlobFunSp.funIsOnBoundary, GlobalKey.ofEdge, h1] using hb, hb'⟩

section examples

/-- two squares side by side, degree 2, edge `k` carrying `k % 2` edge functions -/
def exStore2 : EdgeStore ℚ := fun k =>
  match k with
  | 0 => ⟨⟨0, 0, 0⟩, ⟨1, 0, 1⟩, 0, -1, none⟩
  | 1 => ⟨⟨1, 0, 1⟩, ⟨1, 1, 4⟩, 0, 1, none⟩
  | 2 => ⟨⟨1, 1, 4⟩, ⟨0, 1, 5⟩, 0, -1, none⟩
  | 3 => ⟨⟨0, 1, 5⟩, ⟨0, 0, 0⟩, 0, -1, none⟩
  | 4 => ⟨⟨1, 0, 1⟩, ⟨2, 0, 2⟩, 1, -1, none⟩
  | 5 => ⟨⟨2, 0, 2⟩, ⟨2, 1, 3⟩, 1, -1, none⟩
  | _ => ⟨⟨2, 1, 3⟩, ⟨1, 1, 4⟩, 1, -1, none⟩

def exSpace : ℕ → EdgeSpace ℚ := fun k => ⟨k, List.replicate (k % 2) [], [[], []]⟩

def exGfs : Py (GlobFunSp ℚ) := do
  let m ← PlanarMesh.init exStore2 [0, 1, 2, 3, 4, 5, 6]
  GlobFunSp.init m 2 exSpace

example : (exGfs.toOption.map fun s => (s.numFuns, s.numBubbFuns, s.numVertFuns, s.numEdgeFuns)) =
    some (11, 2, 6, 3) := by decide +kernel
example : (exGfs.toOption.bind fun s => (s.getGlobalIdx (GlobalKey.ofEdge 3 0) 0).toOption) = some 9 := by
  decide +kernel
example : (exGfs.toOption.bind fun s => (s.getGlobalIdx (GlobalKey.ofVert 4) 1).toOption) = some 6 := by
  decide +kernel
example : (exGfs.toOption.bind fun s => (s.funIsOnBoundary (GlobalKey.ofEdge 1 0)).toOption) = some false := by
  decide +kernel

end examples

end PFEM
