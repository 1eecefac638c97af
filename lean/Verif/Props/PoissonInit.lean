import Verif.Props.HarmInit
import Verif.Props.Cauchy

/-!
Property theorems C75: a local Poisson function made from its Laplacian and its boundary values.
-/

namespace PFEM
open Nystrom Antilap Poly

theorem edgeLoop_values {set : Trace → ℤ → FloatLike → Trace × Py Unit} (hset : ∀ t k v, (set t k v).1.values = t.values) (vs : List FloatLike) :
    ∀ (n k : ℕ) (t : Trace), (Trace.edgeLoop set vs n k t).1.values = t.values
  | 0, _, _ => rfl
  | n + 1, k, t => by
    unfold Trace.edgeLoop
    split
    · rfl
    · rename_i v hv
      have h1 := hset t k v
      split
      · rename_i t' er hq
        rw [hq] at h1
        exact h1
      · rename_i t' er hq
        rw [edgeLoop_values hset vs n (k + 1) t']
        rw [hq] at h1
        exact h1

theorem setWtd_values {t u : Trace} {v : TraceArg} (h : Trace.after (t.setWtd v) = .ok u) : u.values = t.values := by
  have key : (t.setWtd v).1.values = t.values := by
    unfold Trace.setWtd
    split
    · rfl
    · rw [edgeLoop_values]
      intro t k v
      unfold Trace.setWtdOnEdge
      split <;> rfl
  unfold Trace.after at h
  cases h2 : (t.setWtd v).2 with
  | error e => rw [h2] at h; cases h
  | ok _ => rw [h2] at h; cases h; exact key

theorem setWnd_values {t u : Trace} {v : TraceArg} (h : Trace.after (t.setWnd v) = .ok u) : u.values = t.values := by
  have key : (t.setWnd v).1.values = t.values := by
    unfold Trace.setWnd
    split
    · rfl
    · rw [edgeLoop_values]
      intro t k v
      unfold Trace.setWndOnEdge
      split <;> rfl
  unfold Trace.after at h
  cases h2 : (t.setWnd v).2 with
  | error e => rw [h2] at h; cases h
  | ok _ => rw [h2] at h; cases h; exact key

theorem harmInit_values {gmres : Gmres} {t : Trace} {s : Solver} {r : LocHarm} (h : LocHarm.init gmres t (some s) = .ok r) :
    r.trace.values = t.values := by
  unfold LocHarm.init at h
  obtain ⟨v, -, h⟩ := bind_ok h
  obtain ⟨w, -, h⟩ := bind_ok h
  obtain ⟨t1, ht1, h⟩ := bind_ok h
  obtain ⟨⟨c, a⟩, -, h⟩ := bind_ok h
  obtain ⟨conj, -, h⟩ := bind_ok h
  obtain ⟨lam, -, h⟩ := bind_ok h
  obtain ⟨u, -, h⟩ := bind_ok h
  obtain ⟨psi, -, h⟩ := bind_ok h
  obtain ⟨w2, -, h⟩ := bind_ok h
  obtain ⟨w3, -, h⟩ := bind_ok h
  obtain ⟨t2, ht2, h⟩ := bind_ok h
  obtain ⟨⟨P, Pn⟩, -, h⟩ := bind_ok h
  obtain ⟨b, -, h⟩ := bind_ok h
  obtain ⟨b2, -, h⟩ := bind_ok h
  cases h
  exact (setWnd_values ht2).trans (setWtd_values ht1)

theorem Gives.length {K : CellG} {tr : LocPoisson.TraceOr} {v : List ℝ} (h : tr.Gives K v) : v.length = K.numPts := by
  match tr, h with
  | .trace t, h => exact h.2
  | .value (.num c), h => rw [show v = _ from h]; simp
  | .value (.arr a), h => exact h.2

theorem init_num {K : CellG} (h : K.Ready) (c : ℝ) : Trace.init K.getEdges (values := some (.one (.num c))) =
    .ok (Trace.made K.getEdges (some (List.replicate K.numPts c)) none none) := by
  have hb := Trace.good_bare (getEdges_sampled h)
  have h1 := (Trace.C46_set_values hb).2.1 c
  obtain ⟨-, h2, h3⟩ := bare_data K.getEdges
  simp only [Trace.init, Bool.false_eq_true, if_false, h1, Except.map, Trace.made]
  rw [h2, h3, getEdges_sizes h]

/-- the polynomial part -/
noncomputable def polyPart (K : CellG) (P : Poly ℝ) : LocPoly := ⟨P,
  some (Trace.made K.getEdges (some (K.samplesOf P.eval)) (some (K.normalOf (nz (P.map Mono.dx)).eval (nz (P.map Mono.dy)).eval))
    (some (K.tangentOf (nz (P.map Mono.dx)).eval (nz (P.map Mono.dy)).eval))),
  some (nz (P.map Mono.dx)), some (nz (P.map Mono.dy)), some (alP P),
  some (Trace.made K.getEdges (some (K.samplesOf (alP P).eval)) (some (K.normalOf (nz ((alP P).map Mono.dx)).eval (nz ((alP P).map Mono.dy)).eval)) none)⟩

theorem polyPart_init {K : CellG} (h : K.Ready) (P : Poly ℝ) : LocPoly.init P (some K) = .ok (polyPart K P) :=
  polyInit_eq h (grad_eq P) (antiLaplacian_ok P) (grad_eq _)

theorem harmValues_ok {K : CellG} (h : K.Ready) {v : List ℝ} (hv : v.length = K.numPts) (P : Poly ℝ) :
    Np.sub v (K.samplesOf P.eval) = .ok (List.zipWith (· - ·) v (K.samplesOf P.eval)) := by
  rw [Np.sub, bin_eq _ (by rw [hv, samples_len h])]

/-- what the constructor does -/
theorem poissonInit_eq (gmres : Gmres) {s : Solver} {K : CellG} (h : K.Ready) (hs : s.ops.K = K) (laplacian : Poly ℝ) {tr : LocPoisson.TraceOr}
    {v : List ℝ} (hv : tr.Gives K v) (ei eg : Bool) :
    LocPoisson.init gmres (some s) laplacian tr ei eg = (do
      let r ← LocHarm.init gmres (Trace.made K.getEdges (some (List.zipWith (· - ·) v (K.samplesOf (alP laplacian).eval))) none none) (some s)
      let f : LocPoisson := { cell := some K, poly := some (polyPart K (alP laplacian)), harm := some r }
      if ei || eg then f.computeInterior eg else .ok f) := by
  have hl := Gives.length hv
  have hd : (List.zipWith (· - ·) v (K.samplesOf (alP laplacian).eval)).length = K.numPts := by simp [hl, samples_len h]
  have key : ∀ (m : Py Trace) (t : Trace), m = .ok t → Trace.attr t.values = .ok v → (do
      let t ← m
      let a ← Trace.attr t.values
      let pt ← Trace.attr (polyPart K (alP laplacian)).trace
      let b ← Trace.attr pt.values
      let d ← Np.sub a b
      let ht ← Trace.init K.getEdges (values := some (.one (.arr d)))
      let r ← LocHarm.init gmres ht (some s)
      let f : LocPoisson := { cell := some K, poly := some (polyPart K (alP laplacian)), harm := some r }
      if ei || eg then f.computeInterior eg else .ok f : Py LocPoisson) = (do
      let r ← LocHarm.init gmres (Trace.made K.getEdges (some (List.zipWith (· - ·) v (K.samplesOf (alP laplacian).eval))) none none) (some s)
      let f : LocPoisson := { cell := some K, poly := some (polyPart K (alP laplacian)), harm := some r }
      if ei || eg then f.computeInterior eg else .ok f) := by
    intro m t ht htv
    rw [ht, py_ok_bind, htv, py_ok_bind]
    have e1 : Trace.attr (polyPart K (alP laplacian)).trace = .ok (Trace.made K.getEdges (some (K.samplesOf (alP laplacian).eval))
      (some (K.normalOf (nz ((alP laplacian).map Mono.dx)).eval (nz ((alP laplacian).map Mono.dy)).eval))
      (some (K.tangentOf (nz ((alP laplacian).map Mono.dx)).eval (nz ((alP laplacian).map Mono.dy)).eval))) := rfl
    have e2 : ∀ a b c : Option (List ℝ), (Trace.made K.getEdges a b c).values = a := fun _ _ _ => rfl
    have e3 : ∀ l : List ℝ, Trace.attr (some l) = .ok l := fun _ => rfl
    rw [e1, py_ok_bind, e2, e3, py_ok_bind, harmValues_ok h hl, py_ok_bind, init_arr h hd, py_ok_bind]
  simp only [LocPoisson.init, hs]
  rw [antiLaplacian_ok, py_ok_bind, polyPart_init h, py_ok_bind]
  match tr, hv with
  | .trace t, hv => exact key (.ok t) t rfl (by rw [hv.1]; rfl)
  | .value (.num c), hv => exact key _ _ (init_num h c) (by rw [show v = _ from hv]; rfl)
  | .value (.arr a), hv => exact key _ _ (init_arr h (by rw [← hv.1]; exact hl)) (by rw [hv.1]; rfl)

theorem computeInterior_parts {f r : LocPoisson} {g : Bool} (h : f.computeInterior g = .ok r) :
    r.cell = f.cell ∧ r.poly = f.poly ∧ r.harm = f.harm := by
  unfold LocPoisson.computeInterior at h
  obtain ⟨K, hK, h⟩ := bind_ok h
  obtain ⟨p, hp, h⟩ := bind_ok h
  obtain ⟨u, hu, h⟩ := bind_ok h
  obtain ⟨a, ha, h⟩ := bind_ok h
  obtain ⟨t, ht, h⟩ := bind_ok h
  obtain ⟨psi, hpsi, h⟩ := bind_ok h
  obtain ⟨t', ht', h⟩ := bind_ok h
  obtain ⟨psiHat, hpsi', h⟩ := bind_ok h
  obtain ⟨⟨x1, x2⟩, hx, h⟩ := bind_ok h
  obtain ⟨⟨t1, t2⟩, htt, h⟩ := bind_ok h
  obtain ⟨dx, hdx, h⟩ := bind_ok h
  dsimp only at h
  have attr_ok : ∀ {α : Type} {a : Option α} {x : α}, Trace.attr a = .ok x → a = some x := by
    intro α a x h
    cases a with
    | none => cases h
    | some y => cases h; rfl
  split_ifs at h with h0
  obtain ⟨rows, hr, h⟩ := bind_ok h
  cases h
  exact ⟨(attr_ok hK).symm, (attr_ok hp).symm, (attr_ok hu).symm⟩

theorem add_back : ∀ {v w : List ℝ}, v.length = w.length → Np.add (List.zipWith (· - ·) v w) w = .ok v := by
  intro v w h
  rw [Np.add, bin_eq _ (by simp [h])]
  congr 1
  exact List.ext_getElem (by simp [h]) fun i h1 h2 => by simp

/-- the parts of a local Poisson function -/
theorem poissonInit_parts {gmres : Gmres} {s : Solver} {K : CellG} (h : K.Ready) (hs : s.ops.K = K) {laplacian : Poly ℝ} {tr : LocPoisson.TraceOr}
    {v : List ℝ} (hv : tr.Gives K v) {ei eg : Bool} {f : LocPoisson} (hf : LocPoisson.init gmres (some s) laplacian tr ei eg = .ok f) :
    ∃ r, LocHarm.init gmres (Trace.made K.getEdges (some (List.zipWith (· - ·) v (K.samplesOf (alP laplacian).eval))) none none) (some s) = .ok r ∧
      f.cell = some K ∧ f.poly = some (polyPart K (alP laplacian)) ∧ f.harm = some r := by
  rw [poissonInit_eq gmres h hs laplacian hv] at hf
  obtain ⟨r, hr, hf⟩ := bind_ok hf
  refine ⟨r, hr, ?_⟩
  split_ifs at hf with h0
  · obtain ⟨h1, h2, h3⟩ := computeInterior_parts hf
    exact ⟨h1, h2, h3⟩
  · cases hf
    exact ⟨rfl, rfl, rfl⟩

/-- C75: whatever the solver does, the boundary values of the object are the given ones. -/
theorem C75_trace {gmres : Gmres} {s : Solver} (h : s.ops.K.Ready) {laplacian : Poly ℝ} {tr : LocPoisson.TraceOr} {v : List ℝ}
    (hv : tr.Gives s.ops.K v) {ei eg : Bool} {f : LocPoisson} (hf : LocPoisson.init gmres (some s) laplacian tr ei eg = .ok f) :
    f.traceValues = .ok v := by
  obtain ⟨r, hr, -, hp, hh⟩ := poissonInit_parts h rfl hv hf
  have hrv := harmInit_values hr
  simp only [LocPoisson.traceValues, hp, hh, Trace.attr, py_ok_bind, hrv, Trace.made, polyPart]
  exact add_back (by rw [Gives.length hv, samples_len h])

/-- C75: the polynomial part has the given Laplacian, whatever the solver does, if the coefficients lie on a lattice that is coarse enough for
the degree.  Missing: other polynomials, where terms of the anti-Laplacian may be dropped (see C09). -/
theorem C75_laplacian_partial {gmres : Gmres} {s : Solver} (h : s.ops.K.Ready) {laplacian : Poly ℝ} (hc : Canonical laplacian) (δ : ℝ)
    (hl : OnLattice δ laplacian) (hδ : ∀ m ∈ laplacian, ∀ n, n = m.alpha.x + m.alpha.y →
      ((4 ^ (n / 2 + 1) * (n / 2 + 1).factorial * (n + 1).descFactorial (n / 2 + 1) : ℕ) : ℝ) * (1 / 10 ^ 12) ≤ δ)
    {tr : LocPoisson.TraceOr} {v : List ℝ} (hv : tr.Gives s.ops.K v) {ei eg : Bool} {f : LocPoisson}
    (hf : LocPoisson.init gmres (some s) laplacian tr ei eg = .ok f) :
    ∃ p, f.poly = some p ∧ HasLaplacian Set.univ p.exact.eval laplacian.eval := by
  obtain ⟨r, -, -, hp, -⟩ := poissonInit_parts h rfl hv hf
  exact ⟨_, hp, antilap_laplacian laplacian hc δ hl hδ⟩

theorem tiny_alP : alP ([⟨⟨0, 0⟩, 1 / 10 ^ 12⟩] : Poly ℝ) = [] := by
  have hz : ∀ a : MultiIndex, (Mono.mk a (1 / 10 ^ 12 * (1 / 4) : ℝ)).isZero = true := by
    intro a; norm_num [Mono.isZero, tol, abs_of_pos]
  have h1 : (Mono.mk ⟨0, 0⟩ (1 / 10 ^ 12 : ℝ)).isZero = false := by norm_num [Mono.isZero, tol, abs_of_pos]
  have h2 : ∀ a : MultiIndex, (Mono.mk a (1 / 10 ^ 12 : ℝ)).isZero = false := by intro a; norm_num [Mono.isZero, tol, abs_of_pos]
  have ho : addMonomial [] (⟨⟨0, 0⟩, 1 / 10 ^ 12⟩ : Mono ℝ) = [⟨⟨0, 0⟩, 1 / 10 ^ 12⟩] := by
    simp only [addMonomial, h1]; simp
  have hc : Canonical ([⟨⟨2, 0⟩, 1 / 10 ^ 12⟩, ⟨⟨0, 2⟩, 1 / 10 ^ 12⟩] : Poly ℝ) := by
    refine ⟨by simp; decide, ?_⟩
    intro m hm
    simp at hm
    rcases hm with rfl | rfl <;> norm_num [tol, abs_of_pos]
  have hm : mulP (rsq ℝ) [⟨⟨0, 0⟩, 1 / 10 ^ 12⟩] = [⟨⟨2, 0⟩, 1 / 10 ^ 12⟩, ⟨⟨0, 2⟩, 1 / 10 ^ 12⟩] := by
    have : nz (prods (rsq ℝ) [⟨⟨0, 0⟩, 1 / 10 ^ 12⟩]) = [⟨⟨2, 0⟩, 1 / 10 ^ 12⟩, ⟨⟨0, 2⟩, 1 / 10 ^ 12⟩] := by
      simp only [prods, rsq, nz, Mono.times, List.flatMap_cons, List.flatMap_nil, List.map_cons, List.map_nil, List.append_nil, List.cons_append,
        List.nil_append, one_mul, List.filter_cons, h2]
      simp
      exact ⟨rfl, rfl⟩
    rw [mulP, this, consolidate_eq_self hc]
  have h0 : (⟨0, 0⟩ : MultiIndex).order = 0 := rfl
  have hs : smul ([⟨⟨2, 0⟩, 1 / 10 ^ 12⟩, ⟨⟨0, 2⟩, 1 / 10 ^ 12⟩] : Poly ℝ) (1 / 4 / (1 + ((0 : ℕ) : ℝ))) = [] := by
    have : (1 / 4 / (1 + ((0 : ℕ) : ℝ))) = 1 / 4 := by norm_num
    rw [this, smul_eq]
    simp only [nz, List.map_cons, List.map_nil, Mono.smul, List.filter_cons, hz]
    simp
  have hP : alMono (⟨⟨0, 0⟩, 1 / 10 ^ 12⟩ : Mono ℝ) = [] := by
    simp only [alMono, ho, hm, h0, hs, Nat.zero_div, alLoop]
  simp only [alP, List.foldl_cons, List.foldl_nil, hP]
  rfl

/-- C75 as stated is false for tiny Laplacians: with the Laplacian `1e-12` the polynomial part is zero, so the boundary values are extended to
a harmonic function. -/
theorem C75_tiny_laplacian {gmres : Gmres} {s : Solver} (h : s.ops.K.Ready) {tr : LocPoisson.TraceOr} {v : List ℝ} (hv : tr.Gives s.ops.K v)
    {ei eg : Bool} {f : LocPoisson} (hf : LocPoisson.init gmres (some s) [⟨⟨0, 0⟩, 1 / 10 ^ 12⟩] tr ei eg = .ok f) :
    ∃ p r, f.poly = some p ∧ p.exact = [] ∧ f.harm = some r ∧ r.trace.values = some v := by
  obtain ⟨r, hr, -, hp, hh⟩ := poissonInit_parts h rfl hv hf
  refine ⟨_, r, hp, tiny_alP, hh, ?_⟩
  rw [harmInit_values hr, tiny_alP]
  show some _ = some v
  congr 1
  have hl : v.length = s.ops.K.cols.length := (Gives.length hv).trans h.numPts
  refine List.ext_getElem (by simp [CellG.samplesOf, hl]) fun i h1 h2 => ?_
  simp [CellG.samplesOf, Poly.eval]

/-- C75: boundary values of the wrong number are refused. -/
theorem C75_refused (gmres : Gmres) {s : Solver} (h : s.ops.K.Ready) (laplacian : Poly ℝ) {a : List ℝ} (ha : a.length ≠ s.ops.K.numPts)
    (ei eg : Bool) : LocPoisson.init gmres (some s) laplacian (.value (.arr a)) ei eg = .error .valueError := by
  have hb := Trace.good_bare (getEdges_sampled h)
  have h1 := (Trace.C46_set_values hb).2.2.2 a (by rw [getEdges_sizes h]; exact ha)
  have h2 : Trace.init s.ops.K.getEdges (values := some (.one (.arr a))) = .error .valueError := by
    simp only [Trace.init, Bool.false_eq_true, if_false, h1, Except.map]
  simp only [LocPoisson.init]
  rw [antiLaplacian_ok, py_ok_bind, polyPart_init h, py_ok_bind, h2, py_error_bind]

/-- C75: with an exact harmonic part the object holds the data of the solution `u` of `Δu = laplacian` with the given boundary values.  `φ` is
`u` minus the polynomial part; the harmonic function made from its boundary values is supposed to hold its data (see C74). -/
theorem C75_holds_partial {gmres : Gmres} {s : Solver} {K : CellG} (h : K.Ready) (hs : s.ops.K = K) {laplacian : Poly ℝ}
    (δ : ℝ) (hl : OnLattice δ (alP laplacian)) (hδ : ∀ m ∈ alP laplacian, ∀ n, n = m.alpha.x + m.alpha.y →
      ((4 ^ (n / 2 + 1) * (n / 2 + 1).factorial * (n + 1).descFactorial (n / 2 + 1) : ℕ) : ℝ) * (1 / 10 ^ 12) ≤ δ)
    {S : Set (ℝ × ℝ)} {u : ℝ → ℝ → ℝ} {tr : LocPoisson.TraceOr} (hv : tr.Gives K (K.samplesOf u)) {r : LocHarm}
    (hr : LocHarm.init gmres (Trace.made K.getEdges (some (K.samplesOf fun x y => u x y - (alP laplacian).eval x y)) none none) (some s) = .ok r)
    (hh : r.Holds K S fun x y => u x y - (alP laplacian).eval x y) :
    (∃ f, LocPoisson.init gmres (some s) laplacian tr false false = .ok f) ∧
    ∀ ei eg f, LocPoisson.init gmres (some s) laplacian tr ei eg = .ok f → f.Holds K S u ∧ f.traceValues = .ok (K.samplesOf u) := by
  have e : List.zipWith (· - ·) (K.samplesOf u) (K.samplesOf (alP laplacian).eval) =
      K.samplesOf fun x y => u x y - (alP laplacian).eval x y := by
    simp only [CellG.samplesOf, List.zipWith_map_left, List.zipWith_map_right, List.zipWith_self]
  obtain ⟨p, hp, -, hP⟩ := C72_holds_partial h (alP laplacian) (alP_canonical _) δ hl hδ
  rw [polyPart_init h] at hp
  cases hp
  constructor
  · rw [poissonInit_eq gmres h hs laplacian hv, e, hr, py_ok_bind]
    exact ⟨_, rfl⟩
  · intro ei eg f hf
    subst hs
    refine ⟨?_, C75_trace h hv hf⟩
    obtain ⟨r', hr', -, hfp, hfh⟩ := poissonInit_parts h rfl hv hf
    rw [e, hr] at hr'
    cases hr'
    exact ⟨r, _, _, _, hfh, hfp, hh, hP, fun x y _ => by ring⟩

/-! ### an example: `Δu = 1` with the boundary values `5/4` on the disc; `u = (x² + y²)/4 + 1` -/

theorem disc_circle {z : Sample} (hz : z ∈ discCell.cols) : z.x ^ 2 + z.y ^ 2 = 1 := by
  simp only [discCell, CellG.cols, List.flatMap_cons, List.flatMap_nil, List.append_nil, cross_cols, crossPt, List.map_cons, List.map_nil,
    List.mem_cons, List.not_mem_nil, or_false] at hz
  rcases hz with rfl | rfl | rfl | rfl <;> norm_num

theorem one_part (x y : ℝ) : (alP onePoly).eval x y = (x ^ 2 + y ^ 2) / 4 := by
  rw [onePoly, one_alP]
  simp [Poly.eval, Mono.eval]
  ring

theorem disc_quarter : ∃ f, LocPoisson.init zeroGmres (some discSolver) onePoly (.value (.num (5 / 4))) false false = .ok f ∧
    f.Holds discCell Set.univ (fun x y => (x ^ 2 + y ^ 2) / 4 + 1) ∧ f.traceValues = .ok (List.replicate 4 (5 / 4)) := by
  have hv : (LocPoisson.TraceOr.value (.num (5 / 4))).Gives discCell (discCell.samplesOf fun x y => (x ^ 2 + y ^ 2) / 4 + 1) := by
    show discCell.samplesOf _ = _
    refine List.eq_replicate_iff.2 ⟨samples_len disc_ready.1 _, ?_⟩
    intro b hb
    obtain ⟨z, hz, rfl⟩ := List.mem_map.1 hb
    beta_reduce
    rw [disc_circle hz]
    norm_num
  have he : (fun x y : ℝ => (x ^ 2 + y ^ 2) / 4 + 1 - (alP onePoly).eval x y) = fun _ _ => 1 := by
    funext x y; rw [one_part]; ring
  have ht := made_on disc_ready.1 (samples_len disc_ready.1 fun _ _ => 1) (w := none) (d := none) nofun nofun
  obtain ⟨r, h1, -, h2⟩ := disc_one ht rfl
  obtain ⟨⟨f, hf⟩, hall⟩ := C75_holds_partial disc_ready.1 (s := discSolver) rfl (laplacian := onePoly) (1 / 4) (by
      intro m hm
      rw [onePoly, one_alP] at hm
      simp only [List.mem_cons, List.not_mem_nil, or_false] at hm
      rcases hm with rfl | rfl <;> exact ⟨1, by norm_num⟩) (by
      intro m hm n hn
      rw [onePoly, one_alP] at hm
      simp only [List.mem_cons, List.not_mem_nil, or_false] at hm
      rcases hm with rfl | rfl <;> subst hn <;> norm_num [Nat.factorial, Nat.descFactorial]) hv (r := r) (by rw [he]; exact h1)
    (by rw [he]; exact h2)
  obtain ⟨h3, h4⟩ := hall _ _ _ hf
  exact ⟨f, hf, h3, by rw [h4, show discCell.samplesOf _ = _ from hv]; rfl⟩

end PFEM
