import Verif.Lemmas.EdgeSampled
import Verif.Lemmas.Split

/-!
Transformations scale the stored speeds of an edge by a constant; sizes of sampled edges.
-/

namespace PFEM
open EdgeG

/-- the speeds of the second edge are those of the first times a constant -/
def ScaledSpeed (e e' : EdgeG) : Prop :=
  ∃ k : ℝ, e'.pts.map (fun l => l.map Sample.dxNorm) = e.pts.map fun l => l.map fun s => k * s.dxNorm

theorem ScaledSpeed.refl (e : EdgeG) : ScaledSpeed e e := ⟨1, by simp⟩

theorem ScaledSpeed.trans {a b c : EdgeG} (h : ScaledSpeed a b) (h' : ScaledSpeed b c) : ScaledSpeed a c := by
  obtain ⟨k, hk⟩ := h
  obtain ⟨k', hk'⟩ := h'
  refine ⟨k' * k, ?_⟩
  rw [hk']
  have : b.pts.map (fun l => l.map fun s => k' * s.dxNorm) =
      (b.pts.map fun l => l.map Sample.dxNorm).map fun l => l.map (k' * ·) := by
    rw [Option.map_map]
    congr 1
    funext l
    simp [Function.comp_def]
  rw [this, hk, Option.map_map]
  congr 1
  funext l
  simp [Function.comp_def, mul_assoc]

theorem scaled_mapPts {f : Sample → Sample} {k : ℝ} (hf : ∀ s, (f s).dxNorm = k * s.dxNorm) (e : EdgeG) :
    ScaledSpeed e (mapPts f e) := by
  refine ⟨k, ?_⟩
  simp only [mapPts, Option.map_map]
  congr 1
  funext l
  simp [Function.comp_def, hf]

theorem scaled_of_pts {e e' e1 : EdgeG} (h : e1.pts = e.pts) (hs : ScaledSpeed e1 e') : ScaledSpeed e e' := by
  obtain ⟨k, hk⟩ := hs
  exact ⟨k, by rw [hk, h]⟩

theorem scaled_translate (e : EdgeG) (a w) : ScaledSpeed e (e.translate a w) :=
  scaled_of_pts (note_pts ..) (scaled_mapPts (k := 1) (by simp) _)

theorem scaled_dilate {e e' : EdgeG} {al w} (h : e.dilate al w = .ok e') : ScaledSpeed e e' := by
  unfold EdgeG.dilate at h
  split at h
  · cases h
  · cases h
    exact scaled_of_pts (note_pts ..) (scaled_mapPts (k := |al|) (by intro s; simp [mul_comm]) _)

theorem scaled_orthogonal {e e' : EdgeG} {A w} (h : e.orthogonal A w = .ok e') : ScaledSpeed e e' := by
  unfold EdgeG.orthogonal at h
  split at h
  · cases h
  · cases h
    exact scaled_of_pts (note_pts ..) (scaled_mapPts (k := 1) (by intro s; simp [orthSample]) _)

theorem scaled_orthIf {e e' : EdgeG} {op A w}
    (h : (if (note w op e).pts.isSome then (note w op e).orthogonal A false else .ok (note w op e)) = .ok e') :
    ScaledSpeed e e' := by
  split at h
  · exact scaled_of_pts (note_pts ..) (scaled_orthogonal h)
  · cases h
    exact scaled_of_pts (note_pts ..) (.refl _)

theorem scaled_join {e e' : EdgeG} {a b w} (h : e.joinPoints a b w = .ok e') : ScaledSpeed e e' := by
  unfold EdgeG.joinPoints at h
  dsimp only at h
  split at h
  · cases h
  · split at h
    · cases h
      exact scaled_of_pts (note_pts ..) (.refl _)
    · cases h
    · split at h
      · cases h
      · obtain ⟨e1, h1, h⟩ := bind_ok h
        obtain ⟨e2, h2, h⟩ := bind_ok h
        cases h
        refine scaled_of_pts (e1 := note w (.joinPoints a b) e) (note_pts ..) ?_
        refine (scaled_translate _ _ _).trans ((scaled_orthIf h1).trans ((scaled_dilate h2).trans ?_))
        obtain ⟨k, hk⟩ := scaled_translate e2 a false
        exact ⟨k, hk⟩

theorem scaled_apply {e e' : EdgeG} {op w} (h : e.apply op w = .ok e') : ScaledSpeed e e' := by
  cases op with
  | joinPoints a b => exact scaled_join h
  | rotate th => exact scaled_orthIf h
  | reflectX => exact scaled_orthIf h
  | reflectY => exact scaled_orthIf h
  | translate a => cases h; exact scaled_translate _ _ _
  | dilate al => exact scaled_dilate h
  | orthogonal A => exact scaled_orthogonal h

theorem scaled_diary : ∀ {l : List EdgeOp} {e e' : EdgeG}, runDiary l e = .ok e' → ScaledSpeed e e'
  | [], e, e', h => by cases h; exact .refl _
  | op :: l, e, e', h => by
    obtain ⟨e1, h1, h2⟩ := bind_ok h
    exact (scaled_apply h1).trans (scaled_diary h2)

theorem scaled_length {e e' : EdgeG} (h : ScaledSpeed e e') {l : List Sample} (hl : e.pts = some l) :
    ∃ l' k, e'.pts = some l' ∧ l'.map Sample.dxNorm = l.map fun s => k * s.dxNorm := by
  obtain ⟨k, hk⟩ := h
  rw [hl, Option.map_some] at hk
  obtain ⟨l', h1, h2⟩ := Option.map_eq_some_iff.1 hk
  exact ⟨l', k, h1, h2⟩

theorem baseSamples_speed {c : CurveType} {o : CurveOpts} {a dt : ℝ} : ∀ {l : List (ℝ × ℝ)} {L},
    baseSamples c o a dt l = .ok L → L.length = l.length ∧
      ∀ (j : ℕ) (s : Sample) (q : ℝ × ℝ), L[j]? = some s → l[j]? = some q → q.2 = 0 → s.dxNorm = 0
  | [], L, h => by cases h; simp
  | (t, g) :: l, L, h => by
    obtain ⟨s, hs, h⟩ := bind_ok h
    obtain ⟨r, hr, h⟩ := bind_ok h
    cases h
    obtain ⟨i1, i2⟩ := baseSamples_speed hr
    refine ⟨by simp [i1], ?_⟩
    intro j s' q h1 h2 h3
    cases j with
    | zero =>
      simp only [List.getElem?_cons_zero, Option.some.injEq] at h1 h2
      subst h1 h2
      obtain ⟨x, hx, hs⟩ := bind_ok hs
      obtain ⟨y, hy, hs⟩ := bind_ok hs
      obtain ⟨z, hz, hs⟩ := bind_ok hs
      cases hs
      simp only at h3
      simp [h3]
    | succ j =>
      simp only [List.getElem?_cons_succ] at h1 h2
      exact i2 j s' q h1 h2 h3

/-- the size of the rules in the dictionary, and their end weights -/
theorem dict_size {n p : ℤ} {d : Quad × Quad} (hd : getQuadDict n p = .ok d) {qt : String} {q : Quad}
    (hq : pickQuad qt d = .ok q) : (q.t.zip q.wgt).length = 2 * n.toNat + 1 ∧ 4 ≤ n ∧
      (qt = "kress" → ∃ a b, (q.t.zip q.wgt)[0]? = some (a, 0) ∧ (q.t.zip q.wgt)[2 * n.toNat]? = some (b, 0)) := by
  obtain ⟨hok, hd'⟩ := C21_dict n p
  obtain ⟨hn, hp⟩ := hok.1 ⟨d, hd⟩
  obtain ⟨i1, i2, t1, t2⟩ := hd' d hd
  obtain ⟨n, rfl⟩ : ∃ m : ℕ, n = m := ⟨n.toNat, by omega⟩
  obtain ⟨p, rfl⟩ : ∃ m : ℕ, p = m := ⟨p.toNat, by omega⟩
  unfold pickQuad at hq
  split at hq
  · next h1 =>
    cases hq
    obtain ⟨q, r1, -, r2, r3, -⟩ := C21_trap "trap" n 7 (by omega) (by decide) (by decide)
    rw [i1] at r1
    cases r1
    refine ⟨by simp [r2, r3], by omega, ?_⟩
    rw [h1]
    intro h; exact absurd h (by decide)
  · split at hq
    · cases hq
      obtain ⟨q, r1, -, r2, r3, r4, r5, -, -, r6⟩ := C21_kress n p (by omega) (by omega)
      rw [i2] at r1
      cases r1
      refine ⟨by simp [r2, r3], by omega, fun _ => ?_⟩
      obtain ⟨a, ha, -, -, ha0⟩ := r6 0 (by omega)
      obtain ⟨b, hb, -, -, hb0⟩ := r6 (2 * n) le_rfl
      rw [ha0.2 (Or.inl rfl)] at ha
      rw [hb0.2 (Or.inr rfl)] at hb
      refine ⟨0, 2 * Real.pi, ?_, ?_⟩
      · rw [List.getElem?_zip_eq_some]; exact ⟨r4, ha⟩
      · rw [List.getElem?_zip_eq_some]; simp only [Int.toNat_natCast]; exact ⟨r5, hb⟩
    · cases hq

/-- Sampling succeeds only with `2n+1` samples; for Kress rules the end speeds vanish. -/
theorem parameterize_size {n p : ℤ} {d : Quad × Quad} (hd : getQuadDict n p = .ok d) {e e1 : EdgeG}
    (h1 : e.parameterize d = .ok e1) :
    4 ≤ n ∧ ∃ L, e1.pts = some L ∧ L.length = 2 * n.toNat + 1 ∧
      (e.quadType = "kress" → ∀ s, (L[0]? = some s ∨ L[2 * n.toNat]? = some s) → s.dxNorm = 0) := by
  obtain ⟨q, hq, h1⟩ := bind_ok h1
  obtain ⟨l, hl, h1⟩ := bind_ok h1
  obtain ⟨e', he', h1⟩ := bind_ok h1
  cases h1
  obtain ⟨s1, s2, s3⟩ := dict_size hd hq
  obtain ⟨b1, b2⟩ := baseSamples_speed hl
  obtain ⟨L, k, hL, hk⟩ := scaled_length (scaled_diary he') rfl
  have hlen : L.length = l.length := by simpa using congrArg List.length hk
  refine ⟨s2, L, hL, by rw [hlen, b1, s1], ?_⟩
  intro hkr s hs
  obtain ⟨a, b, ha, hb⟩ := s3 hkr
  have key : ∀ (j : ℕ) (r : ℝ × ℝ), (q.t.zip q.wgt)[j]? = some r → r.2 = 0 → L[j]? = some s → s.dxNorm = 0 := by
    intro j r hr h0 hj
    have := congrArg (fun m : List ℝ => m[j]?) hk
    simp only [List.getElem?_map, hj, Option.map_some] at this
    obtain ⟨s', hs', hs''⟩ := Option.map_eq_some_iff.1 this.symm
    rw [← hs'', b2 j s' r hs' hr h0, mul_zero]
  rcases hs with hs | hs
  · exact key _ _ ha rfl hs
  · exact key _ _ hb rfl hs

end PFEM
