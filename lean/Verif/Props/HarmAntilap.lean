import Verif.Lemmas.HarmAntilap
import Verif.Model.Antilap
import Verif.Props.LogTerms

/-!
Property theorems C52: anti-Laplacians of harmonic functions.
-/

namespace PFEM
open Nystrom Antilap
open ContourG (mapPy)

/-! ### arrays given by functions of the samples -/

theorem bin_maps {α β γ δ : Type} (f : β → γ → δ) (l : List α) (a : α → β) (b : α → γ) :
    Np.bin f (l.map a) (l.map b) = .ok (l.map fun s => f (a s) (b s)) := by
  rw [bin_eq _ (by simp), List.zipWith_map, List.zipWith_self]

theorem mul_maps {α : Type} (l : List α) (a b : α → ℝ) : Np.mul (l.map a) (l.map b) = .ok (l.map fun s => a s * b s) := bin_maps _ l a b
theorem add_maps {α : Type} (l : List α) (a b : α → ℝ) : Np.add (l.map a) (l.map b) = .ok (l.map fun s => a s + b s) := bin_maps _ l a b
theorem sub_maps {α : Type} (l : List α) (a b : α → ℝ) : Np.sub (l.map a) (l.map b) = .ok (l.map fun s => a s - b s) := bin_maps _ l a b
theorem smul_map {α : Type} (r : ℝ) (l : List α) (a : α → ℝ) : Np.smul r (l.map a) = l.map fun s => r * a s := by simp [Np.smul]
theorem neg_map {α : Type} (l : List α) (a : α → ℝ) : Np.neg (l.map a) = l.map fun s => -a s := by simp [Np.neg]
theorem shift_map {α : Type} (r : ℝ) (l : List α) (a : α → ℝ) : Np.shift (l.map a) r = l.map fun s => a s - r := by simp [Np.shift]

theorem dx_map {K : CellG} (h : K.Ready) (a : Sample → ℝ) :
    K.multiplyByDxNorm (K.cols.map a) = .ok (K.cols.map fun s => a s * s.dxNorm) := by
  rw [h.multiplyByDxNorm (by simp), List.zipWith_map_right, List.zipWith_self]

theorem zip_maps (K : CellG) (F : Sample → ℝ × ℝ → ℝ) (a b : Sample → ℝ) :
    List.zipWith F K.cols ((K.cols.map a).zip (K.cols.map b)) = K.cols.map fun s => F s (a s, b s) := by
  rw [List.zip_map', List.zipWith_map_right, List.zipWith_self]

theorem tangent_map {K : CellG} (h : K.Ready) (a b : Sample → ℝ) :
    K.dotWithTangent (K.cols.map a) (K.cols.map b) = .ok (K.cols.map fun s => a s * s.tx + b s * s.ty) := by
  rw [h.dotWithTangent (by simp) (by simp), zip_maps]

theorem weightedNormal_map {K : CellG} (h : K.Ready) (a b : Sample → ℝ) :
    weightedNormal K (K.cols.map a) (K.cols.map b) = .ok (K.cols.map fun s => (a s * s.nx + b s * s.ny) * s.dxNorm) := by
  unfold weightedNormal
  rw [h.dotWithNormal (by simp) (by simp), zip_maps]
  exact dx_map h _

theorem weightedTangent_map {K : CellG} (h : K.Ready) (a b : Sample → ℝ) :
    weightedTangent K (K.cols.map a) (K.cols.map b) = .ok (K.cols.map fun s => (a s * s.tx + b s * s.ty) * s.dxNorm) := by
  unfold weightedTangent
  rw [tangent_map h]
  exact dx_map h _

/-! ### from components -/

theorem fromComponents_ok {K : CellG} (h : K.Ready) (rho rhoHat psi psiHat : ℝ → ℝ → ℝ) :
    fromComponents K (K.samplesOf rho) (K.samplesOf rhoHat) (K.samplesOf psi) (K.samplesOf psiHat) =
      .ok (K.samplesOf (compPot rho rhoHat), K.normalOf (fun x y => 0.25 * (rho x y + x * psi x y + y * psiHat x y))
        fun x y => 0.25 * (rhoHat x y + y * psi x y - x * psiHat x y)) := by
  unfold fromComponents
  rw [h.getBoundaryPoints]
  simp only [CellG.samplesOf, py_ok_bind, mul_maps, add_maps, sub_maps, smul_map, weightedNormal_map h]
  rfl

/-- C52: if `ρ` and `ρ̂` are functions with gradients `(ψ, -ψ̂)` and `(ψ̂, ψ)`, where `ψ`, `ψ̂` are conjugate, then the function
`¼ (x ρ + y ρ̂)` has the Laplacian `ψ`, and its gradient is the one that the code computes from `ρ`, `ρ̂`, `ψ`, `ψ̂`. -/
theorem C52_components {S : Set (ℝ × ℝ)} {psi psiHat rho rhoHat : ℝ → ℝ → ℝ} (hc : ConjugateOn S psi psiHat)
    (hr : HasGradOn S rho psi fun x y => -psiHat x y) (hh : HasGradOn S rhoHat psiHat psi) {K : CellG} (h : K.Ready) :
    ∃ P W, fromComponents K (K.samplesOf rho) (K.samplesOf rhoHat) (K.samplesOf psi) (K.samplesOf psiHat) = .ok (P, W) ∧
      AntilaplacianData K S psi P W :=
  ⟨_, _, fromComponents_ok h rho rhoHat psi psiHat, _, _, _, compPot_laplacian hc hr hh, compPot_grad hr hh, rfl, rfl⟩

/-! ### terms of one hole -/

theorem shifted_ok {K : CellG} {c : ContourG} {p : Vert} (hp : c.interior = some p) :
    shifted (K.cols.map Sample.x) (K.cols.map Sample.y) c =
      .ok (K.cols.map fun s => s.x - p.x, K.cols.map fun s => s.y - p.y, K.cols.map fun s => sq p s.x s.y) := by
  unfold shifted
  simp only [hp, Trace.attr, py_ok_bind, shift_map, bin_maps]
  rfl

theorem sq_notin {K : CellG} {p : Vert} (hoff : ∀ s ∈ K.cols, (s.x, s.y) ∈ away p) : (0 : ℝ) ∉ K.cols.map fun s => sq p s.x s.y := by
  intro hm
  obtain ⟨s, hs, h0⟩ := List.mem_map.1 hm
  exact (sq_pos (hoff s hs)).ne' h0

/-- the rational terms of a hole: real and imaginary part of `1 / (z - ξ)` -/
noncomputable def muF (p : Vert) (x y : ℝ) : ℝ := (x - p.x) / sq p x y
/-- the conjugate rational term -/
noncomputable def muHatF (p : Vert) (x y : ℝ) : ℝ := -(y - p.y) / sq p x y

theorem rational_ok {K : CellG} {c : ContourG} {p : Vert} (hp : c.interior = some p) (hoff : ∀ s ∈ K.cols, (s.x, s.y) ∈ away p) :
    rational (K.cols.map Sample.x) (K.cols.map Sample.y) c = .ok (K.samplesOf (muF p), K.samplesOf (muHatF p)) := by
  unfold rational
  rw [shifted_ok hp]
  simp only [py_ok_bind]
  rw [if_neg (sq_notin hoff)]
  simp only [py_ok_bind, neg_map, bin_maps]
  rfl

theorem holeTerms_ok {K : CellG} (h : K.Ready) {c : ContourG} {p : Vert} (hp : c.interior = some p)
    (hoff : ∀ s ∈ K.cols, (s.x, s.y) ∈ away p) (b d a : ℝ) (P W : Sample → ℝ) :
    holeTerms K (K.cols.map Sample.x) (K.cols.map Sample.y) c b d a (K.samplesOf (muF p)) (K.samplesOf (muHatF p))
      (K.cols.map P) (K.cols.map W) =
      .ok (K.cols.map fun s => P s + ratPot p b d s.x s.y + a * logPot p s.x s.y,
        K.cols.map fun s => W s + (ratPot1 p b d s.x s.y * s.nx + ratPot2 p b d s.x s.y * s.ny) * s.dxNorm +
          a * (((s.x - p.x) * (2 * logDist p s.x s.y - 1) / 4 * s.nx + (s.y - p.y) * (2 * logDist p s.x s.y - 1) / 4 * s.ny) *
            s.dxNorm)) := by
  unfold holeTerms
  rw [shifted_ok hp]
  simp only [py_ok_bind]
  rw [if_neg (sq_notin hoff)]
  have hl : (K.cols.map fun s => sq p s.x s.y).map (fun r => 0.5 * Real.log r) = K.cols.map fun s => logDist p s.x s.y := by
    rw [List.map_map]
    exact List.map_congr_left fun s _ => (logDist_eq p s.x s.y).symm
  simp only [hl, CellG.samplesOf, smul_map, add_maps, mul_maps, sub_maps, py_ok_bind, bin_maps, weightedNormal_map h]
  congr 2
  refine List.map_congr_left fun s hs => ?_
  have h0 := (sq_pos (hoff s hs)).ne'
  simp only [ratPot1, ratPot2, muF, muHatF]
  ring

/-- C52: the functions `½ (b·y) log|y|` and `|y|² (log|y| - 1) / 4` (with `y` the position relative to the hole's interior point) have
the Laplacians `b·y / |y|²` and `log|y|`. -/
theorem C52_potentials (p : Vert) (b c : ℝ) :
    HasLaplacian (away p) (fun x y => 0.5 * (b * (x - p.x) + c * (y - p.y)) * logDist p x y)
      (fun x y => (b * (x - p.x) + c * (y - p.y)) / ((x - p.x) ^ 2 + (y - p.y) ^ 2)) ∧
    HasLaplacian (away p) (fun x y => ((x - p.x) ^ 2 + (y - p.y) ^ 2) * (logDist p x y - 1) / 4) (logDist p) :=
  ⟨ratPot_laplacian p b c, logPot_laplacian p⟩

/-- the anti-Laplacian of one hole is added to what is there -/
theorem hole_step {K : CellG} (h : K.Ready) {c : ContourG} {p : Vert} (hp : c.interior = some p) {S : Set (ℝ × ℝ)} (hS : S ⊆ away p)
    (hon : ∀ s ∈ K.cols, (s.x, s.y) ∈ S) (b d a : ℝ) {f : ℝ → ℝ → ℝ} {P W : List ℝ} (hf : AntilaplacianData K S f P W) :
    ∃ P' W', holeTerms K (K.cols.map Sample.x) (K.cols.map Sample.y) c b d a (K.samplesOf (muF p)) (K.samplesOf (muHatF p)) P W =
        .ok (P', W') ∧
      AntilaplacianData K S (fun x y => f x y + (b * muF p x y - d * muHatF p x y) + a * logDist p x y) P' W' := by
  obtain ⟨u, g1, g2, hL, hG, rfl, rfl⟩ := hf
  refine ⟨_, _, holeTerms_ok h hp (fun s hs => hS (hon s hs)) b d a _ _,
    fun x y => u x y + ratPot p b d x y + a * logPot p x y,
    fun x y => g1 x y + ratPot1 p b d x y + a * ((x - p.x) * (2 * logDist p x y - 1) / 4),
    fun x y => g2 x y + ratPot2 p b d x y + a * ((y - p.y) * (2 * logDist p x y - 1) / 4), ?_, ?_, rfl, ?_⟩
  · refine ((hL.add ((ratPot_laplacian p b d).mono hS)).add (((logPot_laplacian p).const_mul a).mono hS)).congr fun x y hxy => ?_
    simp only [muF, muHatF]
    ring
  · intro x y hxy
    exact ((hG x y hxy).add (ratPot_grad b d (hS hxy))).add ((logPot_grad (hS hxy)).const_mul a)
  · refine List.map_congr_left fun s _ => ?_
    beta_reduce
    ring

/-! ### all holes -/

/-- the singular part `Re Σ (b + i c) / (z - ξ)` of given residues `(b, c)` at the points `ξ` -/
noncomputable def singularPart (ps : List Vert) (res : List (ℝ × ℝ)) (x y : ℝ) : ℝ :=
  (List.zipWith (fun (p : Vert) (r : ℝ × ℝ) => (r.1 * (x - p.x) + r.2 * (y - p.y)) / ((x - p.x) ^ 2 + (y - p.y) ^ 2)) ps res).sum

/-- its conjugate `Im Σ (b + i c) / (z - ξ)` -/
noncomputable def singularConj (ps : List Vert) (res : List (ℝ × ℝ)) (x y : ℝ) : ℝ :=
  (List.zipWith (fun (p : Vert) (r : ℝ × ℝ) => (r.2 * (x - p.x) - r.1 * (y - p.y)) / ((x - p.x) ^ 2 + (y - p.y) ^ 2)) ps res).sum

/-- `Σ a log|x - ξ|` -/
noncomputable def logPart (ps : List Vert) (as : List ℝ) (x y : ℝ) : ℝ := (List.zipWith (fun p a => a * logDist p x y) ps as).sum

theorem mulVec_samples {K : CellG} (h : K.Ready) (ps : List Vert) (f : Vert → ℝ → ℝ → ℝ) {v : List ℝ} (hv : v.length = ps.length) :
    (do
      let M ← Mat.ofCols K.numPts (ps.map fun p => K.samplesOf (f p))
      M.mulVec v : Py (List ℝ)) = .ok (K.samplesOf fun x y => (List.zipWith (fun p a => f p x y * a) ps v).sum) := by
  rw [ofCols_ok (by simp [CellG.samplesOf, h.numPts])]
  simp only [py_ok_bind, Mat.mulVec, List.length_map, hv, ne_eq, not_true_eq_false, if_false]
  congr 1
  refine List.ext_getElem (by simp [CellG.samplesOf, h.numPts]) fun i h1 h2 => ?_
  simp only [List.getElem_map, List.getElem_range, CellG.samplesOf]
  congr 1
  refine List.ext_getElem (by simp) fun j k1 k2 => ?_
  have hj : j < ps.length := by simp at k1; omega
  have hi : i < K.cols.length := by simpa [CellG.samplesOf] using h2
  simp [List.getD_eq_getElem?_getD, hj, vec, hi]

theorem map_zip_left {α β γ : Type} (f : α → β → γ) (ps : List α) (res : List β) :
    List.zipWith f ps res = (ps.zip res).map fun q => f q.1 q.2 := by
  rw [List.zip, List.map_zipWith]

theorem sum_map_sub' {α : Type} (f g : α → ℝ) : ∀ l : List α, (l.map f).sum - (l.map g).sum = (l.map fun a => f a - g a).sum
  | [] => by simp
  | a :: l => by simp only [List.map_cons, List.sum_cons, ← sum_map_sub' f g l]; ring

theorem sum_map_add' {α : Type} (f g : α → ℝ) : ∀ l : List α, (l.map f).sum + (l.map g).sum = (l.map fun a => f a + g a).sum
  | [] => by simp
  | a :: l => by simp only [List.map_cons, List.sum_cons, ← sum_map_add' f g l]; ring

theorem reduce_ok {K : CellG} (h : K.Ready) (ps : List Vert) {res : List (ℝ × ℝ)} (hr : res.length = ps.length) (psi psiHat : ℝ → ℝ → ℝ) :
    reduce K (K.samplesOf psi) (K.samplesOf psiHat) res (ps.map fun p => (K.samplesOf (muF p), K.samplesOf (muHatF p))) =
      .ok (K.samplesOf fun x y => psi x y - singularPart ps res x y, K.samplesOf fun x y => psiHat x y - singularConj ps res x y) := by
  have hl : (ps.map fun p => (K.samplesOf (muF p), K.samplesOf (muHatF p))).map Prod.fst = ps.map fun p => K.samplesOf (muF p) := by simp
  have hl' : (ps.map fun p => (K.samplesOf (muF p), K.samplesOf (muHatF p))).map Prod.snd = ps.map fun p => K.samplesOf (muHatF p) := by
    simp
  have hm : ∀ (f : Vert → ℝ → ℝ → ℝ), Mat.ofCols K.numPts (ps.map fun p => K.samplesOf (f p)) = .ok ⟨K.numPts, ps.length, fun i j =>
      vec ((ps.map fun p => K.samplesOf (f p)).getD j []) i⟩ := by
    intro f
    rw [ofCols_ok (by simp [CellG.samplesOf, h.numPts]), List.length_map]
  have k := fun (f : Vert → ℝ → ℝ → ℝ) (v : List ℝ) (hv : v.length = ps.length) => mulVec_samples h ps f hv
  simp only [hm, py_ok_bind] at k
  have h1 : (res.map Prod.fst).length = ps.length := by simp [hr]
  have h2 : (res.map Prod.snd).length = ps.length := by simp [hr]
  unfold reduce
  simp only [hl, hl', hm, py_ok_bind, k _ _ h1, k _ _ h2]
  simp only [CellG.samplesOf, sub_maps, add_maps, py_ok_bind]
  congr 2
  · refine List.map_congr_left fun s _ => ?_
    congr 1
    simp only [List.zipWith_map_right]
    simp only [map_zip_left, singularPart]
    rw [sum_map_sub']
    congr 1
    refine List.map_congr_left fun q _ => ?_
    simp only [muF, muHatF, sq]
    ring
  · refine List.map_congr_left fun s _ => ?_
    congr 1
    simp only [List.zipWith_map_right]
    simp only [map_zip_left, singularConj]
    rw [sum_map_add']
    congr 1
    refine List.map_congr_left fun q _ => ?_
    simp only [muF, muHatF, sq]
    ring

theorem holeLoop_ok {K : CellG} (h : K.Ready) {S : Set (ℝ × ℝ)} (hon : ∀ s ∈ K.cols, (s.x, s.y) ∈ S) (res : List (ℝ × ℝ))
    (cols : List (List ℝ × List ℝ)) (as : List ℝ) : ∀ (cs : List ContourG) (ps : List Vert) (rs : List (ℝ × ℝ)) (bs : List ℝ) (j : ℕ)
    (f : ℝ → ℝ → ℝ) (P W : List ℝ),
    List.Forall₂ (fun (c : ContourG) p => c.interior = some p ∧ S ⊆ away p) cs ps →
    res.drop j = rs → rs.length = ps.length → as.drop j = bs → ps.length ≤ bs.length →
    cols.drop j = ps.map (fun p => (K.samplesOf (muF p), K.samplesOf (muHatF p))) →
    AntilaplacianData K S f P W →
    ∃ P' W', holeLoop K (K.cols.map Sample.x) (K.cols.map Sample.y) res cols as j P W cs = .ok (P', W') ∧
      AntilaplacianData K S (fun x y => f x y + singularPart ps rs x y + logPart ps bs x y) P' W' := by
  intro cs
  induction cs with
  | nil =>
    intro ps rs bs j f P W hF _ _ _ _ _ hA
    cases hF
    refine ⟨P, W, rfl, ?_⟩
    simpa [singularPart, logPart] using hA
  | cons c cs ih =>
    intro ps rs bs j f P W hF hr hrl ha hal hc hA
    obtain _ | ⟨⟨hp, hS⟩, hF⟩ := hF
    rename_i p ps
    obtain ⟨r, rs, rfl⟩ := List.exists_cons_of_ne_nil (l := rs) (by rintro rfl; simp at hrl)
    obtain ⟨b, bs, rfl⟩ := List.exists_cons_of_ne_nil (l := bs) (by rintro rfl; simp at hal)
    have gt : ∀ {α : Type} {l : List α} {a : α} {t : List α}, l.drop j = a :: t → Np.get l j = .ok a ∧ l.drop (j + 1) = t := by
      intro α l a t hd
      have hlt : j < l.length := by
        by_contra hn
        rw [List.drop_eq_nil_of_le (by omega)] at hd
        cases hd
      rw [List.drop_eq_getElem_cons hlt] at hd
      injection hd with h1 h2
      exact ⟨by simp [Np.get, hlt, h1], h2⟩
    obtain ⟨g1, r2⟩ := gt hr
    obtain ⟨g2, c2⟩ := gt hc
    obtain ⟨g3, a2⟩ := gt ha
    obtain ⟨P1, W1, e1, hA1⟩ := hole_step h hp hS hon r.1 r.2 b hA
    obtain ⟨P2, W2, e2, hA2⟩ := ih ps rs bs (j + 1) _ P1 W1 hF r2 (by simpa using hrl) a2 (by simpa using hal) c2 hA1
    refine ⟨P2, W2, ?_, ?_⟩
    · simp only [holeLoop, g1, g2, g3, py_ok_bind, e1]
      exact e2
    · have : (fun x y => f x y + singularPart (p :: ps) (r :: rs) x y + logPart (p :: ps) (b :: bs) x y) = fun x y =>
          f x y + (r.1 * muF p x y - r.2 * muHatF p x y) + b * logDist p x y + singularPart ps rs x y + logPart ps bs x y := by
        funext x y
        simp only [singularPart, logPart, List.zipWith_cons_cons, List.sum_cons, muF, muHatF, sq]
        ring
      rw [this]
      exact hA2

theorem singular_conjugate {S : Set (ℝ × ℝ)} : ∀ (ps : List Vert) (rs : List (ℝ × ℝ)), (∀ p ∈ ps, S ⊆ away p) →
    ConjugateOn S (singularPart ps rs) (singularConj ps rs)
  | [], rs, _ => ⟨fun _ _ => 0, fun _ _ => 0, fun x y _ => ⟨by simpa [singularPart] using hasDerivAt_const x (0 : ℝ),
      by simpa [singularPart] using hasDerivAt_const y (0 : ℝ)⟩, fun x y _ => ⟨by simpa [singularConj] using hasDerivAt_const x (0 : ℝ),
      by simpa [singularConj] using hasDerivAt_const y (0 : ℝ)⟩⟩
  | p :: ps, [], _ => ⟨fun _ _ => 0, fun _ _ => 0, fun x y _ => ⟨by simpa [singularPart] using hasDerivAt_const x (0 : ℝ),
      by simpa [singularPart] using hasDerivAt_const y (0 : ℝ)⟩, fun x y _ => ⟨by simpa [singularConj] using hasDerivAt_const x (0 : ℝ),
      by simpa [singularConj] using hasDerivAt_const y (0 : ℝ)⟩⟩
  | p :: ps, r :: rs, h => by
    obtain ⟨u1, u2, hu, hv⟩ := singular_conjugate ps rs fun q hq => h q (by simp [hq])
    obtain ⟨m1, m2, k1, k2⟩ := mu_conjugate p r.1 r.2
    have hS := h p (by simp)
    refine ⟨fun x y => m1 x y + u1 x y, fun x y => m2 x y + u2 x y, fun x y hxy => ?_, fun x y hxy => ?_⟩
    · have := (k1 x y (hS hxy)).add (hu x y hxy)
      exact this
    · have := (k2 x y (hS hxy)).add (hv x y hxy)
      have e : (fun x y => (r.2 * (x - p.x) + -r.1 * (y - p.y)) / sq p x y + singularConj ps rs x y) = singularConj (p :: ps) (r :: rs) := by
        funext x y
        simp only [singularConj, List.zipWith_cons_cons, List.sum_cons, sq]
        ring
      rw [e] at this
      have e2 : -m2 x y + -u2 x y = -(m2 x y + u2 x y) := by ring
      rw [e2] at this
      exact this

theorem ConjugateOn.sub {S : Set (ℝ × ℝ)} {u v u' v' : ℝ → ℝ → ℝ} (h : ConjugateOn S u v) (k : ConjugateOn S u' v') :
    ConjugateOn S (fun x y => u x y - u' x y) fun x y => v x y - v' x y := by
  obtain ⟨p, q, h1, h2⟩ := h
  obtain ⟨p', q', k1, k2⟩ := k
  refine ⟨fun x y => p x y - p' x y, fun x y => q x y - q' x y, fun x y hS => ⟨(h1 x y hS).1.fun_sub (k1 x y hS).1,
    (h1 x y hS).2.fun_sub (k1 x y hS).2⟩, fun x y hS => ⟨((h2 x y hS).1.fun_sub (k2 x y hS).1).congr_deriv ?_,
    (h2 x y hS).2.fun_sub (k2 x y hS).2⟩⟩
  beta_reduce
  ring

theorem residueLoop_length (K : CellG) (Ft Fh : List ℝ) : ∀ (cs : List ContourG) (j : ℕ) {res : List (ℝ × ℝ)},
    residueLoop K Ft Fh j cs = .ok res → res.length = cs.length
  | [], _, res, h => by cases h; rfl
  | c :: cs, j, res, h => by
    obtain ⟨k, -, h⟩ := bind_ok h
    obtain ⟨k', -, h⟩ := bind_ok h
    obtain ⟨b, -, h⟩ := bind_ok h
    obtain ⟨d, -, h⟩ := bind_ok h
    obtain ⟨l, hl, h⟩ := bind_ok h
    cases h
    simp [residueLoop_length K Ft Fh cs (j + 1) hl]

/-- C52, a cell with holes.  `ψ`, `ψ̂` are conjugate in `S`, which contains the samples of the boundary and none of the interior points
of the holes.  The code computes residues `(b, c)` at these points; suppose that the functions left over after subtracting the singular part
have integrals `ρ`, `ρ̂` in `S`, and that the code finds their values on the boundary.  Then the result is the values and weighted
normal derivatives of a function with the Laplacian `ψ + Σ a_j log|x - ξ_j|`, where `a` are the given logarithmic coefficients. -/
theorem C52_multiply_connected {gmres : Gmres} {s : Solver} (h : s.ops.K.Ready) (hh : s.ops.K.numHoles ≠ 0) {S : Set (ℝ × ℝ)}
    (hon : ∀ q ∈ s.ops.K.cols, (q.x, q.y) ∈ S) {ps : List Vert}
    (hps : List.Forall₂ (fun (c : ContourG) p => c.interior = some p ∧ S ⊆ away p) s.ops.K.components.tail ps)
    {psi psiHat rho rhoHat : ℝ → ℝ → ℝ} (hc : ConjugateOn S psi psiHat) {res : List (ℝ × ℝ)}
    (hres : residues s.ops.K (s.ops.K.samplesOf psi) (s.ops.K.samplesOf psiHat) = .ok res)
    (hr : HasGradOn S rho (fun x y => psi x y - singularPart ps res x y) fun x y => -(psiHat x y - singularConj ps res x y))
    (hr' : HasGradOn S rhoHat (fun x y => psiHat x y - singularConj ps res x y) fun x y => psi x y - singularPart ps res x y)
    (hi : integrateGradient gmres s (s.ops.K.samplesOf fun x y => psi x y - singularPart ps res x y)
      (s.ops.K.samplesOf fun x y => -(psiHat x y - singularConj ps res x y)) = .ok (s.ops.K.samplesOf rho))
    (hi' : integrateGradient gmres s (s.ops.K.samplesOf fun x y => psiHat x y - singularConj ps res x y)
      (s.ops.K.samplesOf fun x y => psi x y - singularPart ps res x y) = .ok (s.ops.K.samplesOf rhoHat))
    {a : List ℝ} (ha : ps.length ≤ a.length) :
    ∃ P W, antilaplacian gmres s (s.ops.K.samplesOf psi) (s.ops.K.samplesOf psiHat) a = .ok (P, W) ∧
      AntilaplacianData s.ops.K S (fun x y => psi x y + logPart ps a x y) P W := by
  have hlen : ps.length = s.ops.K.components.tail.length := hps.length_eq.symm
  have hrl : res.length = ps.length := by
    rw [hlen]
    obtain ⟨Ft, -, hres⟩ := bind_ok hres
    obtain ⟨Fh, -, hres⟩ := bind_ok hres
    exact residueLoop_length _ _ _ _ _ hres
  have hcols : mapPy (rational (s.ops.K.cols.map Sample.x) (s.ops.K.cols.map Sample.y)) s.ops.K.components.tail =
      .ok (ps.map fun p => (s.ops.K.samplesOf (muF p), s.ops.K.samplesOf (muHatF p))) := by
    clear hrl hlen hi hi' hr hr' hres hh ha
    generalize s.ops.K.components.tail = cs at hps
    induction hps with
    | nil => rfl
    | cons hp _ ih =>
      obtain ⟨hp, hS⟩ := hp
      simp only [mapPy, rational_ok hp fun q hq => hS (hon q hq), ih, py_ok_bind, List.map_cons]
  have hS : ∀ p ∈ ps, S ⊆ away p := by
    intro p hp
    obtain ⟨i, hi, rfl⟩ := List.mem_iff_getElem.1 hp
    exact (List.forall₂_iff_get.1 hps).2 i (by omega) hi |>.2
  obtain ⟨P0, W0, e0, hA0⟩ := C52_components (hc.sub (singular_conjugate ps res hS)) hr hr' h
  obtain ⟨P, W, e1, hA⟩ := holeLoop_ok h hon res _ a s.ops.K.components.tail ps res a 0 _ P0 W0 hps rfl hrl rfl ha rfl hA0
  refine ⟨P, W, ?_, ?_⟩
  · have hneg : Np.neg (s.ops.K.samplesOf fun x y => psiHat x y - singularConj ps res x y) =
        s.ops.K.samplesOf fun x y => -(psiHat x y - singularConj ps res x y) := neg_map _ _
    unfold antilaplacian
    rw [if_neg hh]
    unfold multiplyConnected
    simp only [hres, h.getBoundaryPoints, hcols, reduce_ok h ps hrl, py_ok_bind, hneg, hi, hi', e0]
    exact e1
  · have : (fun x y => psi x y + logPart ps a x y) = fun x y => psi x y - singularPart ps res x y + singularPart ps res x y +
        logPart ps a x y := by
      funext x y
      ring
    rw [this]
    exact hA

end PFEM
