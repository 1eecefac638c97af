import Verif.Spec.Bounded
import Verif.Props.FftStable
import Verif.Props.EllipseError

/-!
Property theorem C52, stability: on a cell without holes the anti-Laplacian depends on the data in a stable way.
-/

namespace PFEM
open Nystrom Antilap

theorem list_vec {u : List ℝ} {N : ℕ} (h : u.length = N) : u = (List.range N).map (vec u) := by
  refine List.ext_getElem (by simp [h]) fun i h1 h2 => ?_
  simp [vec, h1]

theorem within_range {ε : ℝ} {N : ℕ} {f g : ℕ → ℝ} : Within ε ((List.range N).map f) ((List.range N).map g) ↔ ∀ j < N, |f j - g j| ≤ ε := by
  unfold Within
  rw [List.forall₂_map_left_iff, List.forall₂_map_right_iff, List.forall₂_same]
  simp

theorem np_range {α : Type} (op : ℝ → ℝ → ℝ) (l : List α) (f g : α → ℝ) : Np.bin op (l.map f) (l.map g) = .ok (l.map fun i => op (f i) (g i)) := by
  rw [bin_eq _ (by simp)]
  simp [List.zipWith_map_left, List.zipWith_map_right, List.zipWith_self]

section
variable {K : CellG} (h : K.Ready) {N : ℕ} {S : ℕ → Sample} (hS : K.cols = (List.range N).map S)
include h hS

theorem tangent_range (f g : ℕ → ℝ) : weightedTangent K ((List.range N).map f) ((List.range N).map g) =
    .ok ((List.range N).map fun j => (f j * (S j).tx + g j * (S j).ty) * (S j).dxNorm) := by
  simp only [weightedTangent, h.dotWithTangent (c1 := (List.range N).map f) (c2 := (List.range N).map g) (by simp [hS]) (by simp [hS]), py_ok_bind]
  rw [h.multiplyByDxNorm (by simp [hS]), hS]
  simp [List.zip_map', List.zipWith_map_left, List.zipWith_map_right, List.zipWith_self]

theorem normal_range (f g : ℕ → ℝ) : Antilap.weightedNormal K ((List.range N).map f) ((List.range N).map g) =
    .ok ((List.range N).map fun j => (f j * (S j).nx + g j * (S j).ny) * (S j).dxNorm) := by
  simp only [Antilap.weightedNormal, h.dotWithNormal (c1 := (List.range N).map f) (c2 := (List.range N).map g) (by simp [hS]) (by simp [hS]), py_ok_bind]
  rw [h.multiplyByDxNorm (by simp [hS]), hS]
  simp [List.zip_map', List.zipWith_map_left, List.zipWith_map_right, List.zipWith_self]

theorem components_range (r r' f g : ℕ → ℝ) :
    fromComponents K ((List.range N).map r) ((List.range N).map r') ((List.range N).map f) ((List.range N).map g) =
      .ok ((List.range N).map fun j => 0.25 * ((S j).x * r j + (S j).y * r' j),
        (List.range N).map fun j => (0.25 * (r j + (S j).x * f j + (S j).y * g j) * (S j).nx +
          0.25 * (r' j + (S j).y * f j - (S j).x * g j) * (S j).ny) * (S j).dxNorm) := by
  unfold fromComponents
  rw [h.getBoundaryPoints, hS]
  simp only [py_ok_bind, List.map_map, Np.mul, Np.add, Np.sub, Np.smul, np_range, normal_range h hS, Function.comp_def]

end

/-- what the anti-Laplacian of a cell without holes is made of -/
theorem antilap_range {gmres : Gmres} {s : Solver} (h : s.ops.K.Ready) (h0 : s.ops.K.numHoles = 0) {N : ℕ} {S : ℕ → Sample}
    (hS : s.ops.K.cols = (List.range N).map S) {f g : ℕ → ℝ} {a P W : List ℝ}
    (hP : antilaplacian gmres s ((List.range N).map f) ((List.range N).map g) a = .ok (P, W)) :
    ∃ r r' : ℕ → ℝ,
      fftAntiderivative ((List.range N).map fun j => (f j * (S j).tx + -g j * (S j).ty) * (S j).dxNorm) (2 * Real.pi * s.ops.K.getEdges.length) =
        .ok ((List.range N).map r) ∧
      fftAntiderivative ((List.range N).map fun j => (g j * (S j).tx + f j * (S j).ty) * (S j).dxNorm) (2 * Real.pi * s.ops.K.getEdges.length) =
        .ok ((List.range N).map r') ∧
      P = ((List.range N).map fun j => 0.25 * ((S j).x * r j + (S j).y * r' j)) ∧
      W = (List.range N).map fun j => (0.25 * (r j + (S j).x * f j + (S j).y * g j) * (S j).nx +
          0.25 * (r' j + (S j).y * f j - (S j).x * g j) * (S j).ny) * (S j).dxNorm := by
  unfold antilaplacian at hP
  rw [if_pos h0] at hP
  unfold simplyConnected at hP
  have en : Np.neg ((List.range N).map g) = (List.range N).map fun j => -g j := by simp [Np.neg, Function.comp_def]
  rw [en] at hP
  simp only [tangent_range h hS, py_ok_bind] at hP
  obtain ⟨r, hr, hP⟩ := bind_ok hP
  obtain ⟨r', hr', hP⟩ := bind_ok hP
  have hl : ∀ {u v : List ℝ} {len : ℝ}, u.length = N → fftAntiderivative u len = .ok v → v.length = N := by
    intro u v len hu hv
    rcases eq_or_ne N 0 with rfl | hN
    · rw [List.length_eq_zero_iff.1 hu] at hv
      simp [fftAntiderivative, Np.fft, bind, Except.bind] at hv
    · have : NeZero N := ⟨hN⟩
      rw [Fft.antiderivative_eq hu] at hv
      cases hv
      exact Fft.ofVec_length _
  have l1 := list_vec (hl (by simp) hr)
  have l2 := list_vec (hl (by simp) hr')
  refine ⟨vec r, vec r', by rw [← l1]; exact hr, by rw [← l2]; exact hr', ?_⟩
  rw [l1, l2, components_range h hS] at hP
  cases hP
  exact ⟨rfl, rfl⟩

theorem abs_mul_le' {x y A B : ℝ} (h1 : |x| ≤ A) (h2 : |y| ≤ B) : |x * y| ≤ A * B := by
  rw [abs_mul]
  exact mul_le_mul h1 h2 (abs_nonneg _) ((abs_nonneg _).trans h1)

/-- C52, stability: on a cell without holes, with coordinates of at most `X` and speeds of at most `D`, data that differ by at most `ε` in every
entry lead to anti-Laplacians that differ by at most `2 E X D ε` in their values and `D (2 E D + X) ε` in their weighted normal derivatives, where
`E` is the number of edges.  These constants do not depend on the number of samples. -/
theorem C52_stable {gmres : Gmres} {s : Solver} (h : s.ops.K.Ready) (h0 : s.ops.K.numHoles = 0) {X D : ℝ} (hb : s.ops.K.BoundedBy X D)
    {u v u' v' a a' P W P' W' : List ℝ} {ε : ℝ} (hu : Within ε u u') (hv : Within ε v v') (hul : u.length = s.ops.K.numPts)
    (hvl : v.length = s.ops.K.numPts) (hP : antilaplacian gmres s u v a = .ok (P, W)) (hP' : antilaplacian gmres s u' v' a' = .ok (P', W')) :
    Within (2 * s.ops.K.getEdges.length * X * D * ε) P P' ∧ Within (D * (2 * s.ops.K.getEdges.length * D + X) * ε) W W' := by
  have hul' : u'.length = s.ops.K.numPts := by rw [← hul]; exact (List.Forall₂.length_eq hu).symm
  have hvl' : v'.length = s.ops.K.numPts := by rw [← hvl]; exact (List.Forall₂.length_eq hv).symm
  set K := s.ops.K with hK
  set N := K.numPts with hN
  set E : ℝ := (K.getEdges.length : ℝ) with hE
  have hE0 : 0 ≤ E := by positivity
  have hpi := Real.pi_pos
  obtain ⟨S, hS⟩ : ∃ S : ℕ → Sample, K.cols = (List.range N).map S := by
    refine ⟨fun j => K.cols.getD j ⟨0, 0, 0, 0, 0, 0, 0, 0⟩, List.ext_getElem (by simp [hN, h.numPts]) fun i h1 h2 => ?_⟩
    simp [h1]
  have hm : ∀ j < N, S j ∈ K.cols := fun j hj => by rw [hS]; exact List.mem_map.2 ⟨j, by simpa using hj, rfl⟩
  rw [list_vec hul, list_vec hul', within_range] at hu
  rw [list_vec hvl, list_vec hvl', within_range] at hv
  rw [list_vec hul, list_vec hvl] at hP
  rw [list_vec hul', list_vec hvl'] at hP'
  obtain ⟨r1, r2, e1, e2, rfl, rfl⟩ := antilap_range h h0 hS hP
  obtain ⟨q1, q2, f1, f2, rfl, rfl⟩ := antilap_range h h0 hS hP'
  have hlen : |2 * Real.pi * E| / Real.pi = 2 * E := by
    rw [abs_of_nonneg (by positivity)]
    field_simp
  have tw : ∀ {x y z t A : ℝ}, |x| ≤ ε → |y| ≤ ε → |z| ≤ 1 → |t| ≤ 1 → |A| ≤ D → |(x * z + y * t) * A| ≤ 2 * D * ε := by
    intro x y z t A k1 k2 k3 k4 k5
    have e3 : |x * z + y * t| ≤ ε * 1 + ε * 1 := (abs_add_le _ _).trans (add_le_add (abs_mul_le' k1 k3) (abs_mul_le' k2 k4))
    exact (abs_mul_le' e3 k5).trans (le_of_eq (by ring))
  have w1 := C49_stable (ε := 2 * D * ε) (within_range.2 fun j hj => by
    have := tw (hu j hj) (show |vec v' j - vec v j| ≤ ε by rw [abs_sub_comm]; exact hv j hj) (hb.tx _ (hm j hj)) (hb.ty _ (hm j hj)) (hb.dx _ (hm j hj))
    rw [show (vec u j * (S j).tx + -vec v j * (S j).ty) * (S j).dxNorm - (vec u' j * (S j).tx + -vec v' j * (S j).ty) * (S j).dxNorm =
      ((vec u j - vec u' j) * (S j).tx + (vec v' j - vec v j) * (S j).ty) * (S j).dxNorm by ring]
    exact this) e1 f1
  have w2 := C49_stable (ε := 2 * D * ε) (within_range.2 fun j hj => by
    have := tw (hv j hj) (hu j hj) (hb.tx _ (hm j hj)) (hb.ty _ (hm j hj)) (hb.dx _ (hm j hj))
    rw [show (vec v j * (S j).tx + vec u j * (S j).ty) * (S j).dxNorm - (vec v' j * (S j).tx + vec u' j * (S j).ty) * (S j).dxNorm =
      ((vec v j - vec v' j) * (S j).tx + (vec u j - vec u' j) * (S j).ty) * (S j).dxNorm by ring]
    exact this) e2 f2
  rw [hlen, within_range] at w1 w2
  rw [within_range, within_range]
  constructor
  · intro j hj
    rw [show 0.25 * ((S j).x * r1 j + (S j).y * r2 j) - 0.25 * ((S j).x * q1 j + (S j).y * q2 j) =
      1 / 4 * ((S j).x * (r1 j - q1 j) + (S j).y * (r2 j - q2 j)) by norm_num; ring, abs_mul, abs_of_nonneg (by norm_num : (0 : ℝ) ≤ 1 / 4)]
    have := (abs_add_le _ _).trans (add_le_add (abs_mul_le' (hb.x _ (hm j hj)) (w1 j hj)) (abs_mul_le' (hb.y _ (hm j hj)) (w2 j hj)))
    linarith
  · intro j hj
    have p1 : |0.25 * (r1 j + (S j).x * vec u j + (S j).y * vec v j) - 0.25 * (q1 j + (S j).x * vec u' j + (S j).y * vec v' j)| ≤
        1 / 4 * (2 * E * (2 * D * ε) + X * ε + X * ε) := by
      rw [show 0.25 * (r1 j + (S j).x * vec u j + (S j).y * vec v j) - 0.25 * (q1 j + (S j).x * vec u' j + (S j).y * vec v' j) =
        1 / 4 * ((r1 j - q1 j) + (S j).x * (vec u j - vec u' j) + (S j).y * (vec v j - vec v' j)) by norm_num; ring, abs_mul,
        abs_of_nonneg (by norm_num : (0 : ℝ) ≤ 1 / 4)]
      refine mul_le_mul_of_nonneg_left ?_ (by norm_num)
      refine (abs_add_le _ _).trans (add_le_add ((abs_add_le _ _).trans (add_le_add (w1 j hj) ?_)) ?_)
      · exact abs_mul_le' (hb.x _ (hm j hj)) (hu j hj)
      · exact abs_mul_le' (hb.y _ (hm j hj)) (hv j hj)
    have p2 : |0.25 * (r2 j + (S j).y * vec u j - (S j).x * vec v j) - 0.25 * (q2 j + (S j).y * vec u' j - (S j).x * vec v' j)| ≤
        1 / 4 * (2 * E * (2 * D * ε) + X * ε + X * ε) := by
      rw [show 0.25 * (r2 j + (S j).y * vec u j - (S j).x * vec v j) - 0.25 * (q2 j + (S j).y * vec u' j - (S j).x * vec v' j) =
        1 / 4 * ((r2 j - q2 j) + (S j).y * (vec u j - vec u' j) - (S j).x * (vec v j - vec v' j)) by norm_num; ring, abs_mul,
        abs_of_nonneg (by norm_num : (0 : ℝ) ≤ 1 / 4)]
      refine mul_le_mul_of_nonneg_left ?_ (by norm_num)
      refine (abs_sub _ _).trans (add_le_add ((abs_add_le _ _).trans (add_le_add (w2 j hj) ?_)) ?_)
      · exact abs_mul_le' (hb.y _ (hm j hj)) (hu j hj)
      · exact abs_mul_le' (hb.x _ (hm j hj)) (hv j hj)
    have p3 := (abs_add_le _ _).trans (add_le_add (abs_mul_le' p1 (hb.nx _ (hm j hj))) (abs_mul_le' p2 (hb.ny _ (hm j hj))))
    have p4 := abs_mul_le' p3 (hb.dx _ (hm j hj))
    rw [← sub_mul, add_sub_add_comm, ← sub_mul, ← sub_mul]
    exact p4.trans (le_of_eq (by ring))

end PFEM
