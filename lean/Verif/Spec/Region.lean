import Mathlib.MeasureTheory.Measure.Lebesgue.Basic
import Verif.Spec.Contour

/-!
Specification of the regions that contours bound, and of integrals over them.  A contour is star-shaped about a point if every ray
from the point meets it once.
-/

namespace PFEM

/-- the point at the fraction `r` of the way from `a` to the point `C s` of the curve -/
def PCurve.ray (C : PCurve) (a : ℝ × ℝ) (r s : ℝ) : ℝ × ℝ := (a.1 + r * (C.x s - a.1), a.2 + r * (C.y s - a.2))

/-- the twofold rate at which the segment from `a` to the point of the curve sweeps over area, counter-clockwise counted positive -/
def PCurve.sweep (C : PCurve) (a : ℝ × ℝ) (s : ℝ) : ℝ := (C.x s - a.1) * C.dy s - (C.y s - a.2) * C.dx s

/-- The curves form a closed contour about `a`, counter-clockwise if `σ = 1` and clockwise if `σ = -1`: every ray from `a` meets them
once, and crosses them there. -/
structure StarAbout (a : ℝ × ℝ) (σ : ℝ) (Cs : List PCurve) : Prop where
  chained : Chained Cs
  turns : ∀ C ∈ Cs, ∀ s ∈ Set.Icc 0 (2 * Real.pi), 0 < σ * C.sweep a s
  once : ∀ C ∈ Cs, ∀ s ∈ Set.Ico 0 (2 * Real.pi), ∀ t ∈ Set.Ico 0 (2 * Real.pi), ∀ l, 0 < l → (C.x s, C.y s) = C.ray a l t → s = t
  apart : Cs.Pairwise fun C C' => ∀ s ∈ Set.Ico 0 (2 * Real.pi), ∀ t ∈ Set.Ico 0 (2 * Real.pi), ∀ l, 0 < l → (C.x s, C.y s) ≠ C'.ray a l t

/-- what the segments from `a` to the points of the curves cover -/
def starRegion (a : ℝ × ℝ) (Cs : List PCurve) : Set (ℝ × ℝ) :=
  {q | ∃ C ∈ Cs, ∃ r ∈ Set.Icc (0 : ℝ) 1, ∃ s ∈ Set.Icc 0 (2 * Real.pi), q = C.ray a r s}

/-- the part of the curve between the parameters `u` and `v`, run through in the whole parameter interval -/
noncomputable def PCurve.piece (C : PCurve) (u v : ℝ) : PCurve := C.retime u ((v - u) / (2 * Real.pi))

/-- The curves enclose the region: they run along its boundary with the region on the left, counter-clockwise outside and clockwise
round holes.  A region inside a star-shaped contour is enclosed by it; a region cut out of another adds its boundary reversed; two
regions without common area can be glued along curves that the one has and the other has reversed; curves may be listed in any
order, be cut in two, and be joined again. -/
inductive Encloses : List PCurve → Set (ℝ × ℝ) → Prop
  | star {a : ℝ × ℝ} {Cs : List PCurve} : (∀ C ∈ Cs, C.Smooth) → StarAbout a 1 Cs → Encloses Cs (starRegion a Cs)
  | cut {A B : List PCurve} {S T : Set (ℝ × ℝ)} : Encloses A S → Encloses B T → T ⊆ S →
      Encloses (A ++ B.map PCurve.reverse) (S \ T)
  | glue {A B D : List PCurve} {S T : Set (ℝ × ℝ)} : Encloses (A ++ D) S → Encloses (B ++ D.map PCurve.reverse) T →
      MeasureTheory.volume (S ∩ T) = 0 → Encloses (A ++ B) (S ∪ T)
  | perm {A B : List PCurve} {S : Set (ℝ × ℝ)} : Encloses A S → A.Perm B → Encloses B S
  | split {A : List PCurve} {C : PCurve} {S : Set (ℝ × ℝ)} {c : ℝ} : Encloses (C :: A) S → 0 < c → c < 2 * Real.pi →
      Encloses (C.piece 0 c :: C.piece c (2 * Real.pi) :: A) S
  | join {A : List PCurve} {C : PCurve} {S : Set (ℝ × ℝ)} {c : ℝ} : C.Smooth →
      Encloses (C.piece 0 c :: C.piece c (2 * Real.pi) :: A) S → 0 < c → c < 2 * Real.pi → Encloses (C :: A) S

/-- in `S` the field `(f, g)` has the divergence `D` -/
def HasDivergence (S : Set (ℝ × ℝ)) (f g D : ℝ → ℝ → ℝ) : Prop :=
  ∀ x y, (x, y) ∈ S → ∃ d1 d2, HasDerivAt (fun s => f s y) d1 x ∧ HasDerivAt (fun t => g x t) d2 y ∧ d1 + d2 = D x y

end PFEM
