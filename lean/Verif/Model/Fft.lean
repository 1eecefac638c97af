import Verif.Model.CellGeom
import Mathlib.Analysis.SpecialFunctions.Complex.Circle

/-!
Model of `/repo/puncturedfem/locfun/fft_deriv.py`.  The transforms of `numpy.fft` are their defining sums.
-/

namespace PFEM
namespace Np

/-- `np.fft.fft` of a one-dimensional array; an empty array raises `ValueError` -/
noncomputable def fft (l : List ℂ) : Py (List ℂ) :=
  if l.length = 0 then .error .valueError
  else .ok ((List.range l.length).map fun k => ∑ n ∈ Finset.range l.length,
    l.getD n 0 * Complex.exp (-(2 * Real.pi * Complex.I * (k * n : ℕ) / l.length)))

/-- `np.fft.ifft` -/
noncomputable def ifft (l : List ℂ) : Py (List ℂ) :=
  if l.length = 0 then .error .valueError
  else .ok ((List.range l.length).map fun k => (l.length : ℂ)⁻¹ * ∑ n ∈ Finset.range l.length,
    l.getD n 0 * Complex.exp (2 * Real.pi * Complex.I * (k * n : ℕ) / l.length))

/-- `np.fft.fftfreq(n)` for `n > 0`: `0, 1, …, (n-1)//2, -(n//2), …, -1`, divided by `n` -/
noncomputable def fftfreq (n : ℕ) : List ℝ :=
  ((List.range ((n - 1) / 2 + 1)).map (fun k : ℕ => (k : ℝ)) ++
    (List.range (n / 2)).map fun k : ℕ => -((n / 2 : ℕ) : ℝ) + (k : ℝ)).map fun q => q * (1 / n)

end Np

/-- `fft_derivative` (fft_deriv.py L25-51) -/
noncomputable def fftDerivative (f : List ℝ) (len : ℝ) : Py (List ℝ) := do
  let N := f.length
  let omega ← Np.fft (f.map fun x : ℝ => (x : ℂ))
  let omega ← Np.bin (· * ·) omega ((Np.fftfreq N).map fun q : ℝ => Complex.I * N * (q : ℂ))
  if len = 0 then .error .zeroDivision
  else do
    let omega := omega.map fun z => z * ((2 * Real.pi / len : ℝ) : ℂ)
    let r ← Np.ifft omega
    .ok (r.map Complex.re)

/-- `fft_antiderivative` (fft_deriv.py L54-82) -/
noncomputable def fftAntiderivative (df : List ℝ) (len : ℝ) : Py (List ℝ) := do
  let N := df.length
  let omega ← Np.fft (df.map fun x : ℝ => (x : ℂ))
  let idx := (Np.fftfreq N).set 0 1
  let omega ← Np.bin (· * ·) omega (idx.map fun q : ℝ => -Complex.I / (N * (q : ℂ)))
  let omega := omega.map fun z => z * ((0.5 * len / Real.pi : ℝ) : ℂ)
  let omega := omega.set 0 0
  let r ← Np.ifft omega
  .ok (r.map Complex.re)

/-- `get_weighted_tangential_derivative_from_trace` (fft_deriv.py L85-122) -/
noncomputable def wtdFromTrace (K : CellG) (f : List ℝ) : Py (List ℝ) :=
  Np.blockLoop (fun c j j' => fftDerivative (Np.slice f j j') (2 * Real.pi * c.edges.length)) K.startIdx 0
    (List.replicate K.numPts 0) K.components

/-- `fft_antiderivative_on_each_component` (fft_deriv.py L125-149) -/
noncomputable def antiderivativeOnComponents (K : CellG) (f : List ℝ) : Py (List ℝ) :=
  Np.blockLoop (fun c j j' => fftAntiderivative (Np.slice f j j') (2 * Real.pi * c.edges.length)) K.startIdx 0
    (List.replicate K.numPts 0) K.components

end PFEM
