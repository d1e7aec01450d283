import Mathlib.Analysis.SpecialFunctions.Log.Basic
import Mathlib.Analysis.SpecialFunctions.Pow.Real
import Mathlib.Analysis.Complex.Basic
import Verif.Spec.Realtime

/-!
# Model of the recursive approximation of a gaussian window

`filterbanks/filterbanks.py: gaussian_kernel` (lines 636-699), real numbers instead of floating
point numbers.
-/

namespace Verif.GaussianKernel

/-- `sigma` (lines 683-684): the length in samples over the root of `2 log(1 / boundary)`. -/
noncomputable def sigma (seconds boundary : ℝ) (fs : ℕ) : ℝ :=
  seconds * fs / Real.sqrt (2 * Real.log (1 / boundary))

/-- `lambdaa` (line 687) -/
noncomputable def lambda (sigma : ℝ) (K : ℕ) : ℝ := sigma ^ 2 / (2 * K)

/-- `mu` (line 690) -/
noncomputable def mu (l : ℝ) : ℝ := (1 + 2 * l - Real.sqrt (1 + 4 * l)) / (2 * l)

/-- `gaussian_kernel` (lines 677-699): the sections of the filter. `tf2sos([g], [1, -mu])` is the
section `[g, 0, 0, 1, -mu, 0]`; the sampling rate is always given here.  An order of zero and
kernels without extent lead to `nan` in the code and are left out of the theorems. -/
noncomputable def sections (seconds boundary : ℝ) (order : ℕ) (fs : ℕ) :
    Except Err (List (List ℝ)) :=
  if order % 2 ≠ 0 then .error .assertionError
  else
    let K := order / 2
    let l := lambda (sigma seconds boundary fs) K
    .ok (List.replicate K [Real.sqrt (mu l / l), 0, 0, 1, -mu l, 0])

end Verif.GaussianKernel
