import Verif.Spec.Zpk
import Verif.Spec.Realtime

/-!
# Model of the resampling of filters

`standard/resampling.py: resample_filter` (lines 46-83), `scipy.signal.bilinear_zpk`.

Exact arithmetic; the zpk representation is the one `get_coefficients` returns.
-/

namespace Verif.ResampleFilter

/-- `f * (z - 1) / (z + 1)` (lines 71, 73). -/
noncomputable def toAnalog (f w : ℂ) : ℂ := f * (w - 1) / (w + 1)

/-- `(fs2 + z) / (fs2 - z)` of `scipy.signal.bilinear_zpk`. -/
noncomputable def toDigital (f s : ℂ) : ℂ := (f + s) / (f - s)

/-- `scipy.signal.bilinear_zpk`.  `none` stands for values that are not finite.  More
zeros than poles raise ValueError. -/
noncomputable def bilinearZpk (z p : List ℂ) (k : ℝ) (fs : ℕ) : Except Err (Option Zpk) :=
  let f : ℂ := 2 * fs
  if p.length < z.length then .error .valueError
  else if f ∈ z ∨ f ∈ p then .ok none
  else (.ok (some ⟨z.map (toDigital f) ++ List.replicate (p.length - z.length) (-1),
    p.map (toDigital f),
    k * ((z.map fun w => f - w).prod / (p.map fun w => f - w).prod).re⟩))

/-- The zeros in the s-plane (lines 68, 72-73, 77-78). -/
noncomputable def analogZeros (F : Zpk) (f : ℂ) : List ℂ :=
  let z := (F.z.filter fun w => decide (w ≠ -1)).map (toAnalog f)
  if F.p.length - F.z.length ≠ 0 then z ++ List.replicate (F.p.length - z.length) (-f) else z

/-- The poles in the s-plane (lines 67, 71-73, 75-76).  The number of added poles is computed
after the zeros at -1 have been removed. -/
noncomputable def analogPoles (F : Zpk) (f : ℂ) : List ℂ :=
  let z := (F.z.filter fun w => decide (w ≠ -1)).map (toAnalog f)
  let p := F.p.map (toAnalog f)
  if F.z.length - F.p.length ≠ 0 then p ++ List.replicate (z.length - p.length) (-f) else p

/-- `resample_filter` (lines 66-83).  `none` stands for values that are not finite. -/
noncomputable def resampleFilter (F : Zpk) (fs fs' : ℕ) : Except Err (Option Zpk) :=
  let f : ℂ := 2 * fs
  if (-1 : ℂ) ∈ F.p then .ok none
  else
    let z := analogZeros F f
    let p := analogPoles F f
    bilinearZpk z p (F.k / ((z.map fun w => f - w).prod / (p.map fun w => f - w).prod).re) fs'

end Verif.ResampleFilter
