import Verif.Spec.Realtime
import Mathlib.Analysis.Complex.Basic
import Mathlib.Analysis.SpecialFunctions.Trigonometric.Basic

/-!
# Models of the weighting and pinking filters

`filterbanks/filterbanks.py: weighting_filter` (lines 416-450), `pinking_filter` (lines 496-532),
real numbers instead of floating point numbers.  All zeros and poles of these filters are real.
-/

namespace Verif.AudioFilters

/-- Zeros, poles and gain. -/
structure Zpk where
  z : List ℝ
  p : List ℝ
  k : ℝ

/-- `freqz_zpk` at `exp(i w)`: gain times the product of `exp(i w) - z` over that of
`exp(i w) - p`. -/
noncomputable def freqz (f : Zpk) (w : ℝ) : ℂ :=
  f.k * (f.z.map fun z : ℝ => Complex.exp (w * Complex.I) - z).prod /
    (f.p.map fun p : ℝ => Complex.exp (w * Complex.I) - p).prod

/-- `scipy.signal.bilinear_zpk(z, p, k, fs)`, real zeros and poles. -/
noncomputable def bilinear (f : Zpk) (fs : ℝ) : Zpk :=
  let fs2 := 2 * fs
  { z := f.z.map (fun z => (fs2 + z) / (fs2 - z)) ++ List.replicate (f.p.length - f.z.length) (-1)
    p := f.p.map (fun p => (fs2 + p) / (fs2 - p))
    k := f.k * ((f.z.map fun z => fs2 - z).prod / (f.p.map fun p => fs2 - p).prod) }

/-- The analog prototypes (lines 439-446). -/
noncomputable def prototype (aWeighting : Bool) : Zpk :=
  if aWeighting then
    { z := [0, 0, 0, 0], k := 7.39705e9, p := [-129.4, -129.4, -676.7, -4636, -76655, -76655] }
  else { z := [0, 0], k := 5.91797e9, p := [-129.4, -129.4, -76655, -76655] }

/-- `weighting_filter` (lines 439-450); without sampling rate the arithmetic of `bilinear_zpk`
fails. -/
noncomputable def weighting (aWeighting : Bool) (fs : Option ℝ) : Except Err Zpk :=
  match fs with
  | none => .error .typeError
  | some fs => .ok (bilinear (prototype aWeighting) fs)

/-- Zeros and poles of the pinking filter (lines 525-527). -/
noncomputable def pinkPrototype : Zpk :=
  { z := [0.698258, 0.937174, 0.985792, 0.996652]
    p := [0.378332, 0.862595, 0.970548, 0.993022, 0.998655]
    k := 1 }

open Classical in
/-- `pinking_filter` (lines 522-532) -/
noncomputable def pinking (f0 fs : ℝ) : Except Err Zpk :=
  if ¬ f0 < fs / 2 then .error .assertionError
  else
    let h := freqz pinkPrototype (2 * Real.pi * f0 / fs)
    .ok { pinkPrototype with k := pinkPrototype.k / ‖h‖ }

end Verif.AudioFilters
