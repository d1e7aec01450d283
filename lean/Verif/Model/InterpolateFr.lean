import Verif.Model.OctaveSmoothing
import Verif.Model.CrestFactor

/-!
# Model of the interpolation of a frequency response

`helpers/spectrum_utilities.py: _interpolate_fr` (lines 331-453), exported as
`tools.interpolate_fr`.

Exact real arithmetic, one channel, `interpolation_scheme="linear"`, floating point input.  Texts are
lists of characters; `str.lower` acts on ASCII letters.
-/

namespace Verif.InterpolateFr

open Verif.Level

/-- `to_db(x, amplitude)` with the default limit (`helpers/gain_and_level.py`, lines 158-200). -/
noncomputable def levelDb (x : ℝ) (amplitude : Bool) : ℝ :=
  dbFactor amplitude * Real.logb 10 (max |x| tiny)

/-- `"amplitude" in mode` -/
def isAmplitude (m : List Char) : Bool := decide (['a','m','p','l','i','t','u','d','e'] <:+: m)

/-- `"power2amplitude"` -/
def power2amplitude : List Char :=
  ['p','o','w','e','r','2','a','m','p','l','i','t','u','d','e']

/-- `"amplitude2power"` -/
def amplitude2power : List Char :=
  ['a','m','p','l','i','t','u','d','e','2','p','o','w','e','r']

/-- The conversion before the interpolation (`spectrum_utilities.py`, lines 413-429), with the values
for frequencies below and above the range.  The mode has been converted to small letters.  The square
root of a negative power is nan in the code; that case is not modelled.  `y[0]` of no values raises
IndexError. -/
noncomputable def convert (mode : Option (List Char)) (y : List ℝ) :
    Except Err (List ℝ × ℝ × ℝ) :=
  match mode with
  | none => .ok (y, 0, 0)
  | some m =>
    if m = power2amplitude then
      if ∀ v ∈ y, 0 ≤ v then .ok (y.map Real.sqrt, 0, 0) else .error .notImplemented
    else if m = amplitude2power then .ok (y.map fun v => v ^ 2, 0, 0)
    else if m.take 3 = ['d','b','2'] then .ok (y.map fun v => fromDb v (isAmplitude m), 0, 0)
    else if m.drop (m.length - 3) = ['2','d','b'] then
      if y = [] then .error .indexError
      else
        let z := y.map fun v => levelDb v (isAmplitude m)
        .ok (z, z.getD 0 0, z.getD (z.length - 1) 0)
    else .error .valueError

/-- `interp1d(f, y, kind="linear", bounds_error=False, fill_value=(below, above))(q)` of scipy for
increasing `f` with at least two entries (lines 431-440). -/
noncomputable def interp1d (f y : List ℝ) (below above : ℝ) (q : ℝ) : ℝ :=
  if q < f.getD 0 0 then below
  else if f.getD (f.length - 1) 0 < q then above
  else OctaveSmoothing.interpLinear f y q

/-- The conversion after the interpolation (lines 442-451). -/
noncomputable def back (mode : Option (List Char)) (v : ℝ) : ℝ :=
  match mode with
  | none => v
  | some m =>
    if m = power2amplitude then v ^ 2
    else if m = amplitude2power then Real.sqrt v
    else if m.take 3 = ['d','b','2'] then levelDb v (isAmplitude m)
    else if m.drop (m.length - 3) = ['2','d','b'] then fromDb v (isAmplitude m)
    else v

/-- `_interpolate_fr` (lines 331-453).  Vectors of different lengths raise ValueError in `interp1d`;
fewer than two points are not modelled. -/
noncomputable def interpolateFr (f y target : List ℝ) (mode : Option (List Char)) :
    Except Err (List ℝ) :=
  let mode := mode.map fun m => m.map Char.toLower
  match convert mode y with
  | .error e => .error e
  | .ok (z, below, above) =>
    if f.length ≠ z.length then .error .valueError
    else if f.length < 2 then .error .notImplemented
    else .ok (target.map fun q => back mode (interp1d f z below above q))

end Verif.InterpolateFr
