import Verif.Model.FilterCoeffs
import Verif.Model.GroupDelay

/-!
# Model of the group delay of a filter object

`classes/filter.py: Filter.get_group_delay, Filter.get_coefficients` (the `ba` representation).  Exact
arithmetic; `scipy.signal.sos2tf`, `np.polymul` and `scipy.signal.group_delay` are external and modelled as
documented.
-/

namespace Verif.GroupDelay

open Complex

/-- `np.poly1d(l).coeffs`: leading zeros are dropped, an empty result is replaced by one zero. -/
noncomputable def trimFront (l : List ℝ) : List ℝ :=
  open Classical in
  if l.dropWhile (· = 0) = [] then [0] else l.dropWhile (· = 0)

/-- `np.polymul` -/
noncomputable def polymul (x y : List ℝ) : List ℝ := convolve (trimFront x) (trimFront y)

/-- `scipy.signal.sos2tf` -/
noncomputable def sos2tf (ss : List (List ℝ)) : List ℝ × List ℝ :=
  ss.foldl (fun ba r => (polymul ba.1 (r.take 3), polymul ba.2 (r.drop 3))) ([1], [1])

/-- `get_coefficients(FilterCoefficientsType.Ba)` (`filter.py`, lines 952-955); reading `ba` without the
attribute raises AttributeError. -/
noncomputable def getBa {Z : Type} (s : FilterCoeffs.Stored ℝ Z) : Except Err (List ℝ × List ℝ) :=
  match s.sos, s.ba with
  | some sos, _ => .ok (sos2tf sos)
  | none, some ba => .ok ba
  | none, none => .error .attributeError

/-- One value of `scipy.signal.group_delay((b, a), w)` at `w` radians per sample, in samples; where it is not
finite it is 0. -/
noncomputable def scipyDelay (b a : List ℝ) (w : ℝ) : ℝ :=
  let c := convolve b a.reverse
  let cr := c.zipIdx.map fun p => p.1 * (p.2 : ℝ)
  let num := polyval cr.reverse (exp (-(I * w)))
  let den := polyval c.reverse (exp (-(I * w)))
  open Classical in
  if den = 0 then 0 else (num / den).re - a.length + 1

/-- `get_group_delay(frequency_vector_hz, in_seconds)` (`filter.py`, lines 901-925). -/
noncomputable def getGroupDelay {Z : Type} (s : FilterCoeffs.Stored ℝ Z) (fs : ℕ) (f : List ℝ) (inSeconds : Bool) :
    Except Err (List ℝ) :=
  match getBa s with
  | .error e => .error e
  | .ok (b, a) =>
    let gd := f.map fun x => scipyDelay b a (2 * Real.pi * x / fs)
    .ok (if inSeconds then gd.map (· / (fs : ℝ)) else gd)

end Verif.GroupDelay
