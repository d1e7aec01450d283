import Verif.Model.LFilter
import Verif.Model.Mat
import Mathlib.Analysis.SpecialFunctions.Log.Basic

/-!
# Model of exponential smoothing

`helpers/smoothing.py`: `_get_smoothing_factor_ema`, `_time_smoothing`;
`classes/exponential_average_filter.py`.  Exact arithmetic over the real numbers.
-/

namespace Verif.Smoothing

open Verif.LFilter (lfilterIIR)

/-- `_get_smoothing_factor_ema` (`smoothing.py`, lines 132-166) for a positive time. -/
noncomputable def emaFactor (time fs accuracy : ℝ) : ℝ :=
  1 - Real.exp (Real.log (1 - accuracy) / time / fs)

/-- The factor for a time that may be 0 (`smoothing.py`, lines 212-216 and 239-243). -/
noncomputable def factorOr (time fs : ℝ) : ℝ := if 0 < time then emaFactor time fs 0.95 else 1

/-- One step with different factors (`smoothing.py`, lines 250-255). -/
noncomputable def step (up down y x : ℝ) : ℝ :=
  let f := if x > y then up else down
  f * x + (1 - f) * y

/-- The loop over the samples of a channel (`smoothing.py`, lines 245-255). -/
noncomputable def smooth (up down : ℝ) (x : ℕ → ℝ) : ℕ → ℝ
  | 0 => x 0
  | n + 1 => step up down (smooth up down x n) (x (n + 1))

/-- The same factor in both directions (`smoothing.py`, lines 218-228): `lfilter` with
`b = [f]`, `a = [1, -(1 - f)]`; `lfilter_zi` (external) is the state `1 - f` in which a step
appears unchanged at the output. -/
noncomputable def smoothFilter (f : ℝ) (L : ℕ) (x : ℕ → ℝ) : List ℝ :=
  (lfilterIIR [f] [1, -(1 - f)] 1 [(1 - f) * x 0] ((List.range L).map x)).1

/-- The array with the longest axis first (`smoothing.py`, lines 199-205). -/
def orient (x : Mat ℝ) : Mat ℝ := if x.rows < x.cols then x.T else x

/-- Back to the shape of the input (`smoothing.py`, lines 229-233 and 257-261). -/
def back (x y : Mat ℝ) : Mat ℝ := if x.rows < x.cols then y.T else y

/-- `_time_smoothing` (`smoothing.py`, lines 169-261) for floating point arrays with two
dimensions; a vector of n samples is the array of shape (1, n). -/
noncomputable def timeSmoothing (x : Mat ℝ) (fs up : ℝ) (down : Option ℝ) :
    Except Err (Mat ℝ) :=
  let z := orient x
  if up < 0 then .error .assertionError
  else match down with
    | none =>
      if z.rows = 0 then .error .valueError
      else .ok (back x ⟨z.rows, z.cols, fun r c =>
        (smoothFilter (factorOr up fs) z.rows fun n => z.val n c).getD r 0⟩)
    | some d =>
      if d < 0 then .error .assertionError
      else if up = 0 ∧ d = up then .error .assertionError
      else if z.rows = 0 then .error .indexError
      else .ok (back x ⟨z.rows, z.cols, fun r c =>
        smooth (factorOr up fs) (factorOr d fs) (fun n => z.val n c) r⟩)

/-- `ExponentialAverageFilter` (`exponential_average_filter.py`, lines 1-61): `up` and `down`
are the two coefficients.  The comparison `x > self.state` uses the whole state array and
raises ValueError unless it has exactly one entry (none: falsy, then the index raises). -/
noncomputable def averageFilter (up down : ℝ) : RTFilter ℝ where
  State := List ℝ
  init := [0]
  setChannels := fun _ n => List.replicate n 0
  reset := fun s => List.replicate s.length 0
  process := fun s x ch =>
    if 2 ≤ s.length then (.error .valueError, s)
    else if s.length ≤ ch then (.error .indexError, s)
    else
      let y := if x > s.getD 0 0 then x * up + (1 - up) * s.getD ch 0
        else x * down + (1 - down) * s.getD ch 0
      (.ok y, s.set ch y)

end Verif.Smoothing
