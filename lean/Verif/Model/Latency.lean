import Verif.Model.Helpers

/-!
# Model of the latency estimation by correlation

`standard/_standard_backend.py: _latency`, `standard/latency_delay.py: latency` with
`polynomial_points = 0`.  The correlation coefficients that `latency` also returns, and the
fractional latency, are not modelled.  Exact arithmetic.
-/

namespace Verif.Latency

variable {K : Type} [Field K] [LinearOrder K]

/-- Entry `k` of `scipy.signal.correlate(x, y, mode="full")` (external, by its documentation):
`z[k] = Σ_l x[l] y[l - k + len(y) - 1]`. -/
def correlateAt (x y : List K) (k : ℕ) : K :=
  ∑ l ∈ Finset.range x.length,
    if k ≤ l + (y.length - 1) then x.getD l 0 * y.getD (l + (y.length - 1) - k) 0 else 0

/-- `correlate(x, y, mode="full")`; empty if one of the inputs is. -/
def correlate (x y : List K) : List K :=
  if x = [] ∨ y = [] then []
  else (List.range (x.length + y.length - 1)).map (correlateAt x y)

/-- `np.argmax(np.abs(z))`: the first largest magnitude. -/
def argmaxAbs (z : List K) : Except Err ℕ := Helpers.argmin (z.map fun a => -|a|)

/-- One pass of the loop over the channels (`_standard_backend.py`, lines 30-34). -/
def latencyPair (in1 in2 : List K) : Except Err ℤ :=
  match argmaxAbs (correlate in2 in1) with
  | .error e => .error e
  | .ok k => .ok ((in1.length : ℤ) - k - 1)

/-- `latency(in1, in2)` for two signals given by their channels (`latency_delay.py`, lines 80-96). -/
def latency2 (sameRate : Bool) (in1 in2 : List (List K)) : Except Err (List ℤ) :=
  if sameRate = false then .error .assertionError
  else if in1.length ≠ in2.length then .error .assertionError
  else (List.range in1.length).mapM fun c => latencyPair (in1.getD c []) (in2.getD c [])

/-- `latency(in1)` between the first channel and the others (`_standard_backend.py`, lines 24-28;
`latency_delay.py`, lines 97-101).  The correlation of a column with an array of several columns is
two-dimensional: both axes of the second array are reversed, so that column `c` of the result is
the correlation with the channel counted from the end. -/
def latency1 (in1 : List (List K)) : Except Err (List ℤ) :=
  if in1.length ≤ 1 then .error .assertionError
  else (List.range (in1.length - 1)).mapM fun c =>
    latencyPair (in1.getD (in1.length - 1 - c) []) (in1.getD 0 [])

end Verif.Latency
